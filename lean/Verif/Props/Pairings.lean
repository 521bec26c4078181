/-
Property C122: how many pairings the functions of the crate compute.
-/
import Verif.Model.Pairings
import Verif.Props.Work
import Verif.Props.Batch

namespace Verif
open Spec

variable {E : Engine}

namespace Prg

theorem free_cases {α β : Type} (x : Res α) (f : α → Counted β) :
    (∃ a, x = .ok a ∧ (Counted.free x).andThen f = f a) ∨
    (∃ e, x = .err e ∧ (Counted.free x).andThen f = (.err e, 0)) ∨
    (x = .panic ∧ (Counted.free x).andThen f = (.panic, 0)) := by
  cases x with
  | ok a => exact .inl ⟨a, rfl, Wrk.free_andThen_ok a f⟩
  | err e => exact .inr (.inl ⟨e, rfl, rfl⟩)
  | panic => exact .inr (.inr ⟨rfl, rfl⟩)

/-- what remains to be done after the only product of pairings -/
theorem product {β : Type} (a : List E.G1) (b : List E.G2P) (f : E.GT → Counted β) (hf : ∀ p, (f p).2 = 0) :
    ((multiPairingC a b).andThen f).2 = a.length ∧
      (((multiPairingC a b).andThen f).1 = .panic ∨ ∃ p, ((multiPairingC a b).andThen f).1 = (f p).1) := by
  unfold multiPairingC Engine.multiPairing
  by_cases h : a.length = b.length
  · rw [if_pos h]
    exact ⟨by simp only [Counted.andThen, hf, add_zero], .inr ⟨_, rfl⟩⟩
  · rw [if_neg h]
    exact ⟨rfl, .inl rfl⟩

end Prg

/-! ### C122 -/

/-- **C122** the counting versions return what the functions return, on all inputs. -/
theorem C122_same_result (chk : Bool) (c_0 : E.G1) (c : List E.G1) (commitment : E.G1) (sk : SecretKey E)
    (dk : PreparedDecryptionKey E) (g_i : List E.G1) (b : UInt8) (powers : Option (List (List E.GT)))
    (ek : PreparedEncryptionKey E) (gens : PreparedEncryptionGens E) (cts : List (Ciphertext E)) (r_powers : List E.Fr)
    (ct : Ciphertext E) (proof : Proof E) (pvk : PreparedVerifyingKey E) :
    (verifyCiphertextCommitmentC c_0 c commitment ek gens).1 = verifyCiphertextCommitment c_0 c commitment ek gens ∧
    (verifyCommitmentsInBatchC cts r_powers ek gens).1 = verifyCommitmentsInBatch cts r_powers ek gens ∧
    (decryptToChunksGivenPairingPowersP chk c_0 c sk dk g_i b powers).1 =
      decryptToChunksGivenPairingPowers chk c_0 c sk dk g_i b powers ∧
    (dk.pairingPowersC chk b g_i).1 = dk.pairingPowers chk b g_i ∧
    (verifyProofC pvk proof ct).1 = verifyProof pvk proof ct ∧
    (ct.verifyCommitmentAndProofC proof pvk ek gens).1 = ct.verifyCommitmentAndProof proof pvk ek gens := by
  have h1 : ∀ (c_0 : E.G1) (c : List E.G1) (commitment : E.G1),
      (verifyCiphertextCommitmentC c_0 c commitment ek gens).1 = verifyCiphertextCommitment c_0 c commitment ek gens := by
    intro c_0 c commitment
    unfold verifyCiphertextCommitmentC verifyCiphertextCommitment
    dsimp only
    rw [Wrk.andThen_fst, Wrk.free_fst]
    congr 1
    funext cnt
    by_cases h : c.length ≠ cnt.toNat
    · rw [if_pos h, if_pos h]
      rfl
    rw [if_neg h, if_neg h, Wrk.andThen_fst, Wrk.free_fst]
    congr 1
    funext b
    rw [Wrk.andThen_fst]
    congr 1
    funext p
    by_cases hp : p = 0
    · rw [if_pos hp, if_pos hp]
      rfl
    · rw [if_neg hp, if_neg hp]
      rfl
  have h5 : (verifyProofC pvk proof ct).1 = verifyProof pvk proof ct := by
    unfold verifyProofC verifyProof verifyQapProofC verifyQapProof
    rw [Wrk.andThen_fst, Wrk.free_fst]
    congr 1
    funext d
    rw [Wrk.andThen_fst]
    congr 1
    funext q
    by_cases hq : q ≠ pvk.alpha_g1_beta_g2
    · rw [if_pos hq, if_pos hq]
      rfl
    · rw [if_neg hq, if_neg hq]
      rfl
  refine ⟨h1 _ _ _, ?_, ?_, ?_, h5, ?_⟩
  · unfold verifyCommitmentsInBatchC verifyCommitmentsInBatch
    by_cases h : r_powers.length ≠ cts.length
    · rw [if_pos h, if_pos h]
      rfl
    rw [if_neg h, if_neg h]
    simp only [Wrk.andThen_fst, Wrk.free_fst]
    congr 1; funext cnt
    congr 1; funext _
    congr 1; funext a
    congr 1; funext b
    congr 1; funext p
    by_cases hp : p = 0
    · rw [if_pos hp, if_pos hp]; rfl
    · rw [if_neg hp, if_neg hp]; rfl
  · unfold decryptToChunksGivenPairingPowersP decryptToChunksGivenPairingPowers
    dsimp only
    rw [Wrk.andThen_fst, Wrk.free_fst]
    congr 1
    funext cnt
    by_cases h1 : c.length ≠ cnt.toNat
    · rw [if_pos h1, if_pos h1]
      rfl
    rw [if_neg h1, if_neg h1]
    by_cases h2 : c.length > g_i.length
    · rw [if_pos h2, if_pos h2]
      rfl
    rw [if_neg h2, if_neg h2, Wrk.andThen_fst, Wrk.free_fst]
    congr 1
    funext maxVal
    rw [Wrk.andThen_fst, Wrk.map_fst]
    congr 1
    apply mapRes_congr
    intro i _
    simp only [Wrk.andThen_fst, Wrk.free_fst]
    congr 1; funext ci
    congr 1; funext v2
    congr 1; funext v1
    congr 1; funext p
    by_cases hp : p = 0
    · rw [if_pos hp, if_pos hp]
      rfl
    rw [if_neg hp, if_neg hp]
    by_cases hw : (powers.getD []).isEmpty
    · rw [if_pos hw, if_pos hw, Wrk.andThen_fst, Wrk.free_fst]
      rfl
    · rw [if_neg hw, if_neg hw]
      rfl
  · unfold PreparedDecryptionKey.pairingPowersC PreparedDecryptionKey.pairingPowers
    simp only [Wrk.andThen_fst, Wrk.free_fst, Wrk.map_fst]
    rfl
  · unfold Ciphertext.verifyCommitmentAndProofC Ciphertext.verifyCommitmentAndProof Ciphertext.verifyCommitment
    rw [Wrk.andThen_fst, h1, h5]

namespace Prg

theorem one_same (c_0 : E.G1) (c : List E.G1) (commitment : E.G1) (ek : PreparedEncryptionKey E)
    (gens : PreparedEncryptionGens E) :
    (verifyCiphertextCommitmentC c_0 c commitment ek gens).1 = verifyCiphertextCommitment c_0 c commitment ek gens :=
  (C122_same_result false c_0 c commitment ⟨0⟩ ⟨E.prep 0, [], []⟩ [] 0 none ek gens [] [] ⟨0, [], 0⟩ ⟨0, 0, 0⟩
    ⟨⟨0, 0, 0, 0, []⟩, 0, E.prep 0, E.prep 0⟩).1

theorem shapes_ok {n : ℕ} {cts : List (Ciphertext E)} (h : batchShapes n cts = .ok ()) :
    ∀ ct ∈ cts, ct.enc_chunks.length = n := by
  induction cts with
  | nil => intro ct h; cases h
  | cons c cs ih =>
    rw [batchShapes] at h
    by_cases hc : c.enc_chunks.length ≠ n
    · rw [if_pos hc] at h; cases h
    · rw [if_neg hc] at h
      intro ct hct
      rcases List.mem_cons.mp hct with rfl | hct
      · exact not_not.mp hc
      · exact ih h ct hct

theorem idx_no_err {α : Type} {l : List α} {i : ℕ} {e : SaverError} : idx l i ≠ .err e := by
  unfold idx
  cases l[i]? <;> exact fun h => nomatch h

theorem bind_no_err {α β : Type} {x : Res α} {f : α → Res β} {e : SaverError} (hx : x ≠ .err e) (hf : ∀ a, f a ≠ .err e) :
    (x >>= f) ≠ .err e := by
  cases x with
  | ok a => exact hf a
  | err e' => exact fun h => hx (by cases h; rfl)
  | panic => exact fun h => nomatch h

theorem batch_no_err {cts : List (Ciphertext E)} {rp : List E.Fr} {e : SaverError} :
    getG1ForBatchChecks cts rp ≠ .err e := by
  have hm : ∀ {β : Type} {f : ℕ → Res β} {n : ℕ}, (∀ i, f i ≠ .err e) → mapRes f (List.range n) ≠ .err e := by
    intro β f n hf h
    obtain ⟨i, -, h1, -⟩ := mapRes_range_err_inv h
    exact hf i h1
  unfold getG1ForBatchChecks
  refine bind_no_err idx_no_err fun ct0 => bind_no_err (hm fun i => bind_no_err idx_no_err fun _ => fun h => nomatch h) fun _ =>
    bind_no_err (hm fun j => bind_no_err (hm fun i => bind_no_err idx_no_err fun _ => idx_no_err) fun _ => fun h => nomatch h)
      fun _ => bind_no_err (hm fun i => bind_no_err idx_no_err fun _ => fun h => nomatch h) fun _ => fun h => nomatch h

theorem shapes_err {n : ℕ} {cts : List (Ciphertext E)} {e : SaverError} (h : batchShapes n cts = .err e) :
    e ≠ .invalidCommitment := by
  induction cts with
  | nil => cases h
  | cons c cs ih =>
    rw [batchShapes] at h
    by_cases hc : c.enc_chunks.length ≠ n
    · rw [if_pos hc] at h; cases h; exact fun h => nomatch h
    · rw [if_neg hc] at h; exact ih h

theorem batch_length {cts : List (Ciphertext E)} {rp : List E.Fr} {a : List E.G1}
    (h : getG1ForBatchChecks cts rp = .ok a) : ∃ ct ∈ cts, a.length = ct.enc_chunks.length + 2 := by
  unfold getG1ForBatchChecks at h
  obtain ⟨ct0, h0, h⟩ := Res.bind_eq_ok.mp h
  obtain ⟨b0, -, h⟩ := Res.bind_eq_ok.mp h
  obtain ⟨mids, hm, h⟩ := Res.bind_eq_ok.mp h
  obtain ⟨bN, -, h⟩ := Res.bind_eq_ok.mp h
  cases h
  have hl := (mapRes_range_eq_ok_iff.mp hm).1
  refine ⟨ct0, ?_, by simp [hl]⟩
  unfold idx at h0
  cases h1 : cts[0]? with
  | none => rw [h1] at h0; cases h0
  | some x => rw [h1] at h0; cases h0; exact List.mem_of_getElem? h1

section
variable {A : Type} [AddCommGroup A] [DecidableEq A]

theorem loop_ne (g p cur : A) (j k : ℕ) (hj : 0 < j) (hk : j + k ≤ 65536) (d : UInt16)
    (h : dlogLoop g p cur j k = .ok d) : d ≠ 0 := by
  induction k generalizing cur j with
  | zero => cases h
  | succ k ih =>
    rw [dlogLoop] at h
    by_cases hp : cur + g = p
    · rw [if_pos hp] at h
      cases h
      intro h0
      have := congrArg UInt16.toNat h0
      rw [UInt16.toNat_ofNat'] at this
      have h2 : (0 : UInt16).toNat = 0 := rfl
      rw [h2, Nat.mod_eq_of_lt (by omega)] at this
      omega
    · rw [if_neg hp] at h
      exact ih _ _ (by omega) (by omega) h

theorem solve_ne (m : UInt16) (g p : A) (d : UInt16) (h : solveDiscreteLog m g p = .ok d) : d ≠ 0 := by
  unfold solveDiscreteLog at h
  by_cases hp : p = g
  · rw [if_pos hp] at h; cases h; decide
  · rw [if_neg hp] at h
    have := m.toNat_lt
    exact loop_ne _ _ _ _ _ (by omega) (by omega) _ h

end

end Prg

/-- **C122** (checking one ciphertext) whatever the input: if the commitment check comes to a verdict, it has computed one product
of `n + 2` pairings for a ciphertext of `n` chunks; if it fails with another error, none. -/
theorem C122_one (c_0 : E.G1) (c : List E.G1) (commitment : E.G1) (ek : PreparedEncryptionKey E)
    (gens : PreparedEncryptionGens E) :
    (verifyCiphertextCommitment c_0 c commitment ek gens = .ok () ∨
      verifyCiphertextCommitment c_0 c commitment ek gens = .err .invalidCommitment →
      (verifyCiphertextCommitmentC c_0 c commitment ek gens).2 = c.length + 2) ∧
    (∀ e, e ≠ .invalidCommitment → verifyCiphertextCommitment c_0 c commitment ek gens = .err e →
      (verifyCiphertextCommitmentC c_0 c commitment ek gens).2 = 0) := by
  have hs : (verifyCiphertextCommitmentC c_0 c commitment ek gens).1 = verifyCiphertextCommitment c_0 c commitment ek gens :=
    (C122_same_result false c_0 c commitment ⟨0⟩ ⟨E.prep 0, [], []⟩ [] 0 none ek gens [] [] ⟨0, [], 0⟩ ⟨0, 0, 0⟩
      ⟨⟨0, 0, 0, 0, []⟩, 0, E.prep 0, E.prep 0⟩).1
  rw [← hs]
  clear hs
  unfold verifyCiphertextCommitmentC
  dsimp only
  rcases Prg.free_cases ek.supportedChunksCount _ with ⟨cnt, -, e⟩ | ⟨x, hx, e⟩ | ⟨-, e⟩
  · rw [e]
    by_cases h : c.length ≠ cnt.toNat
    · rw [if_pos h]
      exact ⟨by (rintro (h | h) <;> cases h), fun _ _ _ => rfl⟩
    rw [if_neg h]
    rcases Prg.free_cases (getG2ForCommitmentChecks ek gens) _ with ⟨b, -, e⟩ | ⟨x, hx, e⟩ | ⟨-, e⟩
    · rw [e]
      obtain ⟨h1, h2⟩ := Prg.product (getG1ForCommitmentChecks c_0 c commitment) b
        (fun p => if p = 0 then Counted.free (.ok ()) else .free (.err .invalidCommitment))
        (fun p => by by_cases hp : p = 0 <;> simp [hp, Counted.free])
      rw [h1]
      refine ⟨fun _ => by simp [getG1ForCommitmentChecks], fun x hx hy => ?_⟩
      rcases h2 with h2 | ⟨p, h2⟩
      · rw [h2] at hy; cases hy
      · rw [h2] at hy
        by_cases hp : p = 0
        · rw [if_pos hp] at hy; cases hy
        · rw [if_neg hp] at hy; cases hy; exact absurd rfl hx
    · exfalso
      unfold getG2ForCommitmentChecks idx at hx
      cases h0 : ek.Z[0]? <;> rw [h0] at hx <;> cases hx
    · rw [e]
      exact ⟨by (rintro (h | h) <;> cases h), by (rintro _ _ h; cases h)⟩
  · rw [e]
    refine ⟨?_, fun _ _ _ => rfl⟩
    unfold PreparedEncryptionKey.supportedChunksCount encKeyChunks at hx
    split at hx
    · cases hx; rintro (h | h) <;> cases h
    split at hx
    · cases hx; rintro (h | h) <;> cases h
    · cases hx
  · rw [e]
    exact ⟨by (rintro (h | h) <;> cases h), by (rintro _ _ h; cases h)⟩


/-- **C122** (checking a batch) whatever the input: if the batch check comes to a verdict, it has computed one product of
`n + 2` pairings, `n` the number of chunks of each of the ciphertexts, *however many ciphertexts there are*; if it fails with
another error, none. -/
theorem C122_batch (cts : List (Ciphertext E)) (r_powers : List E.Fr) (ek : PreparedEncryptionKey E)
    (gens : PreparedEncryptionGens E) :
    (verifyCommitmentsInBatch cts r_powers ek gens = .ok () ∨
      verifyCommitmentsInBatch cts r_powers ek gens = .err .invalidCommitment →
      ∀ ct ∈ cts, (verifyCommitmentsInBatchC cts r_powers ek gens).2 = ct.enc_chunks.length + 2) ∧
    (∀ e, e ≠ .invalidCommitment → verifyCommitmentsInBatch cts r_powers ek gens = .err e →
      (verifyCommitmentsInBatchC cts r_powers ek gens).2 = 0) := by
  have hs : (verifyCommitmentsInBatchC cts r_powers ek gens).1 = verifyCommitmentsInBatch cts r_powers ek gens :=
    (C122_same_result false 0 [] 0 ⟨0⟩ ⟨E.prep 0, [], []⟩ [] 0 none ek gens cts r_powers ⟨0, [], 0⟩ ⟨0, 0, 0⟩
      ⟨⟨0, 0, 0, 0, []⟩, 0, E.prep 0, E.prep 0⟩).2.1
  rw [← hs]
  clear hs
  unfold verifyCommitmentsInBatchC
  by_cases h : r_powers.length ≠ cts.length
  · rw [if_pos h]
    exact ⟨by (rintro (h | h) <;> cases h), by (rintro _ _ h; cases h)⟩
  rw [if_neg h]
  rcases Prg.free_cases ek.supportedChunksCount _ with ⟨cnt, -, e⟩ | ⟨x, hx, e⟩ | ⟨-, e⟩
  · rw [e]
    rcases Prg.free_cases (batchShapes cnt.toNat cts) _ with ⟨_, hsh, e⟩ | ⟨x, hx, e⟩ | ⟨-, e⟩
    · rw [e]
      rcases Prg.free_cases (getG1ForBatchChecks cts r_powers) _ with ⟨a, ha, e⟩ | ⟨x, hx, e⟩ | ⟨-, e⟩
      · rw [e]
        rcases Prg.free_cases (getG2ForCommitmentChecks ek gens) _ with ⟨b, -, e⟩ | ⟨x, hx, e⟩ | ⟨-, e⟩
        · rw [e]
          obtain ⟨h1, h2⟩ := Prg.product a b
            (fun p => if p = 0 then Counted.free (.ok ()) else .free (.err .invalidCommitment))
            (fun p => by by_cases hp : p = 0 <;> simp [hp, Counted.free])
          rw [h1]
          obtain ⟨ct0, hm, hl⟩ := Prg.batch_length ha
          have hsh := Prg.shapes_ok hsh
          refine ⟨fun _ ct hct => by rw [hl, hsh _ hm, hsh _ hct], fun x hx hy => ?_⟩
          rcases h2 with h2 | ⟨p, h2⟩
          · rw [h2] at hy; cases hy
          · rw [h2] at hy
            by_cases hp : p = 0
            · rw [if_pos hp] at hy; cases hy
            · rw [if_neg hp] at hy; cases hy; exact absurd rfl hx
        · exfalso
          unfold getG2ForCommitmentChecks idx at hx
          cases h0 : ek.Z[0]? <;> rw [h0] at hx <;> cases hx
        · rw [e]
          exact ⟨by (rintro (h | h) <;> cases h), by (rintro _ _ h; cases h)⟩
      · exact absurd hx Prg.batch_no_err
      · rw [e]
        exact ⟨by (rintro (h | h) <;> cases h), by (rintro _ _ h; cases h)⟩
    · rw [e]
      refine ⟨?_, fun _ _ _ => rfl⟩
      have := Prg.shapes_err hx
      rintro (h | h) <;> cases h
      exact absurd rfl this
    · rw [e]
      exact ⟨by (rintro (h | h) <;> cases h), by (rintro _ _ h; cases h)⟩
  · rw [e]
    refine ⟨?_, fun _ _ _ => rfl⟩
    unfold PreparedEncryptionKey.supportedChunksCount encKeyChunks at hx
    split at hx
    · cases hx; rintro (h | h) <;> cases h
    split at hx
    · cases hx; rintro (h | h) <;> cases h
    · cases hx
  · rw [e]
    exact ⟨by (rintro (h | h) <;> cases h), by (rintro _ _ h; cases h)⟩

/-- **C122** checking `k` good ciphertexts one after the other takes `k` times as many pairings as checking them together. -/
theorem C122_batch_saves (cts : List (Ciphertext E)) (r_powers : List E.Fr) (ek : PreparedEncryptionKey E)
    (gens : PreparedEncryptionGens E) (hb : verifyCommitmentsInBatch cts r_powers ek gens = .ok ())
    (h1 : ∀ ct ∈ cts, ct.verifyCommitment ek gens = .ok ()) :
    (verifyOneByOneC ek gens cts).1 = .ok () ∧
    (verifyOneByOneC ek gens cts).2 = cts.length * (verifyCommitmentsInBatchC cts r_powers ek gens).2 := by
  have hc := (C122_batch cts r_powers ek gens).1 (.inl hb)
  generalize (verifyCommitmentsInBatchC cts r_powers ek gens).2 = N at hc
  clear hb
  induction cts with
  | nil => exact ⟨rfl, by simp [verifyOneByOneC, Counted.free]⟩
  | cons ct cts ih =>
    obtain ⟨i1, i2⟩ := ih (fun c h => h1 c (List.mem_cons_of_mem _ h)) (fun c h => hc c (List.mem_cons_of_mem _ h))
    have hv := h1 ct (by simp)
    unfold Ciphertext.verifyCommitment at hv
    have hk := (C122_one ct.X_r ct.enc_chunks ct.commitment ek gens).1 (.inl hv)
    rw [← hc ct (by simp)] at hk
    have hs := Prg.one_same ct.X_r ct.enc_chunks ct.commitment ek gens
    rw [hv] at hs
    rw [verifyOneByOneC]
    have hv' : ((verifyCiphertextCommitmentC ct.X_r ct.enc_chunks ct.commitment ek gens).andThen
        fun _ => verifyOneByOneC ek gens cts).1 = .ok () := by
      rw [Wrk.andThen_fst, hs]
      exact i1
    refine ⟨hv', ?_⟩
    obtain ⟨_, _, _, e⟩ := Wrk.andThen_ok hv'
    rw [e, hk, i2, List.length_cons, Nat.add_mul, one_mul, add_comm]

/-- **C122** (decryption) decryption without a table that succeeds computes two pairings for each chunk and one more for each
chunk that is not zero; with a table, two for each chunk.  Whatever the input, and whether it succeeds, fails or aborts, it
computes at most three, with a table at most two, for each chunk. -/
theorem C122_decrypt (chk : Bool) (c_0 : E.G1) (c : List E.G1) (sk : SecretKey E) (dk : PreparedDecryptionKey E)
    (g_i : List E.G1) (b : UInt8) :
    (∀ ds nu, decryptToChunks chk c_0 c sk dk g_i b = .ok (ds, nu) →
      (decryptToChunksGivenPairingPowersP chk c_0 c sk dk g_i b none).2 = 2 * ds.length + ds.countP (· ≠ 0)) ∧
    (∀ powers ds nu, powers ≠ [] → decryptToChunksGivenPairingPowers chk c_0 c sk dk g_i b (some powers) = .ok (ds, nu) →
      (decryptToChunksGivenPairingPowersP chk c_0 c sk dk g_i b (some powers)).2 = 2 * ds.length) ∧
    (decryptToChunksGivenPairingPowersP chk c_0 c sk dk g_i b none).2 ≤ 3 * c.length ∧
    (∀ powers, powers ≠ [] → (decryptToChunksGivenPairingPowersP chk c_0 c sk dk g_i b (some powers)).2 ≤ 2 * c.length) := by
  have same : ∀ powers, (decryptToChunksGivenPairingPowersP chk c_0 c sk dk g_i b powers).1 =
      decryptToChunksGivenPairingPowers chk c_0 c sk dk g_i b powers := fun powers =>
    (C122_same_result chk c_0 c 0 sk dk g_i b powers ⟨0, [], [], [], 0, 0⟩ ⟨0, E.prep 0⟩ [] [] ⟨0, [], 0⟩ ⟨0, 0, 0⟩
      ⟨⟨0, 0, 0, 0, []⟩, 0, E.prep 0, E.prep 0⟩).2.2.1
  have key : ∀ (powers : Option (List (List E.GT))) (cost : UInt16 → ℕ), cost 0 = 2 →
      (∀ d, d ≠ 0 → (powers.getD []).isEmpty → cost d = 3) → (∀ d, ¬ (powers.getD []).isEmpty → cost d = 2) →
      ∀ ds nu, decryptToChunksGivenPairingPowers chk c_0 c sk dk g_i b powers = .ok (ds, nu) →
      (decryptToChunksGivenPairingPowersP chk c_0 c sk dk g_i b powers).2 = (ds.map cost).sum := by
    intro powers cost h0 hcost1 hcost2 ds nu h
    rw [← same powers] at h
    unfold decryptToChunksGivenPairingPowersP at h ⊢
    dsimp only at h ⊢
    obtain ⟨cnt, -, h, e⟩ := Wrk.andThen_ok h
    rw [e]
    by_cases h1 : c.length ≠ cnt.toNat
    · rw [if_pos h1] at h; cases h
    rw [if_neg h1] at h ⊢
    by_cases h2 : c.length > g_i.length
    · rw [if_pos h2] at h; cases h
    rw [if_neg h2] at h ⊢
    obtain ⟨maxVal, -, h, e⟩ := Wrk.andThen_ok h
    rw [e]
    obtain ⟨chunks, h3, h, e⟩ := Wrk.andThen_ok h
    rw [e]
    cases h
    simp only [Counted.free, zero_add, add_zero]
    refine Wrk.map_ok (fun i _ y hy => ?_) h3
    obtain ⟨ci, -, hy, e⟩ := Wrk.andThen_ok hy
    erw [e]
    obtain ⟨v2, -, hy, e⟩ := Wrk.andThen_ok hy
    erw [e]
    obtain ⟨v1, -, hy, e⟩ := Wrk.andThen_ok hy
    erw [e]
    obtain ⟨p, -, hy, e⟩ := Wrk.andThen_ok hy
    erw [e]
    simp only [zero_add, multiPairingC, List.length_cons, List.length_nil]
    by_cases hp : p = 0
    · rw [if_pos hp] at hy ⊢
      cases hy
      exact h0.symm
    rw [if_neg hp] at hy ⊢
    by_cases hw : (powers.getD []).isEmpty
    · rw [if_pos hw] at hy ⊢
      obtain ⟨g, -, hy, e⟩ := Wrk.andThen_ok hy
      erw [e]
      obtain ⟨gv, -, hy, e⟩ := Wrk.andThen_ok hy
      erw [e]
      rw [hcost1 y (Prg.solve_ne _ _ _ _ hy) hw]
      rfl
    · rw [if_neg hw] at hy ⊢
      rw [hcost2 y hw]
      rfl
  have bound : ∀ (powers : Option (List (List E.GT))) (B : ℕ), 2 ≤ B → ((powers.getD []).isEmpty → 3 ≤ B) →
      (decryptToChunksGivenPairingPowersP chk c_0 c sk dk g_i b powers).2 ≤ c.length * B := by
    intro powers B hB2 hB
    unfold decryptToChunksGivenPairingPowersP
    dsimp only
    refine Wrk.free_le fun cnt => ?_
    by_cases h1 : c.length ≠ cnt.toNat
    · rw [if_pos h1]; exact Nat.zero_le _
    rw [if_neg h1]
    by_cases h2 : c.length > g_i.length
    · rw [if_pos h2]; exact Nat.zero_le _
    rw [if_neg h2]
    refine Wrk.free_le fun m => ?_
    refine (Wrk.andThen_le (B := 0) fun _ => le_rfl).trans ?_
    rw [add_zero]
    refine (Wrk.map_le (B := B) _ fun i => ?_).trans (by rw [List.length_range])
    refine Wrk.free_le fun ci => Wrk.free_le fun v2 => Wrk.free_le fun v1 => ?_
    refine (Wrk.andThen_le (B := B - 2) fun p => ?_).trans (by simp only [multiPairingC, List.length_cons, List.length_nil]; omega)
    by_cases hp : p = 0
    · rw [if_pos hp]; exact Nat.zero_le _
    rw [if_neg hp]
    by_cases hw : (powers.getD []).isEmpty
    · rw [if_pos hw]
      refine Wrk.free_le fun g => (Wrk.andThen_le (B := 0) fun _ => le_rfl).trans ?_
      have := hB hw
      simp only [pairPC]
      omega
    · rw [if_neg hw]
      exact Nat.zero_le _
  have count : ∀ ds : List UInt16, (ds.map fun d => if d = 0 then 2 else 3).sum = 2 * ds.length + ds.countP (· ≠ 0) := by
    intro ds
    induction ds with
    | nil => rfl
    | cons d ds ih =>
      rw [List.map_cons, List.sum_cons, ih, List.length_cons, List.countP_cons]
      by_cases h : d = 0
      · simp [h]; omega
      · simp [h]; omega
  refine ⟨fun ds nu h => ?_, fun powers ds nu hne h => ?_, ?_, fun powers hne => ?_⟩
  · rw [← count]
    exact key none _ rfl (fun d hd _ => if_neg hd) (fun d h => absurd rfl h) ds nu h
  · rw [key (some powers) (fun _ => 2) rfl (fun _ _ h => absurd (List.isEmpty_iff.mp h) hne) (fun _ _ => rfl) ds nu h]
    simp [mul_comm]
  · rw [mul_comm]
    exact bound none 3 (by decide) fun _ => le_rfl
  · rw [mul_comm]
    exact bound (some powers) 2 le_rfl fun h => absurd (List.isEmpty_iff.mp h) hne

/-- **C122** (the table) precomputing the table of pairing powers takes one pairing for each chunk, and never more. -/
theorem C122_table (chk : Bool) (dk : PreparedDecryptionKey E) (b : UInt8) (g_i : List E.G1) :
    (∀ t, dk.pairingPowers chk b g_i = .ok t → (dk.pairingPowersC chk b g_i).2 = t.length) ∧
    (∀ n, dk.supportedChunksCount = .ok n → (dk.pairingPowersC chk b g_i).2 ≤ n.toNat) := by
  have same : (dk.pairingPowersC chk b g_i).1 = dk.pairingPowers chk b g_i :=
    (C122_same_result chk 0 [] 0 ⟨0⟩ dk g_i b none ⟨0, [], [], [], 0, 0⟩ ⟨0, E.prep 0⟩ [] [] ⟨0, [], 0⟩ ⟨0, 0, 0⟩
      ⟨⟨0, 0, 0, 0, []⟩, 0, E.prep 0, E.prep 0⟩).2.2.2.1
  constructor
  · intro t h
    rw [← same] at h
    unfold PreparedDecryptionKey.pairingPowersC at h ⊢
    obtain ⟨n, -, h, e⟩ := Wrk.andThen_ok h
    rw [e]
    obtain ⟨m, -, h, e⟩ := Wrk.andThen_ok h
    rw [e]
    rw [Wrk.map_ok (cost := fun _ => 1) (fun i _ y hy => ?_) h]
    · simp [Counted.free]
    obtain ⟨g, -, hy, e⟩ := Wrk.andThen_ok hy
    erw [e]
    obtain ⟨v, -, hy, e⟩ := Wrk.andThen_ok hy
    erw [e]
    obtain ⟨gv, -, hy, e⟩ := Wrk.andThen_ok hy
    erw [e]
    rfl
  · intro n hn
    unfold PreparedDecryptionKey.pairingPowersC
    rw [hn, Wrk.free_andThen_ok]
    refine Wrk.free_le fun m => ?_
    refine (Wrk.map_le (B := 1) _ fun i => ?_).trans (by simp)
    refine Wrk.free_le fun g => Wrk.free_le fun v => ?_
    exact (Wrk.andThen_le (B := 0) fun _ => le_rfl).trans le_rfl

/-- **C122** (the proof) checking the proof takes three pairings for every verdict, whatever the number of chunks; with the
commitment of a ciphertext of `n` chunks that is accepted, `n + 5`. -/
theorem C122_proof (pvk : PreparedVerifyingKey E) (proof : Proof E) (ct : Ciphertext E) (ek : PreparedEncryptionKey E)
    (gens : PreparedEncryptionGens E) :
    (verifyProof pvk proof ct ≠ .panic → (verifyProofC pvk proof ct).2 = 3) ∧
    (ct.verifyCommitmentAndProof proof pvk ek gens = .ok () →
      (ct.verifyCommitmentAndProofC proof pvk ek gens).2 = ct.enc_chunks.length + 5) := by
  have same := (C122_same_result false 0 [] 0 ⟨0⟩ ⟨E.prep 0, [], []⟩ [] 0 none ek gens [] [] ct proof pvk).2.2.2.2
  have h1 : verifyProof pvk proof ct ≠ .panic → (verifyProofC pvk proof ct).2 = 3 := by
    intro h
    rw [← same.1] at h
    unfold verifyProofC at h ⊢
    rcases Prg.free_cases (calculateD pvk ct) _ with ⟨d, -, e⟩ | ⟨x, hx, e⟩ | ⟨-, e⟩
    · rw [e]
      unfold verifyQapProofC
      exact (Prg.product [proof.a, proof.c, d] [E.prep proof.b, pvk.delta_g2_neg_pc, pvk.gamma_g2_neg_pc]
        (fun qap => if qap ≠ pvk.alpha_g1_beta_g2 then .free (.err .pairingCheckFailed) else .free (.ok ()))
        (fun p => by by_cases hp : p = pvk.alpha_g1_beta_g2 <;> simp [hp, Counted.free])).1
    · exfalso
      unfold calculateD idx at hx
      cases h0 : pvk.vk.gamma_abc_g1[0]? <;> rw [h0] at hx <;> cases hx
    · rw [e] at h
      exact absurd rfl h
  refine ⟨h1, fun h => ?_⟩
  rw [← same.2] at h
  unfold Ciphertext.verifyCommitmentAndProofC at h ⊢
  obtain ⟨_, ha, hb, e⟩ := Wrk.andThen_ok h
  rw [Prg.one_same] at ha
  rw [same.1] at hb
  rw [e, (C122_one _ _ _ _ _).1 (.inl ha), h1 (by rw [hb]; exact fun h => nomatch h)]

/-- **C122** (what it discloses) the number of pairings of decryption tells how many chunks of the message are zero, and
nothing else of the message: it is a function of that number. -/
theorem C122_discloses (R : RngCore E) (st st' : R.σ) (b : UInt8)
    (gens : EncryptionGens E) (g_i : List E.G1) (D C : E.G1) (sk : SecretKey E)
    (ek : EncryptionKey E) (dk : DecryptionKey E)
    (hk : keygen R st b gens g_i D C = .ok ((sk, ek, dk), st')) (hb : b.toNat < 32)
    (hgi : ∀ g ∈ g_i, g ≠ 0) (hV : ∀ V ∈ dk.V_2, V ≠ 0)
    (R' : RngCore E) (st1 : R'.σ) (chunks : List UInt16) (hlen : chunks.length = ek.X.length)
    (hch : ∀ x ∈ chunks, x.toNat ≤ 2 ^ b.toNat - 1 ∧ x.toNat < E.fr.p) (chk : Bool) :
    ∃ ct r st2, encryptDecomposedMessage R' st1 chunks ek g_i = .ok ((flat ct, r), st2) ∧
      (decryptToChunksGivenPairingPowersP chk ct.X_r ct.enc_chunks sk dk.prepare g_i b none).2
        = 2 * ek.X.length + chunks.countP (· ≠ 0) := by
  obtain ⟨ct, r, st2, h1, h2⟩ := C17_decrypt_encrypt_chunks R st st' b gens g_i D C sk ek dk hk hb hgi hV R' st1 chunks hlen
    hch chk
  exact ⟨ct, r, st2, h1, by rw [(C122_decrypt chk _ _ sk dk.prepare g_i b).1 _ _ h2, hlen]⟩

/-- decrypting `1, 2, 300, 4` takes 12 pairings, decrypting `0, 1, 0, 0` takes 9 -/
example : ∃ ct ct' r r' st2 st2', encryptDecomposedMessage (listRng Fix.E) Fix.st1 Fix.m1 Fix.ek Fix.gi = .ok ((flat ct, r), st2) ∧
    (decryptToChunksGivenPairingPowersP true ct.X_r ct.enc_chunks Fix.sk Fix.dk.prepare Fix.gi 16 none).2 = 12 ∧
    encryptDecomposedMessage (listRng Fix.E) Fix.st1 [0, 1, 0, 0] Fix.ek Fix.gi = .ok ((flat ct', r'), st2') ∧
    (decryptToChunksGivenPairingPowersP true ct'.X_r ct'.enc_chunks Fix.sk Fix.dk.prepare Fix.gi 16 none).2 = 9 := by
  obtain ⟨ct, r, st2, h1, h2⟩ := C122_discloses (listRng Fix.E) Fix.st _ 16 Fix.gens Fix.gi
    Fix.D Fix.C Fix.sk Fix.ek Fix.dk Fix.keygen_ok (by decide) Fix.gi_ne Fix.V2_ne (listRng Fix.E)
    Fix.st1 Fix.m1 (by decide +kernel) (by decide +kernel) true
  obtain ⟨ct', r', st2', h3, h4⟩ := C122_discloses (listRng Fix.E) Fix.st _ 16 Fix.gens Fix.gi
    Fix.D Fix.C Fix.sk Fix.ek Fix.dk Fix.keygen_ok (by decide) Fix.gi_ne Fix.V2_ne (listRng Fix.E)
    Fix.st1 [0, 1, 0, 0] (by decide +kernel) (by decide +kernel) true
  exact ⟨ct, ct', r, r', st2, st2', h1, h2, h3, h4⟩

/-- two ciphertexts of four chunks: six pairings together, twelve one after the other -/
example : (verifyCommitmentsInBatchC [Fix.ct1, Fix.ct1] ([5, 6] : List Fix.F) Fix.ek.prepare Fix.gens.prepare).2 = 6 ∧
    (verifyOneByOneC Fix.ek.prepare Fix.gens.prepare [Fix.ct1, Fix.ct1]).2 = 12 := by
  have h : Fix.ct1.verifyCommitment Fix.ek.prepare Fix.gens.prepare = .ok () := by
    unfold Ciphertext.verifyCommitment
    decide +kernel
  have hall : ∀ ct ∈ [Fix.ct1, Fix.ct1], ct.verifyCommitment Fix.ek.prepare Fix.gens.prepare = .ok () := by
    intro ct hct
    simp only [List.mem_cons, List.not_mem_nil, or_false, or_self] at hct
    rw [hct]
    exact h
  have hb := C33_batch_complete [Fix.ct1, Fix.ct1] ([5, 6] : List Fix.F) Fix.ek Fix.gens (by decide +kernel)
    (List.cons_ne_nil _ _) rfl hall
  have h6 := (C122_batch _ _ _ _).1 (.inl hb) Fix.ct1 (by simp)
  have h12 := (C122_batch_saves _ _ _ _ hb hall).2
  rw [h6] at h12
  exact ⟨h6, h12⟩

end Verif
