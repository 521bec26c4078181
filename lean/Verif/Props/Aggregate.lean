/-
Properties C25, C26: homomorphic aggregation of ciphertexts.
-/
import Verif.Lemmas.ReEnc
import Verif.Props.Decrypt

universe u

namespace Verif
open Spec

variable {E : Engine}

/-- a successful chunk-level encryption determines shapes and output -/
theorem encryptDecomposed_inv {R : RngCore E} {st st' : R.σ} {chunks : List UInt16}
    {ek : EncryptionKey E} {g_i : List E.G1} {v : List E.G1} {r : E.Fr}
    (h : encryptDecomposedMessage R st chunks ek g_i = .ok ((v, r), st')) :
    WellFormed ek ∧ ek.X.length < 256 ∧ chunks.length = ek.X.length ∧
      ek.X.length ≤ g_i.length ∧
      v = flat (cipher ek (fun i => g_i.getD i 0) (fun i => (nums chunks).getD i 0) r) ∧
      r = draw R st 0 ∧ st' = after R st 1 := by
  have hall := C14_encrypt_decomposed R st chunks ek g_i
  by_cases h1 : ek.Y.length = ek.X.length
  · by_cases h2 : ek.Z.length = ek.X.length + 1
    · by_cases h3 : chunks.length = ek.X.length % 256
      · by_cases h4 : g_i.length < chunks.length
        · rw [hall.2.2.2.1 ⟨h1, h2⟩ h3 h4] at h; cases h
        · by_cases h5 : ek.X.length < 256
          · have hc : chunks.length = ek.X.length := by omega
            rw [hall.2.2.2.2.1 ⟨h1, h2⟩ h5 hc (by omega)] at h
            simp only [Res.ok.injEq, Prod.mk.injEq] at h
            obtain ⟨⟨rfl, rfl⟩, rfl⟩ := h
            exact ⟨⟨h1, h2⟩, h5, hc, by omega, rfl, rfl, rfl⟩
          · rw [hall.2.2.2.2.2 ⟨h1, h2⟩ (by omega) h3 (by omega)] at h; cases h
      · rw [hall.2.2.1 ⟨h1, h2⟩ h3] at h; cases h
    · rw [hall.2.1 h1 h2] at h; cases h
  · rw [hall.1 h1] at h; cases h

theorem aggregate_eq (l : List (List E.G1)) (hne : l ≠ []) (n : ℕ) (h : ∀ v ∈ l, v.length = n) :
    aggregate l = .ok (tab n fun i => (l.map (·.getD i 0)).sum) := by
  obtain ⟨x, xs, rfl⟩ := List.exists_cons_of_ne_nil hne
  have gen : ∀ (xs : List (List E.G1)) (x : List E.G1), x.length = n → (∀ v ∈ xs, v.length = n) →
      foldRes addCts x xs = .ok (tab n fun i => ((x :: xs).map (·.getD i 0)).sum) := by
    intro xs
    induction xs with
    | nil =>
      intro x hx _
      simp only [foldRes, List.map_cons, List.map_nil, List.sum_cons, List.sum_nil, add_zero]
      rw [← eq_tab hx 0]
    | cons y ys ih =>
      intro x hx hall
      have hy := hall y (by simp)
      simp only [foldRes, addCts_eq_addInto, addInto_eq (show x.length ≤ y.length by omega),
        Res.ok_bind]
      have := ih (tab x.length fun i => x.getD i 0 + y.getD i 0) (by simp [hx])
        (fun v hv => hall v (by simp [hv]))
      refine Eq.trans this ?_
      congr 1
      apply tab_congr
      intro i hi
      simp only [List.map_cons, List.sum_cons]
      rw [getD_tab, if_pos (by omega), add_assoc]
  exact gen xs x (h x (by simp)) (fun v hv => h v (by simp [hv]))

theorem encryptMany_inv {encs : List (Party E × List UInt16)} {ek : EncryptionKey E}
    {g_i : List E.G1} {outs : List (List E.G1 × E.Fr)} (h : encryptMany encs ek g_i = .ok outs) :
    outs = encs.map (fun e => (flat (cipher ek (fun i => g_i.getD i 0)
        (fun i => (nums e.2).getD i 0) (draw e.1.1 e.1.2 0)), draw e.1.1 e.1.2 0)) ∧
    ∀ e ∈ encs, WellFormed ek ∧ ek.X.length < 256 ∧ e.2.length = ek.X.length ∧
      ek.X.length ≤ g_i.length := by
  unfold encryptMany at h
  induction encs generalizing outs with
  | nil =>
    cases h
    exact ⟨rfl, fun e he => by simp at he⟩
  | cons e es ih =>
    simp only [mapRes] at h
    obtain ⟨o, ho, h⟩ := Res.bind_eq_ok.mp h
    obtain ⟨os, hos, h⟩ := Res.bind_eq_ok.mp h
    obtain ⟨⟨⟨v, r⟩, st'⟩, henc, ho⟩ := Res.bind_eq_ok.mp ho
    simp only [Res.pure_eq, Res.ok.injEq] at h ho
    obtain ⟨i1, i2⟩ := ih hos
    obtain ⟨a1, a2, a3, a4, a5, a6, a7⟩ := encryptDecomposed_inv henc
    constructor
    · rw [← h, i1, ← ho, a5, a6]; rfl
    · intro e' he'
      rcases List.mem_cons.mp he' with rfl | he'
      · exact ⟨a1, a2, a3, a4⟩
      · exact i2 e' he'

/-! ### C25 -/

/-- **C25** For any number of ciphertexts encrypted under one key (any well-formed key, any
randomness, any chunk vectors), summed by `add_cts` in any order, the result is component by
component the encryption of the chunk-wise integer sum with the sum of the randomness. -/
theorem C25_aggregate_is_encryption_of_sum (encs : List (Party E × List UInt16)) (hne : encs ≠ [])
    (ek : EncryptionKey E) (g_i : List E.G1) (outs outs' : List (List E.G1 × E.Fr))
    (h : encryptMany encs ek g_i = .ok outs) (hperm : outs'.Perm outs) :
    aggregate (outs'.map (·.1)) = .ok (flat (cipher ek (fun i => g_i.getD i 0)
      (fun i => (encs.map fun e => (nums e.2).getD i 0).sum) (outs.map (·.2)).sum)) := by
  obtain ⟨hout, hall⟩ := encryptMany_inv h
  have hlen : ∀ v ∈ outs.map (·.1), v.length = ek.X.length + 2 := by
    intro v hv
    rw [hout, List.map_map] at hv
    obtain ⟨e, _, rfl⟩ := List.mem_map.mp hv
    simp [flat, cipher]
  have hlen' : ∀ v ∈ outs'.map (·.1), v.length = ek.X.length + 2 := by
    intro v hv
    exact hlen v ((hperm.map _).mem_iff.mp hv)
  have hone : outs ≠ [] := by rw [hout]; simpa using hne
  have hone' : outs' ≠ [] := by
    intro h0
    rw [h0] at hperm
    exact hone hperm.nil_eq.symm
  have e1 : aggregate (outs'.map (·.1)) = aggregate (outs.map (·.1)) := by
    rw [aggregate_eq _ (by simpa using hone') _ hlen', aggregate_eq _ (by simpa using hone) _ hlen]
    congr 1
    apply tab_congr
    intro i _
    exact ((hperm.map _).map _).sum_eq
  rw [e1, hout, List.map_map, List.map_map]
  exact aggregate_cipher ek (fun i => g_i.getD i 0) encs hne (fun e i => (nums e.2).getD i 0)
    (fun e => draw e.1.1 e.1.2 0)

/-- the hypotheses of C25 are met by two encryptors, with the ciphertexts added in the other order -/
example : aggregate (Fix.outs.reverse.map (·.1)) = .ok (flat (cipher Fix.ek (fun i => Fix.gi.getD i 0)
      (fun i => (Fix.encs.map fun e => (nums e.2).getD i 0).sum) (Fix.outs.map (·.2)).sum)) :=
  C25_aggregate_is_encryption_of_sum Fix.encs (List.cons_ne_nil _ _) Fix.ek Fix.gi Fix.outs _
    Fix.encMany (List.reverse_perm _)

/-- **C25** two ciphertexts: `add_cts`. -/
theorem C25_add_two (R R' : RngCore E) (st st1 : R.σ) (st' st1' : R'.σ) (m m' : List UInt16)
    (ek : EncryptionKey E) (g_i v v' : List E.G1) (r r' : E.Fr)
    (h : encryptDecomposedMessage R st m ek g_i = .ok ((v, r), st1))
    (h' : encryptDecomposedMessage R' st' m' ek g_i = .ok ((v', r'), st1')) :
    addCts v v' = .ok (flat (cipher ek (fun i => g_i.getD i 0)
      (fun i => (nums m).getD i 0 + (nums m').getD i 0) (r + r'))) := by
  obtain ⟨-, -, -, -, rfl, -, -⟩ := encryptDecomposed_inv h
  obtain ⟨-, -, -, -, rfl, -, -⟩ := encryptDecomposed_inv h'
  exact addCts_cipher _ _ _ _ _ _

example : addCts (flat Fix.ct1) (flat Fix.ct1) = .ok (flat (cipher Fix.ek (fun i => Fix.gi.getD i 0)
      (fun i => (nums Fix.m1).getD i 0 + (nums Fix.m1).getD i 0) ((20 : Fix.F) + (20 : Fix.F)))) :=
  C25_add_two _ _ _ _ _ _ _ _ _ _ _ _ _ _ Fix.enc1 Fix.enc1

/-- **C25** the aggregate is literally what `encrypt_decomposed_message` returns for the summed
chunks (when they are 16-bit values) and a generator that yields the summed randomness. -/
theorem C25_same_as_encrypting_sum (encs : List (Party E × List UInt16)) (hne : encs ≠ [])
    (ek : EncryptionKey E) (g_i : List E.G1) (outs : List (List E.G1 × E.Fr))
    (h : encryptMany encs ek g_i = .ok outs) (R : RngCore E) (st : R.σ) (chunks : List UInt16)
    (hlen : chunks.length = ek.X.length)
    (hsum : ∀ i < chunks.length,
      (nums chunks).getD i 0 = (encs.map fun e => (nums e.2).getD i 0).sum)
    (hr : draw R st 0 = (outs.map (·.2)).sum) :
    ∃ v st', aggregate (outs.map (·.1)) = .ok v ∧
      encryptDecomposedMessage R st chunks ek g_i = .ok ((v, (outs.map (·.2)).sum), st') := by
  obtain ⟨hout, hall⟩ := encryptMany_inv h
  obtain ⟨e0, he0⟩ := List.exists_mem_of_ne_nil _ hne
  obtain ⟨a1, a2, a3, a4⟩ := hall e0 he0
  refine ⟨_, after R st 1,
    C25_aggregate_is_encryption_of_sum encs hne ek g_i outs outs h (List.Perm.refl _), ?_⟩
  rw [encryptDecomposed_ok R st chunks ek g_i a1 a2 hlen a4, hr]
  congr 4
  unfold cipher
  congr 1
  · apply tab_congr
    intro i hi
    simp only [hsum i (by omega)]
  · congr 1
    apply Finset.sum_congr rfl
    intro i hi
    simp only [hsum i (by have := Finset.mem_range.mp hi; omega)]

/-- adding the ciphertexts of `1, 2, 300, 4` and `10, 20, 3000, 0` gives the ciphertext of
`11, 22, 3300, 4` with randomness 41 -/
example : ∃ v st', aggregate (Fix.outs.map (·.1)) = .ok v ∧
    encryptDecomposedMessage (listRng Fix.E) (([41] : List Fix.F), [], []) [11, 22, 3300, 4] Fix.ek
      Fix.gi = .ok ((v, (Fix.outs.map (·.2)).sum), st') :=
  C25_same_as_encrypting_sum Fix.encs (List.cons_ne_nil _ _) Fix.ek Fix.gi Fix.outs Fix.encMany
    (listRng Fix.E) (([41] : List Fix.F), [], []) [11, 22, 3300, 4] (by decide +kernel)
    (by decide +kernel) (by decide +kernel)

/-- **C25** under a key from setup the aggregate passes the commitment check. -/
theorem C25_aggregate_verifies (encs : List (Party E × List UInt16)) (hne : encs ≠ [])
    (ek : EncryptionKey E) (b : UInt8) (gens : EncryptionGens E) (g_i : List E.G1) (D C : E.G1)
    (hk : FromSetup ek b gens g_i D C) (outs : List (List E.G1 × E.Fr))
    (h : encryptMany encs ek g_i = .ok outs) :
    ∃ ct, aggregate (outs.map (·.1)) = .ok (flat ct) ∧
      ct.verifyCommitment ek.prepare gens.prepare = .ok () := by
  refine ⟨_, C25_aggregate_is_encryption_of_sum encs hne ek g_i outs outs h (List.Perm.refl _), ?_⟩
  obtain ⟨n, s, t, hn, hg, rfl⟩ := fromSetup_inv hk
  exact cipher_verifies n s t _ D C gens _ _

example : ∃ ct, aggregate (Fix.outs.map (·.1)) = .ok (flat ct) ∧
    ct.verifyCommitment Fix.ek.prepare Fix.gens.prepare = .ok () :=
  C25_aggregate_verifies Fix.encs (List.cons_ne_nil _ _) Fix.ek 16 Fix.gens Fix.gi Fix.D Fix.C
    Fix.fromSetup Fix.outs Fix.encMany

/-- encryption succeeds for every matching chunk vector under every key from setup, so the
hypothesis `encryptMany .. = ok ..` is met by every list of matching chunk vectors -/
theorem encryptMany_ok (encs : List (Party E × List UInt16)) (ek : EncryptionKey E)
    (g_i : List E.G1) (hw : WellFormed ek) (h256 : ek.X.length < 256)
    (hg : ek.X.length ≤ g_i.length) (hl : ∀ e ∈ encs, e.2.length = ek.X.length) :
    ∃ outs, encryptMany encs ek g_i = .ok outs := by
  refine ⟨_, mapRes_ok (g := fun e => (flat (cipher ek (fun i => g_i.getD i 0)
    (fun i => (nums e.2).getD i 0) (draw e.1.1 e.1.2 0)), draw e.1.1 e.1.2 0)) ?_⟩
  intro e he
  rw [encryptDecomposed_ok e.1.1 e.1.2 e.2 ek g_i hw h256 (hl e he) hg]
  rfl

/-! ### C26 -/

/-- **C26** chunk level: decrypting the aggregate of any number of honest ciphertexts returns the
exact chunk-wise sums when all of them are at most `2^b - 1`, and `CouldNotFindDiscreteLog` when
some sum exceeds `2^b - 1`; sums are assumed below the group order. -/
theorem C26_aggregate_decrypts (R : RngCore E) (st st' : R.σ) (b : UInt8)
    (gens : EncryptionGens E) (g_i : List E.G1) (D C : E.G1) (sk : SecretKey E)
    (ek : EncryptionKey E) (dk : DecryptionKey E)
    (hk : keygen R st b gens g_i D C = .ok ((sk, ek, dk), st'))
    (hb1 : 1 ≤ b.toNat) (hb : b.toNat ≤ 16)
    (hgi : ∀ g ∈ g_i, g ≠ 0) (hV : ∀ V ∈ dk.V_2, V ≠ 0)
    (encs : List (Party E × List UInt16)) (hne : encs ≠ []) (outs : List (List E.G1 × E.Fr))
    (h : encryptMany encs ek g_i = .ok outs) (M : ℕ → ℕ)
    (hM : ∀ i < ek.X.length, M i = (encs.map fun e => (nums e.2).getD i 0).sum)
    (hord : ∀ i < ek.X.length, M i < E.fr.p) (chk : Bool) :
    ∃ ct, aggregate (outs.map (·.1)) = .ok (flat ct) ∧
      ((∀ i < ek.X.length, M i ≤ 2 ^ b.toNat - 1) →
        ∃ ds, decryptToChunks chk ct.X_r ct.enc_chunks sk dk.prepare g_i b
            = .ok (ds, (sk.rho * (outs.map (·.2)).sum) • ek.X_0) ∧
          ds.length = ek.X.length ∧ ∀ i < ek.X.length, (nums ds).getD i 0 = M i) ∧
      (∀ i < ek.X.length, 2 ^ b.toNat - 1 < M i →
        decryptToChunks chk ct.X_r ct.enc_chunks sk dk.prepare g_i b
          = .err .couldNotFindDiscreteLog) := by
  refine ⟨_, C25_aggregate_is_encryption_of_sum encs hne ek g_i outs outs h (List.Perm.refl _), ?_⟩
  obtain ⟨n, hn, hg⟩ := keygen_ok_inv hk
  rw [keygen_eq R st gens g_i D C hn hg] at hk
  simp only [Res.ok.injEq, Prod.mk.injEq] at hk
  obtain ⟨⟨rfl, rfl, rfl⟩, -⟩ := hk
  have hXn : ∀ s t, (encKey n.toNat s t (fun i => g_i.getD i 0) D C gens.H).X.length = n.toNat := by
    intro s t; simp [encKey]
  simp only [hXn] at hM hord ⊢
  have hd := decrypt_cipher chk n (draw R st 0) (fun i => draw R st (1 + i))
    (fun i => draw R st (1 + n.toNat + i)) (fun i => draw R st (2 + 2 * n.toNat + i)) g_i D C gens.H
    b (fun i => (encs.map fun e => (nums e.2).getD i 0).sum) (outs.map (·.2)).sum (by omega) hg
    (chunkBase_ne _ _ _ _ _ _ (fun i hi => hgi _ (by
        rw [List.getD_eq_getElem?_getD, List.getElem?_eq_getElem (by omega)]
        exact List.getElem_mem _)) (fun i hi => hV _ (by
        rw [List.getD_eq_getElem?_getD, List.getElem?_eq_getElem (by simpa [decKey] using hi)]
        exact List.getElem_mem _)))
    (fun i hi => by rw [← hM i hi]; exact hord i hi) _ rfl
  rw [searchBound_eq hb1 hb] at hd
  constructor
  · intro hle
    refine ⟨_, hd.1 (fun i hi => by rw [← hM i hi]; exact hle i hi), by simp, ?_⟩
    intro i hi
    rw [nums, map_tab, getD_tab, if_pos hi, ← hM i hi]
    have h1 := hle i hi
    have : 2 ^ b.toNat ≤ 2 ^ 16 := Nat.pow_le_pow_right (by norm_num) hb
    have h2 := Nat.two_pow_pos b.toNat
    simp
    omega
  · intro i hi hgt
    exact hd.2 i hi (by rw [← hM i hi]; exact hgt)

/-- the hypotheses of C26 are met; the sums are `11, 22, 3300, 4` -/
example : ∃ ct, aggregate (Fix.outs.map (·.1)) = .ok (flat ct) ∧
    ∃ ds, decryptToChunks true ct.X_r ct.enc_chunks Fix.sk Fix.dk.prepare Fix.gi 16
        = .ok (ds, (Fix.sk.rho * (Fix.outs.map (·.2)).sum) • Fix.ek.X_0) ∧
      ds.length = Fix.ek.X.length ∧
      ∀ i < Fix.ek.X.length, (nums ds).getD i 0 = [11, 22, 3300, 4].getD i 0 := by
  obtain ⟨ct, h1, h2, -⟩ := C26_aggregate_decrypts (listRng Fix.E) Fix.st _ 16 Fix.gens Fix.gi Fix.D Fix.C
    Fix.sk Fix.ek Fix.dk Fix.keygen_ok (by decide) (by decide) Fix.gi_ne Fix.V2_ne Fix.encs
    (List.cons_ne_nil _ _) Fix.outs Fix.encMany (fun i => [11, 22, 3300, 4].getD i 0)
    (by decide +kernel) (by decide +kernel) true
  exact ⟨ct, h1, h2 (by decide +kernel)⟩

theorem encryptMessages_eq_many (encs : List (Party E × E.Fr)) (ek : EncryptionKey E)
    (g_i : List E.G1) (b : UInt8) (hb : Supported b) (dig : Party E × E.Fr → List UInt16)
    (hdig : ∀ e ∈ encs, decompose (K := E.fr) e.2 b = .ok (dig e))
    (outs : List (List E.G1 × E.Fr)) (h : encryptMessages encs ek g_i b = .ok outs) :
    encryptMany (encs.map fun e => (e.1, dig e)) ek g_i = .ok outs := by
  unfold encryptMessages at h
  unfold encryptMany
  induction encs generalizing outs with
  | nil => cases h; rfl
  | cons e es ih =>
    simp only [mapRes] at h
    obtain ⟨o, ho, h⟩ := Res.bind_eq_ok.mp h
    obtain ⟨os, hos, h⟩ := Res.bind_eq_ok.mp h
    obtain ⟨⟨⟨ct, r⟩, st'⟩, henc, ho⟩ := Res.bind_eq_ok.mp ho
    simp only [Res.pure_eq, Res.ok.injEq] at h ho
    obtain ⟨d, hd, hs, -⟩ := C14_encrypt_splits e.1.1 e.1.2 e.2 ek g_i b hb
    rw [hdig e (by simp)] at hd
    injection hd with hd
    subst hd
    have ih' := ih (fun e' he' => hdig e' (by simp [he'])) os hos
    simp only [List.map_cons, mapRes, hs ct r st' henc, Res.ok_bind]
    rw [ih', ← h, ← ho]
    rfl

theorem positional_sum {α : Type u} (base n : ℕ) (l : List α) (d : α → List ℕ)
    (hd : ∀ a ∈ l, (d a).length = n) (s : List ℕ) (hs : s.length = n)
    (hsum : ∀ i < n, s.getD i 0 = (l.map fun a => (d a).getD i 0).sum) :
    positional base s = (l.map fun a => positional base (d a)).sum := by
  have e : ∀ a ∈ l, positional base (d a)
      = ∑ i ∈ Finset.range n, (d a).getD i 0 * base ^ (n - 1 - i) := by
    intro a ha
    rw [positional, hd a ha]
  rw [List.map_congr_left e, sum_map_finset, positional, hs]
  apply Finset.sum_congr rfl
  intro i hi
  rw [hsum i (Finset.mem_range.mp hi)]
  clear hd hsum e hs
  induction l with
  | nil => simp
  | cons a l ih => simp only [List.map_cons, List.sum_cons, Nat.add_mul, ih]

theorem two_pow_le_of_field (K : FieldCfg) {b : UInt8} (hb : Supported b)
    (h : 64 * K.limbs < K.modBits + b.toNat) : 2 ^ b.toNat ≤ K.p := by
  have hl : K.limbs ≠ 0 := by
    intro h0
    have := K.p_lt
    rw [h0] at this
    have h2 := K.prime.two_le
    simp at this
    omega
  have : b.toNat < K.modBits := by
    rcases hb with rfl | rfl | rfl
    · have : UInt8.toNat 4 = 4 := rfl
      omega
    · have : UInt8.toNat 8 = 8 := rfl
      omega
    · have : UInt8.toNat 16 = 16 := rfl
      omega
  exact Nat.lt_size.mp this

/-- **C26** message level: if no chunk overflows (every chunk-wise sum of the messages'
decompositions stays below `2^b`), the aggregate of any number of message encryptions decrypts to
the field sum of the messages; if some chunk sum exceeds `2^b - 1` (all sums below the group order)
decryption reports `CouldNotFindDiscreteLog`. -/
theorem C26_messages_sum (R : RngCore E) (st st' : R.σ) (b : UInt8)
    (gens : EncryptionGens E) (g_i : List E.G1) (D C : E.G1) (sk : SecretKey E)
    (ek : EncryptionKey E) (dk : DecryptionKey E)
    (hk : keygen R st b gens g_i D C = .ok ((sk, ek, dk), st')) (hb : Supported b)
    (hfield : 64 * E.fr.limbs < E.fr.modBits + b.toNat ∧ chunksNeeded E.fr b.toNat ≤ 255)
    (hgi : ∀ g ∈ g_i, g ≠ 0) (hV : ∀ V ∈ dk.V_2, V ≠ 0)
    (encs : List (Party E × E.Fr)) (hne : encs ≠ []) (dig : Party E × E.Fr → List UInt16)
    (hdig : ∀ e ∈ encs, decompose (K := E.fr) e.2 b = .ok (dig e)) (chk : Bool) :
    ∃ outs ct, encryptMessages encs ek g_i b = .ok outs ∧
      aggregate (outs.map (·.1)) = .ok (flat ct) ∧
      ((∀ i < ek.X.length, (encs.map fun e => (nums (dig e)).getD i 0).sum ≤ 2 ^ b.toNat - 1) →
        ct.decrypt chk sk dk.prepare g_i b
          = .ok ((encs.map (·.2)).sum, (sk.rho * (outs.map (·.2)).sum) • ek.X_0)) ∧
      (∀ i < ek.X.length,
        2 ^ b.toNat - 1 < (encs.map fun e => (nums (dig e)).getD i 0).sum →
        (∀ j < ek.X.length, (encs.map fun e => (nums (dig e)).getD j 0).sum < E.fr.p) →
        ct.decrypt chk sk dk.prepare g_i b = .err .couldNotFindDiscreteLog) := by
  have hfrom : FromSetup ek b gens g_i D C := .inl ⟨R, st, st', sk, dk, hk⟩
  have hshape : 64 * E.fr.limbs / b.toNat = ek.X.length := by
    obtain ⟨n, s, t, hn, hg, rfl⟩ := fromSetup_inv hfrom
    rw [(decomp_len_eq_iff E.fr b n hb hn).mpr hfield]
    simp [encKey]
  have hdl : ∀ e ∈ encs, (dig e).length = ek.X.length ∧ (∀ x ∈ dig e, x.toNat < 2 ^ b.toNat) ∧
      positional (2 ^ b.toNat) (nums (dig e)) = e.2.val := by
    intro e he
    obtain ⟨d, h1, h2, h3, h4⟩ := decompose_spec (K := E.fr) e.2 hb
    rw [hdig e he] at h1
    injection h1 with h1
    subst h1
    exact ⟨h2.trans hshape, h3, h4⟩
  have hb116 : 1 ≤ b.toNat ∧ b.toNat ≤ 16 := by rcases hb with rfl | rfl | rfl <;> decide
  have houts : ∃ outs, encryptMessages encs ek g_i b = .ok outs := by
    have : ∀ e ∈ encs, ∃ ct r st', encrypt e.1.1 e.1.2 e.2 ek g_i b = .ok ((ct, r), st') :=
      fun e _ => (C05_encrypt_fresh_key ek b gens g_i D C hfrom hb e.1.1 e.1.2 e.2).1 hfield
    unfold encryptMessages
    clear hdl hdig hne
    induction encs with
    | nil => exact ⟨[], rfl⟩
    | cons e es ih =>
      obtain ⟨os, hos⟩ := ih (fun e' he' => this e' (by simp [he']))
      obtain ⟨ct, r, st', he⟩ := this e (by simp)
      refine ⟨(ct.X_r :: (ct.enc_chunks ++ [ct.commitment]), r) :: os, ?_⟩
      simp only [mapRes, he, Res.ok_bind]
      rw [hos]
      rfl
  obtain ⟨outs, houts⟩ := houts
  have hmany := encryptMessages_eq_many encs ek g_i b hb dig hdig outs houts
  have hagg := C25_aggregate_is_encryption_of_sum (encs.map fun e => (e.1, dig e))
    (by simpa using hne) ek g_i outs outs hmany (List.Perm.refl _)
  have hM : ∀ i, ((encs.map fun e => (e.1, dig e)).map fun e => (nums e.2).getD i 0).sum
      = (encs.map fun e => (nums (dig e)).getD i 0).sum := by
    intro i; rw [List.map_map]; rfl
  simp only [hM] at hagg
  refine ⟨outs, _, houts, hagg, ?_, ?_⟩
  · intro hle
    obtain ⟨ct, hct, h1, -⟩ := C26_aggregate_decrypts R st st' b gens g_i D C sk ek dk hk hb116.1
      hb116.2 hgi hV (encs.map fun e => (e.1, dig e)) (by simpa using hne) outs hmany
      (fun i => (encs.map fun e => (nums (dig e)).getD i 0).sum) (fun i _ => (hM i).symm)
      (fun i hi => by
        have h1 := hle i hi
        have h2 := two_pow_le_of_field E.fr hb hfield.1
        have h3 := Nat.two_pow_pos b.toNat
        omega) chk
    obtain ⟨ds, hds, hlen, hval⟩ := h1 hle
    rw [hagg] at hct
    injection hct with hct
    obtain rfl := flat_inj hct
    unfold Ciphertext.decrypt decrypt
    rw [hds]
    simp only [Res.ok_bind]
    have hsmall : ∀ x ∈ ds, x.toNat < 2 ^ b.toNat := by
      intro x hx
      obtain ⟨i, hi, rfl⟩ := List.getElem_of_mem hx
      have e1 := hval i (by omega)
      have e2 := hle i (by omega)
      have e3 : (nums ds).getD i 0 = ds[i].toNat := by
        simp [nums, List.getD_eq_getElem?_getD, List.getElem?_eq_getElem hi]
      have := Nat.two_pow_pos b.toNat
      omega
    have hparity : b = 4 → 2 ∣ ds.length := by
      rintro rfl
      rw [hlen, ← hshape]
      show 2 ∣ 64 * E.fr.limbs / 4
      omega
    rw [compose_spec chk hb hparity hsmall]
    rw [positional_sum (2 ^ b.toNat) ek.X.length encs (fun e => nums (dig e))
      (fun e he => by simp [nums, (hdl e he).1]) (nums ds) (by simp [nums, hlen]) hval]
    simp only [Res.ok_bind, Res.pure_eq]
    congr 2
    rw [List.map_congr_left (fun e he => (hdl e he).2.2)]
    clear * -
    induction encs with
    | nil => simp
    | cons e es ih => simp only [List.map_cons, List.sum_cons, Nat.cast_add, ih,
        ZMod.natCast_zmod_val]
  · intro i hi hgt hord
    obtain ⟨ct, hct, -, h2⟩ := C26_aggregate_decrypts R st st' b gens g_i D C sk ek dk hk hb116.1
      hb116.2 hgi hV (encs.map fun e => (e.1, dig e)) (by simpa using hne) outs hmany
      (fun i => (encs.map fun e => (nums (dig e)).getD i 0).sum) (fun i _ => (hM i).symm) hord chk
    rw [hagg] at hct
    injection hct with hct
    obtain rfl := flat_inj hct
    unfold Ciphertext.decrypt decrypt
    rw [h2 i hi hgt]
    rfl

/-- the hypotheses of C26 are met at message level: 65541 and 7 add up to 65548 -/
example : ∃ outs ct, encryptMessages Fix.msgs Fix.ek Fix.gi 16 = .ok outs ∧
    aggregate (outs.map (·.1)) = .ok (flat ct) ∧
    ct.decrypt true Fix.sk Fix.dk.prepare Fix.gi 16
      = .ok (Fix.total, (Fix.sk.rho * (outs.map (·.2)).sum) • Fix.ek.X_0) := by
  obtain ⟨outs, ct, h1, h2, h3, -⟩ := C26_messages_sum (listRng Fix.E) Fix.st _ 16 Fix.gens Fix.gi Fix.D
    Fix.C Fix.sk Fix.ek Fix.dk Fix.keygen_ok (Or.inr (Or.inr rfl)) Fix.aligned Fix.gi_ne Fix.V2_ne
    Fix.msgs (List.cons_ne_nil _ _)
    (fun e => if ZMod.val e.2 = 7 then [0, 0, 0, 7] else [0, 0, 1, 5])
    (by
      intro e he
      rcases List.mem_cons.mp he with rfl | he
      · decide +kernel
      · rcases List.mem_singleton.mp he with rfl
        decide +kernel) true
  rw [Fix.msgs_sum] at h3
  exact ⟨outs, ct, h1, h2, h3 (by decide +kernel)⟩

end Verif
