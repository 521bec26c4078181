/-
Property C85: which calls abort (panic), exactly, for every input; and that nothing an outsider sends to somebody
who holds well-formed keys and checks ciphertexts before using them makes a call abort.
-/
import Verif.Props.Aggregate
import Verif.Props.ReEncrypt
import Verif.Props.Batch
import Verif.Props.Leak

namespace Verif
open Spec

theorem bind_panic_iff {α β : Type} (x : Res α) (f : α → Res β) :
    (x >>= f) = .panic ↔ x = .panic ∨ ∃ a, x = .ok a ∧ f a = .panic := by
  cases x with
  | ok a => simp
  | err e => simp [show ((Res.err e : Res α) >>= f) = .err e from rfl]
  | panic => simp

theorem mapRes_panic_iff {α : Type u} {β : Type} (f : α → Res β) (l : List α) (h : ∀ a e, f a ≠ .err e) :
    mapRes f l = .panic ↔ ∃ a ∈ l, f a = .panic := by
  induction l with
  | nil => simp [mapRes]
  | cons a l ih =>
    simp only [mapRes, List.mem_cons, exists_eq_or_imp]
    rw [bind_panic_iff]
    constructor
    · rintro (h1 | ⟨b, -, h2⟩)
      · exact .inl h1
      · rw [bind_panic_iff] at h2
        rcases h2 with h3 | ⟨c, -, h4⟩
        · exact .inr (ih.mp h3)
        · cases h4
    · rintro (h1 | h2)
      · exact .inl h1
      · cases hx : f a with
        | ok b => exact .inr ⟨b, rfl, by rw [ih.mpr h2]; rfl⟩
        | err e => exact absurd hx (h a e)
        | panic => exact .inl rfl

section
variable {E : Engine}

/-- adding two vectors position by position aborts iff the second is shorter -/
theorem addPos_panic_iff (a b : List E.G1) :
    mapRes (fun i => do
      let x ← idx a i
      let y ← idx b i
      return x + y) (List.range a.length) = .panic ↔ b.length < a.length := by
  rw [mapRes_panic_iff]
  · constructor
    · rintro ⟨i, hi, h⟩
      rw [List.mem_range] at hi
      rw [idx_ok 0 hi, Res.ok_bind] at h
      by_contra hlt
      rw [idx_ok 0 (by omega : i < b.length)] at h
      cases h
    · intro h
      refine ⟨b.length, List.mem_range.mpr h, ?_⟩
      rw [idx_ok 0 h, Res.ok_bind, idx_panic le_rfl]
      rfl
  · intro i e h
    cases hx : idx a i with
    | ok x =>
      rw [hx, Res.ok_bind] at h
      cases hy : idx b i with
      | ok y => rw [hy] at h; cases h
      | err e => exact idx_ne_err hy
      | panic => rw [hy] at h; cases h
    | err e => exact idx_ne_err hx
    | panic => rw [hx] at h; cases h

/-- **C85** (aggregation and re-encryption) `add_cts`, `combine_re_encrypt_share`, `combine_ct_with_w` and
`re_encrypt_share` abort iff their second vector (or the secret key) is shorter than the first one, and never
return an error. -/
theorem C85_vector_functions (R : RngCore E) (st : R.σ) (gens : EncryptionGens E) (c_0 g g' : E.G1)
    (c c' : List E.G1) (ekd : FEncryptionKeyDest E) (sk : SecretKeyST E) :
    ((addCts c c' = .panic ↔ c'.length < c.length) ∧ ∀ e, addCts c c' ≠ .err e) ∧
    ((combineReEncryptShare g g' c c' = .panic ↔ c'.length < c.length) ∧
      ∀ e, combineReEncryptShare g g' c c' ≠ .err e) ∧
    ((combineCtWithW c g c' = .panic ↔ c'.length < c.length) ∧ ∀ e, combineCtWithW c g c' ≠ .err e) ∧
    ((reEncryptShare R st gens c_0 c ekd sk = .panic ↔ sk.s.length < c.length) ∧
      ∀ e, reEncryptShare R st gens c_0 c ekd sk ≠ .err e) := by
  have hno : ∀ e, mapRes (fun i => do
      let x ← idx c i
      let y ← idx c' i
      return x + y) (List.range c.length) ≠ .err e := by
    intro e h
    obtain ⟨i, -, h, -⟩ := mapRes_range_err_inv h
    cases hx : idx c i with
    | ok x =>
      rw [hx, Res.ok_bind] at h
      cases hy : idx c' i with
      | ok y => rw [hy] at h; cases h
      | err e => exact idx_ne_err hy
      | panic => rw [hy] at h; cases h
    | err e => exact idx_ne_err hx
    | panic => rw [hx] at h; cases h
  have wrap : ∀ {β γ : Type} (x : Res β) (f : β → γ), ((x >>= fun a => (.ok (f a) : Res γ)) = .panic ↔ x = .panic) ∧
      ∀ e, (x >>= fun a => (.ok (f a) : Res γ)) = .err e → x = .err e := by
    intro β γ x f
    cases x with
    | ok a => exact ⟨by simp, fun e h => by cases h⟩
    | err e' => exact ⟨by simp [show ∀ g : β → Res γ, ((Res.err e' : Res β) >>= g) = .err e' from fun _ => rfl],
        fun e h => by cases h; rfl⟩
    | panic => exact ⟨by simp, fun e h => by cases h⟩
  refine ⟨⟨addPos_panic_iff c c', hno⟩, ⟨?_, ?_⟩, ⟨?_, ?_⟩, ⟨?_, ?_⟩⟩
  · exact (wrap _ _).1.trans (addPos_panic_iff c c')
  · exact fun e h => hno e ((wrap _ _).2 e h)
  · exact (wrap _ _).1.trans (addPos_panic_iff c c')
  · exact fun e h => hno e ((wrap _ _).2 e h)
  · unfold reEncryptShare
    refine (wrap _ _).1.trans ?_
    rw [mapRes_panic_iff]
    · constructor
      · rintro ⟨i, hi, h⟩
        rw [List.mem_range] at hi
        by_contra hlt
        rw [idx_ok 0 (by omega : i < sk.s.length)] at h
        cases h
      · intro h
        refine ⟨sk.s.length, List.mem_range.mpr h, ?_⟩
        rw [idx_panic le_rfl]
        rfl
    · intro i e h
      cases hx : idx sk.s i with
      | ok x => rw [hx] at h; cases h
      | err e => exact idx_ne_err hx
      | panic => rw [hx] at h; cases h
  · intro e h
    have := (wrap _ _).2 e h
    obtain ⟨i, -, h, -⟩ := mapRes_range_err_inv this
    cases hx : idx sk.s i with
    | ok x => rw [hx] at h; cases h
    | err e => exact idx_ne_err hx
    | panic => rw [hx] at h; cases h

/-- **C85** (encryption) `encrypt_decomposed_message` and `encrypt` abort iff the key has consistent lengths but
256 or more positions, and the number of chunks agrees with it modulo 256. -/
theorem C85_encrypt_chunks (R : RngCore E) (st : R.σ) (chunks : List UInt16) (ek : EncryptionKey E)
    (g_i : List E.G1) :
    encryptDecomposedMessage R st chunks ek g_i = .panic ↔
      WellFormed ek ∧ 256 ≤ ek.X.length ∧ chunks.length = ek.X.length % 256 ∧ chunks.length ≤ g_i.length := by
  unfold encryptDecomposedMessage EncryptionKey.supportedChunksCount encKeyChunks
  by_cases h1 : ek.Y.length = ek.X.length
  · by_cases h2 : ek.Z.length = ek.X.length + 1
    · rw [if_neg (by simpa using h1), if_neg (by simpa using h2), Res.ok_bind]
      have hcnt : (UInt8.ofNat ek.X.length).toNat = ek.X.length % 256 := by simp
      simp only [hcnt]
      by_cases h3 : chunks.length = ek.X.length % 256
      · by_cases h4 : g_i.length < chunks.length
        · rw [if_neg (by simpa using h3), if_pos h4]
          simp only [reduceCtorEq, false_iff]
          omega
        · rw [if_neg (by simpa using h3), if_neg h4]
          rw [bind_panic_iff]
          simp only [reduceCtorEq, and_false, exists_false, or_false]
          rw [mapRes_panic_iff]
          · constructor
            · rintro ⟨i, hi, h⟩
              rw [List.mem_range] at hi
              refine ⟨⟨h1, h2⟩, ?_, h3, by omega⟩
              by_contra hlt
              have hl : chunks.length = ek.X.length := by omega
              rw [idx_ok 0 hi, Res.ok_bind, idx_ok 0 (by omega), Res.ok_bind,
                idx_ok 0 (by rw [List.length_map]; omega)] at h
              cases h
            · rintro ⟨-, hbig, -, -⟩
              refine ⟨chunks.length, List.mem_range.mpr (by omega), ?_⟩
              rw [idx_ok 0 (by omega), Res.ok_bind]
              by_cases hg : chunks.length < g_i.length
              · rw [idx_ok 0 hg, Res.ok_bind, idx_panic (by rw [List.length_map])]
                rfl
              · rw [idx_panic (by omega)]
                rfl
          · intro i e h
            cases hx : idx ek.X i with
            | ok x =>
              rw [hx, Res.ok_bind] at h
              cases hy : idx g_i i with
              | ok y =>
                rw [hy, Res.ok_bind] at h
                cases hz : idx (chunks.map fun m_i => m_i.toNat) i with
                | ok z => rw [hz] at h; cases h
                | err e => exact idx_ne_err hz
                | panic => rw [hz] at h; cases h
              | err e => exact idx_ne_err hy
              | panic => rw [hy] at h; cases h
            | err e => exact idx_ne_err hx
            | panic => rw [hx] at h; cases h
      · rw [if_pos (by simpa using h3)]
        simp only [reduceCtorEq, false_iff]
        rintro ⟨-, -, h, -⟩
        exact h3 h
    · rw [if_neg (by simpa using h1), if_pos (by simpa using h2)]
      exact ⟨(by intro h; cases h), fun h => absurd h.1.2 h2⟩
  · rw [if_pos (by simpa using h1)]
    exact ⟨(by intro h; cases h), fun h => absurd h.1.1 h1⟩

/-- **C85** (commitment check) `verify_commitment` aborts iff the key has consistent lengths but 256 or more
positions, and the number of chunks agrees with it modulo 256 (any prepared key, also one that was not made from a
key). -/
theorem C85_verify_commitment (ct : Ciphertext E) (ek : PreparedEncryptionKey E) (gens : PreparedEncryptionGens E) :
    ct.verifyCommitment ek gens = .panic ↔
      ek.Y.length = ek.X.length ∧ ek.Z.length = ek.X.length + 1 ∧ 256 ≤ ek.X.length ∧
        ct.enc_chunks.length = ek.X.length % 256 := by
  unfold Ciphertext.verifyCommitment verifyCiphertextCommitment PreparedEncryptionKey.supportedChunksCount encKeyChunks
  by_cases h1 : ek.Y.length = ek.X.length
  · by_cases h2 : ek.Z.length = ek.X.length + 1
    · rw [if_neg (by simpa using h1), if_neg (by simpa using h2), Res.ok_bind]
      have hcnt : (UInt8.ofNat ek.X.length).toNat = ek.X.length % 256 := by simp
      simp only [hcnt]
      by_cases h3 : ct.enc_chunks.length = ek.X.length % 256
      · rw [if_neg (by simpa using h3)]
        unfold getG2ForCommitmentChecks
        obtain ⟨z0, Z, hZ⟩ : ∃ z0 Z, ek.Z = z0 :: Z := by
          cases h : ek.Z with
          | nil => rw [h] at h2; simp at h2
          | cons z Z => exact ⟨z, Z, rfl⟩
        rw [hZ] at h2 ⊢
        rw [show idx (z0 :: Z) 0 = .ok z0 from rfl, Res.ok_bind]
        simp only [Res.pure_eq, Res.ok_bind, List.tail_cons]
        unfold Engine.multiPairing getG1ForCommitmentChecks
        simp only [List.length_cons, List.length_append, List.length_nil] at h2 ⊢
        by_cases h4 : 256 ≤ ek.X.length
        · rw [if_neg (by omega)]
          simp only [Res.panic_bind, true_iff]
          exact ⟨h1, h2, h4, h3⟩
        · rw [if_pos (by omega), Res.ok_bind]
          constructor
          · intro h
            split_ifs at h
          · rintro ⟨-, -, h, -⟩
            exact absurd h h4
      · rw [if_pos (by simpa using h3)]
        simp only [reduceCtorEq, false_iff]
        rintro ⟨-, -, -, h⟩
        exact h3 h
    · rw [if_neg (by simpa using h1), if_pos (by simpa using h2)]
      exact ⟨(by intro h; cases h), fun h => absurd h.2.1 h2⟩
  · rw [if_pos (by simpa using h1)]
    exact ⟨(by intro h; cases h), fun h => absurd h.1 h1⟩

/-- **C85** (proof check) `verify_proof` aborts iff the verifying key has no instance element at all, whatever the
ciphertext and the proof are; `verify_commitment_and_proof` aborts iff the commitment check does, or it accepts and
the verifying key has no instance element. -/
theorem C85_verify_proof (ct : Ciphertext E) (proof : Proof E) (pvk : PreparedVerifyingKey E)
    (ek : PreparedEncryptionKey E) (gens : PreparedEncryptionGens E) :
    (verifyProof pvk proof ct = .panic ↔ pvk.vk.gamma_abc_g1 = []) ∧
    (ct.verifyCommitmentAndProof proof pvk ek gens = .panic ↔
      ct.verifyCommitment ek gens = .panic ∨ ct.verifyCommitment ek gens = .ok () ∧ pvk.vk.gamma_abc_g1 = []) := by
  have h1 : verifyProof pvk proof ct = .panic ↔ pvk.vk.gamma_abc_g1 = [] := by
    unfold verifyProof calculateD verifyQapProof Engine.multiPairing
    cases h : pvk.vk.gamma_abc_g1 with
    | nil => exact ⟨fun _ => rfl, fun _ => rfl⟩
    | cons g gs =>
      rw [show idx (g :: gs) 0 = .ok g from rfl]
      simp only [Res.ok_bind, Res.pure_eq, List.length_cons, List.length_nil, if_true, reduceCtorEq, iff_false]
      intro hh
      split_ifs at hh
  refine ⟨h1, ?_⟩
  unfold Ciphertext.verifyCommitmentAndProof
  rw [bind_panic_iff, h1]
  exact or_congr_right ⟨fun ⟨(), h, h'⟩ => ⟨h, h'⟩, fun ⟨h, h'⟩ => ⟨(), h, h'⟩⟩

theorem mapRes_ne_panic {α : Type u} {β : Type} (f : α → Res β) (l : List α) (h : ∀ a ∈ l, f a ≠ .panic) :
    mapRes f l ≠ .panic := by
  induction l with
  | nil => simp [mapRes]
  | cons a l ih =>
    intro hp
    simp only [mapRes] at hp
    rw [bind_panic_iff] at hp
    rcases hp with h1 | ⟨b, -, h2⟩
    · exact h a (by simp) h1
    · rw [bind_panic_iff] at h2
      rcases h2 with h3 | ⟨c, -, h4⟩
      · exact ih (fun a ha => h a (by simp [ha])) h3
      · cases h4

theorem dlogLoop_ne_panic {A : Type} [AddCommGroup A] [DecidableEq A] (g p cur : A) (j k : ℕ) :
    dlogLoop g p cur j k ≠ .panic := by
  induction k generalizing cur j with
  | zero => simp [dlogLoop]
  | succ k ih =>
    unfold dlogLoop
    split_ifs
    · simp
    · exact ih _ _

theorem solveDiscreteLog_ne_panic {A : Type} [AddCommGroup A] [DecidableEq A] (mx : UInt16) (g p : A) :
    solveDiscreteLog mx g p ≠ .panic := by
  unfold solveDiscreteLog
  split_ifs
  · simp
  · exact dlogLoop_ne_panic _ _ _ _ _

theorem chunkMax_panic_iff (chk : Bool) (b : UInt8) : chunkMaxU32 chk b = .panic ↔ chk = true ∧ 32 ≤ b.toNat := by
  unfold chunkMaxU32
  by_cases h : b.toNat < 32
  · rw [if_pos h]
    simp only [reduceCtorEq, false_iff]
    omega
  · rw [if_neg h]
    cases chk
    · simp
    · simp; omega

/-- **C85** (decryption to chunks) aborts iff the chunk size is 32 or more, in builds with overflow checks, and the
lengths agree; in particular for no ciphertext when the chunk size is below 32. (Any prepared decryption key.) -/
theorem C85_decrypt_to_chunks (chk : Bool) (c_0 : E.G1) (c : List E.G1) (sk : SecretKey E)
    (dk : PreparedDecryptionKey E) (g_i : List E.G1) (b : UInt8) :
    decryptToChunks chk c_0 c sk dk g_i b = .panic ↔
      dk.V_2.length = dk.V_1.length ∧ c.length = dk.V_1.length % 256 ∧ c.length ≤ g_i.length ∧ chk = true ∧
        32 ≤ b.toNat := by
  unfold decryptToChunks decryptToChunksGivenPairingPowers PreparedDecryptionKey.supportedChunksCount decKeyChunks
  by_cases h1 : dk.V_2.length = dk.V_1.length
  · rw [if_neg (by simpa using h1), Res.ok_bind]
    have hcnt : (UInt8.ofNat dk.V_1.length).toNat = dk.V_1.length % 256 := by simp
    simp only [hcnt]
    by_cases h2 : c.length = dk.V_1.length % 256
    · by_cases h3 : g_i.length < c.length
      · rw [if_neg (by simpa using h2), if_pos h3]
        simp only [reduceCtorEq, false_iff]
        omega
      · rw [if_neg (by simpa using h2), if_neg h3, bind_panic_iff, chunkMax_panic_iff]
        constructor
        · rintro (h | ⟨mx, -, h⟩)
          · exact ⟨h1, h2, by omega, h⟩
          · rw [bind_panic_iff] at h
            rcases h with h | ⟨a, -, h⟩
            · refine absurd h (mapRes_ne_panic _ _ ?_)
              intro i hi hp
              rw [List.mem_range] at hi
              obtain ⟨ci, e1⟩ : ∃ x, idx c i = .ok x := ⟨_, idx_ok 0 hi⟩
              obtain ⟨v2, e2⟩ : ∃ x, idx dk.V_2 i = .ok x := ⟨_, idx_ok (E.prep 0) (by omega)⟩
              obtain ⟨v1, e3⟩ : ∃ x, idx dk.V_1 i = .ok x := ⟨_, idx_ok (E.prep 0) (by omega)⟩
              obtain ⟨g, e4⟩ : ∃ x, idx g_i i = .ok x := ⟨_, idx_ok 0 (by omega)⟩
              rw [e1, e2, e3] at hp
              simp only [Res.ok_bind, Engine.multiPairing, List.length_cons, List.length_nil, if_true] at hp
              split_ifs at hp with q1 q2
              · rw [e4, Res.ok_bind] at hp
                exact solveDiscreteLog_ne_panic _ _ _ hp
              · simp at q2
            · cases h
        · rintro ⟨-, -, -, h⟩
          exact .inl h
    · rw [if_pos (by simpa using h2)]
      simp only [reduceCtorEq, false_iff]
      rintro ⟨-, h, -⟩
      exact h2 h
  · rw [if_pos (by simpa using h1)]
    exact ⟨(by intro h; cases h), fun h => absurd h.1 h1⟩

theorem decryptToChunks_small {chk : Bool} {c_0 : E.G1} {c : List E.G1} {sk : SecretKey E}
    {dk : PreparedDecryptionKey E} {g_i : List E.G1} {ds : List UInt16} {nu : E.G1}
    (h : decryptToChunks chk c_0 c sk dk g_i 4 = .ok (ds, nu)) : ∀ d ∈ ds, d.toNat < 16 := by
  unfold decryptToChunks decryptToChunksGivenPairingPowers at h
  obtain ⟨cnt, -, h⟩ := Res.bind_eq_ok.mp h
  split_ifs at h with h1 h2
  obtain ⟨mx, hmx, h⟩ := Res.bind_eq_ok.mp h
  obtain ⟨l, hl, h⟩ := Res.bind_eq_ok.mp h
  cases h
  rw [show chunkMaxU32 chk 4 = .ok 15 from rfl] at hmx
  cases hmx
  obtain ⟨hlen, hget⟩ := mapRes_range_eq_ok_iff.mp hl
  intro d hd
  obtain ⟨i, hi, rfl⟩ := List.getElem_of_mem hd
  obtain ⟨x, hx, hf⟩ := hget i (by omega)
  rw [List.getElem?_eq_getElem hi, Option.some.injEq] at hx
  rw [hx]
  obtain ⟨ci, e1, hf⟩ := Res.bind_eq_ok.mp hf
  obtain ⟨v2, e2, hf⟩ := Res.bind_eq_ok.mp hf
  obtain ⟨v1, e3, hf⟩ := Res.bind_eq_ok.mp hf
  obtain ⟨p, e4, hf⟩ := Res.bind_eq_ok.mp hf
  split_ifs at hf with q1 q2
  · cases hf; decide
  · obtain ⟨g, e5, hf⟩ := Res.bind_eq_ok.mp hf
    rcases solveDiscreteLog_spec (UInt16.ofNat 15) (E.pairP g v2) p q1 with ⟨k, a1, a2⟩ | ⟨a1, a2⟩
    · rw [a2] at hf
      cases hf
      have : k ≤ 15 := a1.1
      rw [UInt16.toNat_ofNat']
      omega
    · rw [a2] at hf; cases hf
  · simp at q2

/-- **C85** (decryption) `decrypt` aborts exactly when the decryption to chunks does: composing the chunks never
aborts. The verifying-key form aborts also when the verifying key has no instance element. -/
theorem C85_decrypt (chk : Bool) (ct : Ciphertext E) (sk : SecretKey E) (dk : PreparedDecryptionKey E)
    (g_i : List E.G1) (vk : VerifyingKey E) (b : UInt8) :
    (ct.decrypt chk sk dk g_i b = .panic ↔
      dk.V_2.length = dk.V_1.length ∧ ct.enc_chunks.length = dk.V_1.length % 256 ∧
        ct.enc_chunks.length ≤ g_i.length ∧ chk = true ∧ 32 ≤ b.toNat) ∧
    (ct.decryptGivenGroth16Vk chk sk dk vk b = .panic ↔ vk.gamma_abc_g1 = [] ∨
      dk.V_2.length = dk.V_1.length ∧ ct.enc_chunks.length = dk.V_1.length % 256 ∧
        ct.enc_chunks.length < vk.gamma_abc_g1.length ∧ chk = true ∧ 32 ≤ b.toNat) := by
  have key : ∀ g_i, ct.decrypt chk sk dk g_i b = .panic ↔
      dk.V_2.length = dk.V_1.length ∧ ct.enc_chunks.length = dk.V_1.length % 256 ∧
        ct.enc_chunks.length ≤ g_i.length ∧ chk = true ∧ 32 ≤ b.toNat := by
    intro g_i
    rw [← C85_decrypt_to_chunks chk ct.X_r ct.enc_chunks sk dk g_i b]
    unfold Ciphertext.decrypt Verif.decrypt
    rw [bind_panic_iff]
    refine or_iff_left ?_
    rintro ⟨⟨ds, nu⟩, h1, h2⟩
    rw [bind_panic_iff] at h2
    rcases h2 with h2 | ⟨_, -, h2⟩
    · unfold compose at h2
      split_ifs at h2 with q1 q2
      subst q1
      rw [bind_panic_iff] at h2
      rcases h2 with h2 | ⟨_, -, h2⟩
      · obtain ⟨bs, h3, -⟩ := nibblePairs_horner chk (ds.length / 2) ds (by omega)
          (fun d hd => decryptToChunks_small h1 d hd)
        rw [h3] at h2
        cases h2
      · cases h2
    · cases h2
  refine ⟨key g_i, ?_⟩
  unfold Ciphertext.decryptGivenGroth16Vk getGsForEncryption
  cases hv : vk.gamma_abc_g1 with
  | nil => simp
  | cons g gs =>
    simp only [Res.ok_bind, reduceCtorEq, false_or, List.length_cons, Nat.lt_succ_iff]
    exact key gs

/-- **C85** (decryption after re-encryption) aborts iff the chunk size is 32 or more, in builds with overflow
checks, and there are enough bases. -/
theorem C85_decrypt_reencrypted (chk : Bool) (c_0 : E.G1) (c : List E.G1) (sk : SecretKey E) (g_i : List E.G1)
    (b : UInt8) :
    decryptAfterReEncryption chk c_0 c sk g_i b = .panic ↔ c.length ≤ g_i.length ∧ chk = true ∧ 32 ≤ b.toNat := by
  obtain ⟨h1, h2, h3⟩ := C36_decrypt_after_cases chk c_0 c sk g_i b
  by_cases hg : c.length ≤ g_i.length
  · by_cases hb : b.toNat < 32
    · exact ⟨fun h => absurd h (h2 hg hb).2.2, fun h => by omega⟩
    · obtain ⟨h4, h5⟩ := h3 hg (by omega)
      cases chk with
      | true => exact ⟨fun _ => ⟨hg, rfl, by omega⟩, fun _ => h4⟩
      | false =>
        rw [h5]
        have hm : (UInt8.ofNat (b.toNat % 32)).toNat < 32 := by
          rw [UInt8.toNat_ofNat']; omega
        exact ⟨fun h => absurd h ((C36_decrypt_after_cases false c_0 c sk g_i _).2.1 hg hm).2.2,
          fun h => by simp at h⟩
  · rw [h1 (by omega)]
    exact ⟨(by intro h; cases h), fun h => absurd h.1 hg⟩

/-- **C85** (message-level encryption) `encrypt` aborts iff the message decomposes and the key has consistent
lengths, 256 or more positions, and as many as there are chunks modulo 256. -/
theorem C85_encrypt (R : RngCore E) (st : R.σ) (m : E.Fr) (ek : EncryptionKey E) (g_i : List E.G1) (b : UInt8) :
    encrypt R st m ek g_i b = .panic ↔ ∃ d, decompose (K := E.fr) m b = .ok d ∧
      WellFormed ek ∧ 256 ≤ ek.X.length ∧ d.length = ek.X.length % 256 ∧ d.length ≤ g_i.length := by
  have hiff : encrypt R st m ek g_i b = .panic ↔ ∃ d, decompose (K := E.fr) m b = .ok d ∧
      encryptDecomposedMessage R st d ek g_i = .panic := by
    constructor
    · intro h
      have h0 := h
      unfold encrypt at h
      rw [bind_panic_iff] at h
      rcases h with h | ⟨d, hd, h⟩
      · unfold decompose at h
        dsimp only at h
        split_ifs at h
      · have hb : Supported b := by
          unfold decompose at hd
          dsimp only at hd
          unfold Supported
          split_ifs at hd with q1 q2 q3
          · exact .inl q1
          · exact .inr (.inl q2)
          · exact .inr (.inr q3)
        rw [bind_panic_iff] at h
        rcases h with h | ⟨⟨⟨v, r⟩, st'⟩, he, -⟩
        · exact ⟨d, hd, h⟩
        · obtain ⟨d', hd', -, h2⟩ := C14_encrypt_splits R st m ek g_i b hb
          rw [hd] at hd'
          cases hd'
          obtain ⟨ct, -, h3⟩ := h2 v r st' he
          rw [h0] at h3
          cases h3
    · rintro ⟨d, hd, h⟩
      unfold encrypt
      rw [hd, Res.ok_bind, h]
      rfl
  rw [hiff]
  simp only [C85_encrypt_chunks]

theorem batchShapes_cases (k : ℕ) (cts : List (Ciphertext E)) :
    batchShapes k cts ≠ .panic ∧ (batchShapes k cts = .ok () ↔ ∀ ct ∈ cts, ct.enc_chunks.length = k) := by
  induction cts with
  | nil => simp [batchShapes]
  | cons c cs ih =>
    unfold batchShapes
    by_cases h : c.enc_chunks.length = k
    · rw [if_neg (by simpa using h)]
      exact ⟨ih.1, by simp [h, ih.2]⟩
    · rw [if_pos h]
      exact ⟨by simp, by simp [h]⟩

/-- **C85** (batch commitment check) aborts iff the number of coefficients differs from the number of ciphertexts,
or the key and all ciphertexts have consistent lengths and either there is no ciphertext or the key has 256 or more
positions. -/
theorem C85_verify_batch (cts : List (Ciphertext E)) (rp : List E.Fr) (ek : PreparedEncryptionKey E)
    (gens : PreparedEncryptionGens E) :
    verifyCommitmentsInBatch cts rp ek gens = .panic ↔ rp.length ≠ cts.length ∨
      ek.Y.length = ek.X.length ∧ ek.Z.length = ek.X.length + 1 ∧
        (∀ ct ∈ cts, ct.enc_chunks.length = ek.X.length % 256) ∧ (cts = [] ∨ 256 ≤ ek.X.length) := by
  unfold verifyCommitmentsInBatch PreparedEncryptionKey.supportedChunksCount encKeyChunks
  by_cases h0 : rp.length = cts.length
  swap
  · rw [if_pos h0]
    exact ⟨fun _ => .inl h0, fun _ => rfl⟩
  rw [if_neg (by simpa using h0)]
  simp only [h0, ne_eq, not_true_eq_false, false_or]
  by_cases h1 : ek.Y.length = ek.X.length
  · by_cases h2 : ek.Z.length = ek.X.length + 1
    · rw [if_neg (by simpa using h1), if_neg (by simpa using h2), Res.ok_bind]
      have hcnt : (UInt8.ofNat ek.X.length).toNat = ek.X.length % 256 := by simp
      simp only [hcnt]
      obtain ⟨hs1, hs2⟩ := batchShapes_cases (ek.X.length % 256) cts
      by_cases h3 : ∀ ct ∈ cts, ct.enc_chunks.length = ek.X.length % 256
      · rw [hs2.mpr h3, Res.ok_bind]
        cases hc : cts with
        | nil =>
          simp only [true_or, and_true]
          refine ⟨fun _ => ⟨h1, h2, by simp⟩, fun _ => ?_⟩
          unfold getG1ForBatchChecks
          rfl
        | cons ct0 rest =>
          have hg1 : ∃ a, getG1ForBatchChecks (ct0 :: rest) rp = .ok a ∧ a.length = ek.X.length % 256 + 2 := by
            have hlen : rp.length = (ct0 :: rest).length := by rw [h0, hc]
            have hct0 : ct0.enc_chunks.length = ek.X.length % 256 := h3 ct0 (by simp [hc])
            unfold getG1ForBatchChecks
            rw [show idx (ct0 :: rest) 0 = .ok ct0 from rfl, Res.ok_bind]
            have hdef : Ciphertext E := ct0
            have e1 : ∀ f : Ciphertext E → E.G1, mapRes (fun i => do
                let ct ← idx (ct0 :: rest) i
                return f ct) (List.range rp.length) = .ok (tab rp.length fun i => f ((ct0 :: rest).getD i ct0)) := by
              intro f
              apply mapRes_range_ok
              intro i hi
              rw [idx_ok ct0 (by omega)]
              rfl
            have e2 : mapRes (fun j => do
                let bases ← mapRes (fun i => do
                  let ct ← idx (ct0 :: rest) i
                  idx ct.enc_chunks j) (List.range rp.length)
                return msmBigint bases (rp.map (intoBigint (K := E.fr)))) (List.range ct0.enc_chunks.length) =
                .ok (tab ct0.enc_chunks.length fun j => msmBigint (tab rp.length fun i =>
                  ((ct0 :: rest).getD i ct0).enc_chunks.getD j 0) (rp.map (intoBigint (K := E.fr)))) := by
              apply mapRes_range_ok
              intro j hj
              rw [mapRes_range_ok (g := fun i => ((ct0 :: rest).getD i ct0).enc_chunks.getD j 0)]
              · rfl
              · intro i hi
                rw [idx_ok ct0 (by omega), Res.ok_bind, idx_ok 0]
                have hm : (ct0 :: rest).getD i ct0 ∈ cts := by
                  rw [hc, List.getD_eq_getElem?_getD, List.getElem?_eq_getElem (by omega)]
                  exact List.getElem_mem _
                rw [h3 _ hm]
                omega
            dsimp only
            rw [e1 (fun ct => ct.X_r), Res.ok_bind, e2, Res.ok_bind, e1 (fun ct => ct.commitment), Res.ok_bind]
            refine ⟨_, rfl, ?_⟩
            simp only [List.length_append, List.length_cons, List.length_nil, length_tab, hct0]
            omega
          obtain ⟨a, ha, hal⟩ := hg1
          rw [ha, Res.ok_bind]
          unfold getG2ForCommitmentChecks
          obtain ⟨z0, Z, hZ⟩ : ∃ z0 Z, ek.Z = z0 :: Z := by
            cases h : ek.Z with
            | nil => rw [h] at h2; simp at h2
            | cons z Z => exact ⟨z, Z, rfl⟩
          rw [hZ] at h2 ⊢
          rw [show idx (z0 :: Z) 0 = .ok z0 from rfl, Res.ok_bind]
          simp only [Res.pure_eq, Res.ok_bind, List.tail_cons]
          unfold Engine.multiPairing
          simp only [List.length_cons, List.length_append, List.length_nil] at h2 ⊢
          by_cases h4 : 256 ≤ ek.X.length
          · rw [if_neg (by omega)]
            simp only [Res.panic_bind, true_iff]
            exact ⟨h1, h2, by rw [← hc]; exact h3, .inr h4⟩
          · rw [if_pos (by omega), Res.ok_bind]
            constructor
            · intro h
              split_ifs at h
            · rintro ⟨-, -, -, h | h⟩
              · cases h
              · exact absurd h h4
      · have : ∃ e, batchShapes (ek.X.length % 256) cts = .err e := by
          cases hx : batchShapes (ek.X.length % 256) cts with
          | ok u => exact absurd (hs2.mp hx) h3
          | err e => exact ⟨e, rfl⟩
          | panic => exact absurd hx hs1
        obtain ⟨e, he⟩ := this
        rw [he]
        exact ⟨(by intro h; cases h), fun h => absurd h.2.2.1 h3⟩
    · rw [if_neg (by simpa using h1), if_pos (by simpa using h2)]
      exact ⟨(by intro h; cases h), fun h => absurd h.2.1 h2⟩
  · rw [if_pos (by simpa using h1)]
    exact ⟨(by intro h; cases h), fun h => absurd h.1 h1⟩

/-- **C85** (what an outsider can send) For keys made by `keygen` or by distributed key generation, no ciphertext,
of whatever lengths, and no proof makes `verify_commitment`, `verify_proof`, `verify_commitment_and_proof` or
`decrypt` (chunk size below 32) abort: each call returns success or an error. -/
theorem C85_outsider (ek : EncryptionKey E) (b : UInt8) (gens : EncryptionGens E) (g_i : List E.G1) (D C : E.G1)
    (h : FromSetup ek b gens g_i D C) (vk : VerifyingKey E) (hvk : vk.gamma_abc_g1 ≠ [])
    (ct : Ciphertext E) (proof : Proof E) :
    ct.verifyCommitment ek.prepare gens.prepare ≠ .panic ∧
    verifyProof (prepareVerifyingKey vk) proof ct ≠ .panic ∧
    ct.verifyCommitmentAndProof proof (prepareVerifyingKey vk) ek.prepare gens.prepare ≠ .panic ∧
    ∀ (chk : Bool) (sk : SecretKey E) (dk : PreparedDecryptionKey E) (bases : List E.G1) (b' : UInt8), b'.toNat < 32 →
      ct.decrypt chk sk dk bases b' ≠ .panic ∧ ct.decryptGivenGroth16Vk chk sk dk vk b' ≠ .panic := by
  obtain ⟨n, s, t, hn, hg, rfl⟩ := fromSetup_inv h
  have hlt := n.toNat_lt
  have h1 : ct.verifyCommitment (encKey n.toNat s t (fun i => g_i.getD i 0) D C gens.H).prepare gens.prepare
      ≠ .panic := by
    intro hp
    have := ((C85_verify_commitment ct _ _).mp hp).2.2.1
    simp only [EncryptionKey.prepare, encKey, length_tab] at this
    omega
  refine ⟨h1, ?_, ?_, ?_⟩
  · intro hp
    exact hvk ((C85_verify_proof ct proof _ (encKey n.toNat s t (fun i => g_i.getD i 0) D C gens.H).prepare
      gens.prepare).1.mp hp)
  · intro hp
    rcases (C85_verify_proof ct proof _ _ _).2.mp hp with hp | ⟨-, hp⟩
    · exact h1 hp
    · exact hvk hp
  · intro chk sk dk bases b' hb'
    constructor
    · intro hp
      have := ((C85_decrypt chk ct sk dk bases vk b').1.mp hp).2.2.2.2
      omega
    · intro hp
      rcases (C85_decrypt chk ct sk dk bases vk b').2.mp hp with hp | hp
      · exact hvk hp
      · omega

/-- **C85** (checked ciphertexts) If every ciphertext sent in passes `verify_commitment` under a distributed key,
then aggregation, re-encryption by all parties and the decryption at the destination do not abort, whatever the
ciphertexts contain and whoever made them. -/
theorem C85_checked_pipeline (parties : List (Party E)) (b : UInt8) (gens : EncryptionGens E) (g_i : List E.G1)
    (D C : E.G1) (sks : List (SecretKeyST E)) (ek : EncryptionKey E)
    (hdkg : dkg parties b gens g_i D C = .ok (sks, ek)) (cts : List (Ciphertext E)) (hne : cts ≠ [])
    (hv : ∀ ct ∈ cts, ct.verifyCommitment ek.prepare gens.prepare = .ok ())
    (ekd : FEncryptionKeyDest E) (rp : List (SecretKeyST E × Party E)) (hrp : (rp.map (·.1)).Perm sks) :
    ∃ agg : Ciphertext E, aggregate (cts.map flat) = .ok (flat agg) ∧
      ∃ g_r cs, reEncryptAll gens agg.X_r agg.enc_chunks ekd rp = .ok (g_r :: cs) ∧
        ∀ (chk : Bool) (skd : SecretKey E) (b' : UInt8), b'.toNat < 32 →
          (∃ ds, decryptAfterReEncryption chk g_r cs skd g_i b' = .ok ds) ∨
          decryptAfterReEncryption chk g_r cs skd g_i b' = .err .couldNotFindDiscreteLog := by
  obtain ⟨hp, n, hn, hg⟩ := dkg_ok_inv hdkg
  rw [dkg_eq parties hp gens g_i D C hn hg] at hdkg
  simp only [Res.ok.injEq, Prod.mk.injEq] at hdkg
  obtain ⟨rfl, rfl⟩ := hdkg
  have hlt := n.toNat_lt
  generalize n.toNat = N at *
  have hlen : ∀ ct ∈ cts, ct.enc_chunks.length = N := by
    intro ct hct
    have h := hv ct hct
    unfold Ciphertext.verifyCommitment verifyCiphertextCommitment at h
    obtain ⟨cnt, hc, h⟩ := Res.bind_eq_ok.mp h
    have hcnt : cnt.toNat = N := by
      unfold PreparedEncryptionKey.supportedChunksCount encKeyChunks EncryptionKey.prepare at hc
      simp only [encKey, length_tab, List.length_map, ne_eq, not_true_eq_false, if_false, Res.ok.injEq] at hc
      rw [← hc, UInt8.toNat_ofNat']
      omega
    dsimp only at h
    split_ifs at h with h1
    omega
  have hagg : aggregate (cts.map flat) = .ok (tab (N + 2) fun i => ((cts.map flat).map (·.getD i 0)).sum) := by
    refine aggregate_eq _ (by simpa using hne) (N + 2) ?_
    intro v hv'
    obtain ⟨ct, hct, rfl⟩ := List.mem_map.mp hv'
    simp [flat, hlen ct hct]
  generalize hf : (fun i => ((cts.map flat).map (·.getD i 0)).sum) = f at hagg
  refine ⟨⟨f 0, tab N (fun i => f (i + 1)), f (N + 1)⟩, ?_, ?_⟩
  · rw [hagg]
    unfold flat
    rw [show N + 2 = (N + 1) + 1 by omega, tab_succ, tab_succ_last]
  · have hrne : rp ≠ [] := by
      rintro rfl
      have := hrp.length_eq
      simp only [List.map_nil, List.length_nil, List.length_map] at this
      exact hp (List.length_eq_zero_iff.mp this.symm)
    refine ⟨_, _, reEncryptAll_eq gens _ _ ekd rp hrne ?_, ?_⟩
    · intro P hP
      have : P.1 ∈ parties.map (partySK N) := hrp.mem_iff.mp (List.mem_map.mpr ⟨P, hP, rfl⟩)
      obtain ⟨Q, -, hQ⟩ := List.mem_map.mp this
      rw [← hQ]
      simp [partySK]
    · intro chk skd b' hb'
      have hall := (C36_decrypt_after_cases chk (rhoSum rp • gens.G) (tab (tab N fun i => f (i + 1)).length fun i =>
        (tab N fun i => f (i + 1)).getD i 0 + (-(sSum rp i • f 0) + rhoSum rp • ekd.pk)) skd g_i b').2.1
        (by simpa using hg) hb'
      generalize hx : decryptAfterReEncryption chk _ _ skd g_i b' = x at hall ⊢
      cases x with
      | ok v => exact .inl ⟨v, rfl⟩
      | err e => exact .inr (by rw [((hall.2.1 e).mp rfl).1])
      | panic => exact absurd rfl hall.2.2

/-- **C85** (unchecked ciphertexts) without the check, one ciphertext with fewer chunks than the others that is
not the first makes the aggregation abort. -/
theorem C85_unchecked_aggregate (x : List E.G1) (pre post : List (List E.G1)) (bad : List E.G1)
    (hpre : ∀ v ∈ pre, v.length = x.length) (hbad : bad.length < x.length) :
    aggregate (x :: (pre ++ bad :: post)) = .panic := by
  show foldRes addCts x (pre ++ bad :: post) = .panic
  induction pre generalizing x with
  | nil =>
    simp only [List.nil_append, foldRes]
    rw [show addCts x bad = .panic from (addPos_panic_iff x bad).mpr hbad]
    rfl
  | cons v pre ih =>
    simp only [List.cons_append, foldRes]
    have hv : v.length = x.length := hpre v (by simp)
    obtain ⟨y, hy, hyl⟩ : ∃ y, addCts x v = .ok y ∧ y.length = x.length := by
      refine ⟨_, mapRes_range_ok (g := fun i => x.getD i 0 + v.getD i 0) fun i hi => ?_, length_tab _ _⟩
      rw [idx_ok 0 hi, Res.ok_bind, idx_ok 0 (by omega)]
      rfl
    rw [hy, Res.ok_bind]
    exact ih y (fun w hw => by rw [hyl]; exact hpre w (by simp [hw])) (by omega)

end
/-- the hypotheses of `C85_outsider` and `C85_checked_pipeline` are met by the keys and ciphertexts of `Fix`, and
the aborting cases occur: a key with 256 positions, an empty verifying key, a short ciphertext -/
example : (∃ agg : Ciphertext Fix.E, aggregate ([Fix.dct1, Fix.dct1].map flat) = .ok (flat agg)) ∧
    (⟨(0 : Fix.F), [], (0 : Fix.F)⟩ : Ciphertext Fix.E).verifyCommitment Fix.ek.prepare Fix.gens.prepare ≠ .panic ∧
    addCts (E := Fix.E) (flat Fix.ct1) (flat Fix.ct1).tail = .panic ∧
    (⟨(0 : Fix.F), [], (0 : Fix.F)⟩ : Ciphertext Fix.E).verifyCommitment
      (encKey (E := Fix.E) 256 (fun _ => (1 : Fix.F)) (fun _ => (1 : Fix.F)) (fun _ => (1 : Fix.F)) Fix.D Fix.C
        (1 : Fix.F)).prepare Fix.gens.prepare = .panic := by
  refine ⟨?_, ?_, ?_, ?_⟩
  · obtain ⟨agg, h, -⟩ := C85_checked_pipeline Fix.parties 16 Fix.gens Fix.gi Fix.D Fix.C _ _ Fix.dkg_ok
      [Fix.dct1, Fix.dct1] (by simp) (by
        intro ct hct
        have : ct = Fix.dct1 := by simpa using hct
        subst this
        decide +kernel) Fix.ekd Fix.rp Fix.rp_perm
    exact ⟨agg, h⟩
  · exact (C85_outsider Fix.ek 16 Fix.gens Fix.gi Fix.D Fix.C Fix.fromSetup
      ⟨Fix.D, (1 : Fix.F), (1 : Fix.F), (1 : Fix.F), [Fix.D]⟩ (by simp) _ ⟨Fix.D, (1 : Fix.F), Fix.D⟩).1
  · exact (addPos_panic_iff _ _).mpr (by decide +kernel)
  · exact (C85_verify_commitment _ _ _).mpr (by simp [EncryptionKey.prepare, encKey])

end Verif
