import Verif.Model.TestPrograms
import Verif.Props.Setup
import Verif.Props.Verified
import Verif.Props.Commit
import Verif.Props.Hash

namespace Verif
open Spec
variable {E : Engine}

namespace Tst

theorem assertEq_ok {α : Type} [DecidableEq α] {a b : α} (h : a = b) : assertEq a b = .ok () := if_pos h

theorem unwrap_ok {α : Type} (a : α) : unwrapRes (.ok a) = .ok a := rfl

theorem mask_toNat : ∀ k : Fin 17, (((1 : UInt32) <<< (UInt8.ofNat k.val).toUInt32) - 1).toNat = 2 ^ k.val - 1 := by decide

theorem genMessages_spec (R : TestRng E) (b : UInt8) (hb : b.toNat ≤ 16) (n : ℕ) (st : R.σ) :
    (genMessages R b n st).1.length = n ∧ ∀ x ∈ (genMessages R b n st).1, x.toNat ≤ 2 ^ b.toNat - 1 := by
  induction n generalizing st with
  | zero => exact ⟨rfl, by simp [genMessages]⟩
  | succ n ih =>
    obtain ⟨h1, h2⟩ := ih (R.u32 st).2
    refine ⟨by simp [genMessages, h1], ?_⟩
    intro x hx
    simp only [genMessages, List.mem_cons] at hx
    rcases hx with rfl | hx
    · have := mask_toNat ⟨b.toNat, by omega⟩
      simp only [UInt8.ofNat_toNat] at this
      rw [UInt32.toNat_toUInt16, UInt32.toNat_and, this]
      exact (Nat.mod_le _ _).trans Nat.and_le_right
    · exact h2 x hx

theorem g1s_length (R : RngCore E) (n : ℕ) (st : R.σ) : (g1s R n st).1.length = n := by
  induction n generalizing st with
  | zero => rfl
  | succ n ih => simp [g1s, ih]

theorem slices_flat (ct : Ciphertext E) (n : ℕ) (h : ct.enc_chunks.length = n) :
    slices n (flat ct) = .ok (ct.X_r, ct.enc_chunks) := by
  subst h
  unfold slices flat
  simp

theorem idx_flat (ct : Ciphertext E) (n : ℕ) (h : ct.enc_chunks.length = n) : idx (flat ct) (n + 1) = .ok ct.commitment := by
  subst h
  unfold idx flat
  simp

theorem slices_cons (x : E.G1) (cs : List E.G1) (n : ℕ) (h : cs.length = n) : slices n (x :: cs) = .ok (x, cs) := by
  subst h
  unfold slices
  simp

end Tst
open Tst

theorem testParams_ok (R : RngCore E) (b n : UInt8) (hn : chunksCount E.fr b = .ok n) (st : R.σ) :
    ∃ gens g_i D C st', testParams R b st = .ok ((gens, g_i, D, C), st') ∧ g_i.length = n.toNat := by
  unfold testParams
  rw [hn]
  exact ⟨_, _, _, _, _, rfl, g1s_length _ _ _⟩


theorem twoParty_ok (R : RngCore E) (b : UInt8) (gens : EncryptionGens E) (g_i : List E.G1) (D C : E.G1) (st : R.σ)
    (n : UInt8) (hn : chunksCount E.fr b = .ok n) (hl : n.toNat ≤ g_i.length) :
    ∃ sk1 sk2 ek st1 st', twoPartyKeygen R b gens g_i D C st = .ok ((sk1, sk2, ek), st') ∧
      dkg [⟨R, st⟩, ⟨R, st1⟩] b gens g_i D C = .ok ([sk1, sk2], ek) := by
  obtain ⟨sk1, ek1, st1, h1, -⟩ := (C07_fkeygenPartial R st b n gens g_i D C hn).1 hl
  obtain ⟨sk2, ek2, st2, h2, -⟩ := (C07_fkeygenPartial R st1 b n gens g_i D C hn).1 hl
  obtain ⟨sks, ek, h, -⟩ := C09_dkg_equals_keygen [⟨R, st⟩, ⟨R, st1⟩] (by simp) b n gens g_i D C hn hl
  have h' := h
  unfold dkg dkgRound1 at h
  simp only [mapRes, h1, h2, Res.ok_bind, Res.pure_eq, List.map_cons, List.map_nil] at h
  obtain ⟨ek3, e1, h⟩ := Res.bind_eq_ok.mp h
  obtain ⟨ps, e2, h⟩ := Res.bind_eq_ok.mp h
  obtain ⟨p1, e3, h⟩ := Res.bind_eq_ok.mp h
  obtain ⟨p11, e4, e2⟩ := Res.bind_eq_ok.mp e2
  obtain ⟨ps2, e5, e2⟩ := Res.bind_eq_ok.mp e2
  obtain ⟨p12, e6, e5⟩ := Res.bind_eq_ok.mp e5
  simp only [Res.ok.injEq, Prod.mk.injEq] at h e5 e2
  obtain ⟨rfl, rfl⟩ := h
  subst e5 e2
  refine ⟨sk1, sk2, _, st1, st2, ?_, h'⟩
  unfold twoPartyKeygen
  rw [h1]
  simp only [unwrap_ok, Res.ok_bind]
  rw [h2]
  simp only [unwrap_ok, Res.ok_bind, e1, e4, e6, e3, Res.pure_eq]

theorem reEncryptShare_state {R : RngCore E} {st st' : R.σ} {gens : EncryptionGens E} {c_0 : E.G1} {c : List E.G1}
    {ekd : FEncryptionKeyDest E} {sk : SecretKeyST E} {x : List E.G1 × E.G1}
    (h : reEncryptShare R st gens c_0 c ekd sk = .ok (x, st')) : st' = (R.fr st).2 := by
  unfold reEncryptShare at h
  dsimp only at h
  obtain ⟨w, -, h⟩ := Res.bind_eq_ok.mp h
  simp only [Res.pure_eq, Res.ok.injEq, Prod.mk.injEq] at h
  exact h.2.symm

theorem delivery_eq (chk : Bool) (R : RngCore E) (gens : EncryptionGens E) (g_i : List E.G1) (ekd : FEncryptionKeyDest E)
    (skd : SecretKey E) (sk1 sk2 : SecretKeyST E) (n : ℕ) (b' : Res UInt8) (v : List E.G1) (st : R.σ) (c_0 : E.G1)
    (c : List E.G1) (g_r : E.G1) (cs : List E.G1) (hv : slices n v = .ok (c_0, c)) (hc : c.length = n)
    (h : reEncryptAll gens c_0 c ekd [(sk1, ⟨R, st⟩), (sk2, ⟨R, (R.fr st).2⟩)] = .ok (g_r :: cs)) :
    twoPartyDelivery chk R gens g_i ekd skd sk1 sk2 n b' v st =
      (b' >>= fun b' => unwrapRes (decryptAfterReEncryption chk g_r cs skd g_i b')) := by
  unfold reEncryptAll at h
  obtain ⟨shares, e1, h⟩ := Res.bind_eq_ok.mp h
  obtain ⟨⟨w, gr⟩, e2, hcw⟩ := Res.bind_eq_ok.mp h
  dsimp only at hcw
  simp only [mapRes] at e1
  obtain ⟨s1, f1, e3⟩ := Res.bind_eq_ok.mp e1
  obtain ⟨⟨x1, st1⟩, f1a, f1b⟩ := Res.bind_eq_ok.mp f1
  obtain ⟨t, f2, e4⟩ := Res.bind_eq_ok.mp e3
  obtain ⟨s2, f3, f4⟩ := Res.bind_eq_ok.mp f2
  obtain ⟨⟨x2, st2⟩, f3a, f3b⟩ := Res.bind_eq_ok.mp f3
  clear e1 e3 f1 f2 f3
  simp only [Res.pure_eq, Res.ok_bind, Res.ok.injEq] at f1b f3b f4 e4
  subst f1b f3b f4 e4
  obtain rfl := reEncryptShare_state f1a
  simp only [combineShares, foldRes] at e2
  obtain ⟨u, e5, e6⟩ := Res.bind_eq_ok.mp e2
  cases e6
  have hlen : cs.length = n := by
    have hcw2 := hcw
    unfold combineCtWithW at hcw2
    obtain ⟨cs', h1, h2⟩ := Res.bind_eq_ok.mp hcw2
    simp only [Res.pure_eq, Res.ok.injEq, List.cons.injEq] at h2
    obtain ⟨-, rfl⟩ := h2
    rw [(mapRes_range_eq_ok_iff.mp h1).1, hc]
  unfold twoPartyDelivery
  rw [hv]
  simp only [Res.ok_bind]
  rw [f1a]
  simp only [unwrap_ok, Res.ok_bind]
  rw [f3a]
  simp only [unwrap_ok, Res.ok_bind]
  rw [e5]
  simp only [unwrap_ok, Res.ok_bind]
  rw [hcw]
  simp only [unwrap_ok, Res.ok_bind]
  rw [slices_cons _ _ _ hlen]
  rfl

theorem X_length {ek : EncryptionKey E} {b n : UInt8} {gens : EncryptionGens E} {g_i : List E.G1} {D C : E.G1}
    (hk : FromSetup ek b gens g_i D C) (hn : chunksCount E.fr b = .ok n) :
    ek.X.length = n.toNat ∧ n.toNat ≤ g_i.length ∧ WellFormed ek := by
  obtain ⟨n', s, t, hn', hgn, hek⟩ := fromSetup_inv hk
  rw [hn] at hn'
  cases hn'
  exact ⟨by rw [hek]; simp [encKey], hgn, by rw [hek]; exact encKey_wf _ _ _ _ _ _ _⟩

/-! ### C119 -/

/-- **C119** The test `encrypt_decrypt` passes for every chunk size up to 16, on every field whose chunks fit it, for every random
number generator and state, except on degenerate draws of the generators. -/
theorem C119_encrypt_decrypt (chk : Bool) (R : TestRng E) (b n : UInt8) (hb : b.toNat ≤ 16)
    (hn : chunksCount E.fr b = .ok n) (hp : 65535 < E.fr.p) (st : R.σ) :
    ∃ gens g_i sk ek dk st', encSetup R.toRngCore b (genMessages R b n.toNat st).2 = .ok ((gens, g_i, sk, ek, dk), st') ∧
      ((∀ g ∈ g_i, g ≠ 0) → (∀ V ∈ dk.V_2, V ≠ 0) → testEncryptDecrypt chk R b st = .ok ()) := by
  obtain ⟨hm1, hm2⟩ := genMessages_spec R b hb n.toNat st
  obtain ⟨gens, g_i, D, C, st1, h1, hl⟩ := testParams_ok R.toRngCore b n hn (genMessages R b n.toNat st).2
  obtain ⟨sk, ek, dk, st2, h2, hX, -, -, hV1, hV2, -⟩ := (C07_keygen R.toRngCore st1 b n gens g_i D C hn).1 hl.ge
  have hs : encSetup R.toRngCore b (genMessages R b n.toNat st).2 = .ok ((gens, g_i, sk, ek, dk), st2) := by
    unfold encSetup
    rw [h1]
    simp only [Res.ok_bind]
    rw [h2]
    rfl
  refine ⟨gens, g_i, sk, ek, dk, st2, hs, fun hgi hV => ?_⟩
  have hb0 : 1 ≤ b.toNat := by
    by_contra hc
    have : b = 0 := UInt8.toNat_inj.mp (by simp; omega)
    subst this
    rw [(C07_zero_size R.toRngCore st1 gens g_i D C).1] at h2
    cases h2
  obtain ⟨ct, r, st3, h3, h4⟩ := C17_decrypt_encrypt_chunks R.toRngCore st1 st2 b gens g_i D C sk ek dk h2 (by omega) hgi hV
    R.toRngCore st2 (genMessages R b n.toNat st).1 (by rw [hm1, hX])
    (fun x hx => ⟨hm2 x hx, lt_of_le_of_lt (by have := x.toNat_lt; omega) hp⟩) chk
  obtain ⟨ct', h5, h6⟩ := (C15_honest_ciphertexts_verify ek b gens g_i D C (.inl ⟨_, _, _, _, _, h2⟩) R.toRngCore st2 st3 r).1
    _ _ h3
  have := flat_inj h5
  subst this
  have hclen : ct.enc_chunks.length = n.toNat := by
    obtain ⟨-, -, -, -, hv, -⟩ := encryptDecomposed_inv h3
    rw [flat_inj hv, ← hX]
    simp [cipher]
  obtain ⟨pw, h7⟩ := C21_table_exists chk dk b g_i (by rw [hV1, hV2]) (by omega) (by rw [hV1, hl])
  have h8 := (C21_table_same_result chk chk dk.prepare g_i b hb0 (by omega) pw h7 ct.X_r ct.enc_chunks sk).1
  unfold testEncryptDecrypt
  rw [hn]
  simp only [Res.ok_bind]
  generalize genMessages R b n.toNat st = gm at *
  obtain ⟨m, sm⟩ := gm
  dsimp only at *
  rw [hs]
  simp only [Res.ok_bind]
  rw [h3]
  simp only [unwrap_ok, Res.ok_bind]
  rw [assertEq_ok (by simp [flat, hclen, hm1])]
  simp only [Res.ok_bind]
  rw [slices_flat ct m.length (by rw [hclen, hm1]), idx_flat ct m.length (by rw [hclen, hm1])]
  simp only [Res.ok_bind]
  have h6' : verifyCiphertextCommitment ct.X_r ct.enc_chunks ct.commitment ek.prepare gens.prepare = .ok () := h6
  rw [h6', h4, h7]
  simp only [unwrap_ok, Res.ok_bind]
  rw [assertEq_ok rfl, h8, h4]
  simp only [unwrap_ok, Res.ok_bind]
  rw [assertEq_ok rfl]

/-- **C119** The test `encrypt_decrypt_distributed` passes likewise. -/
theorem C119_encrypt_decrypt_distributed (chk : Bool) (R : TestRng E) (b n : UInt8) (hb : b.toNat ≤ 16)
    (hn : chunksCount E.fr b = .ok n) (hp : 65535 < E.fr.p) (st : R.σ) :
    ∃ gens g_i ek ekd skd sk1 sk2 st',
      encSetupDistributed R.toRngCore b (genMessages R b n.toNat st).2 = .ok ((gens, g_i, ek, ekd, skd, sk1, sk2), st') ∧
      ((∀ g ∈ g_i, g ≠ 0) → testEncryptDecryptDistributed chk R b st = .ok ()) := by
  obtain ⟨hm1, hm2⟩ := genMessages_spec R b hb n.toNat st
  obtain ⟨gens, g_i, D, C, st1, h1, hl⟩ := testParams_ok R.toRngCore b n hn (genMessages R b n.toNat st).2
  obtain ⟨sk1, sk2, ek, sta, st2, h2, hdkg⟩ := twoParty_ok R.toRngCore b gens g_i D C st1 n hn hl.ge
  obtain ⟨skd, ekd, st3, h3⟩ : ∃ skd ekd st3, fkeygenDest R.toRngCore st2 gens = .ok ((skd, ekd), st3) := ⟨_, _, _, rfl⟩
  have hs : encSetupDistributed R.toRngCore b (genMessages R b n.toNat st).2 = .ok ((gens, g_i, ek, ekd, skd, sk1, sk2), st3) := by
    unfold encSetupDistributed
    rw [h1]
    simp only [Res.ok_bind]
    rw [h2]
    simp only [Res.ok_bind]
    rw [h3]
    rfl
  refine ⟨gens, g_i, ek, ekd, skd, sk1, sk2, st3, hs, fun hgi => ?_⟩
  have hk : FromSetup ek b gens g_i D C := .inr ⟨_, _, hdkg⟩
  obtain ⟨hX, -, hw⟩ := X_length hk hn
  have h4 := encryptDecomposed_ok R.toRngCore st3 (genMessages R b n.toNat st).1 ek g_i hw (by rw [hX]; exact n.toNat_lt)
    (by rw [hX, hm1]) (by rw [hX, hl])
  obtain ⟨ct, h5, h6⟩ := (C15_honest_ciphertexts_verify ek b gens g_i D C hk R.toRngCore st3 _ _).1 _ _ h4
  have h6' : verifyCiphertextCommitment ct.X_r ct.enc_chunks ct.commitment ek.prepare gens.prepare = .ok () := h6
  have hclen : ct.enc_chunks.length = n.toNat := by
    rw [← flat_inj h5, ← hX]
    simp [cipher]
  generalize hst4 : after R.toRngCore st3 1 = st4 at h4
  obtain ⟨ct', g_r, cs, h7, h8, h9⟩ := C27_reencryption_delivers _ b gens g_i D C _ ek hdkg hgi R.toRngCore st2 st3 skd ekd h3
    R.toRngCore st3 _ _ _ _ h4 [(sk1, ⟨R.toRngCore, st4⟩), (sk2, ⟨R.toRngCore, (R.fr st4).2⟩)] (.refl _) chk b (by omega)
    (fun x hx => ⟨hm2 x hx, lt_of_le_of_lt (by have := x.toNat_lt; omega) hp⟩)
  rw [h5] at h7 h4
  have := flat_inj h7
  subst this
  have h10 := delivery_eq chk R.toRngCore gens g_i ekd skd sk1 sk2 n.toNat (.ok b) (flat ct) st4 ct.X_r ct.enc_chunks g_r cs
    (slices_flat ct _ hclen) hclen h8
  unfold testEncryptDecryptDistributed
  rw [hn]
  simp only [Res.ok_bind]
  generalize genMessages R b n.toNat st = gm at *
  obtain ⟨m, sm⟩ := gm
  dsimp only at *
  rw [hs]
  simp only [Res.ok_bind]
  rw [h4]
  simp only [unwrap_ok, Res.ok_bind]
  rw [assertEq_ok (by simp [flat, hclen, hm1])]
  simp only [Res.ok_bind]
  rw [hm1, slices_flat ct _ hclen, idx_flat ct _ hclen]
  simp only [Res.ok_bind]
  rw [h6', h10]
  simp only [unwrap_ok, Res.ok_bind]
  rw [h9]
  simp only [unwrap_ok, Res.ok_bind]
  rw [assertEq_ok rfl]

theorem assertEncKey_ok {ek : EncryptionKey E} {n : ℕ} (hX : ek.X.length = n) (hY : ek.Y.length = n)
    (hZ : ek.Z.length = n + 1) : assertEncKey ek n = .ok () := by
  have hw : WellFormed ek := ⟨by omega, by omega⟩
  obtain ⟨p1, p2, p3, -⟩ := C24_prepared_agrees ek (⟨0, [], []⟩ : DecryptionKey E) ⟨0, 0⟩
  have c1 : ek.supportedChunksCount = .ok (UInt8.ofNat n) := by rw [supportedChunks_eq ek hw, hX]
  have c2 : ek.validate = .ok () := by
    unfold EncryptionKey.validate
    rw [c1]
    rfl
  have q1 : ek.prepare.X.length = n := by simp [EncryptionKey.prepare, hX]
  have q2 : ek.prepare.Y.length = n := by simp [EncryptionKey.prepare, hY]
  have q3 : ek.prepare.Z.length = n + 1 := by simp [EncryptionKey.prepare, hZ]
  have q4 : ek.commitmentKey.length = n + 1 := by simp [EncryptionKey.commitmentKey, hY]
  have q5 : ek.commitmentKey.take n = ek.Y := by simp [EncryptionKey.commitmentKey, ← hY]
  have q6 : idx ek.commitmentKey n = .ok ek.P_1 := by simp [EncryptionKey.commitmentKey, idx, ← hY]
  unfold assertEncKey
  simp only [p1, p2, p3, c1, c2, q1, q2, q3, q4, q5, q6, hX, hY, hZ, assertEq_ok, unwrap_ok, Res.ok_bind]

/-- **C119** The test `keygen_works` passes for every chunk size and every field with an 8-bit number of chunks, for every random
number generator and state. -/
theorem C119_keygen_works (R : RngCore E) (b n : UInt8) (hn : chunksCount E.fr b = .ok n) (st : R.σ) :
    testKeygen R b st = .ok () := by
  obtain ⟨gens, g_i, D, C, st1, h1, hl⟩ := testParams_ok R b n hn st
  obtain ⟨sk, ek, dk, st2, h2, hX, hY, hZ, hV1, hV2, -, hv, -, hc, -⟩ := (C07_keygen R st1 b n gens g_i D C hn).1 hl.ge
  obtain ⟨-, -, -, p1, p2, -⟩ := C24_prepared_agrees ek dk gens
  have q1 : dk.prepare.V_1.length = n.toNat := by simp [DecryptionKey.prepare, hV1]
  have q2 : dk.prepare.V_2.length = n.toNat := by simp [DecryptionKey.prepare, hV2]
  have e : UInt8.ofNat n.toNat = n := by simp
  unfold testKeygen
  rw [hn]
  simp only [Res.ok_bind]
  rw [h1]
  simp only [Res.ok_bind]
  rw [h2]
  simp only [unwrap_ok, Res.ok_bind]
  rw [assertEncKey_ok hX hY hZ]
  unfold assertDecKey
  simp only [p1, p2, hv, hc, q1, q2, hV1, hV2, e, assertEq_ok, unwrap_ok, Res.ok_bind]

/-- **C119** So does the test `keygen_dist`. -/
theorem C119_keygen_dist (R : RngCore E) (b n : UInt8) (hn : chunksCount E.fr b = .ok n) (st : R.σ) :
    testKeygenDist R b st = .ok () := by
  obtain ⟨gens, g_i, D, C, st1, h1, hl⟩ := testParams_ok R b n hn st
  obtain ⟨sk1, sk2, ek, sta, st2, h2, hdkg⟩ := twoParty_ok R b gens g_i D C st1 n hn hl.ge
  obtain ⟨hX, -, hw⟩ := X_length (.inr ⟨_, _, hdkg⟩) hn
  unfold testKeygenDist
  rw [hn]
  simp only [Res.ok_bind]
  rw [h1]
  simp only [Res.ok_bind]
  rw [h2]
  simp only [Res.ok_bind]
  exact assertEncKey_ok hX (hw.1.trans hX) (by rw [hw.2, hX])

/-- **C119** The test `commitment_key_creation` passes for every chunk size below 64 and every random number generator. -/
theorem C119_commitment_key_creation (chk : Bool) (R : RngCore E) (b n : UInt8) (hb : b.toNat < 64)
    (hn : chunksCount E.fr b = .ok n) (hn0 : n ≠ 0) (st : R.σ) : testCommitmentKey chk R b st = .ok () := by
  obtain ⟨-, -, h⟩ := C38_key_algorithms (K := E.fr) (R.g1 st).1 n hn0 b.toNat (2 ^ b.toNat)
  unfold testCommitmentKey
  rw [hn]
  simp only [Res.ok_bind]
  rw [if_pos hb]
  change (commitmentKeyNonPow2 E.fr (R.g1 st).1 n (2 ^ b.toNat) >>= _) = _
  rw [h]
  exact assertEq_ok rfl

/-- **C119** The test `setup_for_groth16_works` passes whenever the SRS can be generated. -/
theorem C119_setup_works (T : FftCfg E.Fr) (fuel : ℕ) (R : RngCore E) (b n : UInt8) (hn : chunksCount E.fr b = .ok n)
    (st : R.σ) (c0 : BitsizeCheckCircuit E.fr) (hc0 : BitsizeCheckCircuit.new (K := E.fr) b none none true = .ok c0)
    (x : ProvingKey E × R.σ)
    (hsrs : generateSrs T R fuel (ChunkedCommitmentGens.newUsingRng R (EncryptionGens.newUsingRng R st).2).2
      c0.generateConstraints (EncryptionGens.newUsingRng R st).1 = .ok x) : testSetup T fuel R b st = .ok () := by
  obtain ⟨pk, st1⟩ := x
  obtain ⟨sk, ek, dk, st2, h1, h2, h3, h4, h5, h6, -⟩ := (C49_setup_consistent T R fuel _ b n hn _ c0 hc0).1 _ _ hsrs
  have e : UInt8.ofNat n.toNat = n := by simp
  unfold testSetup
  rw [hn]
  simp only [Res.ok_bind]
  rw [h1]
  simp only [unwrap_ok, Res.ok_bind]
  simp only [h2, h3, h4, h5, h6, e, assertEq_ok, unwrap_ok, Res.ok_bind]


namespace Tst

/-- What `snarkSetup` computes. -/
theorem snarkSetup_inv {T : FftCfg E.Fr} {fuel : ℕ} {R : TestRng E} {b n : UInt8} {k : ℕ} {st st1 : R.σ}
    {gens : EncryptionGens E} {msgs : List UInt16} {srs : ProvingKey E}
    (h : snarkSetup T fuel R b k st = .ok ((gens, n, msgs, srs), st1)) :
    chunksCount E.fr b = .ok n ∧ (∃ s, msgs = (genMessages R b (k * n.toNat) s).1) ∧
    ∃ c0 s, BitsizeCheckCircuit.new (K := E.fr) b none none true = .ok c0 ∧
      generateSrs T R.toRngCore fuel s c0.generateConstraints gens = .ok (srs, st1) ∧
      ∃ g_i, getGsForEncryption srs.pk.vk = .ok g_i ∧ g_i.length = n.toNat := by
  unfold snarkSetup at h
  generalize EncryptionGens.newUsingRng R.toRngCore st = gs at h
  obtain ⟨gens', s0⟩ := gs
  dsimp only at h
  obtain ⟨n', hn, h2⟩ := Res.bind_eq_ok.mp h
  clear h
  generalize hgm : genMessages R b (k * n'.toNat) s0 = gm at h2
  obtain ⟨ms, s1⟩ := gm
  dsimp only at h2
  obtain ⟨c0, hc0, h3⟩ := Res.bind_eq_ok.mp h2
  clear h2
  obtain ⟨⟨srs', s2⟩, hs, h4⟩ := Res.bind_eq_ok.mp h3
  clear h3
  simp only [Res.pure_eq, Res.ok.injEq, Prod.mk.injEq] at h4
  obtain ⟨⟨rfl, rfl, rfl, rfl⟩, rfl⟩ := h4
  have hs' : generateSrs T R.toRngCore fuel s1 c0.generateConstraints gens' = .ok (srs', s2) := by
    revert hs
    cases generateSrs T R.toRngCore fuel s1 c0.generateConstraints gens' <;> simp [unwrapRes]
  have hc0' : BitsizeCheckCircuit.new (K := E.fr) b none none true = .ok c0 := by
    rw [← hc0]
    unfold BitsizeCheckCircuit.new
    rw [hn]
  obtain ⟨-, -, -, -, -, hl, -⟩ := (C49_setup_consistent T R.toRngCore fuel s1 b n' hn gens' c0 hc0').1 _ _ hs'
  refine ⟨hn, ⟨s0, by rw [hgm]⟩, c0, s1, hc0', hs', srs'.pk.vk.gamma_abc_g1.tail, ?_, by rw [List.length_tail, hl]; rfl⟩
  unfold getGsForEncryption
  split
  · rename_i h; rw [h] at hl; simp at hl
  · rename_i h; rw [h]; rfl

theorem proveAndVerify_ok (T : FftCfg E.Fr) (R : RngCore E) (fuel : ℕ) (st st' : R.σ) (b n : UInt8)
    (c0 : BitsizeCheckCircuit E.fr) (gens : EncryptionGens E) (pk : ProvingKey E)
    (hc0 : BitsizeCheckCircuit.new (K := E.fr) b none none true = .ok c0)
    (hsrs : generateSrs T R fuel st c0.generateConstraints gens = .ok (pk, st'))
    (g_i : List E.G1) (hg : getGsForEncryption pk.pk.vk = .ok g_i) (ek : EncryptionKey E)
    (hk : FromSetup ek b gens g_i pk.pk.delta_g1 pk.gamma_g1)
    (R' : RngCore E) (st1 st2 : R'.σ) (chunks : List UInt16) (ct : Ciphertext E) (r : E.Fr)
    (henc : encryptDecomposedMessage R' st1 chunks ek g_i = .ok ((flat ct, r), st2))
    (hcl : ct.enc_chunks.length = n.toNat)
    (hch : ∀ c ∈ chunks, c.toNat < 2 ^ b.toNat) (chk : Bool) (R'' : RngCore E) (st3 : R''.σ) :
    ∃ st4, proveAndVerify T chk R'' b n gens pk ek chunks (flat ct) r st3 = .ok st4 := by
  obtain ⟨c, hc⟩ : ∃ c, BitsizeCheckCircuit.new (K := E.fr) b (some n)
      (some (chunks.map fun c => ((c.toNat : ℕ) : E.Fr))) true = .ok c := ⟨_, rfl⟩
  obtain ⟨ct', proof, st4, h1, h2, h3⟩ := C46_chunk_level T R fuel st st' b c0 gens pk hc0 hsrs g_i hg ek hk R' st1 st2 chunks _ r
    henc hch _ c hc chk R'' st3
  have := flat_inj h1
  subst this
  obtain ⟨u, h4, h5⟩ := Res.bind_eq_ok.mp h3
  have h4' : verifyCiphertextCommitment ct.X_r ct.enc_chunks ct.commitment ek.prepare gens.prepare = .ok u := h4
  have h5' : verifyProof (prepareVerifyingKey pk.pk.vk) proof
    { X_r := ct.X_r, enc_chunks := ct.enc_chunks, commitment := ct.commitment } = .ok () := h5
  refine ⟨st4, ?_⟩
  unfold proveAndVerify
  rw [hc]
  simp only [Res.ok_bind]
  rw [h2]
  simp only [unwrap_ok, Res.ok_bind]
  rw [slices_flat ct _ hcl, idx_flat ct _ hcl]
  simp only [Res.ok_bind]
  rw [h4']
  simp only [unwrap_ok, Res.ok_bind]
  rw [h5']
  rfl

theorem pow_pred (b : ℕ) {x : ℕ} (h : x ≤ 2 ^ b - 1) : x < 2 ^ b := by have := Nat.one_le_two_pow (n := b); omega

theorem twice_toNat : ∀ k : Fin 128, (UInt8.ofNat k.val * 2).toNat = 2 * k.val := by decide

theorem twice_ok (chk : Bool) (b : UInt8) (hb : b.toNat < 128) : twice chk b = .ok (b * 2) ∧ (b * 2).toNat = 2 * b.toNat := by
  constructor
  · unfold twice
    rw [if_neg]
    simp only [Bool.and_eq_true, decide_eq_true_eq]
    omega
  · have := twice_toNat ⟨b.toNat, hb⟩
    simpa using this

end Tst
open Tst

/-- **C119** The test `encrypt_and_snark_verification` passes for chunk sizes up to 16, on every field, for every random number
generator with which the SRS can be generated, except on degenerate draws of the generators. -/
theorem C119_snark (T : FftCfg E.Fr) (fuel : ℕ) (chk : Bool) (R : TestRng E) (b : UInt8) (hb : b.toNat ≤ 16)
    (hp : 65535 < E.fr.p) (st st1 : R.σ) (gens : EncryptionGens E) (n : UInt8) (msgs : List UInt16) (srs : ProvingKey E)
    (hs : snarkSetup T fuel R b 1 st = .ok ((gens, n, msgs, srs), st1)) :
    ∃ g_i sk ek dk st2, getGsForEncryption srs.pk.vk = .ok g_i ∧
      keygen R.toRngCore st1 b gens g_i srs.pk.delta_g1 srs.gamma_g1 = .ok ((sk, ek, dk), st2) ∧
      ((∀ g ∈ g_i, g ≠ 0) → (∀ V ∈ dk.V_2, V ≠ 0) → testSnark T fuel chk R b st = .ok ()) := by
  obtain ⟨hn, ⟨s, hm⟩, c0, s1, hc0, hsrs, g_i, hg, hgl⟩ := snarkSetup_inv hs
  rw [one_mul] at hm
  obtain ⟨hm1, hm2⟩ := genMessages_spec R b hb n.toNat s
  rw [← hm] at hm1 hm2
  obtain ⟨sk, ek, dk, st2, h2, hX, -⟩ := (C07_keygen R.toRngCore st1 b n gens g_i srs.pk.delta_g1 srs.gamma_g1 hn).1 hgl.ge
  refine ⟨g_i, sk, ek, dk, st2, hg, h2, fun hgi hV => ?_⟩
  obtain ⟨ct, r, st3, h3, h4⟩ := C17_decrypt_encrypt_chunks R.toRngCore st1 st2 b gens g_i _ _ sk ek dk h2 (by omega) hgi hV
    R.toRngCore st2 msgs (by rw [hm1, hX])
    (fun x hx => ⟨hm2 x hx, lt_of_le_of_lt (by have := x.toNat_lt; omega) hp⟩) chk
  have hclen : ct.enc_chunks.length = n.toNat := by
    obtain ⟨-, -, -, -, hv, -⟩ := encryptDecomposed_inv h3
    rw [flat_inj hv, ← hX]
    simp [cipher]
  obtain ⟨st4, h5⟩ := proveAndVerify_ok T R.toRngCore fuel s1 st1 b n c0 gens srs hc0 hsrs g_i hg ek (.inl ⟨_, _, _, _, _, h2⟩)
    R.toRngCore st2 st3 msgs ct r h3 hclen (fun x hx => pow_pred _ (hm2 x hx)) chk R.toRngCore st3
  unfold testSnark
  rw [hs]
  simp only [Res.ok_bind]
  rw [hg]
  simp only [Res.ok_bind]
  rw [h2]
  simp only [unwrap_ok, Res.ok_bind]
  rw [h3]
  simp only [unwrap_ok, Res.ok_bind]
  rw [slices_flat ct _ hclen]
  simp only [Res.ok_bind]
  rw [h4]
  simp only [unwrap_ok, Res.ok_bind]
  rw [assertEq_ok rfl]
  simp only [Res.ok_bind]
  rw [h5]
  rfl

/-- **C119** The test `encrypt_and_ver_distributed` passes for chunk sizes up to 15: the destination searches up to
`2^(2b) - 1`. -/
theorem C119_distributed (T : FftCfg E.Fr) (fuel : ℕ) (chk : Bool) (R : TestRng E) (b : UInt8) (hb : b.toNat ≤ 15)
    (hp : 65535 < E.fr.p) (st st1 : R.σ) (gens : EncryptionGens E) (n : UInt8) (msgs : List UInt16) (srs : ProvingKey E)
    (hs : snarkSetup T fuel R b 1 st = .ok ((gens, n, msgs, srs), st1)) :
    ∃ g_i, getGsForEncryption srs.pk.vk = .ok g_i ∧
      ((∀ g ∈ g_i, g ≠ 0) → testDistributed T fuel chk R b st = .ok ()) := by
  obtain ⟨hn, ⟨s, hm⟩, c0, s1, hc0, hsrs, g_i, hg, hgl⟩ := snarkSetup_inv hs
  rw [one_mul] at hm
  obtain ⟨hm1, hm2⟩ := genMessages_spec R b (by omega) n.toNat s
  rw [← hm] at hm1 hm2
  refine ⟨g_i, hg, fun hgi => ?_⟩
  obtain ⟨sk1, sk2, ek, sta, st2, h2, hdkg⟩ := twoParty_ok R.toRngCore b gens g_i srs.pk.delta_g1 srs.gamma_g1 st1 n hn hgl.ge
  obtain ⟨skd, ekd, st3, h3⟩ : ∃ skd ekd st3, fkeygenDest R.toRngCore st2 gens = .ok ((skd, ekd), st3) := ⟨_, _, _, rfl⟩
  have hk : FromSetup ek b gens g_i srs.pk.delta_g1 srs.gamma_g1 := .inr ⟨_, _, hdkg⟩
  obtain ⟨hX, -, hw⟩ := X_length hk hn
  have h4 := encryptDecomposed_ok R.toRngCore st3 msgs ek g_i hw (by rw [hX]; exact n.toNat_lt)
    (by rw [hX, hm1]) (by rw [hX, hgl])
  obtain ⟨ct, h5, -⟩ := (C15_honest_ciphertexts_verify ek b gens g_i _ _ hk R.toRngCore st3 _ _).1 _ _ h4
  have hclen : ct.enc_chunks.length = n.toNat := by
    rw [← flat_inj h5, ← hX]
    simp [cipher]
  rw [h5] at h4
  generalize after R.toRngCore st3 1 = st4 at h4
  generalize draw R.toRngCore st3 0 = r at h4
  obtain ⟨st5, h6⟩ := proveAndVerify_ok T R.toRngCore fuel s1 st1 b n c0 gens srs hc0 hsrs g_i hg ek hk
    R.toRngCore st3 st4 msgs ct r h4 hclen (fun x hx => pow_pred _ (hm2 x hx)) chk R.toRngCore st4
  obtain ⟨ht1, ht2⟩ := twice_ok chk b (by omega)
  obtain ⟨ct', g_r, cs, h7, h8, h9⟩ := C27_reencryption_delivers _ b gens g_i _ _ _ ek hdkg hgi R.toRngCore st2 st3 skd ekd h3
    R.toRngCore st3 _ _ _ _ h4 [(sk1, ⟨R.toRngCore, st5⟩), (sk2, ⟨R.toRngCore, (R.fr st5).2⟩)] (.refl _) chk (b * 2)
    (by omega)
    (fun x hx => ⟨by
      have h1 := hm2 x hx
      have h2 : 2 ^ b.toNat ≤ 2 ^ (b * 2).toNat := Nat.pow_le_pow_right (by norm_num) (by omega)
      omega, lt_of_le_of_lt (by have := x.toNat_lt; omega) hp⟩)
  have := flat_inj h7
  subst this
  have h10 := delivery_eq chk R.toRngCore gens g_i ekd skd sk1 sk2 n.toNat (twice chk b) (flat ct) st5 ct.X_r ct.enc_chunks g_r cs
    (slices_flat ct _ hclen) hclen h8
  rw [ht1, Res.ok_bind, h9] at h10
  unfold testDistributed
  rw [hs]
  simp only [Res.ok_bind]
  rw [hg]
  simp only [Res.ok_bind]
  rw [h2]
  simp only [Res.ok_bind]
  rw [h3]
  simp only [unwrap_ok, Res.ok_bind]
  rw [h4]
  simp only [unwrap_ok, Res.ok_bind]
  rw [h6]
  simp only [Res.ok_bind]
  rw [ht1, h10]
  simp only [unwrap_ok, Res.ok_bind]
  rw [assertEq_ok rfl]

/-- **C119** The test `encrypt_and_ver_distributed_with_addition` passes for chunk sizes up to 15, if there are at least five
chunks. -/
theorem C119_addition (T : FftCfg E.Fr) (fuel : ℕ) (chk : Bool) (R : TestRng E) (b : UInt8) (hb : b.toNat ≤ 15)
    (hp : 65535 < E.fr.p) (st st1 : R.σ) (gens : EncryptionGens E) (n : UInt8) (hn5 : 5 ≤ n.toNat) (both : List UInt16)
    (srs : ProvingKey E) (hs : snarkSetup T fuel R b 2 st = .ok ((gens, n, both, srs), st1)) :
    ∃ g_i, getGsForEncryption srs.pk.vk = .ok g_i ∧
      ((∀ g ∈ g_i, g ≠ 0) → testAddition T fuel chk R b st = .ok ()) := by
  obtain ⟨hn, ⟨s, hm⟩, c0, s1, hc0, hsrs, g_i, hg, hgl⟩ := snarkSetup_inv hs
  obtain ⟨hb1, hb2⟩ := genMessages_spec R b (by omega) (2 * n.toNat) s
  rw [← hm] at hb1 hb2
  have hb0 : 1 ≤ b.toNat := by
    by_contra hc
    have : b = 0 := UInt8.toNat_inj.mp (by simp; omega)
    subst this
    simp [chunksCount] at hn
  obtain ⟨m1, m2, hmm⟩ : ∃ m1 m2, m1 = both.take n.toNat ∧ m2 = both.drop n.toNat := ⟨_, _, rfl, rfl⟩
  have hl1 : m1.length = n.toNat := by rw [hmm.1, List.length_take, hb1]; omega
  have hl2 : m2.length = n.toNat := by rw [hmm.2, List.length_drop, hb1]; omega
  have hv1 : ∀ x ∈ m1, x.toNat ≤ 2 ^ b.toNat - 1 := fun x hx => hb2 x (List.mem_of_mem_take (hmm.1 ▸ hx))
  have hv2 : ∀ x ∈ m2, x.toNat ≤ 2 ^ b.toNat - 1 := fun x hx => hb2 x (List.mem_of_mem_drop (hmm.2 ▸ hx))
  refine ⟨g_i, hg, fun hgi => ?_⟩
  obtain ⟨sk1, sk2, ek, sta, st2, h2, hdkg⟩ := twoParty_ok R.toRngCore b gens g_i srs.pk.delta_g1 srs.gamma_g1 st1 n hn hgl.ge
  obtain ⟨skd, ekd, st3, h3⟩ : ∃ skd ekd st3, fkeygenDest R.toRngCore st2 gens = .ok ((skd, ekd), st3) := ⟨_, _, _, rfl⟩
  have hk : FromSetup ek b gens g_i srs.pk.delta_g1 srs.gamma_g1 := .inr ⟨_, _, hdkg⟩
  obtain ⟨hX, -, hw⟩ := X_length hk hn
  have h4 := encryptDecomposed_ok R.toRngCore st3 m1 ek g_i hw (by rw [hX]; exact n.toNat_lt)
    (by rw [hX, hl1]) (by rw [hX, hgl])
  obtain ⟨ct, h5, -⟩ := (C15_honest_ciphertexts_verify ek b gens g_i _ _ hk R.toRngCore st3 _ _).1 _ _ h4
  have hclen : ct.enc_chunks.length = n.toNat := by
    rw [← flat_inj h5, ← hX]
    simp [cipher]
  rw [h5] at h4
  generalize after R.toRngCore st3 1 = st4 at h4
  generalize draw R.toRngCore st3 0 = r at h4
  have h4' := encryptDecomposed_ok R.toRngCore st4 m2 ek g_i hw (by rw [hX]; exact n.toNat_lt)
    (by rw [hX, hl2]) (by rw [hX, hgl])
  obtain ⟨ct2, h5', -⟩ := (C15_honest_ciphertexts_verify ek b gens g_i _ _ hk R.toRngCore st4 _ _).1 _ _ h4'
  have hclen2 : ct2.enc_chunks.length = n.toNat := by
    rw [← flat_inj h5', ← hX]
    simp [cipher]
  rw [h5'] at h4'
  generalize after R.toRngCore st4 1 = st5 at h4'
  generalize draw R.toRngCore st4 0 = r2 at h4'
  obtain ⟨st6, h6⟩ := proveAndVerify_ok T R.toRngCore fuel s1 st1 b n c0 gens srs hc0 hsrs g_i hg ek hk
    R.toRngCore st3 st4 m1 ct r h4 hclen (fun x hx => pow_pred _ (hv1 x hx)) chk R.toRngCore st5
  obtain ⟨st7, h6'⟩ := proveAndVerify_ok T R.toRngCore fuel s1 st1 b n c0 gens srs hc0 hsrs g_i hg ek hk
    R.toRngCore st4 st5 m2 ct2 r2 h4' hclen2 (fun x hx => pow_pred _ (hv2 x hx)) chk R.toRngCore st6
  obtain ⟨ht1, ht2⟩ := twice_ok chk b (by omega)
  have hmany : encryptMany [(⟨R.toRngCore, st3⟩, m1), (⟨R.toRngCore, st4⟩, m2)] ek g_i = .ok [(flat ct, r), (flat ct2, r2)] := by
    unfold encryptMany
    simp only [mapRes, h4, h4', Res.ok_bind, Res.pure_eq]
  have hle : ∀ (m : List UInt16), (∀ x ∈ m, x.toNat ≤ 2 ^ b.toNat - 1) → ∀ i, (nums m).getD i 0 ≤ 2 ^ b.toNat - 1 :=
    fun m h i => nums_getD_le h i
  have hpow : 2 ^ b.toNat ≤ 2 ^ 15 := Nat.pow_le_pow_right (by norm_num) hb
  have hpow2 : 2 ^ b.toNat * 2 ≤ 2 ^ (b * 2).toNat := by
    rw [← pow_succ]
    exact Nat.pow_le_pow_right (by norm_num) (by omega)
  obtain ⟨ct', g_r, cs, h7, h8, h9, -⟩ := C28_pipeline _ b gens g_i _ _ _ ek hdkg hgi R.toRngCore st2 st3 skd ekd h3
    _ (by simp) _ hmany [(sk1, ⟨R.toRngCore, st7⟩), (sk2, ⟨R.toRngCore, (R.fr st7).2⟩)] (.refl _)
    (fun i => (nums m1).getD i 0 + (nums m2).getD i 0) (fun i _ => by simp)
    (fun i _ => by have := hle m1 hv1 i; have := hle m2 hv2 i; omega) chk (b * 2) (by omega)
  obtain ⟨ds, h9, hdl, hdv⟩ := h9 (fun i _ => by
    have := hle m1 hv1 i
    have := hle m2 hv2 i
    unfold searchBound
    omega)
  have hadd : addCts (flat ct) (flat ct2) = .ok (flat ct') := by
    have : aggregate [flat ct, flat ct2] = .ok (flat ct') := h7
    unfold aggregate at this
    simp only [foldRes] at this
    obtain ⟨u, e1, e2⟩ := Res.bind_eq_ok.mp this
    cases e2
    exact e1
  have hclen3 : ct'.enc_chunks.length = n.toNat := by
    have h := C25_add_two R.toRngCore R.toRngCore st3 st4 st4 st5 m1 m2 ek g_i _ _ r r2 h4 h4'
    rw [hadd] at h
    rw [flat_inj (Res.ok.inj h), ← hX]
    simp [cipher]
  have h10 := delivery_eq chk R.toRngCore gens g_i ekd skd sk1 sk2 n.toNat (twice chk b) (flat ct') st7 ct'.X_r ct'.enc_chunks g_r
    cs (slices_flat ct' _ hclen3) hclen3 h8
  rw [ht1, Res.ok_bind, h9] at h10
  rw [hX] at hdl hdv
  have i4 : ∀ (l : List UInt16), l.length = n.toNat → idx l 4 = .ok (l.getD 4 0) ∧ (nums l).getD 4 0 = (l.getD 4 0).toNat := by
    intro l hl
    have h4 : 4 < l.length := by omega
    refine ⟨?_, ?_⟩
    · unfold idx
      rw [List.getElem?_eq_getElem h4]
      simp [List.getD_eq_getElem?_getD, List.getElem?_eq_getElem h4]
    · simp [nums, List.getD_eq_getElem?_getD, List.getElem?_eq_getElem h4]
  obtain ⟨a1, a2⟩ := i4 ds hdl
  obtain ⟨a3, a4⟩ := i4 m1 hl1
  obtain ⟨a5, a6⟩ := i4 m2 hl2
  have hsum := hdv 4 (by omega)
  rw [a2, a4, a6] at hsum
  have q1 := hle m1 hv1 4
  have q2 := hle m2 hv2 4
  rw [a4] at q1
  rw [a6] at q2
  unfold testAddition
  rw [hs]
  simp only [Res.ok_bind]
  rw [← hmm.1, ← hmm.2, hg]
  simp only [Res.ok_bind]
  rw [h2]
  simp only [Res.ok_bind]
  rw [h3]
  simp only [unwrap_ok, Res.ok_bind]
  rw [h4]
  simp only [unwrap_ok, Res.ok_bind]
  rw [h4']
  simp only [unwrap_ok, Res.ok_bind]
  rw [hadd]
  simp only [unwrap_ok, Res.ok_bind]
  rw [h6]
  simp only [Res.ok_bind]
  rw [h6']
  simp only [Res.ok_bind]
  rw [ht1, h10]
  simp only [unwrap_ok, Res.ok_bind]
  rw [a1, a3, a5]
  simp only [Res.ok_bind]
  rw [if_neg (by simp only [Bool.and_eq_true, decide_eq_true_eq]; omega)]
  refine assertEq_ok (UInt16.toNat_inj.mp ?_)
  rw [hsum, UInt16.toNat_add, Nat.mod_eq_of_lt (by omega)]

/-- **C119** (negative part; why `check(16)` is commented out, src/saver_groth16.rs:372 and src/tests.rs:186) With 16-bit chunks the
destination's search bound is `1 << 32`: `encrypt_and_ver_distributed` panics with overflow checks, and without them it fails
as soon as one message chunk is above 1. -/
theorem C119_distributed_sixteen (T : FftCfg E.Fr) (fuel : ℕ) (chk : Bool) (R : TestRng E) (hp : 65535 < E.fr.p) (st st1 : R.σ)
    (gens : EncryptionGens E) (n : UInt8) (msgs : List UInt16) (srs : ProvingKey E)
    (hs : snarkSetup T fuel R 16 1 st = .ok ((gens, n, msgs, srs), st1)) (hc : chk = true ∨ ∃ x ∈ msgs, 1 < x.toNat) :
    ∃ g_i, getGsForEncryption srs.pk.vk = .ok g_i ∧
      ((∀ g ∈ g_i, g ≠ 0) → testDistributed T fuel chk R 16 st = .panic) := by
  obtain ⟨hn, ⟨s, hm⟩, c0, s1, hc0, hsrs, g_i, hg, hgl⟩ := snarkSetup_inv hs
  rw [one_mul] at hm
  obtain ⟨hm1, hm2⟩ := genMessages_spec R 16 (by decide) n.toNat s
  rw [← hm] at hm1 hm2
  refine ⟨g_i, hg, fun hgi => ?_⟩
  obtain ⟨sk1, sk2, ek, sta, st2, h2, hdkg⟩ := twoParty_ok R.toRngCore 16 gens g_i srs.pk.delta_g1 srs.gamma_g1 st1 n hn hgl.ge
  obtain ⟨skd, ekd, st3, h3⟩ : ∃ skd ekd st3, fkeygenDest R.toRngCore st2 gens = .ok ((skd, ekd), st3) := ⟨_, _, _, rfl⟩
  have hk : FromSetup ek 16 gens g_i srs.pk.delta_g1 srs.gamma_g1 := .inr ⟨_, _, hdkg⟩
  obtain ⟨hX, -, hw⟩ := X_length hk hn
  have h4 := encryptDecomposed_ok R.toRngCore st3 msgs ek g_i hw (by rw [hX]; exact n.toNat_lt)
    (by rw [hX, hm1]) (by rw [hX, hgl])
  obtain ⟨ct, h5, -⟩ := (C15_honest_ciphertexts_verify ek 16 gens g_i _ _ hk R.toRngCore st3 _ _).1 _ _ h4
  have hclen : ct.enc_chunks.length = n.toNat := by
    rw [← flat_inj h5, ← hX]
    simp [cipher]
  rw [h5] at h4
  generalize after R.toRngCore st3 1 = st4 at h4
  generalize draw R.toRngCore st3 0 = r at h4
  obtain ⟨st5, h6⟩ := proveAndVerify_ok T R.toRngCore fuel s1 st1 16 n c0 gens srs hc0 hsrs g_i hg ek hk
    R.toRngCore st3 st4 msgs ct r h4 hclen (fun x hx => pow_pred _ (hm2 x hx)) chk R.toRngCore st4
  obtain ⟨ht1, ht2⟩ := twice_ok chk 16 (by decide)
  have hmany : encryptMany [(⟨R.toRngCore, st3⟩, msgs)] ek g_i = .ok [(flat ct, r)] := by
    unfold encryptMany
    simp only [mapRes, h4, Res.ok_bind, Res.pure_eq]
  obtain ⟨ct', g_r, cs, h7, h8, -, h9⟩ := C28_pipeline _ 16 gens g_i _ _ _ ek hdkg hgi R.toRngCore st2 st3 skd ekd h3
    _ (by simp) _ hmany [(sk1, ⟨R.toRngCore, st5⟩), (sk2, ⟨R.toRngCore, (R.fr st5).2⟩)] (.refl _)
    (fun i => (nums msgs).getD i 0) (fun i _ => by simp)
    (fun i _ => by
      have := nums_getD_le (l := msgs) (B := 65535) (fun x (_ : x ∈ msgs) => by have := x.toNat_lt; omega) i
      omega) chk 0 (by decide)
  have : flat ct = flat ct' := by
    have h : aggregate [flat ct] = .ok (flat ct') := h7
    exact Res.ok.inj h
  have := flat_inj this
  subst this
  have h10 := delivery_eq chk R.toRngCore gens g_i ekd skd sk1 sk2 n.toNat (twice chk 16) (flat ct) st5 ct.X_r ct.enc_chunks g_r
    cs (slices_flat ct _ hclen) hclen h8
  have hcs : cs.length ≤ g_i.length := by
    unfold reEncryptAll at h8
    obtain ⟨sh, -, hsh⟩ := Res.bind_eq_ok.mp h8
    obtain ⟨⟨w, gr⟩, -, hcw⟩ := Res.bind_eq_ok.mp hsh
    dsimp only at hcw
    unfold combineCtWithW at hcw
    obtain ⟨cs', h1, h2⟩ := Res.bind_eq_ok.mp hcw
    simp only [Res.pure_eq, Res.ok.injEq, List.cons.injEq] at h2
    obtain ⟨-, rfl⟩ := h2
    rw [(mapRes_range_eq_ok_iff.mp h1).1, hclen, hgl]
  obtain ⟨-, -, hdec⟩ := C36_decrypt_after_cases chk g_r cs skd g_i (16 * 2)
  obtain ⟨hd1, hd2⟩ := hdec hcs (by decide)
  have hpan : unwrapRes (decryptAfterReEncryption chk g_r cs skd g_i (16 * 2)) = .panic := by
    cases chk with
    | true => rw [hd1]; rfl
    | false =>
      rw [hd2]
      obtain ⟨x, hx, hx1⟩ := hc.resolve_left (by decide)
      obtain ⟨i, hi, rfl⟩ := List.mem_iff_getElem.mp hx
      have he : UInt8.ofNat (((16 : UInt8) * 2).toNat % 32) = 0 := by decide
      rw [he, h9 i (by omega) (by
        have : (nums msgs).getD i 0 = msgs[i].toNat := by
          simp [nums, List.getD_eq_getElem?_getD, List.getElem?_eq_getElem hi]
        have e2 : searchBound ((0 : UInt8).toNat) = 1 := by decide
        rw [this, e2]
        exact hx1)]
      rfl
  rw [ht1, Res.ok_bind, hpan] at h10
  unfold testDistributed
  rw [hs]
  simp only [Res.ok_bind]
  rw [hg]
  simp only [Res.ok_bind]
  rw [h2]
  simp only [Res.ok_bind]
  rw [h3]
  simp only [unwrap_ok, Res.ok_bind]
  rw [h4]
  simp only [unwrap_ok, Res.ok_bind]
  rw [h6]
  simp only [Res.ok_bind]
  rw [ht1, h10]
  rfl

/-- **C119** (negative part, src/tests.rs:185) The test `encrypt_and_ver_distributed_with_addition` panics with 16-bit chunks: always
with overflow checks, and without them as soon as a sum of two corresponding chunks is above 1. -/
theorem C119_addition_sixteen (T : FftCfg E.Fr) (fuel : ℕ) (chk : Bool) (R : TestRng E) (hp : 131070 < E.fr.p) (st st1 : R.σ)
    (gens : EncryptionGens E) (n : UInt8) (both : List UInt16) (srs : ProvingKey E)
    (hs : snarkSetup T fuel R 16 2 st = .ok ((gens, n, both, srs), st1))
    (hc : chk = true ∨ ∃ i < n.toNat, 1 < (nums both).getD i 0 + (nums both).getD (n.toNat + i) 0) :
    ∃ g_i, getGsForEncryption srs.pk.vk = .ok g_i ∧
      ((∀ g ∈ g_i, g ≠ 0) → testAddition T fuel chk R 16 st = .panic) := by
  obtain ⟨b, hb16⟩ : ∃ b : UInt8, b = 16 := ⟨_, rfl⟩
  rw [← hb16] at hs ⊢
  have hb : b.toNat ≤ 16 := by rw [hb16]; decide
  obtain ⟨hn, ⟨s, hm⟩, c0, s1, hc0, hsrs, g_i, hg, hgl⟩ := snarkSetup_inv hs
  obtain ⟨hb1, hb2⟩ := genMessages_spec R b (by omega) (2 * n.toNat) s
  rw [← hm] at hb1 hb2
  have hb0 : 1 ≤ b.toNat := by
    by_contra hc
    have : b = 0 := UInt8.toNat_inj.mp (by simp; omega)
    subst this
    simp [chunksCount] at hn
  obtain ⟨m1, m2, hmm⟩ : ∃ m1 m2, m1 = both.take n.toNat ∧ m2 = both.drop n.toNat := ⟨_, _, rfl, rfl⟩
  have hl1 : m1.length = n.toNat := by rw [hmm.1, List.length_take, hb1]; omega
  have hl2 : m2.length = n.toNat := by rw [hmm.2, List.length_drop, hb1]; omega
  have hv1 : ∀ x ∈ m1, x.toNat ≤ 2 ^ b.toNat - 1 := fun x hx => hb2 x (List.mem_of_mem_take (hmm.1 ▸ hx))
  have hv2 : ∀ x ∈ m2, x.toNat ≤ 2 ^ b.toNat - 1 := fun x hx => hb2 x (List.mem_of_mem_drop (hmm.2 ▸ hx))
  refine ⟨g_i, hg, fun hgi => ?_⟩
  obtain ⟨sk1, sk2, ek, sta, st2, h2, hdkg⟩ := twoParty_ok R.toRngCore b gens g_i srs.pk.delta_g1 srs.gamma_g1 st1 n hn hgl.ge
  obtain ⟨skd, ekd, st3, h3⟩ : ∃ skd ekd st3, fkeygenDest R.toRngCore st2 gens = .ok ((skd, ekd), st3) := ⟨_, _, _, rfl⟩
  have hk : FromSetup ek b gens g_i srs.pk.delta_g1 srs.gamma_g1 := .inr ⟨_, _, hdkg⟩
  obtain ⟨hX, -, hw⟩ := X_length hk hn
  have h4 := encryptDecomposed_ok R.toRngCore st3 m1 ek g_i hw (by rw [hX]; exact n.toNat_lt)
    (by rw [hX, hl1]) (by rw [hX, hgl])
  obtain ⟨ct, h5, -⟩ := (C15_honest_ciphertexts_verify ek b gens g_i _ _ hk R.toRngCore st3 _ _).1 _ _ h4
  have hclen : ct.enc_chunks.length = n.toNat := by
    rw [← flat_inj h5, ← hX]
    simp [cipher]
  rw [h5] at h4
  generalize after R.toRngCore st3 1 = st4 at h4
  generalize draw R.toRngCore st3 0 = r at h4
  have h4' := encryptDecomposed_ok R.toRngCore st4 m2 ek g_i hw (by rw [hX]; exact n.toNat_lt)
    (by rw [hX, hl2]) (by rw [hX, hgl])
  obtain ⟨ct2, h5', -⟩ := (C15_honest_ciphertexts_verify ek b gens g_i _ _ hk R.toRngCore st4 _ _).1 _ _ h4'
  have hclen2 : ct2.enc_chunks.length = n.toNat := by
    rw [← flat_inj h5', ← hX]
    simp [cipher]
  rw [h5'] at h4'
  generalize after R.toRngCore st4 1 = st5 at h4'
  generalize draw R.toRngCore st4 0 = r2 at h4'
  obtain ⟨st6, h6⟩ := proveAndVerify_ok T R.toRngCore fuel s1 st1 b n c0 gens srs hc0 hsrs g_i hg ek hk
    R.toRngCore st3 st4 m1 ct r h4 hclen (fun x hx => pow_pred _ (hv1 x hx)) chk R.toRngCore st5
  obtain ⟨st7, h6'⟩ := proveAndVerify_ok T R.toRngCore fuel s1 st1 b n c0 gens srs hc0 hsrs g_i hg ek hk
    R.toRngCore st4 st5 m2 ct2 r2 h4' hclen2 (fun x hx => pow_pred _ (hv2 x hx)) chk R.toRngCore st6
  obtain ⟨ht1, ht2⟩ := twice_ok chk b (by omega)
  have hmany : encryptMany [(⟨R.toRngCore, st3⟩, m1), (⟨R.toRngCore, st4⟩, m2)] ek g_i = .ok [(flat ct, r), (flat ct2, r2)] := by
    unfold encryptMany
    simp only [mapRes, h4, h4', Res.ok_bind, Res.pure_eq]
  have hle : ∀ (m : List UInt16), (∀ x ∈ m, x.toNat ≤ 2 ^ b.toNat - 1) → ∀ i, (nums m).getD i 0 ≤ 2 ^ b.toNat - 1 :=
    fun m h i => nums_getD_le h i
  have hpow : 2 ^ b.toNat ≤ 2 ^ 16 := Nat.pow_le_pow_right (by norm_num) hb
  obtain ⟨ct', g_r, cs, h7, h8, -, h9⟩ := C28_pipeline _ b gens g_i _ _ _ ek hdkg hgi R.toRngCore st2 st3 skd ekd h3
    _ (by simp) _ hmany [(sk1, ⟨R.toRngCore, st7⟩), (sk2, ⟨R.toRngCore, (R.fr st7).2⟩)] (.refl _)
    (fun i => (nums m1).getD i 0 + (nums m2).getD i 0) (fun i _ => by simp)
    (fun i _ => by have := hle m1 hv1 i; have := hle m2 hv2 i; omega) chk 0 (by decide)
  have hadd : addCts (flat ct) (flat ct2) = .ok (flat ct') := by
    have : aggregate [flat ct, flat ct2] = .ok (flat ct') := h7
    unfold aggregate at this
    simp only [foldRes] at this
    obtain ⟨u, e1, e2⟩ := Res.bind_eq_ok.mp this
    cases e2
    exact e1
  have hclen3 : ct'.enc_chunks.length = n.toNat := by
    have h := C25_add_two R.toRngCore R.toRngCore st3 st4 st4 st5 m1 m2 ek g_i _ _ r r2 h4 h4'
    rw [hadd] at h
    rw [flat_inj (Res.ok.inj h), ← hX]
    simp [cipher]
  have h10 := delivery_eq chk R.toRngCore gens g_i ekd skd sk1 sk2 n.toNat (twice chk b) (flat ct') st7 ct'.X_r ct'.enc_chunks g_r
    cs (slices_flat ct' _ hclen3) hclen3 h8
  have hcs : cs.length ≤ g_i.length := by
    unfold reEncryptAll at h8
    obtain ⟨sh, -, hsh⟩ := Res.bind_eq_ok.mp h8
    obtain ⟨⟨w, gr⟩, -, hcw⟩ := Res.bind_eq_ok.mp hsh
    dsimp only at hcw
    unfold combineCtWithW at hcw
    obtain ⟨cs', e1, e2⟩ := Res.bind_eq_ok.mp hcw
    simp only [Res.pure_eq, Res.ok.injEq, List.cons.injEq] at e2
    obtain ⟨-, rfl⟩ := e2
    rw [(mapRes_range_eq_ok_iff.mp e1).1, hclen3, hgl]
  obtain ⟨-, -, hdec⟩ := C36_decrypt_after_cases chk g_r cs skd g_i (16 * 2)
  obtain ⟨hd1, hd2⟩ := hdec hcs (by decide)
  have hpan : unwrapRes (decryptAfterReEncryption chk g_r cs skd g_i (16 * 2)) = .panic := by
    cases chk with
    | true => rw [hd1]; rfl
    | false =>
      rw [hd2]
      obtain ⟨i, hi, hi1⟩ := hc.resolve_left (by decide)
      have he : UInt8.ofNat (((16 : UInt8) * 2).toNat % 32) = 0 := by decide
      have g1 : (nums m1).getD i 0 = (nums both).getD i 0 := by
        rw [hmm.1]
        simp [nums, List.getD_eq_getElem?_getD, hi]
      have g2 : (nums m2).getD i 0 = (nums both).getD (n.toNat + i) 0 := by
        rw [hmm.2]
        simp [nums, List.getD_eq_getElem?_getD, List.getElem?_drop]
      rw [he, h9 i (by omega) (by
        have e2 : searchBound ((0 : UInt8).toNat) = 1 := by decide
        rw [g1, g2, e2]
        exact hi1)]
      rfl
  rw [ht1, Res.ok_bind, hb16, hpan] at h10
  unfold testAddition
  rw [hs]
  simp only [Res.ok_bind]
  rw [← hmm.1, ← hmm.2, hg]
  simp only [Res.ok_bind]
  rw [h2]
  simp only [Res.ok_bind]
  rw [h3]
  simp only [unwrap_ok, Res.ok_bind]
  rw [h4]
  simp only [unwrap_ok, Res.ok_bind]
  rw [h4']
  simp only [unwrap_ok, Res.ok_bind]
  rw [hadd]
  simp only [unwrap_ok, Res.ok_bind]
  rw [h6]
  simp only [Res.ok_bind]
  rw [h6']
  simp only [Res.ok_bind]
  rw [ht1, hb16, h10]
  rfl

/-- **C119** The test `gens` is decided by four comparisons: it passes if the generators of the labels `[1, 2, 3]` and `[1, 2]` differ,
those of `[1, 2, 3]` and `[1, 0]` in the commitment group differ, and two successive draws differ in both groups; it panics
otherwise.  (Equal labels always give equal generators.) -/
theorem C119_gens (chk : Bool) (digest : List UInt8 → List UInt8) (h1 : HashCurve E.G1) (h2 : HashCurve E.G2) (fuel : ℕ)
    (g g' : EncryptionGens E) (k k' : ChunkedCommitmentGens E.G1)
    (hg : EncryptionGens.new chk digest h1 h2 fuel [1, 2, 3] = some (.ok g))
    (hg' : EncryptionGens.new chk digest h1 h2 fuel [1, 2] = some (.ok g'))
    (hk : ChunkedCommitmentGens.new chk digest h1 fuel [1, 2, 3] = some (.ok k))
    (hk' : ChunkedCommitmentGens.new chk digest h1 fuel [1, 0] = some (.ok k'))
    (R : RngCore E) (st st1 st2 st3 st4 : R.σ) (a b : EncryptionGens E) (c d : ChunkedCommitmentGens E.G1)
    (ha : EncryptionGens.newUsingRng R st = (a, st1)) (hb : EncryptionGens.newUsingRng R st1 = (b, st2))
    (hc : ChunkedCommitmentGens.newUsingRng R st2 = (c, st3)) (hd : ChunkedCommitmentGens.newUsingRng R st3 = (d, st4)) :
    (g ≠ g' ∧ k ≠ k' ∧ a ≠ b ∧ c ≠ d → testGens chk digest h1 h2 fuel R st = some (.ok ())) ∧
    (g = g' ∨ k = k' ∨ a = b ∨ c = d → testGens chk digest h1 h2 fuel R st = some .panic) := by
  have hne : ∀ {α : Type} [DecidableEq α] {x y : α}, x ≠ y → assertNe x y = .ok () := fun h => if_neg h
  have heq : ∀ {α : Type} [DecidableEq α] {x y : α}, x = y → assertNe x y = .panic := fun h => if_pos h
  unfold testGens
  rw [hg, hg', hk, hk', ha]
  simp only [andThen, hb, assertEq_ok, Res.ok_bind, Res.pure_eq]
  by_cases e1 : g = g'
  · rw [heq e1]
    exact ⟨fun h => absurd e1 h.1, fun _ => rfl⟩
  rw [hne e1]
  simp only [Res.ok_bind]
  by_cases e2 : a = b
  · rw [heq e2]
    exact ⟨fun h => absurd e2 h.2.2.1, fun _ => rfl⟩
  rw [hne e2]
  simp only [Res.ok_bind]
  by_cases e3 : k = k'
  · rw [heq e3]
    exact ⟨fun h => absurd e3 h.2.1, fun _ => rfl⟩
  rw [hne e3]
  simp only [Res.ok_bind, hc, hd]
  by_cases e4 : c = d
  · rw [heq e4]
    exact ⟨fun h => absurd e4 h.2.2.2, fun _ => rfl⟩
  rw [hne e4]
  exact ⟨fun _ => rfl, fun h => by tauto⟩

/-! ### Concrete runs -/

namespace Tst
noncomputable section

/-- the scalars and points of a list, and the 32-bit number 200 every time -/
abbrev rng200 : TestRng Fix.E := TestRng.mk (listRng Fix.E) (fun s => (200, s))

/-- the generators of `Fix.gens`, then the draws of the runs with 8-bit and 16-bit chunks -/
abbrev start8 : (listRng Fix.E).σ := (Fix.stFull8.1, [(2 : Fix.F)], [(3 : Fix.F)])
abbrev start16 : (listRng Fix.E).σ := (Fix.stFull.1, [(2 : Fix.F)], [(3 : Fix.F)])

theorem gen200 (b : UInt8) (n : ℕ) (s : rng200.σ) : (genMessages rng200 b n s).2 = s := by
  induction n with
  | zero => rfl
  | succ n ih => exact ih

theorem gens8 : EncryptionGens.newUsingRng rng200.toRngCore start8 = (Fix.gens, Fix.stFull8) := rfl

theorem snark_ok {T : FftCfg E.Fr} {fuel : ℕ} {R : TestRng E} {b n : UInt8} {k : ℕ} {st s st1 : R.σ}
    {gens : EncryptionGens E} {pk : ProvingKey E} {c0 : BitsizeCheckCircuit E.fr}
    (hgens : EncryptionGens.newUsingRng R.toRngCore st = (gens, s)) (hn : chunksCount E.fr b = .ok n)
    (hgm : (genMessages R b (k * n.toNat) s).2 = s)
    (hc0 : BitsizeCheckCircuit.new (K := E.fr) b none none true = .ok c0)
    (hsrs : generateSrs T R.toRngCore fuel s c0.generateConstraints gens = .ok (pk, st1)) :
    snarkSetup T fuel R b k st = .ok ((gens, n, (genMessages R b (k * n.toNat) s).1, pk), st1) := by
  have hc0' : BitsizeCheckCircuit.new (K := E.fr) b (some n) none true = .ok c0 := by
    rw [← hc0]
    unfold BitsizeCheckCircuit.new
    rw [hn]
  unfold snarkSetup
  rw [hgens]
  dsimp only
  rw [hn]
  simp only [Res.ok_bind]
  rw [hgm, hc0']
  simp only [Res.ok_bind]
  rw [hsrs]
  simp only [unwrap_ok, Res.ok_bind, Res.pure_eq]

/-- the setup succeeds with 8-bit chunks, and no generator is zero -/
theorem setup8 (k : ℕ) : ∃ msgs srs st1 g_i, snarkSetup goldFft 1 rng200 8 k start8 = .ok ((Fix.gens, 8, msgs, srs), st1) ∧
    st1 = after (listRng Fix.E) Fix.stFull8 5 ∧ getGsForEncryption srs.pk.vk = .ok g_i ∧ (∀ g ∈ g_i, g ≠ 0) := by
  obtain ⟨c0, pk, -, g_i, st1, -, hc0, hsrs, hg, hgi, -⟩ := Fix.run8
  refine ⟨_, pk, st1, g_i, snark_ok (R := rng200) gens8 Fix.count8 (gen200 _ _ _) hc0 hsrs, ?_, hg, hgi⟩
  obtain ⟨cs, d, k', -, -, hk', -, -, -, -, h, -⟩ := srs_inv_draws hsrs
  obtain rfl : k' = 0 := by omega
  exact h

/-- the same with 16-bit chunks -/
theorem setup16 (k : ℕ) : ∃ srs st1 g_i, snarkSetup goldFft 1 rng200 16 k start16 =
      .ok ((Fix.gens, 4, (genMessages rng200 16 (k * (4 : UInt8).toNat) Fix.stFull).1, srs), st1) ∧
    st1 = after (listRng Fix.E) Fix.stFull 5 ∧ getGsForEncryption srs.pk.vk = .ok g_i ∧ (∀ g ∈ g_i, g ≠ 0) := by
  obtain ⟨c0, pk, -, -, -, g_i, st1, -, hc0, hsrs, hg, -⟩ := fix_run
  refine ⟨pk, st1, g_i, snark_ok (R := rng200) rfl Fix.count (gen200 _ _ _) hc0 hsrs, ?_, hg, ?_⟩
  · obtain ⟨cs, d, k', -, -, hk', -, -, -, -, h, -⟩ := srs_inv_draws hsrs
    obtain rfl : k' = 0 := by omega
    exact h
  · have htail : pk.pk.vk.gamma_abc_g1.tail = g_i := by
      unfold getGsForEncryption at hg
      split at hg
      · cases hg
      · rename_i g gs hv
        cases hg
        rw [hv]
        rfl
    intro g hgm h0
    rcases (C55_zero_generators goldFft (listRng Fix.E) 1 Fix.stFull _ 16 4 Fix.count c0 hc0 Fix.gens pk hsrs 113
      Fix.rows_eq.symm Fix.dom (by rw [Fix.four']; exact Fix.dom_ok) 0 (Fix.tau_ok' _ _ Fix.draw4 Fix.dom_size) (by simp)).1.mp
      ⟨g, by rw [htail]; exact hgm, h0⟩ with h | h
    · exact absurd h.2 (by decide +kernel : (2 : Fix.F) ≠ 0)
    · rw [show Fix.E.fr.modBits = 64 from goldFr_modBits] at h
      exact Fix.beta_ok h

theorem prime_big : 65535 < Fix.E.fr.p := by decide +kernel

/-- the three tests with a SNARK pass with 8-bit chunks in this run; all chunks are 200 -/
theorem pass8 (chk : Bool) : testSnark goldFft 1 chk rng200 8 start8 = .ok () ∧
    testDistributed goldFft 1 chk rng200 8 start8 = .ok () ∧ testAddition goldFft 1 chk rng200 8 start8 = .ok () := by
  refine ⟨?_, ?_, ?_⟩
  · obtain ⟨msgs, srs, st1, g_i, h1, hst, hg, hgi⟩ := setup8 1
    obtain ⟨g_i', sk, ek, dk, st2, hg', hk, h⟩ := C119_snark (E := Fix.E) goldFft 1 chk rng200 8 (by decide) prime_big _ _ _ _ _ _ h1
    rw [hg] at hg'
    cases hg'
    refine h hgi ((C55_decryption_key (listRng Fix.E) st1 st2 8 8 Fix.count8 Fix.gens g_i _ _ sk ek dk hk).mpr (.inr ⟨?_, ?_, ?_⟩))
    · exact (by decide +kernel : (3 : Fix.F) ≠ 0)
    · rw [hst]
      exact (by decide +kernel : (3 : Fix.F) ≠ 0)
    · intro i hi
      rw [hst]
      rw [Fix.eight] at hi ⊢
      interval_cases i
      · exact (by decide +kernel : (18 : Fix.F) ≠ 0)
      · exact (by decide +kernel : (19 : Fix.F) ≠ 0)
      · exact (by decide +kernel : (20 : Fix.F) ≠ 0)
      · exact (by decide +kernel : (21 : Fix.F) ≠ 0)
      · exact (by decide +kernel : (22 : Fix.F) ≠ 0)
      · exact (by decide +kernel : (23 : Fix.F) ≠ 0)
      · exact (by decide +kernel : (24 : Fix.F) ≠ 0)
      · exact (by decide +kernel : (25 : Fix.F) ≠ 0)
  · obtain ⟨msgs, srs, st1, g_i, h1, hst, hg, hgi⟩ := setup8 1
    obtain ⟨g_i', hg', h⟩ := C119_distributed (E := Fix.E) goldFft 1 chk rng200 8 (by decide) prime_big _ _ _ _ _ _ h1
    rw [hg] at hg'
    cases hg'
    exact h hgi
  · obtain ⟨msgs, srs, st1, g_i, h1, hst, hg, hgi⟩ := setup8 2
    obtain ⟨g_i', hg', h⟩ := C119_addition (E := Fix.E) goldFft 1 chk rng200 8 (by decide) prime_big _ _ _ _ (by decide) _ _ h1
    rw [hg] at hg'
    cases hg'
    exact h hgi

end
end Tst

/-- the hypotheses of the theorems about the tests are met: 8-bit chunks pass, with and without overflow checks -/
example : testSnark goldFft 1 true rng200 8 start8 = .ok () := (pass8 true).1
example : testDistributed goldFft 1 false rng200 8 start8 = .ok () := (pass8 false).2.1
example : testAddition goldFft 1 true rng200 8 start8 = .ok () := (pass8 true).2.2

/-- 16-bit chunks panic in `encrypt_and_ver_distributed`, with and without overflow checks -/
example (chk : Bool) : testDistributed goldFft 1 chk rng200 16 start16 = .panic := by
  obtain ⟨srs, st1, g_i, h1, hst, hg, hgi⟩ := setup16 1
  obtain ⟨g_i', hg', h⟩ := C119_distributed_sixteen (E := Fix.E) goldFft 1 chk rng200 prime_big _ _ _ _ _ _ h1
    (.inr ⟨200, by
      have e : (genMessages rng200 16 (1 * (4 : UInt8).toNat) Fix.stFull).1 = [200, 200, 200, 200] := by
        rw [show 1 * (4 : UInt8).toNat = 4 from by decide]
        simp only [genMessages]
        decide
      rw [e]; decide, by decide⟩)
  rw [hg] at hg'
  cases hg'
  exact h hgi

/-- and in the test with addition; without overflow checks the sums are 400 -/
example (chk : Bool) : testAddition goldFft 1 chk rng200 16 start16 = .panic := by
  obtain ⟨srs, st1, g_i, h1, hst, hg, hgi⟩ := setup16 2
  obtain ⟨g_i', hg', h⟩ := C119_addition_sixteen (E := Fix.E) goldFft 1 chk rng200 (by decide +kernel) _ _ _ _ _ _ h1
    (.inr ⟨0, by decide, by
      have e : (genMessages rng200 16 (2 * (4 : UInt8).toNat) Fix.stFull).1 = [200, 200, 200, 200, 200, 200, 200, 200] := by
        rw [show 2 * (4 : UInt8).toNat = 8 from by decide]
        simp only [genMessages]
        decide
      rw [e]; decide⟩)
  rw [hg] at hg'
  cases hg'
  exact h hgi

/-- the tests without a SNARK, on the same field -/
example : testKeygen rng200.toRngCore 8 start8 = .ok () := C119_keygen_works _ _ _ Fix.count8 _
example : testKeygenDist rng200.toRngCore 16 start16 = .ok () := C119_keygen_dist _ _ _ Fix.count _
example : testCommitmentKey true rng200.toRngCore 16 start16 = .ok () :=
  C119_commitment_key_creation true _ _ _ (by decide) Fix.count (by decide) _

/-- a hash function that returns its input, and a curve on which the point is the number of bytes -/
example : testGens (E := Fix.E) true id ⟨ℕ, fun l => some l.length, fun n => (n : Fix.F)⟩ ⟨ℕ, fun l => some l.length, fun n => (n : Fix.F)⟩ 9
    (listRng Fix.E) ([], [(5 : Fix.F), (6 : Fix.F), (7 : Fix.F), (8 : Fix.F), (9 : Fix.F)], [(1 : Fix.F), (1 : Fix.F)]) = some (.ok ()) := by
  refine (C119_gens (E := Fix.E) true id _ _ 9 ⟨((7 : ℕ) : Fix.F), ((7 : ℕ) : Fix.F)⟩ ⟨((6 : ℕ) : Fix.F), ((6 : ℕ) : Fix.F)⟩
    ⟨((7 : ℕ) : Fix.F), ((7 : ℕ) : Fix.F)⟩ ⟨((6 : ℕ) : Fix.F), ((6 : ℕ) : Fix.F)⟩ rfl rfl rfl rfl (listRng Fix.E) _ _ _ _ _ _ _ _ _
    rfl rfl rfl rfl).1 ⟨?_, ?_, ?_, ?_⟩
  · intro h; exact absurd (congrArg EncryptionGens.G h) (by exact (by decide +kernel : ((7 : ℕ) : Fix.F) ≠ ((6 : ℕ) : Fix.F)))
  · intro h; exact absurd (congrArg ChunkedCommitmentGens.G h) (by exact (by decide +kernel : ((7 : ℕ) : Fix.F) ≠ ((6 : ℕ) : Fix.F)))
  · intro h; exact absurd (congrArg EncryptionGens.G h) (by exact (by decide +kernel : (5 : Fix.F) ≠ (6 : Fix.F)))
  · intro h; exact absurd (congrArg ChunkedCommitmentGens.G h) (by exact (by decide +kernel : (7 : Fix.F) ≠ (9 : Fix.F)))

/-- the same with generators that collide -/
example : testGens (E := Fix.E) true id ⟨ℕ, fun _ => some 1, fun n => (n : Fix.F)⟩ ⟨ℕ, fun _ => some 1, fun n => (n : Fix.F)⟩ 9
    (listRng Fix.E) ([], [(5 : Fix.F), (6 : Fix.F), (7 : Fix.F), (8 : Fix.F), (9 : Fix.F)], [(1 : Fix.F), (1 : Fix.F)]) = some .panic :=
  (C119_gens (E := Fix.E) true id _ _ 9 _ _ _ _ rfl rfl rfl rfl (listRng Fix.E) _ _ _ _ _ _ _ _ _ rfl rfl rfl rfl).2 (.inl rfl)

end Verif
