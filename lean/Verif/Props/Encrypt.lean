/-
Properties C03 (encrypt part), C05, C14, C15, C16: encryption and commitment verification.
-/
import Verif.Fixtures
import Verif.Lemmas.Enc
import Verif.Props.Chunking
import Verif.Props.Keys

namespace Verif
open Spec

variable {E : Engine}

/-! ### helper facts about honest keys -/

theorem keygen_ok_inv {R : RngCore E} {st st' : R.σ} {b : UInt8} {gens : EncryptionGens E}
    {g_i : List E.G1} {D C : E.G1} {out : SecretKey E × EncryptionKey E × DecryptionKey E}
    (h : keygen R st b gens g_i D C = .ok (out, st')) :
    ∃ n, chunksCount E.fr b = .ok n ∧ n.toNat ≤ g_i.length := by
  have hn : ∃ n, chunksCount E.fr b = .ok n := by
    unfold keygen at h
    obtain ⟨n, hn, _⟩ := Res.bind_eq_ok.mp h
    exact ⟨n, hn⟩
  obtain ⟨n8, hn⟩ := hn
  refine ⟨n8, hn, ?_⟩
  by_contra hc
  rw [(C07_keygen R st b n8 gens g_i D C hn).2 (by omega)] at h
  cases h

theorem dkg_ok_inv {parties : List (Party E)} {b : UInt8} {gens : EncryptionGens E}
    {g_i : List E.G1} {D C : E.G1} {out : List (SecretKeyST E) × EncryptionKey E}
    (h : dkg parties b gens g_i D C = .ok out) :
    parties ≠ [] ∧ ∃ n, chunksCount E.fr b = .ok n ∧ n.toNat ≤ g_i.length := by
  have hne : parties ≠ [] := by rintro rfl; rw [dkg_nil] at h; cases h
  refine ⟨hne, ?_⟩
  rcases chunksCount_cases E.fr b with hc | ⟨n, hn⟩
  · rw [(dkg_fail parties hne b gens g_i D C).1 hc] at h; cases h
  · refine ⟨n, hn, ?_⟩
    by_contra hg
    rw [(dkg_fail parties hne b gens g_i D C).2 n hn (by omega)] at h
    cases h

theorem fromSetup_inv {ek : EncryptionKey E} {b : UInt8} {gens : EncryptionGens E}
    {g_i : List E.G1} {D C : E.G1} (h : FromSetup ek b gens g_i D C) :
    ∃ (n : UInt8) (s t : ℕ → E.Fr), chunksCount E.fr b = .ok n ∧ n.toNat ≤ g_i.length ∧
      ek = encKey n.toNat s t (fun i => g_i.getD i 0) D C gens.H := by
  rcases h with ⟨R, st, st', sk, dk, h⟩ | ⟨parties, sks, h⟩
  · obtain ⟨n, hn, hg⟩ := keygen_ok_inv h
    rw [keygen_eq R st gens g_i D C hn hg] at h
    simp only [Res.ok.injEq, Prod.mk.injEq] at h
    exact ⟨n, _, _, hn, hg, h.1.2.1.symm⟩
  · obtain ⟨hne, n, hn, hg⟩ := dkg_ok_inv h
    rw [dkg_eq parties hne gens g_i D C hn hg] at h
    simp only [Res.ok.injEq, Prod.mk.injEq] at h
    exact ⟨n, _, _, hn, hg, h.2.symm⟩

theorem encKey_wf (n : ℕ) (s t : ℕ → E.Fr) (g : ℕ → E.G1) (D C : E.G1) (H : E.G2) :
    WellFormed (encKey n s t g D C H) := by
  simp [WellFormed, encKey]

/-! ### C14 -/

/-- **C14** complete case list of `encrypt_decomposed_message`, for every key, generator vector and
chunk vector.  The success case returns the SAVER ciphertext for the scalar drawn from the RNG.
The last case is the abort for keys with 256 or more chunks. -/
theorem C14_encrypt_decomposed (R : RngCore E) (st : R.σ) (chunks : List UInt16)
    (ek : EncryptionKey E) (g_i : List E.G1) :
    (ek.Y.length ≠ ek.X.length → encryptDecomposedMessage R st chunks ek g_i
      = .err (.malformedEncryptionKey ek.Y.length ek.X.length)) ∧
    (ek.Y.length = ek.X.length → ek.Z.length ≠ ek.X.length + 1 →
      encryptDecomposedMessage R st chunks ek g_i
      = .err (.malformedEncryptionKey ek.Z.length ek.X.length)) ∧
    (WellFormed ek → chunks.length ≠ ek.X.length % 256 →
      encryptDecomposedMessage R st chunks ek g_i
      = .err (.incompatibleEncryptionKey chunks.length (ek.X.length % 256))) ∧
    (WellFormed ek → chunks.length = ek.X.length % 256 → g_i.length < chunks.length →
      encryptDecomposedMessage R st chunks ek g_i
      = .err (.vectorShorterThanExpected chunks.length g_i.length)) ∧
    (WellFormed ek → ek.X.length < 256 → chunks.length = ek.X.length →
      chunks.length ≤ g_i.length →
      encryptDecomposedMessage R st chunks ek g_i
      = .ok ((flat (cipher ek (fun i => g_i.getD i 0) (fun i => (nums chunks).getD i 0)
          (draw R st 0)), draw R st 0), after R st 1)) ∧
    (WellFormed ek → 256 ≤ ek.X.length → chunks.length = ek.X.length % 256 →
      chunks.length ≤ g_i.length → encryptDecomposedMessage R st chunks ek g_i = .panic) := by
  have hcnt : (UInt8.ofNat ek.X.length).toNat = ek.X.length % 256 := by simp
  refine ⟨?_, ?_, ?_, ?_, ?_, ?_⟩
  · intro h
    unfold encryptDecomposedMessage EncryptionKey.supportedChunksCount encKeyChunks
    rw [if_pos h]; rfl
  · intro h1 h2
    unfold encryptDecomposedMessage EncryptionKey.supportedChunksCount encKeyChunks
    rw [if_neg (by simpa using h1), if_pos h2]; rfl
  · intro hw h
    unfold encryptDecomposedMessage
    rw [supportedChunks_eq ek hw]
    simp only [Res.ok_bind, hcnt]
    rw [if_pos h]
  · intro hw h hg
    unfold encryptDecomposedMessage
    rw [supportedChunks_eq ek hw]
    simp only [Res.ok_bind, hcnt]
    rw [if_neg (by simpa using h), if_pos hg]
  · intro hw hn hc hg
    exact encryptDecomposed_ok R st chunks ek g_i hw hn hc (by omega)
  · intro hw hn hc hg
    unfold encryptDecomposedMessage
    rw [supportedChunks_eq ek hw]
    simp only [Res.ok_bind, hcnt]
    rw [if_neg (by simpa using hc), if_neg (by omega)]
    have hlt : chunks.length < ek.X.length := by
      rw [hc]; exact lt_of_lt_of_le (Nat.mod_lt _ (by norm_num)) hn
    rw [mapRes_range_panic hlt]
    · rfl
    · rw [idx_ok 0 hlt]
      by_cases hgl : chunks.length < g_i.length
      · rw [idx_ok 0 hgl, idx_panic (by simp)]
        rfl
      · rw [idx_panic (by omega)]
        rfl
    · intro j hj e
      rw [idx_ok 0 hj]
      simp only [Res.ok_bind]
      cases hgj : idx g_i j with
      | panic => simp
      | err e' => exact absurd hgj idx_ne_err
      | ok x =>
        simp only [Res.ok_bind]
        cases hmj : idx (chunks.map fun m_i => m_i.toNat) j with
        | panic => simp
        | err e' => exact absurd hmj idx_ne_err
        | ok y => simp

/-- **C14** `encrypt` is `encrypt_decomposed_message` on the decomposition, with the vector split
into first element, middle and last element: no element is lost or reordered. -/
theorem C14_encrypt_splits (R : RngCore E) (st : R.σ) (m : E.Fr) (ek : EncryptionKey E)
    (g_i : List E.G1) (b : UInt8) (hb : Supported b) :
    ∃ d, decompose (K := E.fr) m b = .ok d ∧
      (∀ ct r st', encrypt R st m ek g_i b = .ok ((ct, r), st') →
        encryptDecomposedMessage R st d ek g_i = .ok ((flat ct, r), st')) ∧
      (∀ v r st', encryptDecomposedMessage R st d ek g_i = .ok ((v, r), st') →
        ∃ ct, v = flat ct ∧ encrypt R st m ek g_i b = .ok ((ct, r), st')) := by
  obtain ⟨d, hd, -⟩ := decompose_spec m hb
  refine ⟨d, hd, ?_, ?_⟩
  all_goals
    have hall := C14_encrypt_decomposed R st d ek g_i
    have cases : WellFormed ek ∧ ek.X.length < 256 ∧ d.length = ek.X.length ∧
        ek.X.length ≤ g_i.length ∨ ∀ x, encryptDecomposedMessage R st d ek g_i ≠ .ok x := by
      by_cases h1 : ek.Y.length = ek.X.length
      · by_cases h2 : ek.Z.length = ek.X.length + 1
        · by_cases h3 : d.length = ek.X.length % 256
          · by_cases h4 : g_i.length < d.length
            · right; intro x; rw [hall.2.2.2.1 ⟨h1, h2⟩ h3 h4]; simp
            · by_cases h5 : ek.X.length < 256
              · left; refine ⟨⟨h1, h2⟩, h5, ?_, ?_⟩ <;> omega
              · right; intro x; rw [hall.2.2.2.2.2 ⟨h1, h2⟩ (by omega) h3 (by omega)]; simp
          · right; intro x; rw [hall.2.2.1 ⟨h1, h2⟩ h3]; simp
        · right; intro x; rw [hall.2.1 h1 h2]; simp
      · right; intro x; rw [hall.1 h1]; simp
  · intro ct r st' h
    rcases cases with ⟨hw, hn, hc, hg⟩ | hno
    · rw [encrypt_ok R st m ek g_i b hd hw hn hc hg] at h
      rw [encryptDecomposed_ok R st d ek g_i hw hn hc hg]
      simp only [Res.ok.injEq, Prod.mk.injEq] at h ⊢
      obtain ⟨⟨rfl, rfl⟩, rfl⟩ := h
      exact ⟨⟨rfl, rfl⟩, rfl⟩
    · rw [encrypt_eq R st m ek g_i b hd] at h
      obtain ⟨x, hx, _⟩ := Res.bind_eq_ok.mp h
      exact absurd hx (hno x)
  · intro v r st' h
    rcases cases with ⟨hw, hn, hc, hg⟩ | hno
    · rw [encrypt_ok R st m ek g_i b hd hw hn hc hg]
      rw [encryptDecomposed_ok R st d ek g_i hw hn hc hg] at h
      simp only [Res.ok.injEq, Prod.mk.injEq] at h
      obtain ⟨⟨rfl, rfl⟩, rfl⟩ := h
      exact ⟨_, rfl, rfl⟩
    · exact absurd h (hno _)

/-- a well-formed key with two chunks and matching chunk vector exists -/
example : WellFormed (encKey (E := Engine.scalar smallFr) 2 (fun i => (i : ZMod 101))
    (fun i => (i + 5 : ZMod 101)) (fun _ => (1 : ZMod 101)) (7 : ZMod 101) (9 : ZMod 101)
    (2 : ZMod 101)) := encKey_wf _ _ _ _ _ _ _

/-! ### C03, encrypt part -/

/-- **C03** message-level `encrypt` rejects every unsupported chunk size. -/
theorem C03_encrypt_rejects (R : RngCore E) (st : R.σ) (m : E.Fr) (ek : EncryptionKey E)
    (g_i : List E.G1) (b : UInt8) (hb : ¬ Supported b) :
    encrypt R st m ek g_i b = .err (.unexpectedBase b) := by
  unfold encrypt
  rw [(C03_unsupported_rejected E.fr b hb).1 m]
  rfl

/-! ### C05 -/

theorem decomp_len_eq_iff (K : FieldCfg) (b n : UInt8) (hb : Supported b)
    (hn : chunksCount K b = .ok n) :
    64 * K.limbs / b.toNat = n.toNat ↔
      64 * K.limbs < K.modBits + b.toNat ∧ chunksNeeded K b.toNat ≤ 255 := by
  have hle : K.modBits ≤ 64 * K.limbs := Nat.size_le.mpr K.p_lt
  have hpos := modBits_pos K
  have hn' : n.toNat = chunksNeeded K b.toNat % 256 := by
    rcases hb with rfl | rfl | rfl <;>
    · simp only [chunksCount] at hn
      rw [if_neg (by decide)] at hn
      injection hn with hn
      rw [← hn]
      simp [chunksNeeded]
  rw [hn']
  unfold chunksNeeded
  rcases hb with rfl | rfl | rfl
  · show 64 * K.limbs / 4 = (K.modBits + 4 - 1) / 4 % 256 ↔ 64 * K.limbs < K.modBits + 4 ∧
      (K.modBits + 4 - 1) / 4 ≤ 255
    omega
  · show 64 * K.limbs / 8 = (K.modBits + 8 - 1) / 8 % 256 ↔ 64 * K.limbs < K.modBits + 8 ∧
      (K.modBits + 8 - 1) / 8 ≤ 255
    omega
  · show 64 * K.limbs / 16 = (K.modBits + 16 - 1) / 16 % 256 ↔ 64 * K.limbs < K.modBits + 16 ∧
      (K.modBits + 16 - 1) / 16 ≤ 255
    omega

/-- **C05** For a fresh key (centralised or distributed) and a supported chunk size: if the modulus
leaves fewer than `b` leading zero bits in its limbs (and needs at most 255 chunks) message-level
encryption succeeds for every message; otherwise it returns `IncompatibleEncryptionKey` for every
message. -/
theorem C05_encrypt_fresh_key (ek : EncryptionKey E) (b : UInt8) (gens : EncryptionGens E)
    (g_i : List E.G1) (D C : E.G1) (hk : FromSetup ek b gens g_i D C) (hb : Supported b)
    (R : RngCore E) (st : R.σ) (m : E.Fr) :
    (64 * E.fr.limbs < E.fr.modBits + b.toNat ∧ chunksNeeded E.fr b.toNat ≤ 255 →
      ∃ ct r st', encrypt R st m ek g_i b = .ok ((ct, r), st')) ∧
    (¬ (64 * E.fr.limbs < E.fr.modBits + b.toNat ∧ chunksNeeded E.fr b.toNat ≤ 255) →
      ∃ n, chunksCount E.fr b = .ok n ∧ encrypt R st m ek g_i b
        = .err (.incompatibleEncryptionKey (64 * E.fr.limbs / b.toNat) n.toNat)) := by
  obtain ⟨n, s, t, hn, hg, rfl⟩ := fromSetup_inv hk
  obtain ⟨d, hd, hlen, -⟩ := decompose_spec m hb
  have hXn : (encKey n.toNat s t (fun i => g_i.getD i 0) D C gens.H).X.length = n.toNat := by
    simp [encKey]
  have hn256 : n.toNat < 256 := n.toNat_lt
  constructor
  · intro h
    have hl := (decomp_len_eq_iff E.fr b n hb hn).mpr h
    exact ⟨_, _, _, encrypt_ok R st m _ g_i b hd (encKey_wf _ _ _ _ _ _ _) (by rw [hXn]; exact hn256)
      (by rw [hXn, hlen, hl]) (by rw [hXn]; exact hg)⟩
  · intro h
    refine ⟨n, hn, ?_⟩
    have hl : 64 * E.fr.limbs / b.toNat ≠ n.toNat :=
      fun h' => h ((decomp_len_eq_iff E.fr b n hb hn).mp h')
    rw [encrypt_eq R st m _ g_i b hd,
      (C14_encrypt_decomposed R st d _ g_i).2.2.1 (encKey_wf _ _ _ _ _ _ _)
        (by rw [hXn, hlen, Nat.mod_eq_of_lt hn256]; exact hl), hXn, hlen, Nat.mod_eq_of_lt hn256]
    rfl

/-- **C05** the BLS12-381 scalar field satisfies the condition at all three sizes. -/
theorem C05_bls12_381 (b : UInt8) (hb : Supported b) :
    64 * blsFr.limbs < blsFr.modBits + b.toNat ∧ chunksNeeded blsFr b.toNat ≤ 255 := by
  rw [chunksNeeded, blsFr_modBits]
  rcases hb with rfl | rfl | rfl <;> decide

/-- **C05** a 521-bit field in 9 limbs satisfies it at no supported size. -/
theorem C05_fails_521 (b : UInt8) (hb : Supported b) :
    ¬ (64 * mersenneFr.limbs < mersenneFr.modBits + b.toNat ∧
      chunksNeeded mersenneFr b.toNat ≤ 255) := by
  rw [chunksNeeded, mersenneFr_modBits]
  rcases hb with rfl | rfl | rfl <;> decide

/-- a fresh key on BLS12-381 exists -/
example : ∃ ek, FromSetup (E := Engine.scalar blsFr) ek 16
    ⟨(1 : ZMod blsFr.p), (2 : ZMod blsFr.p)⟩ (List.replicate 16 (5 : ZMod blsFr.p))
      (7 : ZMod blsFr.p) (11 : ZMod blsFr.p) := by
  obtain ⟨sk, ek, dk, st', h, _⟩ := (C07_keygen (E := Engine.scalar blsFr)
    (listRng (Engine.scalar blsFr)) (List.replicate 60 (3 : blsFr.F), [], []) 16 16
      ⟨(1 : ZMod blsFr.p), (2 : ZMod blsFr.p)⟩ (List.replicate 16 (5 : ZMod blsFr.p))
      (7 : ZMod blsFr.p) (11 : ZMod blsFr.p) chunksCount_bls16).1
      (by rw [List.length_replicate]; decide)
  exact ⟨ek, .inl ⟨_, _, _, _, _, h⟩⟩

/-! ### C15 -/

theorem nsmul_fr {G : Type} [AddCommGroup G] [Module (ZMod E.fr.p) G] (k : ℕ) (g : G) :
    k • g = ((k : ℕ) : E.Fr) • g := nsmul_eq_cast_smul (K := E.fr) g k

theorem cipher_commitmentEq (n : ℕ) (s t : ℕ → E.Fr) (g : ℕ → E.G1) (D C : E.G1) (H : E.G2)
    (m : ℕ → ℕ) (r : E.Fr) :
    let ct := cipher (encKey n s t g D C H) g m r
    CommitmentEq (encKey n s t g D C H) H ct.X_r ct.enc_chunks ct.commitment := by
  simp only [CommitmentEq, cipher, encKey, length_tab]
  simp only [getD_tab, Nat.zero_lt_succ, if_true]
  have e1 : ∀ i ∈ Finset.range n,
      E.e (if i < n then r • (if i < n then s i • D else 0) + m i • g i else 0)
        (if i + 1 < n + 1 then t (i + 1) • H else 0)
      = (r * s i * t (i + 1)) • E.e D H + ((m i : E.Fr) * t (i + 1)) • E.e (g i) H := by
    intro i hi
    have hi' : i < n := Finset.mem_range.mp hi
    simp only [hi', show i + 1 < n + 1 by omega, if_true]
    rw [nsmul_fr (E := E)]
    simp only [map_add, map_smul, LinearMap.add_apply, LinearMap.smul_apply, smul_smul, smul_add]
    congr 2 <;> ring
  have e2 : ∀ i ∈ Finset.range n,
      m i • (if i < n then t (i + 1) • g i else 0) = ((m i : E.Fr) * t (i + 1)) • g i := by
    intro i hi
    rw [if_pos (Finset.mem_range.mp hi), nsmul_fr (E := E), smul_smul]
  rw [Finset.sum_congr rfl e1, Finset.sum_congr rfl e2, Finset.sum_add_distrib]
  simp only [map_add, map_smul, map_sum, LinearMap.add_apply, LinearMap.smul_apply,
    LinearMap.sum_apply, smul_smul]
  rw [← Finset.sum_smul]
  have e3 : r * (t 0 + ∑ i ∈ Finset.range n, s i * t (i + 1))
      = t 0 * r + ∑ i ∈ Finset.range n, r * s i * t (i + 1) := by
    rw [mul_add, Finset.mul_sum, mul_comm]
    congr 1
    exact Finset.sum_congr rfl fun i _ => by ring
  rw [e3, add_smul]
  abel

/-- every integer-chunk ciphertext under an honest key passes the check (used for C15 and C25) -/
theorem cipher_verifies (n : UInt8) (s t : ℕ → E.Fr) (g : ℕ → E.G1) (D C : E.G1)
    (gens : EncryptionGens E) (m : ℕ → ℕ) (r : E.Fr) :
    (cipher (encKey n.toNat s t g D C gens.H) g m r).verifyCommitment
      (encKey n.toNat s t g D C gens.H).prepare gens.prepare = .ok () := by
  unfold Ciphertext.verifyCommitment
  have hX : (encKey n.toNat s t g D C gens.H).X.length = n.toNat := by simp [encKey]
  rw [verify_eq _ _ _ _ _ (encKey_wf _ _ _ _ _ _ _) (by rw [hX]; exact n.toNat_lt)]
  rw [if_neg (by simp [cipher])]
  exact if_pos (cipher_commitmentEq n.toNat s t g D C gens.H m r)

/-- **C15** Under a key from `keygen` or from distributed key generation, whatever `encrypt` or
`encrypt_decomposed_message` returns (any message, any randomness) is accepted by the commitment
check. -/
theorem C15_honest_ciphertexts_verify (ek : EncryptionKey E) (b : UInt8)
    (gens : EncryptionGens E) (g_i : List E.G1) (D C : E.G1)
    (hk : FromSetup ek b gens g_i D C) (R : RngCore E) (st st' : R.σ) (r : E.Fr) :
    (∀ chunks v, encryptDecomposedMessage R st chunks ek g_i = .ok ((v, r), st') →
      ∃ ct, v = flat ct ∧ ct.verifyCommitment ek.prepare gens.prepare = .ok ()) ∧
    (∀ m b' ct, encrypt R st m ek g_i b' = .ok ((ct, r), st') →
      ct.verifyCommitment ek.prepare gens.prepare = .ok ()) := by
  obtain ⟨n, s, t, hn, hg, rfl⟩ := fromSetup_inv hk
  have hXn : (encKey n.toNat s t (fun i => g_i.getD i 0) D C gens.H).X.length = n.toNat := by
    simp [encKey]
  have hn256 : n.toNat < 256 := n.toNat_lt
  have part1 : ∀ chunks v, encryptDecomposedMessage R st chunks
        (encKey n.toNat s t (fun i => g_i.getD i 0) D C gens.H) g_i = .ok ((v, r), st') →
      ∃ ct, v = flat ct ∧ ct.verifyCommitment
        (encKey n.toNat s t (fun i => g_i.getD i 0) D C gens.H).prepare gens.prepare = .ok () := by
    intro chunks v h
    have hall := C14_encrypt_decomposed R st chunks
      (encKey n.toNat s t (fun i => g_i.getD i 0) D C gens.H) g_i
    have hw := encKey_wf n.toNat s t (fun i => g_i.getD i 0) D C gens.H
    by_cases h3 : chunks.length = n.toNat
    · rw [encryptDecomposed_ok R st chunks _ g_i hw (by omega) (by omega) (by omega)] at h
      simp only [Res.ok.injEq, Prod.mk.injEq] at h
      refine ⟨_, h.1.1.symm, cipher_verifies n s t _ D C gens _ _⟩
    · rw [hall.2.2.1 hw (by rw [hXn, Nat.mod_eq_of_lt hn256]; exact h3)] at h
      cases h
  refine ⟨part1, ?_⟩
  intro m b' ct h
  by_cases hb' : Supported b'
  · obtain ⟨d, hd, h1, _⟩ := C14_encrypt_splits R st m
      (encKey n.toNat s t (fun i => g_i.getD i 0) D C gens.H) g_i b' hb'
    obtain ⟨ct', hflat, hver⟩ := part1 d _ (h1 ct r st' h)
    have : ct = ct' := by
      unfold flat at hflat
      injection hflat with e1 e2
      have e3 := List.append_inj' e2 rfl
      ext1
      · exact e1
      · exact e3.1
      · exact List.cons.inj e3.2 |>.1
    rw [this]; exact hver
  · rw [C03_encrypt_rejects R st m _ g_i b' hb'] at h
    cases h

/-- the hypotheses of C15 are met by a key from `keygen` and a ciphertext of four chunks -/
example : ∃ ct, flat Fix.ct1 = flat ct ∧
    ct.verifyCommitment Fix.ek.prepare Fix.gens.prepare = .ok () :=
  (C15_honest_ciphertexts_verify Fix.ek 16 Fix.gens Fix.gi Fix.D Fix.C Fix.fromSetup
    (listRng Fix.E) Fix.st1 _ _).1 Fix.m1 _ Fix.enc1

/-! ### C16 -/

theorem e_left_inj {H : E.G2} (hH : H ≠ 0) {x y : E.G1} (h : E.e x H = E.e y H) : x = y := by
  have : E.e (x - y) H = 0 := by rw [map_sub, LinearMap.sub_apply, h, sub_self]
  rcases E.nondeg _ _ this with h | h
  · exact sub_eq_zero.mp h
  · exact absurd h hH

/-- **C16** exact acceptance criterion for arbitrary (adversarial) ciphertexts under a key whose
`Z_i` are `t_i H` (as all honest keys have, see C07/C09). -/
theorem C16_accept_iff (ek : EncryptionKey E) (gens : EncryptionGens E) (t : ℕ → E.Fr)
    (hw : WellFormed ek) (hn : ek.X.length < 256) (hH : gens.H ≠ 0)
    (hZ : ∀ i < ek.X.length + 1, ek.Z.getD i 0 = t i • gens.H)
    (c_0 : E.G1) (c : List E.G1) (psi : E.G1) :
    (verifyCiphertextCommitment c_0 c psi ek.prepare gens.prepare = .ok () ↔
      c.length = ek.X.length ∧
      psi = t 0 • c_0 + ∑ i ∈ Finset.range c.length, t (i + 1) • c.getD i 0) ∧
    (verifyCiphertextCommitment c_0 c psi ek.prepare gens.prepare = .err .invalidCommitment ↔
      c.length = ek.X.length ∧
      psi ≠ t 0 • c_0 + ∑ i ∈ Finset.range c.length, t (i + 1) • c.getD i 0) ∧
    (c.length ≠ ek.X.length →
      verifyCiphertextCommitment c_0 c psi ek.prepare gens.prepare
        = .err (.incompatibleEncryptionKey c.length ek.X.length)) := by
  have key : c.length = ek.X.length →
      ((E.e c_0 (ek.Z.getD 0 0)
          + ∑ i ∈ Finset.range c.length, E.e (c.getD i 0) (ek.Z.getD (i + 1) 0) = E.e psi gens.H)
        ↔ psi = t 0 • c_0 + ∑ i ∈ Finset.range c.length, t (i + 1) • c.getD i 0) := by
    intro hc
    have e : E.e c_0 (ek.Z.getD 0 0)
          + ∑ i ∈ Finset.range c.length, E.e (c.getD i 0) (ek.Z.getD (i + 1) 0)
        = E.e (t 0 • c_0 + ∑ i ∈ Finset.range c.length, t (i + 1) • c.getD i 0) gens.H := by
      rw [hZ 0 (by omega)]
      simp only [map_add, map_smul, map_sum, LinearMap.add_apply, LinearMap.smul_apply,
        LinearMap.sum_apply]
      congr 1
      apply Finset.sum_congr rfl
      intro i hi
      have := Finset.mem_range.mp hi
      rw [hZ (i + 1) (by omega), map_smul]
    rw [e]
    constructor
    · intro h; exact (e_left_inj hH h).symm
    · rintro rfl; rfl
  rw [verify_eq c_0 c psi ek gens hw hn]
  by_cases hc : c.length = ek.X.length
  · rw [if_neg (by simpa using hc)]
    by_cases hp : psi = t 0 • c_0 + ∑ i ∈ Finset.range c.length, t (i + 1) • c.getD i 0
    · rw [if_pos ((key hc).mpr hp)]
      simp [hc, hp]
    · rw [if_neg (fun h => hp ((key hc).mp h))]
      simp [hc]
      rw [← hc]; exact hp
  · rw [if_pos hc]
    simp [hc]

/-- **C16** the acceptance criterion for arbitrary ciphertexts under arbitrary keys of consistent shape, whatever group
elements the key and the generators consist of: the pairing equation `e(c_0, Z_0) + Σ e(c_i, Z_{i+1}) = e(ψ, H)`. -/
theorem C16_any_key (ek : EncryptionKey E) (gens : EncryptionGens E)
    (hw : WellFormed ek) (hn : ek.X.length < 256) (c_0 : E.G1) (c : List E.G1) (psi : E.G1) :
    (verifyCiphertextCommitment c_0 c psi ek.prepare gens.prepare = .ok () ↔
      c.length = ek.X.length ∧
      E.e c_0 (ek.Z.getD 0 0) + ∑ i ∈ Finset.range c.length, E.e (c.getD i 0) (ek.Z.getD (i + 1) 0)
        = E.e psi gens.H) ∧
    (verifyCiphertextCommitment c_0 c psi ek.prepare gens.prepare = .err .invalidCommitment ↔
      c.length = ek.X.length ∧
      E.e c_0 (ek.Z.getD 0 0) + ∑ i ∈ Finset.range c.length, E.e (c.getD i 0) (ek.Z.getD (i + 1) 0)
        ≠ E.e psi gens.H) ∧
    (verifyCiphertextCommitment c_0 c psi ek.prepare gens.prepare
        = .err (.incompatibleEncryptionKey c.length ek.X.length) ↔ c.length ≠ ek.X.length) := by
  rw [verify_eq c_0 c psi ek gens hw hn]
  by_cases hc : c.length = ek.X.length
  · rw [if_neg (by simpa using hc)]
    split
    · rename_i h
      exact ⟨⟨fun _ => ⟨hc, h⟩, fun _ => rfl⟩, ⟨fun h' => (by cases h'), fun h' => absurd h h'.2⟩,
        ⟨fun h' => (by cases h'), fun h' => absurd hc h'⟩⟩
    · rename_i h
      exact ⟨⟨fun h' => (by cases h'), fun h' => absurd h'.2 h⟩, ⟨fun _ => ⟨hc, h⟩, fun _ => rfl⟩,
        ⟨fun h' => (by cases h'), fun h' => absurd hc h'⟩⟩
  · rw [if_pos hc]
    exact ⟨⟨fun h' => (by cases h'), fun h' => absurd h'.1 hc⟩, ⟨fun h' => (by cases h'), fun h' => absurd h'.1 hc⟩,
      ⟨fun _ => hc, fun _ => rfl⟩⟩

/-- C16 applied to the ciphertext above: accepted as it is, rejected with another commitment -/
example : verifyCiphertextCommitment Fix.ct1.X_r Fix.ct1.enc_chunks Fix.ct1.commitment
      Fix.ek.prepare Fix.gens.prepare = .ok () ∧
    verifyCiphertextCommitment Fix.ct1.X_r Fix.ct1.enc_chunks Fix.psiBad
      Fix.ek.prepare Fix.gens.prepare = .err .invalidCommitment := by
  have h := C16_accept_iff Fix.ek Fix.gens (fun i => ([1, 3, 5, 7, 9] : List Fix.F).getD i 0)
    Fix.wf (by decide +kernel) (by decide +kernel) (by decide +kernel) Fix.ct1.X_r
    Fix.ct1.enc_chunks
  exact ⟨(h _).1.mpr (by decide +kernel), (h _).2.1.mpr (by decide +kernel)⟩

/-- `C16_any_key` for a key whose `Z_0` is not what key generation would have produced -/
example : verifyCiphertextCommitment (E := Fix.E) (1 : Fix.F) [(1 : Fix.F)] (2 : Fix.F)
    (EncryptionKey.prepare (E := Fix.E)
      ⟨(1 : Fix.F), [(1 : Fix.F)], [(1 : Fix.F)], [(4 : Fix.F), (6 : Fix.F)], (1 : Fix.F), (1 : Fix.F)⟩)
    (EncryptionGens.prepare (E := Fix.E) ⟨(2 : Fix.F), (5 : Fix.F)⟩) = .ok () :=
  (C16_any_key (E := Fix.E) ⟨(1 : Fix.F), [(1 : Fix.F)], [(1 : Fix.F)], [(4 : Fix.F), (6 : Fix.F)], (1 : Fix.F),
    (1 : Fix.F)⟩ ⟨(2 : Fix.F), (5 : Fix.F)⟩ ⟨rfl, rfl⟩ (by decide) (1 : Fix.F) [(1 : Fix.F)] (2 : Fix.F)).1.mpr
    ⟨rfl, by decide +kernel⟩

/-- **C16** changing exactly one component of an accepted ciphertext (its multiplier `t` being
nonzero) makes it rejected with `InvalidCommitment`. -/
theorem C16_tamper_detected (ek : EncryptionKey E) (gens : EncryptionGens E) (t : ℕ → E.Fr)
    (hw : WellFormed ek) (hn : ek.X.length < 256) (hH : gens.H ≠ 0)
    (hZ : ∀ i < ek.X.length + 1, ek.Z.getD i 0 = t i • gens.H)
    (c_0 : E.G1) (c : List E.G1) (psi : E.G1)
    (hacc : verifyCiphertextCommitment c_0 c psi ek.prepare gens.prepare = .ok ()) :
    (∀ psi', psi' ≠ psi →
      verifyCiphertextCommitment c_0 c psi' ek.prepare gens.prepare = .err .invalidCommitment) ∧
    (∀ c_0', t 0 ≠ 0 → c_0' ≠ c_0 →
      verifyCiphertextCommitment c_0' c psi ek.prepare gens.prepare = .err .invalidCommitment) ∧
    (∀ i x, i < c.length → t (i + 1) ≠ 0 → x ≠ c.getD i 0 →
      verifyCiphertextCommitment c_0 (c.set i x) psi ek.prepare gens.prepare
        = .err .invalidCommitment) := by
  obtain ⟨hlen, hpsi⟩ := (C16_accept_iff ek gens t hw hn hH hZ c_0 c psi).1.mp hacc
  refine ⟨?_, ?_, ?_⟩
  · intro psi' hne
    rw [(C16_accept_iff ek gens t hw hn hH hZ c_0 c psi').2.1]
    exact ⟨hlen, fun h => hne (h.trans hpsi.symm)⟩
  · intro c_0' ht hne
    rw [(C16_accept_iff ek gens t hw hn hH hZ c_0' c psi).2.1]
    refine ⟨hlen, fun h => hne ?_⟩
    rw [hpsi] at h
    have := add_right_cancel h
    exact (smul_right_injective _ ht this).symm
  · intro i x hi ht hne
    rw [(C16_accept_iff ek gens t hw hn hH hZ c_0 (c.set i x) psi).2.1]
    refine ⟨by simpa using hlen, fun h => hne ?_⟩
    rw [hpsi] at h
    have h := add_left_cancel h
    rw [List.length_set] at h
    have hmem : i ∈ Finset.range c.length := Finset.mem_range.mpr hi
    rw [← Finset.add_sum_erase _ _ hmem, ← Finset.add_sum_erase _ _ hmem] at h
    have hother : ∑ j ∈ (Finset.range c.length).erase i, t (j + 1) • (c.set i x).getD j 0
        = ∑ j ∈ (Finset.range c.length).erase i, t (j + 1) • c.getD j 0 := by
      apply Finset.sum_congr rfl
      intro j hj
      have hji : j ≠ i := (Finset.mem_erase.mp hj).1
      simp [List.getD_eq_getElem?_getD, List.getElem?_set_ne hji.symm]
    rw [hother] at h
    have h := add_right_cancel h
    have := smul_right_injective _ ht h
    rw [this]
    simp [List.getD_eq_getElem?_getD, List.getElem?_set_self hi]

/-- honest keys meet the hypotheses of C16 -/
theorem C16_hypotheses_honest (ek : EncryptionKey E) (b : UInt8) (gens : EncryptionGens E)
    (g_i : List E.G1) (D C : E.G1) (hk : FromSetup ek b gens g_i D C) :
    WellFormed ek ∧ ek.X.length < 256 ∧
      ∃ t : ℕ → E.Fr, ∀ i < ek.X.length + 1, ek.Z.getD i 0 = t i • gens.H := by
  obtain ⟨n, s, t, hn, hg, rfl⟩ := fromSetup_inv hk
  refine ⟨encKey_wf _ _ _ _ _ _ _, ?_, t, ?_⟩
  · simp only [encKey, length_tab]; exact n.toNat_lt
  · intro i hi
    simp only [encKey, length_tab] at hi ⊢
    rw [getD_tab, if_pos hi]

end Verif
