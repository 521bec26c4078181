/-
Property C84: decryption with a secret key other than the right one.
-/
import Verif.Props.Error
import Verif.Props.Aggregate
import Verif.Props.ReEncrypt

namespace Verif
open Spec

section
variable {E : Engine}

/-- **C84** (one ciphertext) For every ciphertext with a nonzero first component and every decryption key without
a degenerate position `i`, two different secret keys that both decrypt it give different values of chunk `i`, and
different `nu`. -/
theorem C84_keys_disagree (chk chk' : Bool) (c_0 : E.G1) (c : List E.G1) (dk : DecryptionKey E) (g_i : List E.G1)
    (b : UInt8) (hb : b.toNat < 32) (hc : c_0 ≠ 0) (i : ℕ) (hi : i < c.length) (hV : dk.V_1.getD i 0 ≠ 0)
    (sk sk' : SecretKey E) (hne : sk.rho ≠ sk'.rho) (ds ds' : List UInt16) (nu nu' : E.G1)
    (h : decryptToChunks chk c_0 c sk dk.prepare g_i b = .ok (ds, nu))
    (h' : decryptToChunks chk' c_0 c sk' dk.prepare g_i b = .ok (ds', nu')) :
    (nums ds).getD i 0 ≠ (nums ds').getD i 0 ∧ nu ≠ nu' := by
  have main : ∀ (chk : Bool) (sk : SecretKey E) ds nu, decryptToChunks chk c_0 c sk dk.prepare g_i b = .ok (ds, nu) →
      nu = sk.rho • c_0 ∧ (nums ds).getD i 0 • chunkBase g_i dk i = chunkValue c_0 c sk.rho dk i := by
    intro chk sk ds nu h
    have hall := C20_decrypt_cases chk c_0 c sk dk g_i b hb
    by_cases hw : dk.V_2.length = dk.V_1.length
    · by_cases hl : c.length = dk.V_1.length % 256
      · by_cases hg : c.length ≤ g_i.length
        · have h2 := ((hall.2.2.2 hw hl hg).1 ds nu).mp h
          exact ⟨h2.1, (h2.2.2 i hi).2.1⟩
        · rw [hall.2.2.1 hw hl (by omega)] at h; cases h
      · rw [hall.2.1 hw hl] at h; cases h
    · rw [hall.1 hw] at h; cases h
  obtain ⟨h1, h2⟩ := main chk sk ds nu h
  obtain ⟨h1', h2'⟩ := main chk' sk' ds' nu' h'
  have hsub : sk.rho - sk'.rho ≠ 0 := sub_ne_zero.mpr hne
  constructor
  · intro he
    rw [he, h2'] at h2
    unfold chunkValue at h2
    have h3 : (sk.rho - sk'.rho) • E.e c_0 (dk.V_1.getD i 0) = 0 := by
      rw [sub_smul, sub_eq_zero]
      exact (sub_right_injective h2).symm
    rcases smul_eq_zero.mp h3 with h4 | h4
    · exact hsub h4
    · rcases E.nondeg _ _ h4 with h5 | h5
      · exact hc h5
      · exact hV h5
  · rw [h1, h1']
    intro he
    have h3 : (sk.rho - sk'.rho) • c_0 = 0 := by rw [sub_smul, he, sub_self]
    rcases smul_eq_zero.mp h3 with h4 | h4
    · exact hsub h4
    · exact hc h4

/-- an injective choice of values up to `B` bounds a set -/
theorem ncard_le_of_label {α : Type*} (S : Set α) (B : ℕ) (P : α → ℕ → Prop)
    (h1 : ∀ a ∈ S, ∃ k ≤ B, P a k) (h2 : ∀ a ∈ S, ∀ a' ∈ S, ∀ k, P a k → P a' k → a = a') : S.ncard ≤ B + 1 := by
  classical
  choose! f hf using h1
  have := Set.ncard_le_ncard_of_injOn (s := S) (t := (Finset.range (B + 1) : Set ℕ)) f
    (fun a ha => by simpa using Nat.lt_succ_of_le (hf a ha).1)
    (fun a ha a' ha' he => h2 a ha a' ha' (f a) (hf a ha).2 (by rw [he]; exact (hf a' ha').2))
    (Finset.finite_toSet _)
  rwa [Set.ncard_coe_finset, Finset.card_range] at this

/-- **C84** (one ciphertext, counted) at most `2^b` secret keys decrypt a ciphertext with a nonzero first component
to anything at all, for any decryption key with some nonzero position. -/
theorem C84_few_keys (chk : Bool) (c_0 : E.G1) (c : List E.G1) (dk : DecryptionKey E) (g_i : List E.G1)
    (b : UInt8) (h1 : 1 ≤ b.toNat) (h2 : b.toNat ≤ 16) (hc : c_0 ≠ 0) (i : ℕ) (hi : i < c.length)
    (hV : dk.V_1.getD i 0 ≠ 0) :
    {rho : E.Fr | ∃ ds nu, decryptToChunks chk c_0 c ⟨rho⟩ dk.prepare g_i b = .ok (ds, nu)}.ncard ≤ 2 ^ b.toNat ∧
    {rho : E.Fr | ∃ m nu, decrypt chk c_0 c ⟨rho⟩ dk.prepare g_i b = .ok (m, nu)}.ncard ≤ 2 ^ b.toNat := by
  have hb : b.toNat < 32 := by omega
  have key : {rho : E.Fr | ∃ ds nu, decryptToChunks chk c_0 c ⟨rho⟩ dk.prepare g_i b = .ok (ds, nu)}.ncard
      ≤ 2 ^ b.toNat := by
    have hB := C20_bound b.toNat h1 h2
    have hpos : 0 < 2 ^ b.toNat := by positivity
    have := ncard_le_of_label
      {rho : E.Fr | ∃ ds nu, decryptToChunks chk c_0 c ⟨rho⟩ dk.prepare g_i b = .ok (ds, nu)} (searchBound b.toNat)
      (fun rho k => ∃ ds nu, decryptToChunks chk c_0 c ⟨rho⟩ dk.prepare g_i b = .ok (ds, nu) ∧ (nums ds).getD i 0 = k)
      (by
        rintro rho ⟨ds, nu, h⟩
        refine ⟨(nums ds).getD i 0, ?_, ds, nu, h, rfl⟩
        have hall := C20_decrypt_cases chk c_0 c ⟨rho⟩ dk g_i b hb
        by_cases hw : dk.V_2.length = dk.V_1.length
        · by_cases hl : c.length = dk.V_1.length % 256
          · by_cases hg : c.length ≤ g_i.length
            · exact ((((hall.2.2.2 hw hl hg).1 ds nu).mp h).2.2 i hi).1
            · rw [hall.2.2.1 hw hl (by omega)] at h; cases h
          · rw [hall.2.1 hw hl] at h; cases h
        · rw [hall.1 hw] at h; cases h)
      (by
        rintro rho - rho' - k ⟨ds, nu, h, hk⟩ ⟨ds', nu', h', hk'⟩
        by_contra hne
        exact (C84_keys_disagree chk chk c_0 c dk g_i b hb hc i hi hV ⟨rho⟩ ⟨rho'⟩ hne ds ds' nu nu' h h').1
          (hk.trans hk'.symm))
    omega
  refine ⟨key, le_trans (Set.ncard_le_ncard ?_ (Set.toFinite _)) key⟩
  rintro rho ⟨m, nu, h⟩
  unfold decrypt at h
  obtain ⟨⟨ds, nu'⟩, hd, -⟩ := Res.bind_eq_ok.mp h
  exact ⟨ds, nu', hd⟩

/-- **C84** (re-encrypted ciphertexts, counted) the same for decryption after re-encryption. -/
theorem C84_few_keys_reencrypted (chk : Bool) (c_0 : E.G1) (c : List E.G1) (g_i : List E.G1) (b : UInt8)
    (h1 : 1 ≤ b.toNat) (h2 : b.toNat ≤ 16) (hc : c_0 ≠ 0) (hne : c ≠ []) :
    {rho : E.Fr | ∃ ds, decryptAfterReEncryption chk c_0 c ⟨rho⟩ g_i b = .ok ds}.ncard ≤ 2 ^ b.toNat := by
  have hb : b.toNat < 32 := by omega
  have hi : 0 < c.length := List.length_pos_iff.mpr hne
  have hB := C20_bound b.toNat h1 h2
  have hpos : 0 < 2 ^ b.toNat := by positivity
  have main : ∀ (rho : E.Fr) ds, decryptAfterReEncryption chk c_0 c ⟨rho⟩ g_i b = .ok ds →
      (nums ds).getD 0 0 ≤ searchBound b.toNat ∧
      (nums ds).getD 0 0 • g_i.getD 0 0 = c.getD 0 0 - rho • c_0 := by
    intro rho ds h
    have hall := C36_decrypt_after_cases chk c_0 c ⟨rho⟩ g_i b
    by_cases hg : c.length ≤ g_i.length
    · have := (((hall.2.1 hg hb).1 ds).mp h).2 0 hi
      exact ⟨this.1, this.2.1⟩
    · rw [hall.1 (by omega)] at h; cases h
  have := ncard_le_of_label
    {rho : E.Fr | ∃ ds, decryptAfterReEncryption chk c_0 c ⟨rho⟩ g_i b = .ok ds} (searchBound b.toNat)
    (fun rho k => k • g_i.getD 0 0 = c.getD 0 0 - rho • c_0)
    (by
      rintro rho ⟨ds, h⟩
      exact ⟨_, (main rho ds h).1, (main rho ds h).2⟩)
    (by
      rintro rho - rho' - k hk hk'
      rw [hk] at hk'
      have h3 : (rho - rho') • c_0 = 0 := by
        rw [sub_smul, sub_eq_zero]
        exact sub_right_injective hk'
      rcases smul_eq_zero.mp h3 with h4 | h4
      · exact sub_eq_zero.mp h4
      · exact absurd h4 hc)
  omega

end

namespace Spec
variable {E : Engine}

/-- On the keys drawn from `f`, some encryption of chunks below `2^b` with nonzero randomness is decrypted to
something by a secret key other than the one drawn. -/
def WrongKeyDecrypts (b : UInt8) (gens : EncryptionGens E) (g_i : List E.G1) (D C : E.G1) (f : ℕ → E.Fr) : Prop :=
  ∃ sk ek dk f', keygen (tape E) f b gens g_i D C = .ok ((sk, ek, dk), f') ∧
    ∃ (R : RngCore E) (st st' : R.σ) (chunks : List UInt16) (ct : Ciphertext E) (r : E.Fr),
      (∀ x ∈ chunks, x.toNat < 2 ^ b.toNat) ∧
      encryptDecomposedMessage R st chunks ek g_i = .ok ((flat ct, r), st') ∧ r ≠ 0 ∧
      ∃ (sk' : SecretKey E) (chk : Bool) (ds : List UInt16) (nu : E.G1), sk'.rho ≠ sk.rho ∧
        decryptToChunks chk ct.X_r ct.enc_chunks sk' dk.prepare g_i b = .ok (ds, nu)

end Spec

section
variable {E : Engine}

/-- what it means that a wrong key decrypts, in terms of the draws: for the first two chunks, the differences
between what is returned and what was encrypted are small and satisfy one equation -/
theorem wrongKey_eqn {b n : UInt8} (hn : chunksCount E.fr b = .ok n) (h1 : 1 ≤ b.toNat) (h2 : b.toNat ≤ 16)
    (hn2 : 2 ≤ n.toNat) {gens : EncryptionGens E} (hH : gens.H ≠ 0) {g_i : List E.G1} {D C : E.G1} (hD : D ≠ 0)
    {f : ℕ → E.Fr} (hw : WrongKeyDecrypts b gens g_i D C f) :
    f 0 = 0 ∨ f (2 + 2 * n.toNat) = 0 ∨ f (2 + 2 * n.toNat + 1) = 0 ∨ f 1 = 0 ∨
    ∃ d0 d1 : ℤ, |d0| < 2 ^ b.toNat ∧ |d1| < 2 ^ b.toNat ∧ (d0 : E.Fr) ≠ 0 ∧ g_i.getD 0 0 ≠ 0 ∧
      (f 2 * (d0 : E.Fr)) • g_i.getD 0 0 = (f 1 * (d1 : E.Fr)) • g_i.getD 1 0 := by
  obtain ⟨sk, ek, dk, f', hk, R, st, st', chunks, ct, r, hch, henc, hr, sk', chk, ds, nu, hne, hdec⟩ := hw
  obtain ⟨n', hn', hg⟩ := keygen_ok_inv hk
  rw [hn] at hn'
  cases hn'
  rw [keygen_eq (tape E) f gens g_i D C hn hg] at hk
  simp only [Res.ok.injEq, Prod.mk.injEq] at hk
  obtain ⟨⟨rfl, rfl, rfl⟩, -⟩ := hk
  simp only [draw_tape] at henc hdec hne
  generalize hN : n.toNat = N at *
  by_cases e0 : f 0 = 0
  · exact .inl e0
  by_cases ev0 : f (2 + 2 * N) = 0
  · exact .inr (.inl ev0)
  by_cases ev1 : f (2 + 2 * N + 1) = 0
  · exact .inr (.inr (.inl ev1))
  by_cases es0 : f 1 = 0
  · exact .inr (.inr (.inr (.inl es0)))
  refine .inr (.inr (.inr (.inr ?_)))
  obtain ⟨-, -, hlen, -, hfl, -, -⟩ := encryptDecomposed_inv henc
  have hX : (encKey N (fun i => f (1 + i)) (fun i => f (1 + N + i)) (fun i => g_i.getD i 0) D C
    gens.H).X.length = N := by simp [encKey]
  rw [hX] at hlen
  have hct := flat_inj hfl
  have hB := C20_bound b.toNat h1 h2
  have hb32 : b.toNat < 32 := by omega
  have hpos : 0 < 2 ^ b.toNat := by positivity
  have hcl : ct.enc_chunks.length = N := by rw [hct]; simp [cipher, encKey]
  have hN256 : N < 256 := by rw [← hN]; exact n.toNat_lt
  have hall := C20_decrypt_cases chk ct.X_r ct.enc_chunks sk' (decKey N (f 0) (fun i => f (1 + i))
    (fun i => f (2 + 2 * N + i)) gens.H) g_i b hb32
  have hV1 : (decKey N (f 0) (fun i => f (1 + i)) (fun i => f (2 + 2 * N + i)) gens.H).V_1.length = N := by
    simp [decKey]
  have hV2 : (decKey N (f 0) (fun i => f (1 + i)) (fun i => f (2 + 2 * N + i)) gens.H).V_2.length = N := by
    simp [decKey]
  have hlogs := (((hall.2.2.2 (hV2.trans hV1.symm) (by rw [hV1, hcl, Nat.mod_eq_of_lt hN256])
    (by rw [hcl]; exact hg)).1 ds nu).mp hdec).2.2
  rw [hcl] at hlogs
  -- the equation of one chunk
  have eqn : ∀ i < N, f (2 + 2 * N + i) ≠ 0 → ∃ d : ℤ, |d| < 2 ^ b.toNat ∧
      ((f 0 - sk'.rho) * r * f (1 + i)) • D = ((d : E.Fr) * f 0) • g_i.getD i 0 := by
    intro i hi hv
    obtain ⟨hle, heq, -⟩ := hlogs i hi
    have hm : (nums chunks).getD i 0 < 2 ^ b.toNat := by
      have : (nums chunks).getD i 0 = (chunks[i]'(by omega)).toNat := by
        simp [nums, List.getD_eq_getElem?_getD, List.getElem?_eq_getElem (show i < chunks.length by omega)]
      rw [this]
      exact hch _ (List.getElem_mem _)
    generalize (nums ds).getD i 0 = m' at hle heq
    refine ⟨(m' : ℤ) - ((nums chunks).getD i 0 : ℕ), ?_, ?_⟩
    · rw [abs_lt]
      have : m' < 2 ^ b.toNat := by omega
      have a1 : (m' : ℤ) < ((2 ^ b.toNat : ℕ) : ℤ) := by exact_mod_cast this
      have a2 : (((nums chunks).getD i 0 : ℕ) : ℤ) < ((2 ^ b.toNat : ℕ) : ℤ) := by exact_mod_cast hm
      push_cast at a1 a2
      constructor <;> omega
    · unfold chunkBase chunkValue at heq
      rw [hct] at heq
      simp only [cipher, decKey, encKey, length_tab, getD_tab, if_pos hi] at heq
      generalize (nums chunks).getD i 0 = m at heq ⊢
      simp only [nsmul_fr (E := E), map_add, LinearMap.add_apply, map_smul, LinearMap.smul_apply] at heq
      rw [← sub_eq_zero]
      have hz : E.e (((f 0 - sk'.rho) * r * f (1 + i)) • D -
          ((((m' : ℤ) - (m : ℕ) : ℤ) : E.Fr) * f 0) • g_i.getD i 0) (f (2 + 2 * N + i) • gens.H) = 0 := by
        simp only [map_sub, LinearMap.sub_apply, map_smul, LinearMap.smul_apply]
        push_cast
        rw [← sub_eq_zero] at heq
        rw [← neg_eq_zero, ← heq]
        module
      rcases E.nondeg _ _ hz with h | h
      · exact h
      · rcases smul_eq_zero.mp h with h | h
        · exact absurd h hv
        · exact absurd h hH
  obtain ⟨d0, hd0, q0⟩ := eqn 0 (by omega) ev0
  obtain ⟨d1, hd1, q1⟩ := eqn 1 (by omega) ev1
  have hl : (f 0 - sk'.rho) * r ≠ 0 := mul_ne_zero (sub_ne_zero.mpr (Ne.symm hne)) hr
  have hd0' : (d0 : E.Fr) ≠ 0 := by
    intro h
    rw [h, zero_mul, zero_smul] at q0
    rcases smul_eq_zero.mp q0 with h | h
    · exact (mul_ne_zero hl es0) h
    · exact hD h
  have hg0 : g_i.getD 0 0 ≠ 0 := by
    intro h
    rw [h, smul_zero] at q0
    rcases smul_eq_zero.mp q0 with h | h
    · exact (mul_ne_zero hl es0) h
    · exact hD h
  refine ⟨d0, d1, hd0, hd1, hd0', hg0, ?_⟩
  generalize (f 0 - sk'.rho) * r = l at *
  have q2 : (f 1 * f 2 * l) • D = (f 2 * (d0 : E.Fr) * f 0) • g_i.getD 0 0 := by
    have := congrArg (fun x => f 2 • x) q0
    simp only [smul_smul] at this
    rw [show f 1 * f 2 * l = f 2 * (l * f (1 + 0)) by ring_nf, this]
    congr 1; ring
  have q3 : (f 1 * f 2 * l) • D = (f 1 * (d1 : E.Fr) * f 0) • g_i.getD 1 0 := by
    have := congrArg (fun x => f 1 • x) q1
    simp only [smul_smul] at this
    rw [show f 1 * f 2 * l = f 1 * (l * f (1 + 1)) by ring_nf, this]
    congr 1; ring
  have q4 := q2.symm.trans q3
  have q5 : f 0 • ((f 2 * (d0 : E.Fr)) • g_i.getD 0 0 - (f 1 * (d1 : E.Fr)) • g_i.getD 1 0) = 0 := by
    rw [smul_sub, smul_smul, smul_smul, mul_comm (f 0), mul_comm (f 0), q4, sub_self]
  rcases smul_eq_zero.mp q5 with h | h
  · exact absurd h e0
  · exact sub_eq_zero.mp h

/-- one coordinate of the draws vanishes on a `1/p` share -/
theorem count_coord {K : ℕ} (i : ℕ) (hi : i < K) (A : Finset (Fin K → E.Fr)) (hA : ∀ g ∈ A, tapeOf g i = 0) :
    A.card ≤ 1 * E.fr.p ^ (K - 1) := by
  have hcard : Fintype.card E.Fr = E.fr.p := ZMod.card _
  rw [← hcard]
  refine (tapeOf_poly (fun _ => True) i).count (fun _ => 1) trivial ?_ A fun g hg => ⟨trivial, hA g hg⟩
  unfold tapeOf
  rw [dif_pos hi]
  exact one_ne_zero

/-- **C84** (robustness) Keys drawn by `keygen`: on all but `(4^(b+1) + 4) p^(K-1)` of the `p^K` possible draws,
NO encryption of chunks below `2^b` (with nonzero randomness) is decrypted to anything by ANY other secret key. -/
theorem C84_robust (b n : UInt8) (hn : chunksCount E.fr b = .ok n) (h1 : 1 ≤ b.toNat) (h2 : b.toNat ≤ 16)
    (hn2 : 2 ≤ n.toNat) (gens : EncryptionGens E) (hH : gens.H ≠ 0) (g_i : List E.G1) (D C : E.G1) (hD : D ≠ 0) :
    {g : Fin (2 + 3 * n.toNat) → E.Fr | WrongKeyDecrypts b gens g_i D C (tapeOf g)}.ncard
      ≤ (4 ^ (b.toNat + 1) + 4) * E.fr.p ^ (1 + 3 * n.toNat) := by
  classical
  have hcard : Fintype.card E.Fr = E.fr.p := ZMod.card _
  obtain ⟨K, hK⟩ : ∃ K, K = 2 + 3 * n.toNat := ⟨_, rfl⟩
  rw [← hK, show 1 + 3 * n.toNat = K - 1 by omega]
  generalize hq : E.fr.p ^ (K - 1) = q
  -- the ratio of the first two bases, if there is one
  obtain ⟨kap, hkap⟩ : ∃ kap : E.Fr, g_i.getD 0 0 ≠ 0 → ∀ x y : E.Fr, y ≠ 0 → x • g_i.getD 0 0 = y • g_i.getD 1 0 →
      x = y * kap := by
    by_cases h : ∃ kap : E.Fr, g_i.getD 1 0 = kap • g_i.getD 0 0
    · obtain ⟨kap, h⟩ := h
      refine ⟨kap, fun hg0 x y _ he => ?_⟩
      rw [h, smul_smul] at he
      have : (x - y * kap) • g_i.getD 0 0 = 0 := by rw [sub_smul, he, sub_self]
      rcases smul_eq_zero.mp this with h | h
      · exact sub_eq_zero.mp h
      · exact absurd h hg0
    · refine ⟨0, fun _ x y hy he => absurd ⟨y⁻¹ * x, ?_⟩ h⟩
      rw [mul_smul, he, smul_smul, inv_mul_cancel₀ hy, one_smul]
  let I : Finset ℤ := Finset.Ioo (-(2 ^ b.toNat)) (2 ^ b.toNat)
  have hI : I.card ≤ 2 ^ (b.toNat + 1) := by
    have : I.card = ((2 : ℤ) ^ b.toNat - -(2 ^ b.toNat) - 1).toNat := Int.card_Ioo _ _
    rw [this, pow_succ]
    have : ((2 : ℤ) ^ b.toNat) = ((2 ^ b.toNat : ℕ) : ℤ) := by push_cast; rfl
    rw [this]
    omega
  let A0 : Finset (Fin K → E.Fr) := Finset.univ.filter fun g => tapeOf g 0 = 0
  let A1 : Finset (Fin K → E.Fr) := Finset.univ.filter fun g => tapeOf g (2 + 2 * n.toNat) = 0
  let A2 : Finset (Fin K → E.Fr) := Finset.univ.filter fun g => tapeOf g (2 + 2 * n.toNat + 1) = 0
  let A3 : Finset (Fin K → E.Fr) := Finset.univ.filter fun g => tapeOf g 1 = 0
  let B : ℤ × ℤ → Finset (Fin K → E.Fr) := fun d => Finset.univ.filter fun g =>
    (d.1 : E.Fr) ≠ 0 ∧ tapeOf g 2 * (d.1 : E.Fr) - tapeOf g 1 * (d.2 : E.Fr) * kap = 0
  have hsub : {g : Fin K → E.Fr | WrongKeyDecrypts b gens g_i D C (tapeOf g)} ⊆
      ((A0 ∪ (A1 ∪ (A2 ∪ A3))) ∪ (I ×ˢ I).biUnion B : Finset (Fin K → E.Fr)) := by
    intro g hg
    have := wrongKey_eqn hn h1 h2 hn2 hH hD hg
    simp only [Finset.coe_union, Set.mem_union, Finset.mem_coe]
    rcases this with h | h | h | h | ⟨d0, d1, hd0, hd1, hne, hg0, he⟩
    · exact .inl (.inl (Finset.mem_filter.mpr ⟨Finset.mem_univ _, h⟩))
    · exact .inl (.inr (.inl (Finset.mem_filter.mpr ⟨Finset.mem_univ _, h⟩)))
    · exact .inl (.inr (.inr (.inl (Finset.mem_filter.mpr ⟨Finset.mem_univ _, h⟩))))
    · exact .inl (.inr (.inr (.inr (Finset.mem_filter.mpr ⟨Finset.mem_univ _, h⟩))))
    · refine .inr (Finset.mem_biUnion.mpr ⟨(d0, d1), ?_, Finset.mem_filter.mpr ⟨Finset.mem_univ _, hne, ?_⟩⟩)
      · rw [abs_lt] at hd0 hd1
        exact Finset.mem_product.mpr ⟨Finset.mem_Ioo.mpr hd0, Finset.mem_Ioo.mpr hd1⟩
      · dsimp only
        by_cases hy : tapeOf g 1 * (d1 : E.Fr) = 0
        · rw [hy, zero_smul] at he
          rcases smul_eq_zero.mp he with h | h
          · rw [h, hy, zero_mul, sub_zero]
          · exact absurd h hg0
        · rw [hkap hg0 _ _ hy he, sub_self]
  have hB : ∀ d, (B d).card ≤ q := by
    intro d
    by_cases hd : (d.1 : E.Fr) = 0
    · have : B d = ∅ := by
        apply Finset.filter_eq_empty_iff.mpr
        intro g _ h
        exact h.1 hd
      rw [this]; simp
    · have hpoly : Agm.PolyOn (fun _ : Fin K → E.Fr => True) 1
          (fun g => tapeOf g 2 * (d.1 : E.Fr) - tapeOf g 1 * (d.2 : E.Fr) * kap) :=
        (((tapeOf_poly _ 2).cmul (d.1 : E.Fr)).sub ((tapeOf_poly _ 1).cmul ((d.2 : E.Fr) * kap))).congr
          fun g _ => by ring
      have := hpoly.count (fun i => if i.val = 2 then 1 else 0) trivial (by
          unfold tapeOf
          rw [dif_pos (by omega), dif_pos (by omega)]
          simpa using hd) (B d) (fun g hg => ⟨trivial, (Finset.mem_filter.mp hg).2.2⟩)
      rw [hcard, hq, one_mul] at this
      exact this
  have hA : ∀ i, i < K → (Finset.univ.filter fun g : Fin K → E.Fr => tapeOf g i = 0).card ≤ q := by
    intro i hi
    have := count_coord (E := E) i hi (Finset.univ.filter fun g : Fin K → E.Fr => tapeOf g i = 0)
      fun g hg => (Finset.mem_filter.mp hg).2
    rw [one_mul, hq] at this
    exact this
  have c0 : A0.card ≤ q := hA _ (by omega)
  have c1 : A1.card ≤ q := hA _ (by omega)
  have c2 : A2.card ≤ q := hA _ (by omega)
  have c3 : A3.card ≤ q := hA _ (by omega)
  have cB : ((I ×ˢ I).biUnion B).card ≤ 4 ^ (b.toNat + 1) * q := by
    refine (Finset.card_biUnion_le_card_mul _ _ q fun d _ => hB d).trans (Nat.mul_le_mul_right _ ?_)
    rw [Finset.card_product]
    calc I.card * I.card ≤ 2 ^ (b.toNat + 1) * 2 ^ (b.toNat + 1) := Nat.mul_le_mul hI hI
      _ = 4 ^ (b.toNat + 1) := by rw [← mul_pow]; norm_num
  have htot := Set.ncard_le_ncard hsub (Finset.finite_toSet _)
  rw [Set.ncard_coe_finset] at htot
  have u1 := Finset.card_union_le (A0 ∪ (A1 ∪ (A2 ∪ A3))) ((I ×ˢ I).biUnion B)
  have u2 := Finset.card_union_le A0 (A1 ∪ (A2 ∪ A3))
  have u3 := Finset.card_union_le A1 (A2 ∪ A3)
  have u4 := Finset.card_union_le A2 A3
  calc _ ≤ _ := htot
    _ ≤ 4 ^ (b.toNat + 1) * q + 4 * q := by omega
    _ = _ := by ring

/-- **C84** (what this means for messages) on all other draws, every message encrypted by `encrypt` (with nonzero
randomness) fails to decrypt under every other secret key, with `CouldNotFindDiscreteLog`. -/
theorem C84_wrong_key_error (b : UInt8) (hb : Supported b) (gens : EncryptionGens E) (g_i : List E.G1) (D C : E.G1)
    (f f' : ℕ → E.Fr) (sk : SecretKey E) (ek : EncryptionKey E) (dk : DecryptionKey E)
    (hk : keygen (tape E) f b gens g_i D C = .ok ((sk, ek, dk), f'))
    (hrob : ¬ WrongKeyDecrypts b gens g_i D C f) (R : RngCore E) (st st' : R.σ) (m : E.Fr) (ct : Ciphertext E)
    (r : E.Fr) (henc : encrypt R st m ek g_i b = .ok ((ct, r), st')) (hr : r ≠ 0) (sk' : SecretKey E)
    (hne : sk'.rho ≠ sk.rho) (chk : Bool) :
    ct.decrypt chk sk' dk.prepare g_i b = .err .couldNotFindDiscreteLog := by
  obtain ⟨d, hd, hsp, -⟩ := C14_encrypt_splits R st m ek g_i b hb
  obtain ⟨d', hd', -, hbd, -⟩ := decompose_spec m hb
  rw [hd] at hd'
  cases hd'
  have hdec := hsp _ _ _ henc
  have hb32 : b.toNat < 32 := by rcases hb with rfl | rfl | rfl <;> decide
  have hno : ∀ ds nu, decryptToChunks chk ct.X_r ct.enc_chunks sk' dk.prepare g_i b ≠ .ok (ds, nu) := by
    intro ds nu h
    exact hrob ⟨sk, ek, dk, f', hk, R, st, st', d, ct, r, hbd, hdec, hr, sk', chk, ds, nu, hne, h⟩
  have herr : decryptToChunks chk ct.X_r ct.enc_chunks sk' dk.prepare g_i b = .err .couldNotFindDiscreteLog := by
    obtain ⟨n, hn, hg⟩ := keygen_ok_inv hk
    rw [keygen_eq (tape E) f gens g_i D C hn hg] at hk
    simp only [Res.ok.injEq] at hk
    obtain ⟨⟨rfl, rfl, rfl⟩, -⟩ := hk
    obtain ⟨-, -, hlen, -, hfl, -, -⟩ := encryptDecomposed_inv hdec
    have hct := flat_inj hfl
    have hcl : ct.enc_chunks.length = n.toNat := by rw [hct]; simp [cipher, encKey]
    have hn256 : n.toNat < 256 := n.toNat_lt
    have hall := (C20_decrypt_cases chk ct.X_r ct.enc_chunks sk' (decKey n.toNat (draw (tape E) f 0)
      (fun i => draw (tape E) f (1 + i)) (fun i => draw (tape E) f (2 + 2 * n.toNat + i)) gens.H) g_i b hb32).2.2.2
      (by simp [decKey]) (by rw [hcl]; simp only [decKey, length_tab]; omega) (by omega)
    generalize hx : decryptToChunks chk ct.X_r ct.enc_chunks sk' (DecryptionKey.prepare _) g_i b = x at hall hno ⊢
    cases x with
    | ok v => exact absurd rfl (hno v.1 v.2)
    | err e => rw [((hall.2.1 e).mp rfl).1]
    | panic => exact absurd rfl hall.2.2
  unfold Ciphertext.decrypt Verif.decrypt
  rw [herr]
  rfl

/-- the hypotheses of `C84_robust` and the converse: a wrong key can decrypt, here on the draws that are all 1 over
the field of 101 elements (the ciphertext of the chunks 0, 0 decrypts to 1, 1 under the key 0) -/
example : WrongKeyDecrypts (E := Engine.scalar smallFr) 4 ⟨(1 : ZMod 101), (1 : ZMod 101)⟩
    [(1 : ZMod 101), (1 : ZMod 101)] (1 : ZMod 101) (1 : ZMod 101) (fun _ => (1 : ZMod 101)) := by
  refine ⟨_, _, _, _, keygen_eq (n8 := 2) (tape (Engine.scalar smallFr)) (fun _ => (1 : ZMod 101)) _ _ _ _
    (by simp [chunksCount, smallFr_modBits]) (by decide), tape (Engine.scalar smallFr),
    (fun _ => (1 : ZMod 101)), _, [0, 0], _, _, by decide,
    encryptDecomposed_ok _ _ _ _ _ (encKey_wf _ _ _ _ _ _ _) (by simp [encKey]) (by simp [encKey])
      (by simp only [encKey, length_tab]; decide), ?_, ⟨(0 : ZMod 101)⟩, true, [1, 1], (0 : ZMod 101), ?_, ?_⟩
  · decide +kernel
  · decide +kernel
  · decide +kernel

/-- if the bound is below the number of all draws, some draw is outside the set -/
theorem exists_not_of_ncard {K c : ℕ} (S : Set (Fin (K + 1) → E.Fr)) (hc : c < E.fr.p)
    (h : S.ncard ≤ c * E.fr.p ^ K) : ∃ g, g ∉ S := by
  by_contra hall
  push Not at hall
  have : S = Set.univ := Set.eq_univ_of_forall hall
  rw [this, Set.ncard_univ, Nat.card_eq_fintype_card, Fintype.card_fun, Fintype.card_fin,
    show Fintype.card E.Fr = E.fr.p from ZMod.card _, pow_succ, mul_comm] at h
  have hp : 0 < E.fr.p ^ K := pow_pos E.fr.prime.pos _
  exact absurd (Nat.le_of_mul_le_mul_right h hp) (by omega)

end

/-- the hypotheses of `C84_robust` and `C84_wrong_key_error` are met: over the Goldilocks field with 16-bit chunks
(4 of them), there are draws on which `keygen` succeeds and no wrong key decrypts anything -/
example : ∃ (f : ℕ → Fix.E.Fr) (sk : SecretKey Fix.E) (ek : EncryptionKey Fix.E) (dk : DecryptionKey Fix.E) (f' : _),
    keygen (tape Fix.E) f 16 Fix.gens Fix.gi Fix.D Fix.C = .ok ((sk, ek, dk), f') ∧
    ¬ WrongKeyDecrypts 16 Fix.gens Fix.gi Fix.D Fix.C f := by
  have hb := C84_robust (E := Fix.E) 16 4 Fix.count (by decide) (by decide) (by decide) Fix.gens
    (by decide +kernel) Fix.gi Fix.D Fix.C (by decide +kernel)
  obtain ⟨g, hg⟩ := exists_not_of_ncard (E := Fix.E) (K := 13) (c := 4 ^ 17 + 4)
    {g : Fin (2 + 3 * (4 : UInt8).toNat) → Fix.E.Fr | WrongKeyDecrypts 16 Fix.gens Fix.gi Fix.D Fix.C (tapeOf g)}
    (by decide +kernel) hb
  exact ⟨tapeOf g, _, _, _, _, keygen_eq (tape Fix.E) (tapeOf g) Fix.gens Fix.gi Fix.D Fix.C Fix.count
    (by decide), hg⟩

/-- the hypotheses of `C84_few_keys` are met by the ciphertext `ct1` of `Fix` -/
example : {rho : Fix.E.Fr | ∃ m nu, decrypt true Fix.ct1.X_r Fix.ct1.enc_chunks ⟨rho⟩ Fix.dk.prepare Fix.gi 16
    = .ok (m, nu)}.ncard ≤ 2 ^ 16 :=
  (C84_few_keys true Fix.ct1.X_r Fix.ct1.enc_chunks Fix.dk Fix.gi 16 (by decide) (by decide) (by decide +kernel) 0
    (by decide +kernel) (by decide +kernel)).2

/-- the hypotheses of `C84_keys_disagree` are met: over the field of 101 elements both the secret key 1 and the
secret key 0 decrypt the ciphertext `(1, [1, 1])`, to the chunks 0, 0 and 1, 1 -/
example : ∀ dk, dk = decKey (E := Engine.scalar smallFr) 2 (1 : ZMod 101) (fun _ => (1 : ZMod 101))
      (fun _ => (1 : ZMod 101)) (1 : ZMod 101) →
    decryptToChunks (E := Engine.scalar smallFr) true (1 : ZMod 101) [(1 : ZMod 101), (1 : ZMod 101)] ⟨(1 : ZMod 101)⟩
      dk.prepare [(1 : ZMod 101), (1 : ZMod 101)] 4 = .ok ([0, 0], (1 : ZMod 101)) ∧
    decryptToChunks (E := Engine.scalar smallFr) true (1 : ZMod 101) [(1 : ZMod 101), (1 : ZMod 101)] ⟨(0 : ZMod 101)⟩
      dk.prepare [(1 : ZMod 101), (1 : ZMod 101)] 4 = .ok ([1, 1], (0 : ZMod 101)) := by
  rintro _ rfl
  exact ⟨by decide +kernel, by decide +kernel⟩

/-- the hypotheses of `C84_few_keys_reencrypted` are met, here by a ciphertext that the key 3 decrypts -/
example : decryptAfterReEncryption (E := Engine.scalar smallFr) true (2 : ZMod 101) [(36 : ZMod 101), (20 : ZMod 101)]
      ⟨(3 : ZMod 101)⟩ [(5 : ZMod 101), (7 : ZMod 101)] 4 = .ok [6, 2] ∧
    {rho : (Engine.scalar smallFr).Fr | ∃ ds, decryptAfterReEncryption (E := Engine.scalar smallFr) true (2 : ZMod 101)
      [(36 : ZMod 101), (20 : ZMod 101)] ⟨rho⟩ [(5 : ZMod 101), (7 : ZMod 101)] 4 = .ok ds}.ncard ≤ 2 ^ 4 :=
  ⟨by decide +kernel, C84_few_keys_reencrypted (E := Engine.scalar smallFr) true (2 : ZMod 101) _ _ 4 (by decide)
    (by decide) (show (2 : ZMod 101) ≠ 0 by decide) (by simp)⟩

end Verif
