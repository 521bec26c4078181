/-
Property C77: anybody can re-randomise an accepted ciphertext together with its proof.
-/
import Verif.Props.ReEncrypt
import Verif.Props.Forge
import Verif.Props.Verified

namespace Verif
open Spec

variable {E : Engine}

namespace Spec

/-- The ciphertext shifted by `u` times the public elements `X_0, X_i, P_1` of the encryption key. -/
def rerandomise (ek : EncryptionKey E) (u : E.Fr) (ct : Ciphertext E) : Ciphertext E where
  X_r := ct.X_r + u • ek.X_0
  enc_chunks := tab ct.enc_chunks.length fun i => ct.enc_chunks.getD i 0 + u • ek.X.getD i 0
  commitment := ct.commitment + u • ek.P_1

/-- The proof re-randomised with `z, w` (as Groth16 proofs can be) and shifted by `u P_2`: it uses the
verification key and the encryption key only. -/
def rerandomiseProof (vk : VerifyingKey E) (ek : EncryptionKey E) (u z w : E.Fr) (p : Proof E) : Proof E where
  a := z⁻¹ • p.a
  b := z • p.b + (z * w) • vk.delta_g2
  c := p.c + w • p.a + u • ek.P_2

end Spec

namespace Rerand

theorem sum_shift (n : ℕ) (f : ℕ → E.Fr) (D : E.G1) (u : E.Fr) (c : List E.G1) (hc : c.length = n) :
    (tab c.length fun i => c.getD i 0 + u • (tab n fun i => f i • D).getD i 0).sum =
      c.sum + (u * ∑ i ∈ Finset.range n, f i) • D := by
  subst hc
  rw [sum_tab, Finset.sum_add_distrib, Finset.mul_sum, Finset.sum_smul]
  congr 1
  · conv_rhs => rw [eq_tab (l := c) rfl 0]
    rw [sum_tab]
  · refine Finset.sum_congr rfl fun i hi => ?_
    rw [getD_tab, if_pos (Finset.mem_range.mp hi), smul_smul]

theorem commitment (n : ℕ) (hn : n < 256) (s t : ℕ → E.Fr) (g : ℕ → E.G1) (D C : E.G1)
    (gens : EncryptionGens E) (hH : gens.H ≠ 0) (u : E.Fr) (ct : Ciphertext E) :
    (rerandomise (encKey n s t g D C gens.H) u ct).verifyCommitment (encKey n s t g D C gens.H).prepare
      gens.prepare = ct.verifyCommitment (encKey n s t g D C gens.H).prepare gens.prepare := by
  have hw : WellFormed (encKey n s t g D C gens.H) := encKey_wf _ _ _ _ _ _ _
  have hX : (encKey n s t g D C gens.H).X.length = n := by simp [encKey]
  have hZ : ∀ i < (encKey n s t g D C gens.H).X.length + 1,
      (encKey n s t g D C gens.H).Z.getD i 0 = t i • gens.H := by
    intro i hi
    rw [hX] at hi
    simp only [encKey]
    rw [getD_tab, if_pos hi]
  have h1 := C16_accept_iff _ gens t hw (by rw [hX]; exact hn) hH hZ ct.X_r ct.enc_chunks ct.commitment
  have h2 := C16_accept_iff _ gens t hw (by rw [hX]; exact hn) hH hZ
    (rerandomise (encKey n s t g D C gens.H) u ct).X_r
    (rerandomise (encKey n s t g D C gens.H) u ct).enc_chunks
    (rerandomise (encKey n s t g D C gens.H) u ct).commitment
  have hl : (rerandomise (encKey n s t g D C gens.H) u ct).enc_chunks.length = ct.enc_chunks.length := by
    simp [rerandomise]
  rw [hl] at h2
  rw [hX] at h1 h2
  unfold Ciphertext.verifyCommitment
  by_cases hlen : ct.enc_chunks.length = n
  · have key : (rerandomise (encKey n s t g D C gens.H) u ct).commitment =
        t 0 • (rerandomise (encKey n s t g D C gens.H) u ct).X_r + ∑ i ∈ Finset.range ct.enc_chunks.length,
          t (i + 1) • (rerandomise (encKey n s t g D C gens.H) u ct).enc_chunks.getD i 0 ↔
        ct.commitment = t 0 • ct.X_r + ∑ i ∈ Finset.range ct.enc_chunks.length,
          t (i + 1) • ct.enc_chunks.getD i 0 := by
      have : t 0 • (rerandomise (encKey n s t g D C gens.H) u ct).X_r +
          ∑ i ∈ Finset.range ct.enc_chunks.length,
          t (i + 1) • (rerandomise (encKey n s t g D C gens.H) u ct).enc_chunks.getD i 0 =
          (t 0 • ct.X_r + ∑ i ∈ Finset.range ct.enc_chunks.length, t (i + 1) • ct.enc_chunks.getD i 0) +
          u • (encKey n s t g D C gens.H).P_1 := by
        have hs : ∑ i ∈ Finset.range ct.enc_chunks.length,
            t (i + 1) • (rerandomise (encKey n s t g D C gens.H) u ct).enc_chunks.getD i 0 =
            ∑ i ∈ Finset.range ct.enc_chunks.length, t (i + 1) • ct.enc_chunks.getD i 0 +
            (u * ∑ i ∈ Finset.range n, s i * t (i + 1)) • D := by
          rw [Finset.mul_sum, Finset.sum_smul, ← hlen, ← Finset.sum_add_distrib]
          refine Finset.sum_congr rfl fun i hi => ?_
          have hi := Finset.mem_range.mp hi
          simp only [rerandomise, encKey]
          rw [getD_tab, if_pos hi, getD_tab, if_pos (by omega)]
          module
        rw [hs]
        simp only [rerandomise, encKey]
        module
      rw [this]
      simp only [rerandomise]
      exact add_left_inj _
    by_cases hc : ct.commitment = t 0 • ct.X_r + ∑ i ∈ Finset.range ct.enc_chunks.length,
          t (i + 1) • ct.enc_chunks.getD i 0
    · rw [h1.1.mpr ⟨hlen, hc⟩, h2.1.mpr ⟨hlen, key.mpr hc⟩]
    · rw [h1.2.1.mpr ⟨hlen, hc⟩, h2.2.1.mpr ⟨hlen, fun h => hc (key.mp h)⟩]
  · rw [h1.2.2 hlen, h2.2.2 hlen]

end Rerand

/-- **C77** Re-randomisation does not change the verdict.  For every SRS from `generate_srs` (of any circuit), every key
from `keygen` or distributed key generation on its parameters, every ciphertext and proof, honest or not, and all
scalars `u, z, w` with `z ≠ 0`: `verify_commitment_and_proof` gives for the re-randomised pair the same result
(acceptance or error) as for the original. -/
theorem C77_same_verdict (T : FftCfg E.Fr) (R : RngCore E) (fuel : ℕ) (st st' : R.σ)
    (C : Synthesizer E.Fr) (gens : EncryptionGens E) (hH : gens.H ≠ 0) (pk : ProvingKey E)
    (hsrs : generateSrs T R fuel st C gens = .ok (pk, st'))
    (g_i : List E.G1) (hg : getGsForEncryption pk.pk.vk = .ok g_i) (ek : EncryptionKey E) (b : UInt8)
    (hk : FromSetup ek b gens g_i pk.pk.delta_g1 pk.gamma_g1)
    (ct : Ciphertext E) (proof : Proof E) (u z w : E.Fr) (hz : z ≠ 0) :
    (rerandomise ek u ct).verifyCommitmentAndProof (rerandomiseProof pk.pk.vk ek u z w proof)
        (prepareVerifyingKey pk.pk.vk) ek.prepare gens.prepare =
      ct.verifyCommitmentAndProof proof (prepareVerifyingKey pk.pk.vk) ek.prepare gens.prepare := by
  obtain ⟨hne, -⟩ := getGs_inv hg
  obtain ⟨cs, d, tau, alpha, beta, gamma, delta, -, -, -, -, -, rfl⟩ := srs_inv hsrs
  obtain ⟨n, s, t, -, -, rfl⟩ := fromSetup_inv hk
  have hn256 := n.toNat_lt
  generalize n.toNat = N at *
  unfold Ciphertext.verifyCommitmentAndProof
  rw [Rerand.commitment N hn256 s t _ _ _ gens hH u ct]
  by_cases hlen : ct.enc_chunks.length = N
  · congr 1
    funext _
    rw [verifyProof_eq _ _ _ hne, verifyProof_eq _ _ _ hne]
    refine if_congr ?_ rfl rfl
    have hsum : (rerandomise (encKey N s t (fun i => g_i.getD i 0)
        (srsKey cs d tau alpha beta gamma delta gens.G gens.H).pk.delta_g1
        (srsKey cs d tau alpha beta gamma delta gens.G gens.H).gamma_g1 gens.H) u ct).enc_chunks.sum =
        ct.enc_chunks.sum + (u * ∑ i ∈ Finset.range N, s i) • delta • gens.G := by
      exact Rerand.sum_shift N s _ u ct.enc_chunks hlen
    rw [hsum]
    simp only [rerandomise, rerandomiseProof, encKey, srsKey]
    simp only [map_add, LinearMap.add_apply, map_smul, LinearMap.smul_apply]
    generalize E.e gens.G gens.H = gt
    generalize E.e proof.a proof.b = l
    generalize E.e proof.a gens.H = l2
    have hl : z • z⁻¹ • l + (z * w) • delta • z⁻¹ • l2 = l + (w * delta) • l2 := by
      rw [smul_smul, smul_smul, smul_smul, mul_inv_cancel₀ hz, one_smul]
      congr 2
      field_simp
    rw [hl]
    constructor
    · intro h
      rw [← sub_eq_zero] at h ⊢
      rw [← h]
      module
    · intro h
      rw [← sub_eq_zero] at h ⊢
      rw [← h]
      module
  · have hw : WellFormed (encKey N s t (fun i => g_i.getD i 0)
        (srsKey cs d tau alpha beta gamma delta gens.G gens.H).pk.delta_g1
        (srsKey cs d tau alpha beta gamma delta gens.G gens.H).gamma_g1 gens.H) := encKey_wf _ _ _ _ _ _ _
    have h1 := (C16_accept_iff _ gens t hw (by simpa [encKey] using hn256) hH (by
      intro i hi
      simp only [encKey, length_tab] at hi ⊢
      rw [getD_tab, if_pos hi]) ct.X_r ct.enc_chunks ct.commitment).2.2 (by simpa [encKey] using hlen)
    have h2 : ct.verifyCommitment (encKey N s t (fun i => g_i.getD i 0)
        (srsKey cs d tau alpha beta gamma delta gens.G gens.H).pk.delta_g1
        (srsKey cs d tau alpha beta gamma delta gens.G gens.H).gamma_g1 gens.H).prepare gens.prepare = _ := h1
    rw [h2]
    rfl

/-- **C77** Re-randomisation does not change what is decrypted: with the keys of a run of `keygen`, for every
ciphertext, the decrypted chunks (or the error) are the same; `nu` is shifted by the known multiple of `X_0`. -/
theorem C77_same_plaintext (R : RngCore E) (st st' : R.σ) (b : UInt8) (gens : EncryptionGens E) (g_i : List E.G1)
    (D C : E.G1) (sk : SecretKey E) (ek : EncryptionKey E) (dk : DecryptionKey E)
    (hk : keygen R st b gens g_i D C = .ok ((sk, ek, dk), st')) (hb : b.toNat < 32) (chk : Bool)
    (ct : Ciphertext E) (u : E.Fr) :
    decryptToChunks chk (rerandomise ek u ct).X_r (rerandomise ek u ct).enc_chunks sk dk.prepare g_i b =
      (decryptToChunks chk ct.X_r ct.enc_chunks sk dk.prepare g_i b >>= fun out =>
        .ok (out.1, out.2 + (sk.rho * u) • ek.X_0)) := by
  obtain ⟨n, hn, hg⟩ := keygen_ok_inv hk
  rw [keygen_eq R st gens g_i D C hn hg] at hk
  simp only [Res.ok.injEq, Prod.mk.injEq] at hk
  obtain ⟨⟨rfl, rfl, rfl⟩, -⟩ := hk
  have hn256 := n.toNat_lt
  generalize n.toNat = N at *
  generalize draw R st 0 = rho
  generalize (fun i => draw R st (1 + i)) = s
  generalize (fun i => draw R st (1 + N + i)) = t
  generalize (fun i => draw R st (2 + 2 * N + i)) = v
  have hl : (rerandomise (encKey N s t (fun i => g_i.getD i 0) D C gens.H) u ct).enc_chunks.length
      = ct.enc_chunks.length := by simp [rerandomise]
  have hw : (decKey N rho s v gens.H).V_2.length = (decKey N rho s v gens.H).V_1.length := by simp [decKey]
  have hV : (decKey N rho s v gens.H).V_1.length % 256 = N := by
    simp only [decKey, length_tab]
    omega
  by_cases hc : ct.enc_chunks.length = N
  · rw [decryptToChunks_eq chk _ _ _ _ g_i b hb hw (by rw [hl, hV, hc]) (by rw [hl, hc]; exact hg),
      decryptToChunks_eq chk _ _ _ _ g_i b hb hw (by rw [hV, hc]) (by rw [hc]; exact hg), hl]
    have : mapRes (fun i => chunkSearch (UInt16.ofNat (2 ^ b.toNat - 1))
          (E.e (g_i.getD i 0) ((decKey N rho s v gens.H).V_2.getD i 0))
          (chunkValue (rerandomise (encKey N s t (fun i => g_i.getD i 0) D C gens.H) u ct).X_r
            (rerandomise (encKey N s t (fun i => g_i.getD i 0) D C gens.H) u ct).enc_chunks rho
            (decKey N rho s v gens.H) i)) (List.range ct.enc_chunks.length) =
        mapRes (fun i => chunkSearch (UInt16.ofNat (2 ^ b.toNat - 1))
          (E.e (g_i.getD i 0) ((decKey N rho s v gens.H).V_2.getD i 0))
          (chunkValue ct.X_r ct.enc_chunks rho (decKey N rho s v gens.H) i))
          (List.range ct.enc_chunks.length) := by
      refine mapRes_congr fun i hi => ?_
      have hi := List.mem_range.mp hi
      congr 1
      unfold chunkValue
      simp only [rerandomise, encKey, decKey]
      rw [getD_tab, if_pos hi, getD_tab, if_pos (by omega), getD_tab, if_pos (by omega), getD_tab,
        if_pos (by omega)]
      simp only [map_add, LinearMap.add_apply, map_smul, LinearMap.smul_apply]
      module
    rw [this]
    cases mapRes (fun i => chunkSearch (UInt16.ofNat (2 ^ b.toNat - 1))
          (E.e (g_i.getD i 0) ((decKey N rho s v gens.H).V_2.getD i 0))
          (chunkValue ct.X_r ct.enc_chunks rho (decKey N rho s v gens.H) i))
          (List.range ct.enc_chunks.length) with
    | ok ds =>
      simp only [Res.ok_bind, Res.pure_eq, rerandomise, encKey]
      rw [smul_add, smul_smul]
    | err e => rfl
    | panic => rfl
  · have h1 := (C20_decrypt_cases chk (rerandomise (encKey N s t (fun i => g_i.getD i 0) D C gens.H) u ct).X_r
      (rerandomise (encKey N s t (fun i => g_i.getD i 0) D C gens.H) u ct).enc_chunks ⟨rho⟩
      (decKey N rho s v gens.H) g_i b hb).2.1 hw (by rw [hl, hV]; exact hc)
    have h2 := (C20_decrypt_cases chk ct.X_r ct.enc_chunks ⟨rho⟩
      (decKey N rho s v gens.H) g_i b hb).2.1 hw (by rw [hV]; exact hc)
    rw [h1, h2, hl]
    rfl

/-- **C77** The same under distributed keys: re-encrypting (all key holders, in any order, the same draws) the
re-randomised ciphertext gives exactly the re-encryption of the original. -/
theorem C77_same_reencryption (parties : List (Party E)) (b : UInt8) (gens : EncryptionGens E)
    (g_i : List E.G1) (D C : E.G1) (sks : List (SecretKeyST E)) (ek : EncryptionKey E)
    (hdkg : dkg parties b gens g_i D C = .ok (sks, ek)) (ekd : FEncryptionKeyDest E)
    (rp : List (SecretKeyST E × Party E)) (hrp : (rp.map (·.1)).Perm sks) (ct : Ciphertext E)
    (hct : ct.enc_chunks.length = ek.X.length) (u : E.Fr) :
    reEncryptAll gens (rerandomise ek u ct).X_r (rerandomise ek u ct).enc_chunks ekd rp =
      reEncryptAll gens ct.X_r ct.enc_chunks ekd rp := by
  obtain ⟨n, t, hg, hsne, hs, rfl⟩ := dkg_inv hdkg
  have hrne : rp ≠ [] := by
    rintro rfl
    exact hsne hrp.nil_eq.symm
  have hX : ∀ s, (encKey n.toNat s t (fun i => g_i.getD i 0) D C gens.H).X.length = n.toNat := by
    intro s; simp [encKey]
  rw [hX] at hct
  have hl : ∀ ek : EncryptionKey E, (rerandomise ek u ct).enc_chunks.length = ct.enc_chunks.length := by
    intro ek; simp [rerandomise]
  have hsl : ∀ P ∈ rp, ct.enc_chunks.length ≤ P.1.s.length := by
    intro P hP
    rw [hct, hs P.1 (hrp.mem_iff.mp (List.mem_map_of_mem hP))]
  rw [reEncryptAll_eq gens _ _ ekd rp hrne (by rw [hl]; exact hsl),
    reEncryptAll_eq gens _ _ ekd rp hrne hsl, hl]
  congr 2
  refine tab_congr fun i hi => ?_
  have hsum : (sks.map fun sk => sk.s.getD i 0).sum = sSum rp i := by
    rw [← (hrp.map fun sk : SecretKeyST E => sk.s.getD i 0).sum_eq, List.map_map]
    rfl
  simp only [rerandomise, encKey]
  rw [getD_tab, if_pos hi, getD_tab, if_pos (by omega), hsum]
  module

/-- **C77** What comes out is a fresh encryption: re-randomising an encryption with randomness `r` gives the encryption
of the same chunks with randomness `r + u`.  So for uniform `u` the result is distributed as a fresh encryption
of the same chunks, and with `X_0 ≠ 0` all `u` give different ciphertexts. -/
theorem C77_fresh (ek : EncryptionKey E) (g : ℕ → E.G1) (m : ℕ → ℕ) (r u : E.Fr) :
    rerandomise ek u (cipher ek g m r) = cipher ek g m (r + u) ∧
    (ek.X_0 ≠ 0 → Function.Injective fun u => rerandomise ek u (cipher ek g m r)) ∧
    Function.Bijective fun u => r + u := by
  refine ⟨?_, ?_, ?_⟩
  · simp only [rerandomise, cipher, length_tab]
    congr 1
    · rw [add_smul]
    · refine tab_congr fun i hi => ?_
      rw [getD_tab, if_pos hi]
      module
    · module
  · intro hX u u' h
    have h1 : r • ek.X_0 + u • ek.X_0 = r • ek.X_0 + u' • ek.X_0 := congrArg Ciphertext.X_r h
    exact smul_left_injective _ hX (add_left_cancel h1)
  · exact (Equiv.addLeft r).bijective

/-- **C77** Every accepted proof can be reached: if `proof` is accepted for a ciphertext and `proof'` for its
re-randomisation, and the first elements of both are nonzero multiples of `G`, their second ones multiples of `H`,
then `proof'` is the re-randomisation of `proof` with suitable `z ≠ 0` and `w`, which are unique.  So who sees a
re-randomised pair cannot tell from which of the accepted pairs for this message it was made. -/
theorem C77_every_proof (T : FftCfg E.Fr) (R : RngCore E) (fuel : ℕ) (st st' : R.σ)
    (C : Synthesizer E.Fr) (gens : EncryptionGens E) (hG : gens.G ≠ 0) (hH : gens.H ≠ 0) (pk : ProvingKey E)
    (hsrs : generateSrs T R fuel st C gens = .ok (pk, st'))
    (g_i : List E.G1) (hg : getGsForEncryption pk.pk.vk = .ok g_i) (ek : EncryptionKey E) (b : UInt8)
    (hk : FromSetup ek b gens g_i pk.pk.delta_g1 pk.gamma_g1)
    (ct : Ciphertext E) (proof proof' : Proof E) (u : E.Fr)
    (hacc : ct.verifyCommitmentAndProof proof (prepareVerifyingKey pk.pk.vk) ek.prepare gens.prepare = .ok ())
    (hacc' : (rerandomise ek u ct).verifyCommitmentAndProof proof' (prepareVerifyingKey pk.pk.vk) ek.prepare
      gens.prepare = .ok ())
    (x y x' y' : E.Fr) (ha : proof.a = x • gens.G) (hb : proof.b = y • gens.H) (ha' : proof'.a = x' • gens.G)
    (hb' : proof'.b = y' • gens.H) (hx : x ≠ 0) (hx' : x' ≠ 0) :
    ∃! zw : E.Fr × E.Fr, zw.1 ≠ 0 ∧ proof' = rerandomiseProof pk.pk.vk ek u zw.1 zw.2 proof := by
  obtain ⟨hne, -⟩ := getGs_inv hg
  have hsame := C77_same_verdict T R fuel st st' C gens hH pk hsrs g_i hg ek b hk ct proof u
  have hsim := fun x y p => C58_accepted_iff_simulated T R fuel st st' C gens pk hsrs hH hne
    (rerandomise ek u ct) x y p
  obtain ⟨cs, d, k, -, -, -, -, -, -, hdel, -, hpk⟩ := srs_inv_draws hsrs
  have hd2 : pk.pk.vk.delta_g2 = draw R st 3 • gens.H := by rw [hpk]; rfl
  have hz : x * x'⁻¹ ≠ 0 := mul_ne_zero hx (inv_ne_zero hx')
  refine ⟨(x * x'⁻¹, (y' - x * x'⁻¹ * y) * (x * x'⁻¹)⁻¹ * (draw R st 3)⁻¹), ⟨hz, ?_⟩, ?_⟩
  · have h1 := hsame (x * x'⁻¹) ((y' - x * x'⁻¹ * y) * (x * x'⁻¹)⁻¹ * (draw R st 3)⁻¹) hz
    rw [hacc] at h1
    obtain ⟨_, -, h2⟩ := Res.bind_eq_ok.mp h1
    obtain ⟨_, -, h3⟩ := Res.bind_eq_ok.mp hacc'
    rw [(hsim x' y' proof' ha' hb').mp h3]
    refine ((hsim x' y' _ ?_ ?_).mp h2).symm
    · simp only [rerandomiseProof, ha, smul_smul]
      congr 1
      field_simp
    · simp only [rerandomiseProof, hb, hd2, smul_smul]
      rw [← add_smul]
      congr 1
      field_simp
      ring
  · rintro ⟨z, w⟩ ⟨hz0, heq⟩
    have e1 : x' • gens.G = (z⁻¹ * x) • gens.G := by
      rw [← ha', heq]
      simp only [rerandomiseProof, ha, smul_smul]
    have e2 : y' • gens.H = (z * y + z * w * draw R st 3) • gens.H := by
      rw [← hb', heq]
      simp only [rerandomiseProof, hb, hd2, smul_smul, add_smul]
    have e1 := smul_left_injective _ hG e1
    have e2 := smul_left_injective _ hH e2
    have hzz : z = x * x'⁻¹ := by
      rw [e1]
      field_simp
    subst hzz
    refine Prod.ext rfl ?_
    dsimp only
    rw [e2]
    field_simp
    ring

/-- the hypotheses are met: the 16-bit run of the fixtures; every message encrypted with its proof, re-randomised with
`u = 5, z = 7, w = 11`, is accepted and decrypts to the same chunks -/
example : ∃ (pk : ProvingKey Fix.E) (sk : SecretKey Fix.E) (ek : EncryptionKey Fix.E) (dk : DecryptionKey Fix.E)
    (g_i : List Fix.E.G1), ∀ m : Fix.E.Fr, ∃ (ct : Ciphertext Fix.E) (r : Fix.E.Fr) (proof : Proof Fix.E)
      (st2 : (listRng Fix.E).σ),
      encryptWithProof goldFft true (listRng Fix.E) Fix.st1 m ek pk 16 = .ok ((ct, r, proof), st2) ∧
      (rerandomise ek (show Fix.E.Fr from (5 : Fix.F)) ct).verifyCommitmentAndProof
        (rerandomiseProof pk.pk.vk ek (show Fix.E.Fr from (5 : Fix.F)) (show Fix.E.Fr from (7 : Fix.F))
          (show Fix.E.Fr from (11 : Fix.F)) proof) (prepareVerifyingKey pk.pk.vk) ek.prepare Fix.gens.prepare
        = .ok () ∧
      decryptToChunks true (rerandomise ek (show Fix.E.Fr from (5 : Fix.F)) ct).X_r
        (rerandomise ek (show Fix.E.Fr from (5 : Fix.F)) ct).enc_chunks sk dk.prepare g_i 16 =
        (decryptToChunks true ct.X_r ct.enc_chunks sk dk.prepare g_i 16 >>= fun out =>
          .ok (out.1, out.2 + (sk.rho * (show Fix.E.Fr from (5 : Fix.F))) • ek.X_0)) := by
  obtain ⟨c0, pk, sk, ek, dk, g_i, st1, st2, hc0, hsrs, hg, hkg, hk, -⟩ := fix_run
  refine ⟨pk, sk, ek, dk, g_i, fun m => ?_⟩
  obtain ⟨ct, r, proof, st3, h1, -, h2⟩ := C46_encrypt_with_proof goldFft (listRng Fix.E) 1 Fix.stFull
    st1 16 (Or.inr (Or.inr rfl)) Fix.aligned c0 Fix.gens pk hc0 hsrs g_i hg ek hk true (listRng Fix.E) Fix.st1 m
  refine ⟨ct, r, proof, st3, h1, ?_, C77_same_plaintext _ _ _ 16 Fix.gens g_i _ _ sk ek dk hkg (by decide) true ct _⟩
  rw [C77_same_verdict goldFft (listRng Fix.E) 1 Fix.stFull st1 _ Fix.gens
    (by exact (by decide +kernel : (3 : Fix.F) ≠ 0)) pk hsrs g_i hg ek 16 hk ct proof _ _ _
    (by exact (by decide +kernel : (7 : Fix.F) ≠ 0))]
  exact h2

/-- those of `C77_same_reencryption`: two parties, the ciphertext of the fixtures -/
example : reEncryptAll Fix.gens (rerandomise Fix.dek (show Fix.E.Fr from (5 : Fix.F)) Fix.dct1).X_r
      (rerandomise Fix.dek (show Fix.E.Fr from (5 : Fix.F)) Fix.dct1).enc_chunks Fix.ekd Fix.rp =
    reEncryptAll Fix.gens Fix.dct1.X_r Fix.dct1.enc_chunks Fix.ekd Fix.rp :=
  C77_same_reencryption Fix.parties 16 Fix.gens Fix.gi Fix.D Fix.C _ Fix.dek Fix.dkg_ok Fix.ekd Fix.rp Fix.rp_perm
    Fix.dct1 (by decide +kernel) _

/-- and those of `C77_every_proof`: two accepted proofs at the points `(1, 2)` and `(3, 4)`, the second for the
re-randomised ciphertext -/
example : ∃ (pk : ProvingKey Fix.E) (ek : EncryptionKey Fix.E) (ct : Ciphertext Fix.E) (proof proof' : Proof Fix.E),
    proof.a = Fix.gens.G ∧ proof'.a = (show Fix.E.Fr from (3 : Fix.F)) • Fix.gens.G ∧
    ∃! zw : Fix.E.Fr × Fix.E.Fr, zw.1 ≠ 0 ∧
      proof' = rerandomiseProof pk.pk.vk ek (show Fix.E.Fr from (5 : Fix.F)) zw.1 zw.2 proof := by
  obtain ⟨c0, pk, sk, ek, dk, g_i, st1, st2, hc0, hsrs, hg, hkg, hk, -⟩ := fix_run
  obtain ⟨ct, r, proof, st3, h1, -, h2⟩ := C46_encrypt_with_proof goldFft (listRng Fix.E) 1 Fix.stFull
    st1 16 (Or.inr (Or.inr rfl)) Fix.aligned c0 Fix.gens pk hc0 hsrs g_i hg ek hk true (listRng Fix.E) Fix.st1
    (show Fix.E.Fr from (99 : Fix.F))
  have hH : Fix.gens.H ≠ 0 := by exact (by decide +kernel : (3 : Fix.F) ≠ 0)
  obtain ⟨hne, -⟩ := getGs_inv hg
  have h3 := C77_same_verdict goldFft (listRng Fix.E) 1 Fix.stFull st1 _ Fix.gens hH pk hsrs g_i hg ek 16 hk ct proof
    (show Fix.E.Fr from (5 : Fix.F)) 1 0 one_ne_zero
  rw [h2] at h3
  obtain ⟨_, hc, -⟩ := Res.bind_eq_ok.mp h2
  obtain ⟨_, hc', -⟩ := Res.bind_eq_ok.mp h3
  have hsim := fun ct x y p => (C58_accepted_iff_simulated goldFft (listRng Fix.E) 1 Fix.stFull st1 _ Fix.gens pk hsrs
    hH hne ct x y p)
  refine ⟨pk, ek, ct, _, _, ?_, ?_, C77_every_proof goldFft (listRng Fix.E) 1 Fix.stFull st1 _ Fix.gens
    (by exact (by decide +kernel : (2 : Fix.F) ≠ 0)) hH pk hsrs g_i hg ek 16 hk ct
    (simulate Fix.gens pk.pk.vk _ _ _ _ ct 1 (show Fix.E.Fr from (2 : Fix.F)))
    (simulate Fix.gens pk.pk.vk _ _ _ _ (rerandomise ek (show Fix.E.Fr from (5 : Fix.F)) ct)
      (show Fix.E.Fr from (3 : Fix.F)) (show Fix.E.Fr from (4 : Fix.F)))
    (show Fix.E.Fr from (5 : Fix.F)) (Res.bind_eq_ok.mpr ⟨_, hc, (hsim _ _ _ _ rfl rfl).mpr rfl⟩)
    (Res.bind_eq_ok.mpr ⟨_, hc', (hsim _ _ _ _ rfl rfl).mpr rfl⟩) _ _ _ _ rfl rfl rfl rfl one_ne_zero
    (by exact (by decide +kernel : (3 : Fix.F) ≠ 0))⟩
  · exact one_smul _ _
  · rfl

end Verif
