/-
Property C89: what a re-encryption performed for one ciphertext discloses about others.

`re_encrypt_share` (src/encryption.rs:392-415) looks at the first component of the ciphertext only;
the chunk components it is called with matter for their number alone.  So the parties cannot tell a
request for one ciphertext from a request for another with a related first component, and a single
answered request opens every ciphertext whose first component is related to the one asked about.
-/
import Verif.Props.ReEncrypt

namespace Verif
open Spec

variable {E : Engine}

/-- The vector a destination hands to `decrypt_to_chunks_after_re_encryption` when it was given the
re-encryption `cs` of the chunk components `c'` under the first component `a • X_r + u • X_0`, and
wants to open the ciphertext `ct` (with first component `X_r`) instead. -/
def Spec.relatedVector (ek : EncryptionKey E) (ct : Ciphertext E) (a u : E.Fr) (c' cs : List E.G1) :
    List E.G1 :=
  tab ek.X.length fun i =>
    ct.enc_chunks.getD i 0 + a⁻¹ • (cs.getD i 0 - c'.getD i 0 + u • ek.X.getD i 0)

/-- **C89** A party's re-encryption share is the same for any two lists of chunk components of the
same length. -/
theorem C89_share_ignores_chunks (R : RngCore E) (st : R.σ) (gens : EncryptionGens E) (c_0 : E.G1)
    (c c' : List E.G1) (hlen : c'.length = c.length) (ekd : FEncryptionKeyDest E)
    (sk : SecretKeyST E) :
    reEncryptShare R st gens c_0 c' ekd sk = reEncryptShare R st gens c_0 c ekd sk := by
  unfold reEncryptShare
  rw [hlen]

/-- shares of the first party for four real and for four zero chunk components -/
example : reEncryptShare (listRng Fix.E) ((([31] : List Fix.F), [], [])) Fix.gens Fix.D [0, 0, 0, 0] Fix.ekd Fix.skA
    = reEncryptShare (listRng Fix.E) ((([31] : List Fix.F), [], [])) Fix.gens Fix.D Fix.dct1.enc_chunks Fix.ekd Fix.skA :=
  C89_share_ignores_chunks _ _ _ _ _ _ (by decide +kernel) _ _

/-- the answer of all parties to a request with a first component in the span of `X_r` and `X_0` -/
theorem reEncryptAll_related (parties : List (Party E)) (b : UInt8) (gens : EncryptionGens E)
    (g_i : List E.G1) (D C : E.G1) (sks : List (SecretKeyST E)) (ek : EncryptionKey E)
    (hdkg : dkg parties b gens g_i D C = .ok (sks, ek))
    (Rd : RngCore E) (std std' : Rd.σ) (skd : SecretKey E) (ekd : FEncryptionKeyDest E)
    (hdest : fkeygenDest Rd std gens = .ok ((skd, ekd), std'))
    (rp : List (SecretKeyST E × Party E)) (hrp : (rp.map (·.1)).Perm sks)
    (x : E.Fr) (c' : List E.G1) (hc' : c'.length = ek.X.length) :
    ∃ g_r cs, reEncryptAll gens (x • ek.X_0) c' ekd rp = .ok (g_r :: cs) ∧
      cs.length = ek.X.length ∧
      ∀ i < ek.X.length, cs.getD i 0 = c'.getD i 0 - x • ek.X.getD i 0 + skd.rho • g_r := by
  obtain ⟨n, t, hg, hsne, hs, rfl⟩ := dkg_inv hdkg
  have hpk := fkeygenDest_inv hdest
  have hX : (encKey n.toNat (fun i => (sks.map fun sk => sk.s.getD i 0).sum) t
      (fun i => g_i.getD i 0) D C gens.H).X
      = tab n.toNat fun i => (sks.map fun sk => sk.s.getD i 0).sum • D := rfl
  rw [hX, length_tab] at hc' ⊢
  have hne : rp ≠ [] := by
    rintro rfl
    exact hsne (by simpa using hrp.symm)
  have hlen : ∀ P ∈ rp, c'.length ≤ P.1.s.length := by
    intro P hP
    rw [hc', hs P.1 (hrp.mem_iff.mp (List.mem_map_of_mem hP))]
  refine ⟨_, _, reEncryptAll_eq gens _ c' ekd rp hne hlen, by simp [hc'], ?_⟩
  intro i hi
  have hsum : (sks.map fun sk => sk.s.getD i 0).sum = sSum rp i := by
    rw [← (hrp.map fun sk : SecretKeyST E => sk.s.getD i 0).sum_eq, List.map_map]
    rfl
  rw [getD_tab, if_pos (by omega), getD_tab, if_pos hi, hsum, hpk]
  show _ + (-(sSum rp i • x • D) + _) = _ - x • sSum rp i • D + _
  module

/-- **C89** Every party helps to re-encrypt, to the requester's own destination key, one pair
`(a • X_r + u • X_0, c')`, where `X_r` is the first component of somebody else's ciphertext, `a ≠ 0`
and the chunk components `c'` are arbitrary.  Then the requester opens that other ciphertext with
`decrypt_to_chunks_after_re_encryption`. -/
theorem C89_related_request (parties : List (Party E)) (b : UInt8) (gens : EncryptionGens E)
    (g_i : List E.G1) (D C : E.G1) (sks : List (SecretKeyST E)) (ek : EncryptionKey E)
    (hdkg : dkg parties b gens g_i D C = .ok (sks, ek)) (hgi : ∀ g ∈ g_i, g ≠ 0)
    (Rd : RngCore E) (std std' : Rd.σ) (skd : SecretKey E) (ekd : FEncryptionKeyDest E)
    (hdest : fkeygenDest Rd std gens = .ok ((skd, ekd), std'))
    (R : RngCore E) (st st1 : R.σ) (chunks : List UInt16) (v : List E.G1) (r : E.Fr)
    (henc : encryptDecomposedMessage R st chunks ek g_i = .ok ((v, r), st1))
    (rp : List (SecretKeyST E × Party E)) (hrp : (rp.map (·.1)).Perm sks)
    (a u : E.Fr) (ha : a ≠ 0) (c' : List E.G1) (hc' : c'.length = ek.X.length)
    (chk : Bool) (b' : UInt8) (hb' : b'.toNat < 32)
    (hch : ∀ x ∈ chunks, x.toNat ≤ 2 ^ b'.toNat - 1 ∧ x.toNat < E.fr.p) :
    ∃ ct g_r cs, v = flat ct ∧
      reEncryptAll gens (a • ct.X_r + u • ek.X_0) c' ekd rp = .ok (g_r :: cs) ∧
      decryptAfterReEncryption chk (a⁻¹ • g_r) (relatedVector ek ct a u c' cs) skd g_i b'
        = .ok chunks := by
  obtain ⟨h1, h2, h3, h4, h5, -, -⟩ := encryptDecomposed_inv henc
  obtain ⟨g_r, cs, hre, hcs, hv⟩ := reEncryptAll_related parties b gens g_i D C sks ek hdkg Rd std
    std' skd ekd hdest rp hrp (a * r + u) c' hc'
  refine ⟨_, g_r, cs, h5, ?_, ?_⟩
  · have : a • (cipher ek (fun i => g_i.getD i 0) (fun i => (nums chunks).getD i 0) r).X_r
        + u • ek.X_0 = (a * r + u) • ek.X_0 := by
      show a • r • ek.X_0 + _ = _
      module
    rw [this]; exact hre
  · have hget : ∀ i < ek.X.length, ∃ x ∈ chunks, (nums chunks).getD i 0 = x.toNat := by
      intro i hi
      refine ⟨chunks[i]'(by omega), List.getElem_mem _, ?_⟩
      simp [nums, List.getD_eq_getElem?_getD, List.getElem?_map,
        List.getElem?_eq_getElem (show i < chunks.length by omega)]
    have hval : ∀ i < ek.X.length, (relatedVector ek (cipher ek (fun i => g_i.getD i 0)
        (fun i => (nums chunks).getD i 0) r) a u c' cs).getD i 0 - skd.rho • a⁻¹ • g_r
        = (nums chunks).getD i 0 • g_i.getD i 0 := by
      intro i hi
      rw [relatedVector, getD_tab, if_pos hi, hv i hi]
      have hc : (cipher ek (fun i => g_i.getD i 0) (fun i => (nums chunks).getD i 0) r).enc_chunks.getD i 0
          = r • ek.X.getD i 0 + (nums chunks).getD i 0 • g_i.getD i 0 := by
        simp only [cipher, getD_tab, if_pos hi]
      rw [hc]
      have : c'.getD i 0 - (a * r + u) • ek.X.getD i 0 + skd.rho • g_r - c'.getD i 0
          + u • ek.X.getD i 0 = -(a * r) • ek.X.getD i 0 + skd.rho • g_r := by module
      rw [this, smul_add, smul_smul a⁻¹, show a⁻¹ * -(a * r) = -r by field_simp]
      module
    have hmain := (decryptAfter_values chk ek.X.length (a⁻¹ • g_r) _ skd g_i b' hb'
      (by simp [relatedVector]) h4 (by
        intro i hi
        refine hgi _ ?_
        rw [List.getD_eq_getElem?_getD, List.getElem?_eq_getElem (by omega)]
        exact List.getElem_mem _) (fun i => (nums chunks).getD i 0) (by
        intro i hi
        obtain ⟨x, hx, he⟩ := hget i hi
        rw [he]; exact (hch x hx).2) hval).1 (by
        intro i hi
        obtain ⟨x, hx, he⟩ := hget i hi
        rw [he]
        have := (hch x hx).1
        have := x.toNat_lt
        simp only [searchBound]
        omega)
    rw [hmain]
    congr 1
    apply List.ext_getElem
    · simp [h3]
    · intro i hi1 hi2
      simp [tab, nums, List.getD_eq_getElem?_getD, List.getElem?_map,
        List.getElem?_eq_getElem hi2]

/-- the fixture's ciphertext is opened by a request for another first component and zero chunks -/
example : ∃ ct g_r cs, flat Fix.dct1 = flat ct ∧
    reEncryptAll Fix.gens ((show Fix.E.Fr from (7 : Fix.F)) • ct.X_r
      + (show Fix.E.Fr from (5 : Fix.F)) • Fix.dek.X_0) [0, 0, 0, 0] Fix.ekd Fix.rp = .ok (g_r :: cs) ∧
    decryptAfterReEncryption true ((show Fix.E.Fr from (7 : Fix.F))⁻¹ • g_r)
      (relatedVector Fix.dek ct (show Fix.E.Fr from (7 : Fix.F)) (show Fix.E.Fr from (5 : Fix.F))
        [0, 0, 0, 0] cs) Fix.skd Fix.gi 16 = .ok Fix.m1 :=
  C89_related_request Fix.parties 16 Fix.gens Fix.gi Fix.D Fix.C _ Fix.dek Fix.dkg_ok Fix.gi_ne
    _ _ _ Fix.skd Fix.ekd Fix.dest_ok _ _ _ Fix.m1 _ _ Fix.denc1 Fix.rp Fix.rp_perm _ _
    (by decide +kernel) _ (by decide +kernel) true 16 (by decide) (by decide +kernel)

/-- **C89** Conversely a request about a multiple of the public `X_0` alone discloses nothing: after
removing its own mask the destination holds `-u • X_i`, which it can compute from the public key. -/
theorem C89_unrelated_request (parties : List (Party E)) (b : UInt8) (gens : EncryptionGens E)
    (g_i : List E.G1) (D C : E.G1) (sks : List (SecretKeyST E)) (ek : EncryptionKey E)
    (hdkg : dkg parties b gens g_i D C = .ok (sks, ek))
    (Rd : RngCore E) (std std' : Rd.σ) (skd : SecretKey E) (ekd : FEncryptionKeyDest E)
    (hdest : fkeygenDest Rd std gens = .ok ((skd, ekd), std'))
    (rp : List (SecretKeyST E × Party E)) (hrp : (rp.map (·.1)).Perm sks)
    (u : E.Fr) (c' : List E.G1) (hc' : c'.length = ek.X.length) :
    ∃ g_r cs, reEncryptAll gens (u • ek.X_0) c' ekd rp = .ok (g_r :: cs) ∧
      ∀ i < ek.X.length, cs.getD i 0 - c'.getD i 0 - skd.rho • g_r = -(u • ek.X.getD i 0) := by
  obtain ⟨g_r, cs, h1, -, h2⟩ := reEncryptAll_related parties b gens g_i D C sks ek hdkg Rd std std'
    skd ekd hdest rp hrp u c' hc'
  refine ⟨g_r, cs, h1, fun i hi => ?_⟩
  rw [h2 i hi]
  abel

/-- a request about `5 • X_0` in the fixture -/
example : ∃ g_r cs, reEncryptAll Fix.gens ((show Fix.E.Fr from (5 : Fix.F)) • Fix.dek.X_0)
      [0, 0, 0, 0] Fix.ekd Fix.rp = .ok (g_r :: cs) ∧
    ∀ i < Fix.dek.X.length, cs.getD i 0 - [0, 0, 0, 0].getD i 0 - Fix.skd.rho • g_r
      = -((show Fix.E.Fr from (5 : Fix.F)) • Fix.dek.X.getD i 0) :=
  C89_unrelated_request Fix.parties 16 Fix.gens Fix.gi Fix.D Fix.C _ Fix.dek Fix.dkg_ok
    _ _ _ Fix.skd Fix.ekd Fix.dest_ok Fix.rp Fix.rp_perm _ _ (by decide +kernel)

end Verif
