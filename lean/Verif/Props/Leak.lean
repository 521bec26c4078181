/-
Properties C31 (re-encrypted ciphertexts leak the plaintext) and C32 (share combination).
-/
import Verif.Props.ReEncrypt
import Mathlib.Algebra.BigOperators.Group.List.Basic

namespace Verif
open Spec

variable {E : Engine}

/-! ### C31 -/

/-- What an observer without any key does: guess that chunk `j` of the re-encrypted vector `cs` is
`k`, subtract the mask this implies from every component, and run the public search (the library's
own decryption function, with the zero key). -/
def publicGuess (chk : Bool) (cs g_i : List E.G1) (b : UInt8) (j k : ℕ) : Res (List UInt16) :=
  decryptAfterReEncryption chk 0 (cs.map fun x => x - (cs.getD j 0 - k • g_i.getD j 0)) ⟨0⟩ g_i b

/-- all successful guesses for chunk `0` -/
def publicCandidates (chk : Bool) (cs g_i : List E.G1) (b : UInt8) : List (List UInt16) :=
  (List.range (2 ^ b.toNat)).filterMap fun k =>
    match publicGuess chk cs g_i b 0 k with
    | .ok ds => some ds
    | _ => none

theorem reEncrypt_honest_values (parties : List (Party E)) (b : UInt8) (gens : EncryptionGens E)
    (g_i : List E.G1) (D C : E.G1) (sks : List (SecretKeyST E)) (ek : EncryptionKey E)
    (hdkg : dkg parties b gens g_i D C = .ok (sks, ek)) (ekd : FEncryptionKeyDest E)
    (R : RngCore E) (st st1 : R.σ) (chunks : List UInt16) (v : List E.G1) (r : E.Fr)
    (henc : encryptDecomposedMessage R st chunks ek g_i = .ok ((v, r), st1))
    (rp : List (SecretKeyST E × Party E)) (hrp : (rp.map (·.1)).Perm sks) :
    ∃ ct g_r cs mask, v = flat ct ∧ cs.length = chunks.length ∧ chunks.length ≤ g_i.length ∧
      reEncryptAll gens ct.X_r ct.enc_chunks ekd rp = .ok (g_r :: cs) ∧
      (∀ i < chunks.length, cs.getD i 0 = (nums chunks).getD i 0 • g_i.getD i 0 + mask) := by
  obtain ⟨h1, h2, h3, h4, h5, -, -⟩ := encryptDecomposed_inv henc
  obtain ⟨n, t, hg, hsne, hs, rfl⟩ := dkg_inv hdkg
  have hrne : rp ≠ [] := by
    rintro rfl
    exact hsne hrp.nil_eq.symm
  have hXn : ∀ s t, (encKey n.toNat s t (fun i => g_i.getD i 0) D C gens.H).X.length = n.toNat := by
    intro s t; simp [encKey]
  rw [hXn] at h3 h4
  refine ⟨_, _, _, rhoSum rp • ekd.pk, h5, ?_, ?_, reEncrypt_cipher n t g_i D C gens sks [] hs rp hrne
    (by simpa using hrp) ekd _ _ _ rfl, ?_⟩
  · simp [h3]
  · omega
  · intro i hi
    rw [getD_tab, if_pos (by omega)]
    simp only [List.map_nil, List.sum_nil, mul_zero, zero_smul, add_zero]

/-- **C31** The output of a complete re-encryption of an honest ciphertext, to *any* destination
key: without any secret, (1) component differences equal `m_i g_i - m_j g_j`; (2) whoever knows one
chunk recovers all chunks; (3) nobody needs to know a chunk: the public list of candidates has at
most `2^b` entries and contains the plaintext. -/
theorem C31_reencryption_leaks (parties : List (Party E)) (b : UInt8) (gens : EncryptionGens E)
    (g_i : List E.G1) (D C : E.G1) (sks : List (SecretKeyST E)) (ek : EncryptionKey E)
    (hdkg : dkg parties b gens g_i D C = .ok (sks, ek)) (hgi : ∀ g ∈ g_i, g ≠ 0)
    (ekd : FEncryptionKeyDest E)
    (R : RngCore E) (st st1 : R.σ) (chunks : List UInt16) (v : List E.G1) (r : E.Fr)
    (henc : encryptDecomposedMessage R st chunks ek g_i = .ok ((v, r), st1))
    (rp : List (SecretKeyST E × Party E)) (hrp : (rp.map (·.1)).Perm sks)
    (chk : Bool) (b' : UInt8) (hb' : b'.toNat < 32)
    (hch : ∀ x ∈ chunks, x.toNat ≤ 2 ^ b'.toNat - 1 ∧ x.toNat < E.fr.p) :
    ∃ ct g_r cs, v = flat ct ∧
      reEncryptAll gens ct.X_r ct.enc_chunks ekd rp = .ok (g_r :: cs) ∧
      (∀ i < chunks.length, ∀ j < chunks.length, cs.getD i 0 - cs.getD j 0
        = (nums chunks).getD i 0 • g_i.getD i 0 - (nums chunks).getD j 0 • g_i.getD j 0) ∧
      (∀ j < chunks.length,
        publicGuess chk cs g_i b' j ((nums chunks).getD j 0) = .ok chunks) ∧
      (publicCandidates chk cs g_i b').length ≤ 2 ^ b'.toNat ∧
      (chunks ≠ [] → chunks ∈ publicCandidates chk cs g_i b') := by
  obtain ⟨ct, g_r, cs, mask, h1, h2, h3, h4, h5⟩ := reEncrypt_honest_values parties b gens g_i D C
    sks ek hdkg ekd R st st1 chunks v r henc rp hrp
  have hget : ∀ i < chunks.length, ∃ x ∈ chunks, (nums chunks).getD i 0 = x.toNat := by
    intro i hi
    refine ⟨chunks[i], List.getElem_mem _, ?_⟩
    simp [nums, List.getD_eq_getElem?_getD, List.getElem?_eq_getElem hi]
  have hguess : ∀ j < chunks.length,
        publicGuess chk cs g_i b' j ((nums chunks).getD j 0) = .ok chunks := by
    intro j hj
    have hd := (decryptAfter_values chk chunks.length (0 : E.G1)
      (cs.map fun x => x - (cs.getD j 0 - (nums chunks).getD j 0 • g_i.getD j 0)) ⟨0⟩ g_i b' hb'
      (by simpa using h2) h3 (fun i hi => getD_mem_ne hgi (by omega))
      (fun i => (nums chunks).getD i 0) (fun i hi => by
        obtain ⟨x, hx, e⟩ := hget i hi; simp only [e]; exact (hch x hx).2) (by
        intro i hi
        rw [List.getD_eq_getElem?_getD, List.getElem?_map,
          List.getElem?_eq_getElem (show i < cs.length by omega)]
        have e := h5 i hi
        rw [List.getD_eq_getElem?_getD, List.getElem?_eq_getElem (show i < cs.length by omega)] at e
        simp only [Option.getD_some, Option.map_some, smul_zero, sub_zero] at e ⊢
        rw [e, h5 j hj]
        abel)).1 (by
        intro i hi
        obtain ⟨x, hx, e⟩ := hget i hi
        simp only [e]
        have h1 := (hch x hx).1
        have h2 := x.toNat_lt
        unfold searchBound
        omega)
    unfold publicGuess
    rw [hd]
    congr 1
    apply List.ext_getElem?
    intro i
    rw [getElem?_tab]
    by_cases hi : i < chunks.length
    · rw [if_pos hi, List.getElem?_eq_getElem hi]
      simp [nums, List.getD_eq_getElem?_getD, List.getElem?_eq_getElem hi]
    · rw [if_neg hi, List.getElem?_eq_none (by omega)]
  refine ⟨ct, g_r, cs, h1, h4, ?_, hguess, ?_, ?_⟩
  · intro i hi j hj
    rw [h5 i hi, h5 j hj]
    abel
  · exact le_trans (List.length_filterMap_le _ _) (by simp)
  · intro hne
    have h0 : 0 < chunks.length := List.length_pos_iff.mpr hne
    obtain ⟨x, hx, e⟩ := hget 0 h0
    refine List.mem_filterMap.mpr ⟨(nums chunks).getD 0 0, List.mem_range.mpr ?_, ?_⟩
    · rw [e]
      have h1 := (hch x hx).1
      have h2 : 0 < 2 ^ b'.toNat := Nat.pow_pos (by norm_num)
      omega
    · rw [hguess 0 h0]

/-- the hypotheses of C31 are met by the two-party run of `Fix`: the plaintext `1, 2, 300, 4` is among the
publicly computable candidates -/
example : ∃ ct g_r cs, flat Fix.dct1 = flat ct ∧
    reEncryptAll Fix.gens ct.X_r ct.enc_chunks Fix.ekd Fix.rp = .ok (g_r :: cs) ∧
    [1, 2, 300, 4] ∈ publicCandidates true cs Fix.gi 16 := by
  obtain ⟨ct, g_r, cs, h1, h2, -, -, -, h3⟩ := C31_reencryption_leaks Fix.parties 16 Fix.gens Fix.gi Fix.D
    Fix.C _ Fix.dek Fix.dkg_ok Fix.gi_ne Fix.ekd _ _ _ Fix.m1 _ _ Fix.denc1 Fix.rp Fix.rp_perm true 16
    (by decide) (by decide +kernel)
  exact ⟨ct, g_r, cs, h1, h2, h3 (List.cons_ne_nil _ _)⟩

/-! ### C32 -/

theorem addInto_ok_iff {a b w : List E.G1} :
    addInto a b = .ok w ↔ a.length ≤ b.length ∧ w = tab a.length fun i => a.getD i 0 + b.getD i 0 := by
  rcases Nat.lt_or_ge b.length a.length with h | h
  · rw [addInto_panic h]; simp; omega
  · rw [addInto_eq h]
    simp only [Res.ok.injEq]
    exact ⟨fun e => ⟨h, e.symm⟩, fun e => e.2.symm⟩

/-- **C32** shape behaviour of the four functions, for all inputs: exactly when they abort, and
what they return otherwise (a longer second argument is cut off silently). -/
theorem C32_shapes (R : RngCore E) (st : R.σ) (gens : EncryptionGens E) (c_0 g_r g_r' : E.G1)
    (c w w' : List E.G1) (ekd : FEncryptionKeyDest E) (sk : SecretKeyST E) :
    -- combine_re_encrypt_share
    (w'.length < w.length → combineReEncryptShare g_r g_r' w w' = .panic) ∧
    (w.length ≤ w'.length → ∃ z, combineReEncryptShare g_r g_r' w w' = .ok (z, g_r + g_r') ∧
      z.length = w.length ∧ ∀ i < w.length, z.getD i 0 = w.getD i 0 + w'.getD i 0) ∧
    -- combine_ct_with_w
    (w.length < c.length → combineCtWithW c g_r w = .panic) ∧
    (c.length ≤ w.length → ∃ z, combineCtWithW c g_r w = .ok (g_r :: z) ∧
      z.length = c.length ∧ ∀ i < c.length, z.getD i 0 = c.getD i 0 + w.getD i 0) ∧
    -- add_cts
    (w'.length < w.length → addCts w w' = .panic) ∧
    (w.length ≤ w'.length → ∃ z, addCts w w' = .ok z ∧
      z.length = w.length ∧ ∀ i < w.length, z.getD i 0 = w.getD i 0 + w'.getD i 0) ∧
    -- re_encrypt_share
    (sk.s.length < c.length → reEncryptShare R st gens c_0 c ekd sk = .panic) ∧
    (c.length ≤ sk.s.length → ∃ z st', reEncryptShare R st gens c_0 c ekd sk
        = .ok ((z, draw R st 0 • gens.G), st') ∧ z.length = c.length ∧
      ∀ i < c.length, z.getD i 0 = draw R st 0 • ekd.pk - sk.s.getD i 0 • c_0) := by
  refine ⟨?_, ?_, ?_, ?_, ?_, ?_, ?_, ?_⟩
  · intro h
    rw [combineReEncryptShare_eq, addInto_panic h]; rfl
  · intro h
    rw [combineReEncryptShare_eq, addInto_eq h]
    exact ⟨_, rfl, by simp, fun i hi => by rw [getD_tab, if_pos hi]⟩
  · intro h
    rw [combineCtWithW_eq, addInto_panic h]; rfl
  · intro h
    rw [combineCtWithW_eq, addInto_eq h]
    exact ⟨_, rfl, by simp, fun i hi => by rw [getD_tab, if_pos hi]⟩
  · intro h
    rw [addCts_eq_addInto, addInto_panic h]
  · intro h
    rw [addCts_eq_addInto, addInto_eq h]
    exact ⟨_, rfl, by simp, fun i hi => by rw [getD_tab, if_pos hi]⟩
  · exact reEncryptShare_panic R st gens c_0 c ekd sk
  · intro h
    rw [reEncryptShare_eq R st gens c_0 c ekd sk h]
    exact ⟨_, _, rfl, by simp, fun i hi => by rw [getD_tab, if_pos hi]; abel⟩

/-- **C32** `combine_re_encrypt_share` is commutative and associative on shares of one length. -/
theorem C32_comm_assoc (g1 g2 g3 : E.G1) (w1 w2 w3 : List E.G1) (h12 : w2.length = w1.length)
    (h13 : w3.length = w1.length) :
    combineReEncryptShare g1 g2 w1 w2 = combineReEncryptShare g2 g1 w2 w1 ∧
    (do let x ← combineReEncryptShare g1 g2 w1 w2
        combineReEncryptShare x.2 g3 x.1 w3)
      = (do let y ← combineReEncryptShare g2 g3 w2 w3
            combineReEncryptShare g1 y.2 w1 y.1) := by
  simp only [combineReEncryptShare_eq]
  rw [addInto_eq h12.ge, addInto_eq h12.le, addInto_eq (a := w2) (b := w3) (by omega)]
  simp only [Res.ok_bind, Res.pure_eq]
  rw [addInto_eq (by simp; omega), addInto_eq (by simp; omega)]
  simp only [Res.ok_bind, Res.ok.injEq, Prod.mk.injEq, length_tab, h12]
  refine ⟨⟨?_, add_comm _ _⟩, ?_, add_assoc _ _ _⟩
  · exact tab_congr fun i _ => add_comm _ _
  · apply tab_congr
    intro i hi
    rw [getD_tab, if_pos hi, getD_tab, if_pos hi, add_assoc]

/-- **C32** folding the shares of any number of parties in any order gives the same result
(shares of one length). -/
theorem C32_order_independent (l l' : List (List E.G1 × E.G1)) (n : ℕ)
    (hl : ∀ s ∈ l, s.1.length = n) (hp : l.Perm l') : combineShares l = combineShares l' := by
  cases l with
  | nil => rw [hp.nil_eq]
  | cons x xs =>
    cases l' with
    | nil => exact absurd hp.symm.nil_eq (by simp)
    | cons y ys =>
      have hl' : ∀ s ∈ y :: ys, s.1.length = n := fun s hs => hl s (hp.mem_iff.mpr hs)
      rw [combineShares_eq x xs, combineShares_eq y ys]
      · rw [hl x (by simp), hl' y (by simp)]
        congr 2
        · apply tab_congr
          intro i _
          exact (hp.map _).sum_eq
        · exact (hp.map _).sum_eq
      · intro s hs
        rw [hl' y (by simp), hl' s (by simp [hs])]
      · intro s hs
        rw [hl x (by simp), hl s (by simp [hs])]

/-- **C32** consequently the whole re-encryption does not depend on the order of the parties. -/
theorem C32_reencryption_order (gens : EncryptionGens E) (c_0 : E.G1) (c : List E.G1)
    (ekd : FEncryptionKeyDest E) (ps ps' : List (SecretKeyST E × Party E)) (hp : ps.Perm ps')
    (h : ∀ P ∈ ps, c.length ≤ P.1.s.length) :
    reEncryptAll gens c_0 c ekd ps = reEncryptAll gens c_0 c ekd ps' := by
  by_cases hne : ps = []
  · subst hne
    rw [hp.nil_eq]
  · have hne' : ps' ≠ [] := fun e => hne (by subst e; exact hp.symm.nil_eq.symm)
    rw [reEncryptAll_eq gens c_0 c ekd ps hne h,
      reEncryptAll_eq gens c_0 c ekd ps' hne' (fun P hP => h P (hp.mem_iff.mpr hP))]
    have e1 : rhoSum ps = rhoSum ps' := (hp.map _).sum_eq
    have e2 : ∀ i, sSum ps i = sSum ps' i := fun i => (hp.map _).sum_eq
    simp only [e1, e2]

/-- two shares of length two: the hypotheses of the order theorem are met -/
example : combineShares (E := Engine.scalar smallFr) [([3, 4], 5), ([10, 20], 7)]
    = .ok ([13, 24], 12) ∧
    combineShares (E := Engine.scalar smallFr) [([10, 20], 7), ([3, 4], 5)]
    = .ok ([13, 24], 12) := by
  constructor <;> rfl

end Verif
