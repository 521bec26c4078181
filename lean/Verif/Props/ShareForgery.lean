/-
Property C79: re-encryption shares are not authenticated: one contributor can change what the destination
decrypts, and the last one decides it.
-/
import Verif.Props.ReEncrypt

namespace Verif
open Spec

variable {E : Engine}

namespace Spec

/-- First step of distributed re-encryption (src/tests.rs:135-153): every party makes its share. -/
def makeShares (gens : EncryptionGens E) (c_0 : E.G1) (c : List E.G1) (ekd : FEncryptionKeyDest E)
    (parties : List (SecretKeyST E × Party E)) : Res (List (List E.G1 × E.G1)) :=
  mapRes (fun (P : SecretKeyST E × Party E) => do
    let (sh, _) ← reEncryptShare P.2.1 P.2.2 gens c_0 c ekd P.1
    return sh) parties

/-- Second step (src/tests.rs:155-169): the shares are combined and added to the ciphertext. -/
def applyShares (c : List E.G1) (shares : List (List E.G1 × E.G1)) : Res (List E.G1) := do
  let (w, gr) ← combineShares shares
  combineCtWithW c gr w

/-- Distributed re-encryption is the two steps one after the other. -/
theorem reEncryptAll_steps (gens : EncryptionGens E) (c_0 : E.G1) (c : List E.G1) (ekd : FEncryptionKeyDest E)
    (parties : List (SecretKeyST E × Party E)) :
    reEncryptAll gens c_0 c ekd parties = makeShares gens c_0 c ekd parties >>= applyShares c := rfl

/-- A share whose `i`-th element is shifted by `e_i g_i`. -/
def shiftShare (g_i : List E.G1) (e : ℕ → E.Fr) (sh : List E.G1 × E.G1) : List E.G1 × E.G1 :=
  (tab sh.1.length fun i => sh.1.getD i 0 + e i • g_i.getD i 0, sh.2)

/-- The share of a last contributor that wants the destination to decrypt `v_1, v_2, …`: made of public values
(ciphertext, destination key, generators, the other shares) and a scalar `k`, without any secret key. -/
def decidingShare (gens : EncryptionGens E) (g_i : List E.G1) (c : List E.G1) (ekd : FEncryptionKeyDest E)
    (v : ℕ → ℕ) (k : E.Fr) (others : List (List E.G1 × E.G1)) : List E.G1 × E.G1 :=
  (tab c.length fun i => v i • g_i.getD i 0 + k • ekd.pk - c.getD i 0 - (others.map (·.1.getD i 0)).sum,
    k • gens.G - (others.map (·.2)).sum)

end Spec

namespace ShareF

theorem applyShares_eq (c : List E.G1) (shares : List (List E.G1 × E.G1)) (hne : shares ≠ [])
    (h : ∀ s ∈ shares, s.1.length = c.length) :
    applyShares c shares = .ok ((shares.map (·.2)).sum ::
      tab c.length fun i => c.getD i 0 + (shares.map (·.1.getD i 0)).sum) := by
  obtain ⟨x, xs, rfl⟩ := List.exists_cons_of_ne_nil hne
  unfold applyShares
  have hx := h x (by simp)
  rw [combineShares_eq x xs (fun s hs => by rw [hx, h s (by simp [hs])])]
  simp only [Res.ok_bind, combineCtWithW_eq, hx]
  rw [addInto_eq (by simp)]
  simp only [Res.ok_bind, Res.pure_eq]
  congr 2
  refine tab_congr fun i hi => ?_
  rw [getD_tab, if_pos hi]

theorem makeShares_length {gens : EncryptionGens E} {c_0 : E.G1} {c : List E.G1} {ekd : FEncryptionKeyDest E}
    {parties : List (SecretKeyST E × Party E)} {shares : List (List E.G1 × E.G1)}
    (h : makeShares gens c_0 c ekd parties = .ok shares) :
    shares.length = parties.length ∧ ∀ s ∈ shares, s.1.length = c.length := by
  have h2 := mapRes_eq_ok_iff.mp h
  refine ⟨h2.length_eq.symm, fun s hs => ?_⟩
  obtain ⟨i, hi, rfl⟩ := List.getElem_of_mem hs
  have h3 := (List.forall₂_iff_get.mp h2).2 i (by rw [h2.length_eq]; exact hi) hi
  obtain ⟨⟨sh, st⟩, h4, h5⟩ := Res.bind_eq_ok.mp h3
  cases h5
  unfold reEncryptShare at h4
  obtain ⟨w, h6, h7⟩ := Res.bind_eq_ok.mp h4
  have h8 := (mapRes_eq_ok_iff.mp h6).length_eq
  injection h7 with h7
  have h9 := congrArg (fun x => x.1.1) h7
  dsimp only at h9
  rw [List.get_eq_getElem] at h9
  rw [← h9, ← h8, List.length_range]

theorem sum_set {α M : Type} [AddCommGroup M] (l : List α) (f : α → M) (j : ℕ) (hj : j < l.length) (x : α) :
    ((l.set j x).map f).sum = (l.map f).sum + (f x - f l[j]) := by
  induction l generalizing j with
  | nil => simp at hj
  | cons a l ih =>
    cases j with
    | zero =>
      simp only [List.set_cons_zero, List.map_cons, List.sum_cons, List.getElem_cons_zero]
      abel
    | succ j =>
      simp only [List.set_cons_succ, List.map_cons, List.sum_cons, List.getElem_cons_succ]
      rw [ih j (by simpa using hj)]
      abel

end ShareF

/-- **C79** Any contributor `j`, at whatever position, that adds `e_i g_i` to its share shifts the re-encrypted
chunks by exactly that, and the first element stays the same: nothing in the result tells. -/
theorem C79_shifted_share (gens : EncryptionGens E) (c_0 : E.G1) (c : List E.G1) (ekd : FEncryptionKeyDest E)
    (rp : List (SecretKeyST E × Party E)) (shares : List (List E.G1 × E.G1))
    (hsh : makeShares gens c_0 c ekd rp = .ok shares) (j : ℕ) (hj : j < shares.length)
    (g_i : List E.G1) (e : ℕ → E.Fr) :
    ∃ g_r cs, applyShares c shares = .ok (g_r :: cs) ∧
      applyShares c (shares.set j (shiftShare g_i e shares[j])) =
        .ok (g_r :: tab c.length fun i => cs.getD i 0 + e i • g_i.getD i 0) := by
  obtain ⟨hl, hlen⟩ := ShareF.makeShares_length hsh
  have hne : shares ≠ [] := by
    rintro rfl
    simp at hj
  have hjl := hlen _ (List.getElem_mem hj)
  refine ⟨_, _, ShareF.applyShares_eq c shares hne hlen, ?_⟩
  rw [ShareF.applyShares_eq c _ (by simpa using hne)]
  · rw [ShareF.sum_set _ _ j hj]
    congr 2
    · simp only [shiftShare, sub_self, add_zero]
    · refine tab_congr fun i hi => ?_
      rw [ShareF.sum_set _ _ j hj, getD_tab, if_pos hi]
      simp only [shiftShare]
      rw [getD_tab, if_pos (by omega)]
      abel
  · intro s hs
    rcases List.mem_or_eq_of_mem_set hs with h | rfl
    · exact hlen s h
    · simp only [shiftShare, length_tab]
      exact hjl

/-- **C79** What the destination sees: for ciphertexts under a distributed key, re-encrypted by all key holders of which
one shifts its share by `e_i g_i`, the destination decrypts without error `m_i + e_i` (in the field) instead of `m_i`, whenever these are
numbers in its search range. -/
theorem C79_destination_deceived (parties : List (Party E)) (b : UInt8) (gens : EncryptionGens E)
    (g_i : List E.G1) (D C : E.G1) (sks : List (SecretKeyST E)) (ek : EncryptionKey E)
    (hdkg : dkg parties b gens g_i D C = .ok (sks, ek)) (hgi : ∀ g ∈ g_i, g ≠ 0)
    (Rd : RngCore E) (std std' : Rd.σ) (skd : SecretKey E) (ekd : FEncryptionKeyDest E)
    (hdest : fkeygenDest Rd std gens = .ok ((skd, ekd), std'))
    (R : RngCore E) (st st1 : R.σ) (chunks : List UInt16) (ct : Ciphertext E) (r : E.Fr)
    (henc : encryptDecomposedMessage R st chunks ek g_i = .ok ((flat ct, r), st1))
    (rp : List (SecretKeyST E × Party E)) (hrp : (rp.map (·.1)).Perm sks)
    (chk : Bool) (b' : UInt8) (hb' : b'.toNat < 32) (j : ℕ) (hj : j < rp.length) (e : ℕ → E.Fr)
    (M' : ℕ → ℕ) (hM' : ∀ i < ek.X.length, ((M' i : ℕ) : E.Fr) = (((nums chunks).getD i 0 : ℕ) : E.Fr) + e i)
    (hM'p : ∀ i < ek.X.length, M' i < E.fr.p) (hM'b : ∀ i < ek.X.length, M' i ≤ searchBound b'.toNat) :
    ∃ shares, makeShares gens ct.X_r ct.enc_chunks ekd rp = .ok shares ∧ ∃ hj' : j < shares.length, ∃ g_r cs,
      applyShares ct.enc_chunks (shares.set j (shiftShare g_i e shares[j])) = .ok (g_r :: cs) ∧
      decryptAfterReEncryption chk g_r cs skd g_i b' = .ok (tab ek.X.length fun i => UInt16.ofNat (M' i)) := by
  obtain ⟨h1, h2, h3, h4, h5, -, -⟩ := encryptDecomposed_inv henc
  have hct := flat_inj h5
  obtain ⟨n, t, hg, hsne, hs, rfl⟩ := dkg_inv hdkg
  have hpk := fkeygenDest_inv hdest
  have hXn : ∀ s t, (encKey n.toNat s t (fun i => g_i.getD i 0) D C gens.H).X.length = n.toNat := by
    intro s t; simp [encKey]
  simp only [hXn] at h3 h4 hM' hM'p hM'b ⊢
  have hrne : rp ≠ [] := by
    rintro rfl
    simp at hj
  have hall := reEncrypt_cipher n t g_i D C gens sks [] hs rp hrne (by simpa using hrp) ekd _ _ ct hct
  rw [reEncryptAll_steps] at hall
  obtain ⟨shares, hsh, happ⟩ := Res.bind_eq_ok.mp hall
  obtain ⟨hl, -⟩ := ShareF.makeShares_length hsh
  obtain ⟨g_r, cs, ha, hb⟩ := C79_shifted_share gens _ _ ekd rp shares hsh j (by omega) g_i e
  rw [happ] at ha
  injection ha with ha
  injection ha with ha1 ha2
  refine ⟨shares, hsh, by omega, g_r, _, hb, ?_⟩
  have hlen : ct.enc_chunks.length = n.toNat := by rw [hct]; simp [cipher, encKey]
  rw [hlen]
  refine (decryptAfter_values chk n.toNat _ _ skd g_i b' hb' (by simp) (by omega) (fun i hi => ?_) M' hM'p
    (fun i hi => ?_)).1 hM'b
  · exact getD_mem_ne hgi (by omega)
  · rw [getD_tab, if_pos hi, ← ha2, ← ha1, getD_tab, if_pos hi, hpk, nsmul_fr (E := E) (M' i), hM' i hi,
      nsmul_fr (E := E) ((nums chunks).getD i 0)]
    simp only [List.map_nil, List.sum_nil, mul_zero, zero_smul, add_zero]
    module

/-- **C79** The last contributor decides: after seeing the other shares, whatever they are (key holders' or not, honest or not), somebody without any secret submits a last share
and the destination decrypts, without error, the chunks `v_i` of its choice. -/
theorem C79_last_share_decides (gens : EncryptionGens E) (g_i : List E.G1) (hgi : ∀ g ∈ g_i, g ≠ 0)
    (Rd : RngCore E) (std std' : Rd.σ) (skd : SecretKey E) (ekd : FEncryptionKeyDest E)
    (hdest : fkeygenDest Rd std gens = .ok ((skd, ekd), std'))
    (c : List E.G1) (hc : c.length ≤ g_i.length) (others : List (List E.G1 × E.G1))
    (ho : ∀ s ∈ others, s.1.length = c.length)
    (chk : Bool) (b' : UInt8) (hb' : b'.toNat < 32) (v : ℕ → ℕ) (hv : ∀ i < c.length, v i < E.fr.p)
    (hvb : ∀ i < c.length, v i ≤ searchBound b'.toNat) (k : E.Fr) :
    ∃ g_r cs, applyShares c (others ++ [decidingShare gens g_i c ekd v k others]) = .ok (g_r :: cs) ∧
      g_r = k • gens.G ∧
      decryptAfterReEncryption chk g_r cs skd g_i b' = .ok (tab c.length fun i => UInt16.ofNat (v i)) := by
  have hpk := fkeygenDest_inv hdest
  have happ := ShareF.applyShares_eq c (others ++ [decidingShare gens g_i c ekd v k others]) (by simp) (by
    intro s hs
    rcases List.mem_append.mp hs with h | h
    · exact ho s h
    · rw [List.mem_singleton.mp h]
      simp [decidingShare])
  refine ⟨_, _, happ, ?_, ?_⟩
  · simp only [decidingShare, List.map_append, List.map_cons, List.map_nil, List.sum_append, List.sum_cons,
      List.sum_nil]
    abel
  · refine (decryptAfter_values chk c.length _ _ skd g_i b' hb' (by simp) hc (fun i hi => ?_) v hv
      (fun i hi => ?_)).1 hvb
    · exact getD_mem_ne hgi (by omega)
    · rw [getD_tab, if_pos hi]
      simp only [decidingShare, List.map_append, List.map_cons, List.map_nil, List.sum_append, List.sum_cons,
        List.sum_nil]
      rw [getD_tab, if_pos hi, hpk, smul_smul]
      have : (others.map (·.2)).sum + (k • gens.G - (others.map (·.2)).sum + 0) = k • gens.G := by abel
      rw [this, smul_smul, mul_comm]
      abel

/-- the hypotheses are met: two key holders, the second one subtracts one from the third chunk and adds 7 to the
first; the destination gets `8, 2, 299, 4` instead of `1, 2, 300, 4` -/
example : ∃ shares, makeShares Fix.gens Fix.dct1.X_r Fix.dct1.enc_chunks Fix.ekd Fix.rp = .ok shares ∧
    ∃ hj' : 1 < shares.length, ∃ g_r cs,
      applyShares Fix.dct1.enc_chunks (shares.set 1 (shiftShare Fix.gi
        (fun i => if i = 0 then (show Fix.E.Fr from (7 : Fix.F)) else if i = 2 then (show Fix.E.Fr from (-1 : Fix.F)) else 0)
        shares[1])) = .ok (g_r :: cs) ∧
      decryptAfterReEncryption true g_r cs Fix.skd Fix.gi 16 = .ok [8, 2, 299, 4] := by
  have hX : Fix.dek.X.length = 4 := by decide +kernel
  have hnum : ∀ i < Fix.dek.X.length, (((([8, 2, 299, 4] : List ℕ).getD i 0 : ℕ)) : Fix.E.Fr) =
      (((nums Fix.m1).getD i 0 : ℕ) : Fix.E.Fr) + (if i = 0 then (show Fix.E.Fr from (7 : Fix.F)) else if i = 2 then
        (show Fix.E.Fr from (-1 : Fix.F)) else 0) := by
    rw [hX]
    intro i hi
    interval_cases i
    · exact (by decide +kernel : (8 : Fix.F) = 1 + 7)
    · exact (by decide +kernel : (2 : Fix.F) = 2 + 0)
    · exact (by decide +kernel : (299 : Fix.F) = 300 + -1)
    · exact (by decide +kernel : (4 : Fix.F) = 4 + 0)
  have hle : ∀ i, ([8, 2, 299, 4] : List ℕ).getD i 0 ≤ 299 := by
    intro i
    rcases i with _ | _ | _ | _ | i <;> simp
  obtain ⟨shares, h1, h2, g_r, cs, h3, h4⟩ := C79_destination_deceived Fix.parties 16 Fix.gens Fix.gi Fix.D Fix.C _
    Fix.dek Fix.dkg_ok Fix.gi_ne _ _ _ Fix.skd Fix.ekd Fix.dest_ok _ _ _ Fix.m1 Fix.dct1 _ Fix.denc1 Fix.rp
    Fix.rp_perm true 16 (by decide) 1 (by decide) _ (fun i => ([8, 2, 299, 4] : List ℕ).getD i 0) hnum
    (fun i _ => lt_of_le_of_lt (hle i) (by decide +kernel)) (fun i _ => le_trans (hle i) (by decide +kernel))
  refine ⟨shares, h1, h2, g_r, cs, h3, h4.trans ?_⟩
  rw [hX]
  rfl

/-- the hypotheses are met: one key holder made its share, the other contributor, without any key, makes the
destination decrypt `9, 0, 65535, 1` -/
example : ∃ shares, makeShares Fix.gens Fix.dct1.X_r Fix.dct1.enc_chunks Fix.ekd [Fix.rp.head (by decide)] = .ok shares ∧
    ∃ g_r cs, applyShares Fix.dct1.enc_chunks (shares ++ [decidingShare Fix.gens Fix.gi Fix.dct1.enc_chunks Fix.ekd
        (fun i => ([9, 0, 65535, 1] : List ℕ).getD i 0) (show Fix.E.Fr from (5 : Fix.F)) shares]) = .ok (g_r :: cs) ∧
      decryptAfterReEncryption true g_r cs Fix.skd Fix.gi 16 = .ok [9, 0, 65535, 1] := by
  have hmk := mapRes_ok (l := [Fix.rp.head (by decide)]) (g := fun P : SecretKeyST Fix.E × Party Fix.E =>
      (tab Fix.dct1.enc_chunks.length fun i => -(P.1.s.getD i 0 • Fix.dct1.X_r) + draw P.2.1 P.2.2 0 • Fix.ekd.pk,
      draw P.2.1 P.2.2 0 • Fix.gens.G)) (f := fun (P : SecretKeyST Fix.E × Party Fix.E) => do
        let (sh, _) ← reEncryptShare P.2.1 P.2.2 Fix.gens Fix.dct1.X_r Fix.dct1.enc_chunks Fix.ekd P.1
        return sh) (by
    intro P hP
    rw [reEncryptShare_eq P.2.1 P.2.2 _ _ _ _ P.1 (by
      rw [List.mem_singleton.mp hP]
      decide +kernel)]
    rfl)
  refine ⟨_, hmk, ?_⟩
  have hle : ∀ i, ([9, 0, 65535, 1] : List ℕ).getD i 0 ≤ 65535 := by
    intro i
    rcases i with _ | _ | _ | _ | i <;> simp
  obtain ⟨g_r, cs, h1, -, h2⟩ := C79_last_share_decides Fix.gens Fix.gi Fix.gi_ne _ _ _ Fix.skd Fix.ekd
      Fix.dest_ok Fix.dct1.enc_chunks (by decide) _ (by
        intro s hs
        exact (ShareF.makeShares_length hmk).2 s hs) true 16 (by decide) (fun i => ([9, 0, 65535, 1] : List ℕ).getD i 0)
        (fun i _ => lt_of_le_of_lt (hle i) (by decide +kernel)) (fun i _ => le_trans (hle i) (by decide +kernel))
        (show Fix.E.Fr from (5 : Fix.F))
  refine ⟨g_r, cs, h1, h2.trans ?_⟩
  rw [show Fix.dct1.enc_chunks.length = 4 from rfl]
  rfl

end Verif
