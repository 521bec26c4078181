/-
Property C105: distributed key generation when messages are lost, repeated or out of date.
-/
import Verif.SpecDelivered
import Verif.Props.Encrypt
import Verif.Props.Groth16
import Verif.Props.ChosenCiphertext
import Verif.Fixtures

namespace Verif
open Spec

variable {E : Engine}

namespace Dvd

theorem own_eq (P : Party E) {b n8 : UInt8} (gens : EncryptionGens E) (g_i : List E.G1) (D C : E.G1)
    (hn : chunksCount E.fr b = .ok n8) (hg : n8.toNat ≤ g_i.length) :
    ownContribution P b gens g_i D C = .ok (partySK n8.toNat P, partialKey n8.toNat (partyS P) (partyT n8.toNat P)
        (fun i => g_i.getD i 0) D C gens.H) := by
  unfold ownContribution
  rw [fkeygenPartial_eq P.1 P.2 gens g_i D C hn hg]
  rfl

theorem combine_eq (keys : List (Party E)) {b n8 : UInt8} (gens : EncryptionGens E) (g_i : List E.G1) (D C : E.G1)
    (hn : chunksCount E.fr b = .ok n8) (hg : n8.toNat ≤ g_i.length) :
    combineDelivered keys b gens g_i D C = if keys = [] then .panic else .ok
      { X_0 := D
        X := tab n8.toNat fun i => sumS keys i • D
        Y := tab n8.toNat fun i => sumT n8.toNat keys (i + 1) • g_i.getD i 0
        Z := tab (n8.toNat + 1) fun i => sumT n8.toNat keys i • gens.H
        P_2 := (1 + ∑ i ∈ Finset.range n8.toNat, sumS keys i) • C } := by
  unfold combineDelivered
  rw [mapRes_ok (g := fun P : Party E => partialKey n8.toNat (partyS P) (partyT n8.toNat P)
        (fun i => g_i.getD i 0) D C gens.H)]
  · rw [Res.ok_bind]
    split
    · rename_i h
      subst h
      rfl
    · rename_i h
      exact combine_honest keys h _ _ _ _ _
  · intro P _
    rw [own_eq P gens g_i D C hn hg]
    rfl

theorem share_eq (S : Party E × List (Party E)) {b n8 : UInt8} (gens : EncryptionGens E) (g_i : List E.G1) (D C : E.G1)
    (hn : chunksCount E.fr b = .ok n8) (hg : n8.toNat ≤ g_i.length) :
    (do
      let view ← combineDelivered S.2 b gens g_i D C
      let own ← ownContribution S.1 b gens g_i D C
      genP1share view own.1) = if S.2 = [] then .panic else .ok (⟨(partyT n8.toNat S.1 0 +
        ∑ i ∈ Finset.range n8.toNat, partyT n8.toNat S.1 (i + 1) * sumS S.2 i) • D⟩ : P1share E) := by
  rw [combine_eq S.2 gens g_i D C hn hg]
  split
  · rfl
  · rw [Res.ok_bind, own_eq S.1 gens g_i D C hn hg, Res.ok_bind, genP1share_eq (by simp [partySK])]
    simp only [length_tab, partySK]
    congr 2
    rw [add_smul, Finset.sum_smul, getD_tab, if_pos (Nat.succ_pos _)]
    congr 1
    apply Finset.sum_congr rfl
    intro i hi
    have := Finset.mem_range.mp hi
    rw [getD_tab, if_pos (by omega), getD_tab, if_pos this, smul_smul]

theorem gap_eq (n : ℕ) (keys : List (Party E)) (shares : List (Party E × List (Party E))) :
    shareGap n keys shares = (shares.map fun S => partyT n S.1 0 +
        ∑ i ∈ Finset.range n, partyT n S.1 (i + 1) * sumS S.2 i).sum -
      (sumT n keys 0 + ∑ i ∈ Finset.range n, sumS keys i * sumT n keys (i + 1)) := rfl

theorem delivered_eq (keys : List (Party E)) (shares : List (Party E × List (Party E))) {b n8 : UInt8}
    (gens : EncryptionGens E) (g_i : List E.G1) (D C : E.G1) (hn : chunksCount E.fr b = .ok n8)
    (hg : n8.toNat ≤ g_i.length) (hk : keys ≠ []) (hs : shares ≠ []) (hv : ∀ S ∈ shares, S.2 ≠ []) :
    dkgAsDelivered keys shares b gens g_i D C = .ok
      { encKey n8.toNat (sumS keys) (sumT n8.toNat keys) (fun i => g_i.getD i 0) D C gens.H with
        P_1 := (encKey n8.toNat (sumS keys) (sumT n8.toNat keys) (fun i => g_i.getD i 0) D C gens.H).P_1 +
          shareGap n8.toNat keys shares • D } := by
  unfold dkgAsDelivered
  rw [combine_eq keys gens g_i D C hn hg, if_neg hk, Res.ok_bind]
  rw [mapRes_ok (g := fun S : Party E × List (Party E) => (⟨(partyT n8.toNat S.1 0 +
        ∑ i ∈ Finset.range n8.toNat, partyT n8.toNat S.1 (i + 1) * sumS S.2 i) • D⟩ : P1share E))]
  · rw [Res.ok_bind, combineP1share_eq (by simpa using hs)]
    simp only [Res.ok_bind, Res.pure_eq, List.map_map, Function.comp_def, keygenFinal, encKey]
    congr 2
    rw [sum_map_smul, ← add_smul, gap_eq]
    congr 1
    ring
  · intro S hS
    exact (share_eq S gens g_i D C hn hg).trans (if_neg (hv S hS))

end Dvd
open Dvd

/-- **C105** the only way to make key generation abort is that nothing at all was delivered in some place: no partial key,
no share, or no partial key to the sender of a share. -/
theorem C105_aborts_iff (b n : UInt8) (hn : chunksCount E.fr b = .ok n) (gens : EncryptionGens E) (g_i : List E.G1)
    (hg : n.toNat ≤ g_i.length) (D C : E.G1) (keys : List (Party E)) (shares : List (Party E × List (Party E))) :
    (dkgAsDelivered keys shares b gens g_i D C = .panic ↔ keys = [] ∨ shares = [] ∨ ∃ S ∈ shares, S.2 = []) ∧
    ((∃ ek, dkgAsDelivered keys shares b gens g_i D C = .ok ek) ↔ keys ≠ [] ∧ shares ≠ [] ∧ ∀ S ∈ shares, S.2 ≠ []) := by
  have hok : keys ≠ [] → shares ≠ [] → (∀ S ∈ shares, S.2 ≠ []) → ∃ ek, dkgAsDelivered keys shares b gens g_i D C = .ok ek :=
    fun h1 h2 h3 => ⟨_, delivered_eq keys shares gens g_i D C hn hg h1 h2 h3⟩
  have hpan : (keys = [] ∨ shares = [] ∨ ∃ S ∈ shares, S.2 = []) → dkgAsDelivered keys shares b gens g_i D C = .panic := by
    intro h
    unfold dkgAsDelivered
    by_cases hk : keys = []
    · rw [combine_eq keys gens g_i D C hn hg, if_pos hk]
      rfl
    rw [combine_eq keys gens g_i D C hn hg, if_neg hk, Res.ok_bind]
    rcases h with h | h | ⟨S, hS, h⟩
    · exact absurd h hk
    · subst h
      rfl
    · have : ∀ l : List (Party E × List (Party E)), S ∈ l → mapRes (fun (S : Party E × List (Party E)) => do
          let view ← combineDelivered S.2 b gens g_i D C
          let own ← ownContribution S.1 b gens g_i D C
          genP1share view own.1) l = .panic := by
        intro l hl
        induction l with
        | nil => cases hl
        | cons a l ih =>
          unfold mapRes
          rw [share_eq a gens g_i D C hn hg]
          rcases List.mem_cons.mp hl with rfl | hl
          · rw [if_pos h]
            rfl
          · split
            · rfl
            · rw [Res.ok_bind, ih hl]
              rfl
      rw [this shares hS]
      rfl
  have key : (keys ≠ [] ∧ shares ≠ [] ∧ ∀ S ∈ shares, S.2 ≠ []) ∨ (keys = [] ∨ shares = [] ∨ ∃ S ∈ shares, S.2 = []) := by
    by_cases h1 : keys = []
    · exact .inr (.inl h1)
    by_cases h2 : shares = []
    · exact .inr (.inr (.inl h2))
    by_cases h3 : ∃ S ∈ shares, S.2 = []
    · exact .inr (.inr (.inr h3))
    push Not at h3
    exact .inl ⟨h1, h2, h3⟩
  rcases key with h | h
  · obtain ⟨ek, he⟩ := hok h.1 h.2.1 h.2.2
    refine ⟨⟨fun hp => (by rw [he] at hp; cases hp), fun h' => ?_⟩, fun _ => h, fun _ => ⟨ek, he⟩⟩
    exact hpan h'
  · have hp := hpan h
    refine ⟨⟨fun _ => h, fun _ => hp⟩, fun ⟨ek, he⟩ => ?_, fun h' => ?_⟩
    · rw [hp] at he
      cases he
    · exact hok h'.1 h'.2.1 h'.2.2

/-- **C105** otherwise it ends with a key, whatever was delivered.  That key differs from the key distributed key
generation gives to the parties in `keys` only in `P_1`, and ciphertexts under it only in their commitments; so they
decrypt and their proofs verify as if nothing had happened.  But the commitment check rejects every one of them (unless
its randomness is 0), if the shares do not add up. -/
theorem C105_any_delivery (b n : UInt8) (hn : chunksCount E.fr b = .ok n) (gens : EncryptionGens E) (hH : gens.H ≠ 0)
    (g_i : List E.G1) (hg : n.toNat ≤ g_i.length) (D C : E.G1) (hD : D ≠ 0) (keys : List (Party E))
    (shares : List (Party E × List (Party E))) (hk : keys ≠ []) (hs : shares ≠ []) (hv : ∀ S ∈ shares, S.2 ≠ []) :
    ∃ ek sks ek0, dkgAsDelivered keys shares b gens g_i D C = .ok ek ∧ dkg keys b gens g_i D C = .ok (sks, ek0) ∧
      ek = { ek0 with P_1 := ek0.P_1 + shareGap n.toNat keys shares • D } ∧
      ∀ (R : RngCore E) (st : R.σ) (chunks : List UInt16), chunks.length = n.toNat →
        ∃ ct ct0 r st', encryptDecomposedMessage R st chunks ek g_i = .ok ((flat ct, r), st') ∧
          encryptDecomposedMessage R st chunks ek0 g_i = .ok ((flat ct0, r), st') ∧
          ct.X_r = ct0.X_r ∧ ct.enc_chunks = ct0.enc_chunks ∧
          ct.verifyCommitment ek.prepare gens.prepare =
            if r = 0 ∨ shareGap n.toNat keys shares = 0 then .ok () else .err .invalidCommitment := by
  refine ⟨_, _, _, delivered_eq keys shares gens g_i D C hn hg hk hs hv, dkg_eq keys hk gens g_i D C hn hg, rfl, ?_⟩
  intro R st chunks hc
  generalize hgap : shareGap n.toNat keys shares = gap
  generalize hs' : sumS keys = s
  generalize ht' : sumT n.toNat keys = t
  have hw : WellFormed (encKey n.toNat s t (fun i => g_i.getD i 0) D C gens.H) := encKey_wf _ _ _ _ _ _ _
  have hX : (encKey n.toNat s t (fun i => g_i.getD i 0) D C gens.H).X.length = n.toNat := by simp [encKey]
  have hX256 : n.toNat < 256 := n.toNat_lt
  have h1 := encryptDecomposed_ok R st chunks
    { encKey n.toNat s t (fun i => g_i.getD i 0) D C gens.H with
        P_1 := (encKey n.toNat s t (fun i => g_i.getD i 0) D C gens.H).P_1 + gap • D } g_i hw
    (by rw [hX]; exact hX256) (by rw [hX]; exact hc) (by rw [hX]; exact hg)
  have h2 := encryptDecomposed_ok R st chunks (encKey n.toNat s t (fun i => g_i.getD i 0) D C gens.H) g_i hw
    (by rw [hX]; exact hX256) (by rw [hX]; exact hc) (by rw [hX]; exact hg)
  refine ⟨_, _, _, _, h1, h2, rfl, rfl, ?_⟩
  unfold Ciphertext.verifyCommitment
  have hcom := cipher_commitmentEq n.toNat s t (fun i => g_i.getD i 0) D C gens.H
    (fun i => (nums chunks).getD i 0) (draw R st 0)
  rw [verify_eq _ _ _ { encKey n.toNat s t (fun i => g_i.getD i 0) D C gens.H with
        P_1 := (encKey n.toNat s t (fun i => g_i.getD i 0) D C gens.H).P_1 + gap • D } gens hw
        (by rw [hX]; exact hX256), if_neg (by simp [cipher])]
  have hl : (cipher { encKey n.toNat s t (fun i => g_i.getD i 0) D C gens.H with
        P_1 := (encKey n.toNat s t (fun i => g_i.getD i 0) D C gens.H).P_1 + gap • D } (fun i => g_i.getD i 0)
        (fun i => (nums chunks).getD i 0) (draw R st 0)).commitment =
      (cipher (encKey n.toNat s t (fun i => g_i.getD i 0) D C gens.H) (fun i => g_i.getD i 0)
        (fun i => (nums chunks).getD i 0) (draw R st 0)).commitment + (draw R st 0 * gap) • D := by
    simp only [cipher]
    rw [smul_add, smul_smul, add_assoc]
  rw [hl, map_add, LinearMap.add_apply]
  have hcom' : E.e (cipher (encKey n.toNat s t (fun i => g_i.getD i 0) D C gens.H) (fun i => g_i.getD i 0)
      (fun i => (nums chunks).getD i 0) (draw R st 0)).X_r ((encKey n.toNat s t (fun i => g_i.getD i 0) D C gens.H).Z.getD 0 0) +
      ∑ i ∈ Finset.range (cipher (encKey n.toNat s t (fun i => g_i.getD i 0) D C gens.H) (fun i => g_i.getD i 0)
      (fun i => (nums chunks).getD i 0) (draw R st 0)).enc_chunks.length,
      E.e ((cipher (encKey n.toNat s t (fun i => g_i.getD i 0) D C gens.H) (fun i => g_i.getD i 0)
      (fun i => (nums chunks).getD i 0) (draw R st 0)).enc_chunks.getD i 0)
      ((encKey n.toNat s t (fun i => g_i.getD i 0) D C gens.H).Z.getD (i + 1) 0) = _ := hcom
  change (if E.e (cipher (encKey n.toNat s t (fun i => g_i.getD i 0) D C gens.H) (fun i => g_i.getD i 0)
      (fun i => (nums chunks).getD i 0) (draw R st 0)).X_r ((encKey n.toNat s t (fun i => g_i.getD i 0) D C gens.H).Z.getD 0 0) +
      ∑ i ∈ Finset.range (cipher (encKey n.toNat s t (fun i => g_i.getD i 0) D C gens.H) (fun i => g_i.getD i 0)
      (fun i => (nums chunks).getD i 0) (draw R st 0)).enc_chunks.length,
      E.e ((cipher (encKey n.toNat s t (fun i => g_i.getD i 0) D C gens.H) (fun i => g_i.getD i 0)
      (fun i => (nums chunks).getD i 0) (draw R st 0)).enc_chunks.getD i 0)
      ((encKey n.toNat s t (fun i => g_i.getD i 0) D C gens.H).Z.getD (i + 1) 0) = _ then _ else _) = _
  rw [hcom']
  have hiff : (∀ x : E.GT, x = x + E.e ((draw R st 0 * gap) • D) gens.H ↔ draw R st 0 = 0 ∨ gap = 0) := by
    intro x
    rw [left_eq_add, map_smul, LinearMap.smul_apply, smul_eq_zero, mul_eq_zero]
    constructor
    · rintro (h | h)
      · exact h
      · rcases E.nondeg _ _ h with h | h
        · exact absurd h hD
        · exact absurd h hH
    · exact .inl
  split
  · rename_i h
    rw [if_pos ((hiff _).mp h)]
  · rename_i h
    rw [if_neg (fun h' => h ((hiff _).mpr h'))]

/-- **C105** if nothing was lost, repeated or out of date, the key is that of distributed key generation, in whatever order
the messages arrived. -/
theorem C105_faultless (b n : UInt8) (hn : chunksCount E.fr b = .ok n) (gens : EncryptionGens E)
    (g_i : List E.G1) (hg : n.toNat ≤ g_i.length) (D C : E.G1) (keys : List (Party E))
    (shares : List (Party E × List (Party E))) (hk : keys ≠ []) (hf : Faultless keys shares) :
    ∃ sks ek, dkg keys b gens g_i D C = .ok (sks, ek) ∧ dkgAsDelivered keys shares b gens g_i D C = .ok ek := by
  obtain ⟨h1, h2⟩ := hf
  refine ⟨_, _, dkg_eq keys hk gens g_i D C hn hg, ?_⟩
  have hs : shares ≠ [] := by
    rintro rfl
    exact hk (List.nil_perm.mp h1)
  rw [delivered_eq keys shares gens g_i D C hn hg hk hs (fun S hS h => by
    have := h2 S hS
    rw [h] at this
    exact hk (List.nil_perm.mp this))]
  have hz : shareGap n.toNat keys shares = 0 := by
    rw [gap_eq]
    have e1 : (shares.map fun S => partyT n.toNat S.1 0 +
        ∑ i ∈ Finset.range n.toNat, partyT n.toNat S.1 (i + 1) * sumS S.2 i) =
        (shares.map (·.1)).map fun P => partyT n.toNat P 0 +
        ∑ i ∈ Finset.range n.toNat, partyT n.toNat P (i + 1) * sumS keys i := by
      rw [List.map_map]
      apply List.map_congr_left
      intro S hS
      show _ + _ = _ + _
      congr 1
      apply Finset.sum_congr rfl
      intro i _
      congr 1
      exact ((h2 S hS).map _).sum_eq
    rw [e1, (h1.map _).sum_eq, sum_map_add, sum_map_finset]
    rw [sub_eq_zero]
    congr 1
    apply Finset.sum_congr rfl
    intro i _
    rw [show (keys.map fun a => partyT n.toNat a (i + 1) * sumS keys i).sum =
      (keys.map fun a => partyT n.toNat a (i + 1) • sumS keys i).sum from rfl, sum_map_smul, smul_eq_mul, mul_comm]
    rfl
  rw [hz, zero_smul, add_zero]

namespace Dvd

/-- the gap in terms of numbered parties' scalars -/
def gapN {F : Type} [CommRing F] (n : ℕ) (keys : List ℕ) (shares : List (ℕ × List ℕ)) (s t : ℕ → ℕ → F) : F :=
  (shares.map fun S => t S.1 0 + ∑ i ∈ Finset.range n, t S.1 (i + 1) * (S.2.map fun q => s q i).sum).sum -
  ((keys.map fun q => t q 0).sum +
    ∑ i ∈ Finset.range n, (keys.map fun q => s q i).sum * (keys.map fun q => t q (i + 1)).sum)

theorem sum_ite {F : Type} [CommRing F] (l : List ℕ) (j : ℕ) (x : F) :
    (l.map fun q => if q = j then x else 0).sum = (l.count j : F) * x := by
  induction l with
  | nil => simp
  | cons a l ih =>
    rw [List.map_cons, List.sum_cons, ih, List.count_cons]
    by_cases h : a = j
    · simp [h]; ring
    · simp [h]

theorem sum_shift {F : Type} [CommRing F] (l : List ℕ) (j : ℕ) (x : F) (f f' : ℕ → F)
    (h : ∀ q, f' q = f q + if q = j then x else 0) : (l.map f').sum = (l.map f).sum + (l.count j : F) * x := by
  rw [← sum_ite, ← sum_map_add]
  congr 1
  apply List.map_congr_left
  intro q _
  exact h q

/-- changing one party's `t_0` -/
theorem gap_t0 {F : Type} [CommRing F] (n : ℕ) (keys : List ℕ) (shares : List (ℕ × List ℕ)) (s t t' : ℕ → ℕ → F) (j : ℕ)
    (x : F) (h0 : ∀ q, t' q 0 = t q 0 + if q = j then x else 0) (h1 : ∀ q i, t' q (i + 1) = t q (i + 1)) :
    gapN n keys shares s t' = gapN n keys shares s t + (((shares.map (·.1)).count j : F) - (keys.count j : F)) * x := by
  unfold gapN
  rw [sum_shift keys j x (fun q => t q 0) (fun q => t' q 0) h0, sum_map_add, sum_map_add]
  have e1 : (shares.map fun S => t' S.1 0).sum = (shares.map fun S => t S.1 0).sum +
      ((shares.map (·.1)).count j : F) * x := by
    have := sum_shift (shares.map (·.1)) j x (fun q => t q 0) (fun q => t' q 0) h0
    simpa only [List.map_map, Function.comp_def] using this
  simp only [h1]
  rw [e1]
  ring

/-- changing one party's `t_1`, if no party sends two shares -/
theorem gap_t1 {F : Type} [CommRing F] (n : ℕ) (hn : 0 < n) (keys : List ℕ) (shares : List (ℕ × List ℕ)) (s t t' : ℕ → ℕ → F)
    (S : ℕ × List ℕ) (hS : S ∈ shares) (hnd : (shares.map (·.1)).Nodup) (hK : keys.count S.1 = 1) (x : F)
    (h1 : ∀ q, t' q 1 = t q 1 + if q = S.1 then x else 0) (h0 : ∀ q i, i ≠ 1 → t' q i = t q i) :
    gapN n keys shares s t' = gapN n keys shares s t + ((S.2.map fun q => s q 0).sum - (keys.map fun q => s q 0).sum) * x := by
  obtain ⟨m, rfl⟩ : ∃ m, n = m + 1 := ⟨n - 1, by omega⟩
  unfold gapN
  have e0 : ∀ q, t' q 0 = t q 0 := fun q => h0 q 0 (by omega)
  have e2 : ∀ q i, t' q (i + 1 + 1) = t q (i + 1 + 1) := fun q i => h0 q _ (by omega)
  have ek := sum_shift keys S.1 x (fun q => t q 1) (fun q => t' q 1) h1
  rw [hK, Nat.cast_one, one_mul] at ek
  simp only [Finset.sum_range_succ' _ m, e0, e2, zero_add, ek]
  have es : ∀ l : List (ℕ × List ℕ), S ∈ l → (l.map (·.1)).Nodup →
      (l.map fun S => t S.1 0 + ((∑ i ∈ Finset.range m, t S.1 (i + 1 + 1) * (S.2.map fun q => s q (i + 1)).sum) +
        t' S.1 1 * (S.2.map fun q => s q 0).sum)).sum =
      (l.map fun S => t S.1 0 + ((∑ i ∈ Finset.range m, t S.1 (i + 1 + 1) * (S.2.map fun q => s q (i + 1)).sum) +
        t S.1 1 * (S.2.map fun q => s q 0).sum)).sum + x * (S.2.map fun q => s q 0).sum := by
    intro l
    induction l with
    | nil => intro h; cases h
    | cons a l ih =>
      intro hl hnd
      rw [List.map_cons, List.nodup_cons] at hnd
      rw [List.map_cons, List.map_cons, List.sum_cons, List.sum_cons]
      rcases List.mem_cons.mp hl with rfl | hl
      · rw [h1, if_pos rfl]
        have : ∀ A ∈ l, t' A.1 1 = t A.1 1 := by
          intro A hA
          rw [h1, if_neg, add_zero]
          intro he
          exact hnd.1 (he ▸ List.mem_map_of_mem hA)
        have hcl : (l.map fun S => t S.1 0 + ((∑ i ∈ Finset.range m, t S.1 (i + 1 + 1) * (S.2.map fun q => s q (i + 1)).sum) +
            t' S.1 1 * (S.2.map fun q => s q 0).sum)) = l.map fun S => t S.1 0 + ((∑ i ∈ Finset.range m, t S.1 (i + 1 + 1) *
            (S.2.map fun q => s q (i + 1)).sum) + t S.1 1 * (S.2.map fun q => s q 0).sum) :=
          List.map_congr_left fun A hA => by rw [this A hA]
        rw [hcl]
        ring
      · rw [ih hl hnd.2, h1, if_neg, add_zero]
        · ring
        · intro he
          exact hnd.1 (he ▸ List.mem_map_of_mem hl)
  rw [es shares hS hnd]
  ring

theorem slot_inj {w j j' a a' : ℕ} (ha : a < w) (ha' : a' < w) (h : j * w + a = j' * w + a') : j = j' ∧ a = a' := by
  have h1 : (j * w + a) / w = j := by
    rw [Nat.add_comm, Nat.add_mul_div_right _ _ (by omega), Nat.div_eq_of_lt ha, Nat.zero_add]
  have h2 : (j' * w + a') / w = j' := by
    rw [Nat.add_comm, Nat.add_mul_div_right _ _ (by omega), Nat.div_eq_of_lt ha', Nat.zero_add]
  have h3 : j = j' := by rw [← h1, ← h2, h]
  subst h3
  exact ⟨rfl, by omega⟩

/-- a party's scalars, read off the common tape -/
def sOf {K : ℕ} (g : Fin K → E.Fr) (n j i : ℕ) : E.Fr := if i < n then tapeOf g (j * (2 * n + 1) + i) else 0
def tOf {K : ℕ} (g : Fin K → E.Fr) (n j i : ℕ) : E.Fr := if i < n + 1 then tapeOf g (j * (2 * n + 1) + (n + i)) else 0

theorem tapeOf_update {K : ℕ} (g : Fin K → E.Fr) (i0 : ℕ) (h : i0 < K) (x : E.Fr) (i : ℕ) :
    tapeOf (Function.update g ⟨i0, h⟩ x) i = if i = i0 then x else tapeOf g i := by
  unfold tapeOf
  by_cases hi : i < K
  · rw [dif_pos hi, dif_pos hi]
    by_cases h2 : i = i0
    · subst h2
      rw [if_pos rfl, Function.update_self]
    · rw [if_neg h2, Function.update_of_ne]
      intro h3
      exact h2 (congrArg Fin.val h3)
  · rw [dif_neg hi, dif_neg hi, if_neg (by omega)]

theorem gap_tape {K : ℕ} (g : Fin K → E.Fr) (n : ℕ) (keys : List ℕ) (shares : List (ℕ × List ℕ)) :
    shareGap n (keys.map (partyAt E g (2 * n + 1)))
      (shares.map fun S => (partyAt E g (2 * n + 1) S.1, S.2.map (partyAt E g (2 * n + 1)))) =
    gapN n keys shares (sOf g n) (tOf g n) := by
  have hs : ∀ q i, i < n → draw (partyAt E g (2 * n + 1) q).1 (partyAt E g (2 * n + 1) q).2 i = sOf g n q i := by
    intro q i hi
    unfold sOf
    rw [if_pos hi]
    exact draw_tape _ _
  have ht : ∀ q i, i < n + 1 → draw (partyAt E g (2 * n + 1) q).1 (partyAt E g (2 * n + 1) q).2 (n + i) = tOf g n q i := by
    intro q i hi
    unfold tOf
    rw [if_pos hi]
    exact draw_tape _ _
  have ht0 : ∀ q, draw (partyAt E g (2 * n + 1) q).1 (partyAt E g (2 * n + 1) q).2 n = tOf g n q 0 :=
    fun q => ht q 0 (by omega)
  unfold shareGap gapN
  simp only [List.map_map, Function.comp_def, ht0]
  congr 1
  · congr 1
    apply List.map_congr_left
    intro S _
    congr 1
    apply Finset.sum_congr rfl
    intro i hi
    have hi' := Finset.mem_range.mp hi
    rw [ht _ _ (by omega)]
    simp only [hs _ i hi']
  · congr 1
    apply Finset.sum_congr rfl
    intro i hi
    have hi' := Finset.mem_range.mp hi
    simp only [hs _ i hi', ht _ (i + 1) (by omega)]

/-- a linear equation for one coordinate, with a coefficient that does not depend on it, holds on a `1/p` share -/
theorem linear_count {K : ℕ} (i0 : Fin K) (φ a : (Fin K → E.Fr) → E.Fr)
    (hφ : ∀ g x, φ (Function.update g i0 x) = φ (Function.update g i0 0) + a (Function.update g i0 0) * x)
    (ha : ∀ g, a (Function.update g i0 0) = a g) :
    {g | a g ≠ 0 ∧ φ g = 0}.ncard ≤ E.fr.p ^ (K - 1) := by
  classical
  rw [Set.ncard_eq_toFinset_card']
  refine (Cca.count_fiber i0 1 _ (fun g => {-(φ g / a g)}) (fun g => by simp) ?_).trans (by omega)
  intro g hg
  have hg' : a g ≠ 0 ∧ φ g = 0 := by simpa using hg
  have h := hφ g (g i0)
  rw [Function.update_eq_self, hg'.2] at h
  have h2 : a (Function.update g i0 0) ≠ 0 := by rw [ha]; exact hg'.1
  rw [Finset.mem_singleton]
  field_simp
  linear_combination -h

theorem cast_ne {a c : ℕ} (h : a ≠ c) (ha : a < E.fr.p) (hc : c < E.fr.p) : (a : E.Fr) - (c : E.Fr) ≠ 0 := by
  intro h0
  have h1 := sub_eq_zero.mp h0
  rw [ZMod.natCast_eq_natCast_iff'] at h1
  rw [Nat.mod_eq_of_lt ha, Nat.mod_eq_of_lt hc] at h1
  exact h h1

/-- unless the delivery is without fault, the shares add up on a `2/p` share of the draws -/
theorem gap_count (N n : ℕ) (hn : 0 < n) (keys : List ℕ) (shares : List (ℕ × List ℕ))
    (hkN : ∀ j ∈ keys, j < N) (hsN : ∀ S ∈ shares, S.1 < N ∧ ∀ j ∈ S.2, j < N)
    (hnd : keys.Nodup) (hl : keys.length < E.fr.p) (hl' : shares.length < E.fr.p)
    (hl'' : ∀ S ∈ shares, S.2.length < E.fr.p) (hf : ¬ Faultless keys shares) :
    {g : Fin (N * (2 * n + 1)) → E.Fr | gapN n keys shares (sOf g n) (tOf g n) = 0}.ncard ≤
      2 * E.fr.p ^ (N * (2 * n + 1) - 1) := by
  classical
  have slot : ∀ {j a}, j < N → a < 2 * n + 1 → j * (2 * n + 1) + a < N * (2 * n + 1) := by
    intro j a hj ha
    have : (j + 1) * (2 * n + 1) ≤ N * (2 * n + 1) := Nat.mul_le_mul_right _ hj
    rw [Nat.add_mul, Nat.one_mul] at this
    omega
  by_cases hcnt : ∃ j, (shares.map (·.1)).count j ≠ keys.count j
  · obtain ⟨j, hj⟩ := hcnt
    have hjN : j < N := by
      by_cases h1 : j ∈ keys
      · exact hkN j h1
      · rw [List.count_eq_zero.mpr h1] at hj
        obtain ⟨S, hS, rfl⟩ := List.mem_map.mp (List.one_le_count_iff.mp (Nat.one_le_iff_ne_zero.mpr hj))
        exact (hsN S hS).1
    have hc : (((shares.map (·.1)).count j : ℕ) : E.Fr) - (keys.count j : E.Fr) ≠ 0 :=
      cast_ne hj (lt_of_le_of_lt List.count_le_length (by rw [List.length_map]; exact hl'))
        (lt_of_le_of_lt List.count_le_length hl)
    have key := linear_count (E := E) (K := N * (2 * n + 1)) ⟨j * (2 * n + 1) + n, slot hjN (by omega)⟩
      (fun g => gapN n keys shares (sOf g n) (tOf g n))
      (fun _ => (((shares.map (·.1)).count j : ℕ) : E.Fr) - (keys.count j : E.Fr)) ?_ (fun _ => rfl)
    · refine le_trans (le_trans (Set.ncard_le_ncard ?_ (Set.toFinite _)) key) (by omega)
      intro g hg
      exact ⟨hc, hg⟩
    · intro g x
      have es : sOf (Function.update g ⟨j * (2 * n + 1) + n, slot hjN (by omega)⟩ x) n =
          sOf (Function.update g ⟨j * (2 * n + 1) + n, slot hjN (by omega)⟩ 0) n := by
        funext q i
        unfold sOf
        split
        · rename_i hi
          rw [tapeOf_update, tapeOf_update, if_neg, if_neg]
          · intro h; have := slot_inj (by omega) (by omega) h; omega
          · intro h; have := slot_inj (by omega) (by omega) h; omega
        · rfl
      rw [es]
      apply gap_t0
      · intro q
        unfold tOf
        rw [if_pos (by omega), if_pos (by omega), tapeOf_update, tapeOf_update, show n + 0 = n from rfl]
        by_cases hq : q = j
        · subst hq
          rw [if_pos rfl, if_pos rfl, if_pos rfl, zero_add]
        · rw [if_neg, if_neg, if_neg hq, add_zero]
          · intro h; exact hq (slot_inj (by omega) (by omega) h).1
          · intro h; exact hq (slot_inj (by omega) (by omega) h).1
      · intro q i
        unfold tOf
        split
        · rename_i hi
          rw [tapeOf_update, tapeOf_update, if_neg, if_neg]
          · intro h; have := slot_inj (by omega) (by omega) h; omega
          · intro h; have := slot_inj (by omega) (by omega) h; omega
        · rfl
  · push Not at hcnt
    have hperm : (shares.map (·.1)).Perm keys := List.perm_iff_count.mpr hcnt
    have hnd' : (shares.map (·.1)).Nodup := hperm.nodup_iff.mpr hnd
    obtain ⟨S, hS, hSp⟩ : ∃ S ∈ shares, ¬ S.2.Perm keys := by
      by_contra h
      push Not at h
      exact hf ⟨hperm, h⟩
    obtain ⟨v, hv⟩ : ∃ v, S.2.count v ≠ keys.count v := by
      by_contra h
      push Not at h
      exact hSp (List.perm_iff_count.mpr h)
    have hvN : v < N := by
      by_cases h1 : v ∈ keys
      · exact hkN v h1
      · rw [List.count_eq_zero.mpr h1] at hv
        exact (hsN S hS).2 v (List.one_le_count_iff.mp (Nat.one_le_iff_ne_zero.mpr hv))
    have hK1 : keys.count S.1 = 1 := List.count_eq_one_of_mem hnd (hperm.mem_iff.mp (List.mem_map_of_mem hS))
    have hc : ((S.2.count v : ℕ) : E.Fr) - (keys.count v : E.Fr) ≠ 0 :=
      cast_ne hv (lt_of_le_of_lt List.count_le_length (hl'' S hS)) (lt_of_le_of_lt List.count_le_length hl)
    let A : (Fin (N * (2 * n + 1)) → E.Fr) → E.Fr := fun g =>
      (S.2.map fun q => sOf g n q 0).sum - (keys.map fun q => sOf g n q 0).sum
    have k1 := linear_count (E := E) (K := N * (2 * n + 1)) ⟨v * (2 * n + 1) + 0, slot hvN (by omega)⟩
      A (fun _ => ((S.2.count v : ℕ) : E.Fr) - (keys.count v : E.Fr)) (by
        intro g x
        have hsh : ∀ q, sOf (Function.update g ⟨v * (2 * n + 1) + 0, slot hvN (by omega)⟩ x) n q 0 =
            sOf (Function.update g ⟨v * (2 * n + 1) + 0, slot hvN (by omega)⟩ 0) n q 0 + if q = v then x else 0 := by
          intro q
          unfold sOf
          rw [if_pos hn, if_pos hn, tapeOf_update, tapeOf_update]
          by_cases hq : q = v
          · subst hq
            rw [if_pos rfl, if_pos rfl, if_pos rfl, zero_add]
          · have hne : ¬ q * (2 * n + 1) + 0 = v * (2 * n + 1) + 0 := fun h => hq (slot_inj (by omega) (by omega) h).1
            rw [if_neg hne, if_neg hne, if_neg hq]
            exact (add_zero _).symm
        simp only [A]
        rw [sum_shift S.2 v x _ _ hsh, sum_shift keys v x _ _ hsh]
        ring) (fun _ => rfl)
    have es : ∀ (g : Fin (N * (2 * n + 1)) → E.Fr) (x y : E.Fr) (h : S.1 * (2 * n + 1) + (n + 1) < N * (2 * n + 1)),
        sOf (Function.update g ⟨S.1 * (2 * n + 1) + (n + 1), h⟩ x) n =
          sOf (Function.update g ⟨S.1 * (2 * n + 1) + (n + 1), h⟩ y) n := by
      intro g x y h
      funext q i
      unfold sOf
      split
      · rename_i hi
        rw [tapeOf_update, tapeOf_update, if_neg, if_neg]
        · intro h; have := slot_inj (by omega) (by omega) h; omega
        · intro h; have := slot_inj (by omega) (by omega) h; omega
      · rfl
    have k2 := linear_count (E := E) (K := N * (2 * n + 1)) ⟨S.1 * (2 * n + 1) + (n + 1), slot (hsN S hS).1 (by omega)⟩
      (fun g => gapN n keys shares (sOf g n) (tOf g n)) A (by
        intro g x
        simp only [A]
        rw [es g x 0 (slot (hsN S hS).1 (by omega))]
        apply gap_t1 n hn keys shares _ _ _ S hS hnd' hK1
        · intro q
          unfold tOf
          rw [if_pos (by omega), if_pos (by omega), tapeOf_update, tapeOf_update]
          by_cases hq : q = S.1
          · subst hq
            rw [if_pos rfl, if_pos rfl, if_pos rfl, zero_add]
          · rw [if_neg, if_neg, if_neg hq, add_zero]
            · intro h; exact hq (slot_inj (by omega) (by omega) h).1
            · intro h; exact hq (slot_inj (by omega) (by omega) h).1
        · intro q i hi1
          unfold tOf
          split
          · rename_i hi
            rw [tapeOf_update, tapeOf_update, if_neg, if_neg]
            · intro h; have := slot_inj (by omega) (by omega) h; omega
            · intro h; have := slot_inj (by omega) (by omega) h; omega
          · rfl) (by
        intro g
        simp only [A]
        have := es g 0 (g ⟨S.1 * (2 * n + 1) + (n + 1), slot (hsN S hS).1 (by omega)⟩) (slot (hsN S hS).1 (by omega))
        rw [Function.update_eq_self] at this
        rw [this])
    refine le_trans (Set.ncard_le_ncard (t := {g | _ ≠ 0 ∧ A g = 0} ∪ {g | A g ≠ 0 ∧ _ = 0}) ?_ (Set.toFinite _))
      ((Set.ncard_union_le _ _).trans ((Nat.add_le_add k1 k2).trans (by omega)))
    intro g hg
    by_cases h : A g = 0
    · exact .inl ⟨hc, h⟩
    · exact .inr ⟨h, hg⟩

end Dvd
open Dvd

/-- **C105** lost, repeated or out-of-date messages are noticed: `N` parties draw their secrets at random, the partial keys
of some of them (`keys`, nobody twice) and the `P_1` shares `shares` are delivered, and the delivery is not without fault.
Then on all but `2 p^(K-1)` of the `p^K` choices of the parties' `K = N (2 n + 1)` secret scalars, no honest encryption
whatsoever under the resulting key (with nonzero randomness) passes `verify_commitment`. -/
theorem C105_faults_noticed (b n : UInt8) (hn : chunksCount E.fr b = .ok n) (hn0 : n ≠ 0) (gens : EncryptionGens E)
    (hH : gens.H ≠ 0) (g_i : List E.G1) (hg : n.toNat ≤ g_i.length) (D C : E.G1) (hD : D ≠ 0)
    (N : ℕ) (keys : List ℕ) (shares : List (ℕ × List ℕ))
    (hkN : ∀ j ∈ keys, j < N) (hsN : ∀ S ∈ shares, S.1 < N ∧ ∀ j ∈ S.2, j < N) (hnd : keys.Nodup)
    (hl : keys.length < E.fr.p) (hl' : shares.length < E.fr.p) (hl'' : ∀ S ∈ shares, S.2.length < E.fr.p)
    (hf : ¬ Faultless keys shares) :
    {g : Fin (N * (2 * n.toNat + 1)) → E.Fr | ∃ ek,
        dkgAsDelivered (keys.map (partyAt E g (2 * n.toNat + 1)))
          (shares.map fun S => (partyAt E g (2 * n.toNat + 1) S.1, S.2.map (partyAt E g (2 * n.toNat + 1))))
          b gens g_i D C = .ok ek ∧ SomeEncryptionPasses ek gens g_i}.ncard
      ≤ 2 * E.fr.p ^ (N * (2 * n.toNat + 1) - 1) := by
  have hn' : 0 < n.toNat := by
    rcases Nat.eq_zero_or_pos n.toNat with h | h
    · exact absurd (UInt8.toNat_inj.mp h) hn0
    · exact h
  refine le_trans (Set.ncard_le_ncard ?_ (Set.toFinite _)) (gap_count (E := E) N n.toNat hn' keys shares hkN hsN hnd hl hl'
    hl'' hf)
  rintro g ⟨ek, hek, R, st, st', chunks, ct, r, henc, hr, hver⟩
  show gapN n.toNat keys shares (sOf g n.toNat) (tOf g n.toNat) = 0
  rw [← gap_tape]
  obtain ⟨h1, h2, h3⟩ := (C105_aborts_iff b n hn gens g_i hg D C _ _).2.mp ⟨ek, hek⟩
  obtain ⟨ek', sks, ek0, e1, e2, e3, e4⟩ := C105_any_delivery b n hn gens hH g_i hg D C hD _ _ h1 h2 h3
  rw [hek] at e1
  cases e1
  have hX : ek.X.length = n.toNat := by
    rw [dkg_eq _ h1 gens g_i D C hn hg] at e2
    cases e2
    rw [e3]
    simp [encKey]
  have hw : WellFormed ek := by
    rw [dkg_eq _ h1 gens g_i D C hn hg] at e2
    cases e2
    rw [e3]
    exact ⟨by simp [encKey], by simp [encKey]⟩
  have hc : chunks.length = n.toNat := by
    by_contra hc
    have h256 : n.toNat < 256 := n.toNat_lt
    rw [(C14_encrypt_decomposed R st chunks ek g_i).2.2.1 hw
      (by rw [hX, Nat.mod_eq_of_lt h256]; exact hc)] at henc
    cases henc
  obtain ⟨ct1, ct0, r1, st1, f1, -, -, -, f5⟩ := e4 R st chunks hc
  rw [henc] at f1
  simp only [Res.ok.injEq, Prod.mk.injEq] at f1
  obtain ⟨⟨q1, rfl⟩, -⟩ := f1
  have := flat_inj q1
  subst this
  rw [hver] at f5
  by_contra h0
  rw [if_neg (fun h => h.elim hr h0)] at f5
  cases f5

/-- three parties; the share of the last one is lost -/
example : {g : Fin (3 * (2 * (4 : UInt8).toNat + 1)) → Fix.E.Fr | ∃ ek,
    dkgAsDelivered ([0, 1, 2].map (partyAt Fix.E g (2 * (4 : UInt8).toNat + 1)))
      ([(0, [0, 1, 2]), (1, [2, 1, 0])].map fun S => (partyAt Fix.E g (2 * (4 : UInt8).toNat + 1) S.1,
        S.2.map (partyAt Fix.E g (2 * (4 : UInt8).toNat + 1)))) 16 Fix.gens Fix.gi Fix.D Fix.C = .ok ek ∧
      SomeEncryptionPasses ek Fix.gens Fix.gi}.ncard ≤ 2 * Fix.E.fr.p ^ (3 * (2 * (4 : UInt8).toNat + 1) - 1) :=
  C105_faults_noticed (E := Fix.E) 16 4 Fix.count (by decide) Fix.gens Fix.gens_ne.2 Fix.gi (by decide +kernel) Fix.D Fix.C
    (by exact (by decide +kernel : Fix.D ≠ 0)) 3 [0, 1, 2] [(0, [0, 1, 2]), (1, [2, 1, 0])] (by decide) (by decide) (by decide)
    (by exact (by decide +kernel : 3 < goldR)) (by exact (by decide +kernel : 2 < goldR)) (by
      intro S hS
      have : S.2.length = 3 := by
        rcases List.mem_cons.mp hS with rfl | hS
        · rfl
        · rw [List.mem_singleton.mp hS]
          rfl
      rw [this]
      exact (by decide +kernel : 3 < goldR)) (fun h => by
        have := h.1.length_eq
        simp at this)

/-- three parties; the second one computed its share before the key of the third one had reached it -/
example : {g : Fin (3 * (2 * (4 : UInt8).toNat + 1)) → Fix.E.Fr | ∃ ek,
    dkgAsDelivered ([0, 1, 2].map (partyAt Fix.E g (2 * (4 : UInt8).toNat + 1)))
      ([(0, [0, 1, 2]), (1, [0, 1]), (2, [0, 1, 2])].map fun S => (partyAt Fix.E g (2 * (4 : UInt8).toNat + 1) S.1,
        S.2.map (partyAt Fix.E g (2 * (4 : UInt8).toNat + 1)))) 16 Fix.gens Fix.gi Fix.D Fix.C = .ok ek ∧
      SomeEncryptionPasses ek Fix.gens Fix.gi}.ncard ≤ 2 * Fix.E.fr.p ^ (3 * (2 * (4 : UInt8).toNat + 1) - 1) :=
  C105_faults_noticed (E := Fix.E) 16 4 Fix.count (by decide) Fix.gens Fix.gens_ne.2 Fix.gi (by decide +kernel) Fix.D Fix.C
    (by exact (by decide +kernel : Fix.D ≠ 0)) 3 [0, 1, 2] [(0, [0, 1, 2]), (1, [0, 1]), (2, [0, 1, 2])] (by decide)
    (by decide) (by decide)
    (by exact (by decide +kernel : 3 < goldR)) (by exact (by decide +kernel : 3 < goldR)) (by
      intro S hS
      have : S.2.length ≤ 3 := by
        simp only [List.mem_cons, List.not_mem_nil, or_false] at hS
        rcases hS with rfl | rfl | rfl <;> decide
      exact lt_of_le_of_lt this (by exact (by decide +kernel : 3 < goldR))) (fun h => by
        have := (h.2 (1, [0, 1]) (by simp)).length_eq
        simp at this)

/-- two parties with concrete secrets: with both shares the encryptions pass, with one they do not, and in either case
the keys decrypt the same -/
example (P Q : Party Fix.E) (hPQ : draw Q.1 Q.2 4 + ∑ i ∈ Finset.range 4, draw Q.1 Q.2 (4 + (i + 1)) *
      (draw P.1 P.2 i + draw Q.1 Q.2 i) ≠ 0) :
    (∃ sks ek, dkg [P, Q] 16 Fix.gens Fix.gi Fix.D Fix.C = .ok (sks, ek) ∧
      dkgAsDelivered [P, Q] [(Q, [P, Q]), (P, [Q, P])] 16 Fix.gens Fix.gi Fix.D Fix.C = .ok ek) ∧
    ∃ ek, dkgAsDelivered [P, Q] [(P, [P, Q])] 16 Fix.gens Fix.gi Fix.D Fix.C = .ok ek ∧
      ∃ ct st', encryptDecomposedMessage (listRng Fix.E) Fix.st1 [1, 2, 3, 4] ek Fix.gi =
        .ok ((flat ct, draw (listRng Fix.E) Fix.st1 0), st') ∧
      ct.verifyCommitment ek.prepare Fix.gens.prepare = .err .invalidCommitment := by
  refine ⟨C105_faultless (E := Fix.E) 16 4 Fix.count Fix.gens Fix.gi (by decide +kernel) Fix.D Fix.C [P, Q] _ (by simp)
    ⟨List.Perm.swap _ _ _, ?_⟩, ?_⟩
  · intro S hS
    rcases List.mem_cons.mp hS with rfl | hS
    · exact List.Perm.refl _
    · rw [List.mem_singleton.mp hS]
      exact List.Perm.swap _ _ _
  · obtain ⟨ek, sks, ek0, h1, h2, h3, h4⟩ := C105_any_delivery (E := Fix.E) 16 4 Fix.count Fix.gens Fix.gens_ne.2 Fix.gi
      (by decide +kernel) Fix.D Fix.C (by exact (by decide +kernel : Fix.D ≠ 0)) [P, Q] [(P, [P, Q])] (by simp) (by simp)
      (by simp)
    obtain ⟨ct, ct0, r, st', e1, -, -, -, e5⟩ := h4 (listRng Fix.E) Fix.st1 [1, 2, 3, 4] rfl
    refine ⟨ek, h1, ct, st', ?_, ?_⟩
    · have hr : r = draw (listRng Fix.E) Fix.st1 0 := by
        have := dkg_eq (E := Fix.E) [P, Q] (by simp) Fix.gens Fix.gi Fix.D Fix.C Fix.count (by decide +kernel)
        rw [h2] at this
        cases this
        have e := encryptDecomposed_ok (listRng Fix.E) Fix.st1 [1, 2, 3, 4] ek Fix.gi
          (by rw [h3]; exact ⟨by simp [encKey], by simp [encKey]⟩) (by rw [h3]; simp [encKey]) (by rw [h3]; simp [encKey])
          (by rw [h3]; simp only [encKey, length_tab]; decide +kernel)
        rw [e1] at e
        simp only [Res.ok.injEq, Prod.mk.injEq] at e
        exact e.1.2
      rw [← hr]
      exact e1
    · rw [e5, if_neg]
      rintro (h | h)
      · have hr : r = draw (listRng Fix.E) Fix.st1 0 := by
          have := dkg_eq (E := Fix.E) [P, Q] (by simp) Fix.gens Fix.gi Fix.D Fix.C Fix.count (by decide +kernel)
          rw [h2] at this
          cases this
          have e := encryptDecomposed_ok (listRng Fix.E) Fix.st1 [1, 2, 3, 4] ek Fix.gi
            (by rw [h3]; exact ⟨by simp [encKey], by simp [encKey]⟩) (by rw [h3]; simp [encKey]) (by rw [h3]; simp [encKey])
            (by rw [h3]; simp only [encKey, length_tab]; decide +kernel)
          rw [e1] at e
          simp only [Res.ok.injEq, Prod.mk.injEq] at e
          exact e.1.2
        rw [hr] at h
        exact absurd h (by exact (by decide +kernel : draw (listRng Fix.E) Fix.st1 0 ≠ 0))
      · apply hPQ
        simp only [shareGap, List.map_cons, List.map_nil, List.sum_cons, List.sum_nil, add_zero] at h
        change draw P.1 P.2 4 + _ - (draw P.1 P.2 4 + draw Q.1 Q.2 4 + _) = 0 at h
        rw [show (4 : UInt8).toNat = 4 from rfl] at h
        simp only [mul_add, add_mul, Finset.sum_add_distrib] at h ⊢
        simp only [mul_comm (draw Q.1 Q.2 (4 + _)), mul_comm (draw P.1 P.2 (4 + _))] at h ⊢
        linear_combination -h

/-- the condition of the last example, for two parties whose scalars are all 1 -/
example : let P : Party Fix.E := ⟨tape Fix.E, fun _ => (1 : Fix.F)⟩
    draw P.1 P.2 4 + ∑ i ∈ Finset.range 4, draw P.1 P.2 (4 + (i + 1)) * (draw P.1 P.2 i + draw P.1 P.2 i) ≠ 0 := by
  intro P
  have h : ∀ i, draw P.1 P.2 i = (1 : Fix.F) := fun i => draw_tape (E := Fix.E) (fun _ => (1 : Fix.F)) i
  simp only [h]
  exact (by decide +kernel : (1 : Fix.F) + ∑ i ∈ Finset.range 4, 1 * (1 + 1) ≠ 0)

end Verif
