/-
Property C106: re-encryption when shares are lost, repeated, or made for another ciphertext or destination.
-/
import Verif.SpecDelivered
import Verif.Props.ReEncrypt
import Verif.Props.Delivered

namespace Verif
open Spec

variable {E : Engine}

namespace Rdl

theorem fkeygenDest_eq (R : RngCore E) (st : R.σ) (gens : EncryptionGens E) :
    fkeygenDest R st gens = .ok ((⟨draw R st 0⟩, ⟨draw R st 0 • gens.G⟩), after R st 1) := by
  unfold fkeygenDest
  rw [fr_eq R st]
  simp only [intoBigint_smul]

theorem sum_neg {α : Type*} {F : Type} [CommRing F] (l : List α) (f : α → F) : (l.map fun a => -f a).sum = -(l.map f).sum := by
  induction l with
  | nil => simp
  | cons a l ih => simp only [List.map_cons, List.sum_cons, ih]; ring

theorem sum_mul_sub {α : Type*} {F : Type} [CommRing F] (l : List α) (f g : α → F) (c : F) :
    (l.map fun a => f a * (g a - c)).sum = (l.map fun a => f a * g a).sum - c * (l.map f).sum := by
  induction l with
  | nil => simp
  | cons a l ih => simp only [List.map_cons, List.sum_cons, ih]; ring

/-- what is decrypted, in whatever way the shares were delivered -/
theorem delivered_eq (N : ℕ) (P : ℕ → Party E) {b n8 : UInt8} (gens : EncryptionGens E) (g_i : List E.G1) (D C : E.G1)
    (hn : chunksCount E.fr b = .ok n8) (hg : n8.toNat ≤ g_i.length)
    (enc : ℕ → Party E × List UInt16) (dest : ℕ → Party E) (shares : List (ReShare E)) (k0 d0 : ℕ) (chk : Bool) (b' : UInt8)
    (hN : 0 < N) (hlen : ∀ k, (enc k).2.length = n8.toNat) (hs : shares ≠ []) (hj : ∀ S ∈ shares, S.sender < N) :
    ∃ c : List E.G1, c.length = n8.toNat ∧
      reEncryptAsDelivered ((List.range N).map P) b gens g_i D C enc dest shares k0 d0 chk b' =
        decryptAfterReEncryption chk ((shares.map fun S => draw S.rng.1 S.rng.2 0).sum • gens.G) c
          ⟨draw (dest d0).1 (dest d0).2 0⟩ g_i b' ∧
      ∀ i < n8.toNat, c.getD i 0 - draw (dest d0).1 (dest d0).2 0 • (shares.map fun S => draw S.rng.1 S.rng.2 0).sum • gens.G =
        (nums (enc k0).2).getD i 0 • g_i.getD i 0 + keyGap N P enc shares k0 i • D + maskGap dest shares d0 • gens.G := by
  have hne : (List.range N).map P ≠ [] := by
    intro h
    have := congrArg List.length h
    simp at this
    omega
  unfold reEncryptAsDelivered
  rw [dkg_eq _ hne gens g_i D C hn hg, Res.ok_bind]
  dsimp only
  have hS : ∀ i, sumS ((List.range N).map P) i = ∑ j ∈ Finset.range N, draw (P j).1 (P j).2 i := by
    intro i
    unfold sumS
    rw [List.map_map]
    exact sum_tab N fun j => draw (P j).1 (P j).2 i
  generalize sumT n8.toNat ((List.range N).map P) = t
  have hw : WellFormed (encKey n8.toNat (sumS ((List.range N).map P)) t (fun i => g_i.getD i 0) D C gens.H) :=
    encKey_wf _ _ _ _ _ _ _
  have hX : (encKey n8.toNat (sumS ((List.range N).map P)) t (fun i => g_i.getD i 0) D C gens.H).X.length = n8.toNat := by
    simp [encKey]
  have hX256 : n8.toNat < 256 := n8.toNat_lt
  have henc : ∀ k, encryptDecomposedMessage (enc k).1.1 (enc k).1.2 (enc k).2
      (encKey n8.toNat (sumS ((List.range N).map P)) t (fun i => g_i.getD i 0) D C gens.H) g_i = _ := fun k =>
    encryptDecomposed_ok (enc k).1.1 (enc k).1.2 (enc k).2 _ g_i hw (by rw [hX]; exact hX256)
      (by rw [hX]; exact hlen k) (by rw [hX]; exact hg)
  have hv : ∀ k, (flat (cipher (encKey n8.toNat (sumS ((List.range N).map P)) t (fun i => g_i.getD i 0) D C gens.H)
      (fun i => g_i.getD i 0) (fun i => (nums (enc k).2).getD i 0) (draw (enc k).1.1 (enc k).1.2 0))).tail.take
        (enc k).2.length = tab n8.toNat fun i => (draw (enc k).1.1 (enc k).1.2 0 * sumS ((List.range N).map P) i) • D +
          (nums (enc k).2).getD i 0 • g_i.getD i 0 := by
    intro k
    rw [hlen k]
    unfold flat
    rw [List.tail_cons, List.take_append_of_le_length (by simp [cipher, encKey]), List.take_of_length_le (by simp [cipher, encKey])]
    simp only [cipher, hX]
    apply tab_congr
    intro i hi
    simp only [encKey]
    rw [getD_tab, if_pos hi, smul_smul]
  rw [mapRes_ok (g := fun S : ReShare E => ((tab n8.toNat fun i =>
      -((draw (P S.sender).1 (P S.sender).2 i * draw (enc S.about).1.1 (enc S.about).1.2 0) • D) +
        (draw S.rng.1 S.rng.2 0 * draw (dest S.dest).1 (dest S.dest).2 0) • gens.G), draw S.rng.1 S.rng.2 0 • gens.G))]
  · rw [Res.ok_bind]
    obtain ⟨S0, Ss, rfl⟩ := List.exists_cons_of_ne_nil hs
    rw [List.map_cons, combineShares_eq]
    · rw [← List.map_cons (f := fun S : ReShare E => ((tab n8.toNat fun i =>
        -((draw (P S.sender).1 (P S.sender).2 i * draw (enc S.about).1.1 (enc S.about).1.2 0) • D) +
        (draw S.rng.1 S.rng.2 0 * draw (dest S.dest).1 (dest S.dest).2 0) • gens.G), draw S.rng.1 S.rng.2 0 • gens.G))]
      generalize S0 :: Ss = shares
      rw [Res.ok_bind]
      dsimp only
      rw [henc k0, Res.ok_bind]
      dsimp only
      rw [hv k0, combineCtWithW_eq, addInto_eq (by simp)]
      rw [Res.ok_bind, Res.pure_eq, Res.ok_bind, fkeygenDest_eq, Res.ok_bind]
      simp only [length_tab, List.map_map, Function.comp_def]
      rw [sum_map_smul]
      refine ⟨_, ?_, rfl, ?_⟩
      · simp
      · intro i hi
        rw [List.tail_cons, getD_tab, if_pos hi, getD_tab, if_pos hi, getD_tab, if_pos hi]
        have e1 : ∀ S : ReShare E, (tab n8.toNat fun i =>
            -((draw (P S.sender).1 (P S.sender).2 i * draw (enc S.about).1.1 (enc S.about).1.2 0) • D) +
            (draw S.rng.1 S.rng.2 0 * draw (dest S.dest).1 (dest S.dest).2 0) • gens.G).getD i 0 =
            (-(draw (enc S.about).1.1 (enc S.about).1.2 0 * draw (P S.sender).1 (P S.sender).2 i)) • D +
            (draw S.rng.1 S.rng.2 0 * draw (dest S.dest).1 (dest S.dest).2 0) • gens.G := by
          intro S
          rw [getD_tab, if_pos hi, neg_smul, mul_comm (draw (P S.sender).1 (P S.sender).2 i)]
        simp only [e1]
        rw [sum_map_add, sum_map_smul, sum_map_smul, hS, smul_smul]
        unfold keyGap maskGap
        rw [sum_neg, sum_mul_sub]
        module
    · intro s hs'
      obtain ⟨Q, _, rfl⟩ := List.mem_map.mp hs'
      simp
  · intro S hS'
    have hidx : idx (((List.range N).map P).map (partySK n8.toNat)) S.sender = .ok (partySK n8.toNat (P S.sender)) := by
      unfold idx
      simp [List.getElem?_map, List.getElem?_range (hj S hS')]
    rw [hidx, Res.ok_bind, henc, Res.ok_bind]
    dsimp only
    rw [fkeygenDest_eq, Res.ok_bind]
    dsimp only
    rw [hv S.about]
    rw [show idx (flat (cipher (encKey n8.toNat (sumS ((List.range N).map P)) t (fun i => g_i.getD i 0) D C gens.H)
      (fun i => g_i.getD i 0) (fun i => (nums (enc S.about).2).getD i 0) (draw (enc S.about).1.1 (enc S.about).1.2 0))) 0 =
        .ok (draw (enc S.about).1.1 (enc S.about).1.2 0 • D) from rfl, Res.ok_bind]
    rw [reEncryptShare_eq _ _ _ _ _ _ _ (by simp [partySK])]
    rw [Res.ok_bind, Res.pure_eq]
    simp only [length_tab, partySK, smul_smul]
    congr 2
    apply tab_congr
    intro i hi
    rw [getD_tab, if_pos hi]
    rfl

/-- the gap as a combination of the parties' secrets -/
theorem keyGap_eq (N : ℕ) (P : ℕ → Party E) (enc : ℕ → Party E × List UInt16) (shares : List (ReShare E)) (k0 i : ℕ)
    (hj : ∀ S ∈ shares, S.sender < N) :
    keyGap N P enc shares k0 i = ∑ j ∈ Finset.range N,
      (draw (enc k0).1.1 (enc k0).1.2 0 - sharesOf enc shares j) * draw (P j).1 (P j).2 i := by
  unfold keyGap
  have h : (shares.map fun S => draw (enc S.about).1.1 (enc S.about).1.2 0 * draw (P S.sender).1 (P S.sender).2 i).sum =
      ∑ j ∈ Finset.range N, sharesOf enc shares j * draw (P j).1 (P j).2 i := by
    unfold sharesOf
    induction shares with
    | nil => simp
    | cons S l ih =>
      rw [List.map_cons, List.sum_cons, ih (fun S' hS' => hj S' (List.mem_cons_of_mem _ hS'))]
      have : ∀ j, ((((S :: l).filter fun S => S.sender == j).map
          fun S => draw (enc S.about).1.1 (enc S.about).1.2 0).sum : E.Fr) =
          (if j = S.sender then draw (enc S.about).1.1 (enc S.about).1.2 0 else 0) +
          ((l.filter fun S => S.sender == j).map fun S => draw (enc S.about).1.1 (enc S.about).1.2 0).sum := by
        intro j
        by_cases h : j = S.sender
        · subst h
          simp
        · have h' : ¬ S.sender = j := fun e => h e.symm
          simp [h, h']
      simp only [this, add_mul, Finset.sum_add_distrib, ite_mul, zero_mul]
      rw [Finset.sum_ite_eq', if_pos (Finset.mem_range.mpr (hj S (by simp)))]
  rw [h, Finset.mul_sum, ← Finset.sum_sub_distrib]
  apply Finset.sum_congr rfl
  intro j _
  ring

/-- `n` values, each of which is a fixed nonzero multiple of its own coordinate up to something that does not depend on
any of these coordinates, all lie in given sets of `B` elements on a `(B/p)^n` share -/
theorem count_many {K n : ℕ} (slot : Fin n → Fin K) (hsl : Function.Injective slot) (A : (Fin K → E.Fr) → Fin n → E.Fr)
    (c : E.Fr) (hc : c ≠ 0)
    (hA : ∀ g g', (∀ k, (∀ i, k ≠ slot i) → g k = g' k) → ∀ i, A g i - c * g (slot i) = A g' i - c * g' (slot i))
    (V : Fin n → Finset E.Fr) (B : ℕ) (hV : ∀ i, (V i).card ≤ B) :
    {g | ∀ i, A g i ∈ V i}.ncard ≤ B ^ n * E.fr.p ^ (K - n) := by
  classical
  let T := {k : Fin K // ∀ i, k ≠ slot i}
  have hT : Fintype.card T = K - n := by
    have h1 : Fintype.card T = (Finset.univ.filter fun k : Fin K => ∀ i, k ≠ slot i).card := Fintype.card_subtype _
    have h2 : (Finset.univ.filter fun k : Fin K => ∀ i, k ≠ slot i) = (Finset.univ.image slot)ᶜ := by
      ext k
      simp [eq_comm]
    rw [h1, h2, Finset.card_compl, Finset.card_image_of_injective _ hsl, Fintype.card_fin, Finset.card_univ, Fintype.card_fin]
  have hF : Fintype.card E.Fr = E.fr.p := ZMod.card _
  rw [Set.ncard_eq_toFinset_card']
  have hle : ({g | ∀ i, A g i ∈ V i} : Set (Fin K → E.Fr)).toFinset.card ≤
      ((Fintype.piFinset V) ×ˢ (Finset.univ : Finset (T → E.Fr))).card := by
    apply Finset.card_le_card_of_injOn (fun g => (A g, fun k : T => g k.1))
    · intro g hg
      have hg' : ∀ i, A g i ∈ V i := by simpa using hg
      simp only [Finset.coe_product, Set.mem_prod, Finset.mem_coe, Fintype.mem_piFinset]
      exact ⟨hg', Finset.mem_univ _⟩
    · intro g _ g' _ h
      have h1 : A g = A g' := congrArg Prod.fst h
      have h2 : ∀ k, (∀ i, k ≠ slot i) → g k = g' k := fun k hk => congrFun (congrArg Prod.snd h) ⟨k, hk⟩
      funext k
      by_cases hk : ∀ i, k ≠ slot i
      · exact h2 k hk
      · push Not at hk
        obtain ⟨i, rfl⟩ := hk
        have := hA g g' h2 i
        rw [h1] at this
        exact mul_left_cancel₀ hc (sub_right_injective this)
  refine hle.trans ?_
  rw [Finset.card_product, Fintype.card_piFinset, Finset.card_univ, Fintype.card_fun, hT, hF]
  refine Nat.mul_le_mul_right _ ?_
  calc ∏ i, (V i).card ≤ ∏ _i : Fin n, B := Finset.prod_le_prod' fun i _ => hV i
    _ = B ^ n := by simp

/-- few scalars `a` move a point `x` to a small multiple of `g` -/
theorem few_logs (g x D : E.G1) (hD : D ≠ 0) (B : ℕ) :
    ∃ V : Finset E.Fr, V.card ≤ B + 1 ∧ ∀ (a : E.Fr) (k : ℕ), k ≤ B → k • g = x + a • D → a ∈ V := by
  classical
  let f : ℕ → E.Fr := fun k => if h : ∃ a : E.Fr, k • g = x + a • D then h.choose else 0
  refine ⟨(Finset.range (B + 1)).image f, ?_, ?_⟩
  · exact Finset.card_image_le.trans (by simp)
  · intro a k hk h
    rw [Finset.mem_image]
    refine ⟨k, Finset.mem_range.mpr (by omega), ?_⟩
    have hex : ∃ a : E.Fr, k • g = x + a • D := ⟨a, h⟩
    simp only [f]
    rw [dif_pos hex]
    have h3 := add_left_cancel (hex.choose_spec.symm.trans h)
    exact smul_left_injective E.Fr hD h3

end Rdl
open Rdl

/-- **C106** What a destination decrypts when any collection of shares has been combined (any number of shares per party,
for any ciphertexts and destinations): if there was no share at all the combination aborts; otherwise nothing aborts,
and chunk `i` comes out as the least number `x <= searchBound` with
`x g_i = m_i g_i + keyGap_i X_0 + maskGap G`, and `CouldNotFindDiscreteLog` is returned iff some chunk has none. -/
theorem C106_any_delivery (b n : UInt8) (hn : chunksCount E.fr b = .ok n) (gens : EncryptionGens E) (g_i : List E.G1)
    (hg : n.toNat ≤ g_i.length) (D C : E.G1) (N : ℕ) (hN : 0 < N) (P : ℕ → Party E) (enc : ℕ → Party E × List UInt16)
    (hlen : ∀ k, (enc k).2.length = n.toNat) (dest : ℕ → Party E) (shares : List (ReShare E))
    (hj : ∀ S ∈ shares, S.sender < N) (k0 d0 : ℕ) (chk : Bool) (b' : UInt8) (hb' : b'.toNat < 32) :
    let run := reEncryptAsDelivered ((List.range N).map P) b gens g_i D C enc dest shares k0 d0 chk b'
    let value := fun i => (nums (enc k0).2).getD i 0 • g_i.getD i 0 + keyGap N P enc shares k0 i • D +
      maskGap dest shares d0 • gens.G
    (shares = [] → run = .panic) ∧
    (shares ≠ [] →
      (∀ out, run = .ok out ↔ out.length = n.toNat ∧
        ∀ i < n.toNat, IsLeastLog (g_i.getD i 0) (value i) (searchBound b'.toNat) ((nums out).getD i 0)) ∧
      (∀ e, run = .err e ↔ e = .couldNotFindDiscreteLog ∧
        ∃ i < n.toNat, NoLog (g_i.getD i 0) (value i) (searchBound b'.toNat)) ∧
      run ≠ .panic) := by
  intro run value
  constructor
  · rintro rfl
    simp only [run]
    unfold reEncryptAsDelivered
    rw [dkg_eq _ (by
      intro h
      have := congrArg List.length h
      simp at this
      omega) gens g_i D C hn hg, Res.ok_bind]
    rfl
  · intro hs
    obtain ⟨c, hc, hrun, hval⟩ := Rdl.delivered_eq N P gens g_i D C hn hg enc dest shares k0 d0 chk b' hN hlen hs hj
    have hall := (C36_decrypt_after_cases chk ((shares.map fun S => draw S.rng.1 S.rng.2 0).sum • gens.G) c
      ⟨draw (dest d0).1 (dest d0).2 0⟩ g_i b').2.1 (by rw [hc]; exact hg) hb'
    simp only [run, value]
    rw [hrun]
    refine ⟨fun out => ?_, fun e => ?_, hall.2.2⟩
    · rw [hall.1 out, hc]
      constructor
      · rintro ⟨h1, h2⟩
        refine ⟨h1, fun i hi => ?_⟩
        rw [← hval i hi]
        exact h2 i hi
      · rintro ⟨h1, h2⟩
        refine ⟨h1, fun i hi => ?_⟩
        have := h2 i hi
        rw [← hval i hi] at this
        exact this
    · rw [hall.2.1 e, hc]
      constructor
      · rintro ⟨h1, i, hi, h2⟩
        refine ⟨h1, i, hi, ?_⟩
        rw [← hval i hi]
        exact h2
      · rintro ⟨h1, i, hi, h2⟩
        refine ⟨h1, i, hi, ?_⟩
        rw [← hval i hi] at h2
        exact h2

/-- **C106** Which faults there are: if all shares are for the ciphertext `k0` (with nonzero randomness), a party's shares
do not add up iff it has not sent exactly one (modulo `p`, so for fewer than `p` shares); if every party has sent exactly
one share, they do not add up iff that is for a ciphertext with another randomness. -/
theorem C106_fault_kinds (N : ℕ) (enc : ℕ → Party E × List UInt16) (shares : List (ReShare E)) (k0 : ℕ) :
    ((∀ S ∈ shares, S.about = k0) → draw (enc k0).1.1 (enc k0).1.2 0 ≠ 0 → shares.length < E.fr.p →
      (∀ S ∈ shares, S.sender < N) →
      ((∃ j < N, sharesOf enc shares j ≠ draw (enc k0).1.1 (enc k0).1.2 0) ↔
        ¬ (shares.map (·.sender)).Perm (List.range N))) ∧
    ((shares.map (·.sender)).Perm (List.range N) →
      ((∃ j < N, sharesOf enc shares j ≠ draw (enc k0).1.1 (enc k0).1.2 0) ↔
        ∃ S ∈ shares, draw (enc S.about).1.1 (enc S.about).1.2 0 ≠ draw (enc k0).1.1 (enc k0).1.2 0)) := by
  constructor
  · intro hk hr hl hN
    have hsum : ∀ j, sharesOf enc shares j = ((shares.map (·.sender)).count j : E.Fr) * draw (enc k0).1.1 (enc k0).1.2 0 := by
      intro j
      unfold sharesOf
      clear hl hN
      induction shares with
      | nil => simp
      | cons S l ih =>
        have ih' := ih fun S' hS' => hk S' (List.mem_cons_of_mem _ hS')
        rw [List.map_cons, List.count_cons]
        by_cases h : S.sender = j
        · rw [List.filter_cons_of_pos (by simpa using h), List.map_cons, List.sum_cons, ih', hk S (by simp)]
          simp [h]
          ring
        · rw [List.filter_cons_of_neg (by simpa using h), ih']
          simp [h]
    have h1p : 1 < E.fr.p := E.fr.prime.one_lt
    have hiff : ∀ j, sharesOf enc shares j ≠ draw (enc k0).1.1 (enc k0).1.2 0 ↔ (shares.map (·.sender)).count j ≠ 1 := by
      intro j
      rw [hsum, not_iff_not]
      constructor
      · intro h
        by_contra hne
        have hc : (shares.map (·.sender)).count j < E.fr.p :=
          lt_of_le_of_lt List.count_le_length (by rw [List.length_map]; exact hl)
        have := Dvd.cast_ne (E := E) hne hc h1p
        apply this
        have h2 : ((shares.map (·.sender)).count j : E.Fr) * draw (enc k0).1.1 (enc k0).1.2 0 =
            1 * draw (enc k0).1.1 (enc k0).1.2 0 := by rw [one_mul]; exact h
        rw [mul_right_cancel₀ hr h2]
        simp
      · intro h
        rw [h]
        simp
    simp only [hiff]
    rw [List.perm_iff_count]
    constructor
    · rintro ⟨j, hj, h⟩ h'
      rw [h' j, List.count_eq_one_of_mem List.nodup_range (List.mem_range.mpr hj)] at h
      exact h rfl
    · intro h
      push Not at h
      obtain ⟨j, hj⟩ := h
      by_cases hjN : j < N
      · refine ⟨j, hjN, ?_⟩
        rw [List.count_eq_one_of_mem List.nodup_range (List.mem_range.mpr hjN)] at hj
        exact hj
      · exfalso
        apply hj
        rw [List.count_eq_zero.mpr, List.count_eq_zero.mpr]
        · simpa using hjN
        · intro hm
          obtain ⟨S, hS, rfl⟩ := List.mem_map.mp hm
          exact hjN (hN S hS)
  · intro hp
    have hnd : (shares.map (·.sender)).Nodup := hp.nodup_iff.mpr List.nodup_range
    have hone : ∀ S ∈ shares, sharesOf enc shares S.sender = draw (enc S.about).1.1 (enc S.about).1.2 0 := by
      intro S hS
      unfold sharesOf
      clear hp
      induction shares with
      | nil => cases hS
      | cons A l ih =>
        rw [List.map_cons, List.nodup_cons] at hnd
        rcases List.mem_cons.mp hS with rfl | hS
        · rw [List.filter_cons_of_pos (by simp), List.filter_eq_nil_iff.mpr]
          · simp
          · intro B hB hBA
            exact hnd.1 (List.mem_map.mpr ⟨B, hB, by simpa using hBA⟩)
        · rw [List.filter_cons_of_neg]
          · exact ih hnd.2 hS
          · intro h
            exact hnd.1 (List.mem_map.mpr ⟨S, hS, by simpa using (eq_comm.mp (by simpa using h))⟩)
    constructor
    · rintro ⟨j, hj, h⟩
      obtain ⟨S, hS, rfl⟩ := List.mem_map.mp (hp.mem_iff.mpr (List.mem_range.mpr hj))
      exact ⟨S, hS, by rw [← hone S hS]; exact h⟩
    · rintro ⟨S, hS, h⟩
      exact ⟨S.sender, List.mem_range.mp (hp.mem_iff.mp (List.mem_map_of_mem hS)), by rw [hone S hS]; exact h⟩

/-- **C106** If every party's share for the ciphertext and the destination arrived exactly once, in whatever order, the
destination gets the chunks (as far as they are in its search range). -/
theorem C106_faultless (b n : UInt8) (hn : chunksCount E.fr b = .ok n) (gens : EncryptionGens E) (g_i : List E.G1)
    (hg : n.toNat ≤ g_i.length) (hgi : ∀ i < n.toNat, g_i.getD i 0 ≠ 0) (D C : E.G1) (N : ℕ) (hN : 0 < N)
    (P : ℕ → Party E) (enc : ℕ → Party E × List UInt16)
    (hlen : ∀ k, (enc k).2.length = n.toNat) (dest : ℕ → Party E) (shares : List (ReShare E))
    (hperm : (shares.map (·.sender)).Perm (List.range N)) (k0 d0 : ℕ) (hk : ∀ S ∈ shares, S.about = k0)
    (hd : ∀ S ∈ shares, S.dest = d0) (chk : Bool) (b' : UInt8) (hb' : b'.toNat < 32)
    (hm : ∀ x ∈ (enc k0).2, x.toNat ≤ searchBound b'.toNat ∧ x.toNat < E.fr.p) :
    reEncryptAsDelivered ((List.range N).map P) b gens g_i D C enc dest shares k0 d0 chk b' = .ok (enc k0).2 := by
  have hs : shares ≠ [] := by
    rintro rfl
    have := hperm.length_eq
    simp at this
    omega
  have hj : ∀ S ∈ shares, S.sender < N := fun S hS => List.mem_range.mp (hperm.mem_iff.mp (List.mem_map_of_mem hS))
  obtain ⟨c, hc, hrun, hval⟩ := Rdl.delivered_eq N P gens g_i D C hn hg enc dest shares k0 d0 chk b' hN hlen hs hj
  have hk0 : ∀ i, keyGap N P enc shares k0 i = 0 := by
    intro i
    rw [keyGap_eq N P enc shares k0 i hj]
    apply Finset.sum_eq_zero
    intro j hjr
    have : sharesOf enc shares j = draw (enc k0).1.1 (enc k0).1.2 0 := by
      by_contra h
      obtain ⟨S, hS, hne⟩ := ((C106_fault_kinds N enc shares k0).2 hperm).mp ⟨j, Finset.mem_range.mp hjr, h⟩
      rw [hk S hS] at hne
      exact hne rfl
    rw [this, sub_self, zero_mul]
  have hm0 : maskGap dest shares d0 = 0 := by
    unfold maskGap
    apply List.sum_eq_zero
    intro x hx
    obtain ⟨S, hS, rfl⟩ := List.mem_map.mp hx
    rw [hd S hS, sub_self, mul_zero]
  have hget : ∀ i < n.toNat, ∃ x ∈ (enc k0).2, (nums (enc k0).2).getD i 0 = x.toNat := by
    intro i hi
    have := hlen k0
    refine ⟨(enc k0).2[i]'(by omega), List.getElem_mem _, ?_⟩
    simp [nums, List.getD_eq_getElem?_getD, List.getElem?_eq_getElem (show i < (enc k0).2.length by omega)]
  rw [hrun, (decryptAfter_values chk n.toNat _ c _ g_i b' hb' hc hg hgi (fun i => (nums (enc k0).2).getD i 0)
    (fun i hi => by obtain ⟨x, hx, e⟩ := hget i hi; simp only [e]; exact (hm x hx).2)
    (fun i hi => by rw [hval i hi, hk0, hm0, zero_smul, zero_smul, add_zero, add_zero])).1
    (fun i hi => by obtain ⟨x, hx, e⟩ := hget i hi; simp only [e]; exact (hm x hx).1)]
  congr 1
  apply List.ext_getElem
  · simp [hlen k0]
  · intro i h1 h2
    simp [nums, List.getD_eq_getElem?_getD, tab, List.getElem?_eq_getElem h2]

/-- **C106** Lost, repeated and mixed-up shares are noticed: if the shares of some party do not add up, then on all but a
`((searchBound + 1) / p)^n` share of the parties' secrets the destination gets an error and no chunks. -/
theorem C106_faults_noticed (b n : UInt8) (hn : chunksCount E.fr b = .ok n) (gens : EncryptionGens E) (g_i : List E.G1)
    (hg : n.toNat ≤ g_i.length) (D C : E.G1) (hD : D ≠ 0) (N : ℕ) (enc : ℕ → Party E × List UInt16)
    (hlen : ∀ k, (enc k).2.length = n.toNat) (dest : ℕ → Party E) (shares : List (ReShare E))
    (hj : ∀ S ∈ shares, S.sender < N) (k0 d0 : ℕ) (chk : Bool) (b' : UInt8) (hb' : b'.toNat < 32)
    (hf : ∃ j < N, sharesOf enc shares j ≠ draw (enc k0).1.1 (enc k0).1.2 0) :
    {g : Fin (N * (2 * n.toNat + 1)) → E.Fr | ∃ out,
        reEncryptAsDelivered ((List.range N).map (partyAt E g (2 * n.toNat + 1))) b gens g_i D C enc dest shares k0 d0 chk b'
          = .ok out}.ncard
      ≤ (searchBound b'.toNat + 1) ^ n.toNat * E.fr.p ^ (N * (2 * n.toNat + 1) - n.toNat) := by
  classical
  obtain ⟨j, hjN, hfj⟩ := hf
  have slotlt : ∀ i : Fin n.toNat, j * (2 * n.toNat + 1) + i.1 < N * (2 * n.toNat + 1) := by
    intro i
    have : (j + 1) * (2 * n.toNat + 1) ≤ N * (2 * n.toNat + 1) := Nat.mul_le_mul_right _ hjN
    rw [Nat.add_mul, Nat.one_mul] at this
    have := i.2
    omega
  choose V hVc hV using fun i : Fin n.toNat => few_logs (g_i.getD i 0)
    ((nums (enc k0).2).getD i 0 • g_i.getD i 0 + maskGap dest shares d0 • gens.G) D hD (searchBound b'.toNat)
  have hdr : ∀ (g : Fin (N * (2 * n.toNat + 1)) → E.Fr) q i, draw (partyAt E g (2 * n.toNat + 1) q).1
      (partyAt E g (2 * n.toNat + 1) q).2 i = tapeOf g (q * (2 * n.toNat + 1) + i) := fun g q i => draw_tape _ _
  refine le_trans (Set.ncard_le_ncard ?_ (Set.toFinite _)) (count_many (E := E)
    (fun i : Fin n.toNat => ⟨j * (2 * n.toNat + 1) + i.1, slotlt i⟩) ?_
    (fun g i => keyGap N (partyAt E g (2 * n.toNat + 1)) enc shares k0 i)
    (draw (enc k0).1.1 (enc k0).1.2 0 - sharesOf enc shares j) (sub_ne_zero.mpr (Ne.symm hfj)) ?_ V
    (searchBound b'.toNat + 1) hVc)
  · rintro g ⟨out, hout⟩ i
    have hall := C106_any_delivery b n hn gens g_i hg D C N (by omega) (partyAt E g (2 * n.toNat + 1)) enc hlen dest shares
      hj k0 d0 chk b' hb'
    by_cases hs : shares = []
    · have := hall.1 hs
      rw [hout] at this
      cases this
    · have := (((hall.2 hs).1 out).mp hout).2 i.1 i.2
      exact hV i _ _ this.1 (this.2.1.trans (add_right_comm _ _ _))
  · intro i i' h
    have := congrArg Fin.val h
    apply Fin.ext
    simpa using this
  · intro g g' hgg i
    rw [keyGap_eq N _ enc shares k0 i hj, keyGap_eq N _ enc shares k0 i hj]
    rw [← Finset.add_sum_erase _ _ (Finset.mem_range.mpr hjN), ← Finset.add_sum_erase _ _ (Finset.mem_range.mpr hjN)]
    have e1 : ∀ g : Fin (N * (2 * n.toNat + 1)) → E.Fr, tapeOf g (j * (2 * n.toNat + 1) + i.1) = g ⟨_, slotlt i⟩ := by
      intro g
      unfold tapeOf
      rw [dif_pos (slotlt i)]
    rw [hdr, hdr, e1, e1, add_sub_cancel_left, add_sub_cancel_left]
    apply Finset.sum_congr rfl
    intro q hq
    have hqj : q ≠ j := (Finset.mem_erase.mp hq).1
    rw [hdr, hdr]
    congr 1
    unfold tapeOf
    split
    · rename_i h
      apply hgg
      intro i' h'
      have := congrArg Fin.val h'
      simp only at this
      exact hqj (Dvd.slot_inj (by have := i.2; omega) (by have := i'.2; omega) this).1
    · rfl

/-- **C106** So are shares for another destination: if some share is for a destination with another secret key, then
whatever else arrived or did not, on all but a `(searchBound + 1) / p` share of the randomness of the shares the
destination gets an error and no chunks. -/
theorem C106_wrong_destination (b n : UInt8) (hn : chunksCount E.fr b = .ok n) (hn0 : n ≠ 0) (gens : EncryptionGens E)
    (hG : gens.G ≠ 0) (g_i : List E.G1) (hg : n.toNat ≤ g_i.length) (D C : E.G1) (N : ℕ) (hN : 0 < N) (P : ℕ → Party E)
    (enc : ℕ → Party E × List UInt16) (hlen : ∀ k, (enc k).2.length = n.toNat) (dest : ℕ → Party E)
    (L : ℕ) (sender about dst : ℕ → ℕ) (hj : ∀ l < L, sender l < N) (k0 d0 : ℕ) (chk : Bool) (b' : UInt8)
    (hb' : b'.toNat < 32)
    (hf : ∃ l < L, draw (dest (dst l)).1 (dest (dst l)).2 0 ≠ draw (dest d0).1 (dest d0).2 0) :
    {h : Fin L → E.Fr | ∃ out,
        reEncryptAsDelivered ((List.range N).map P) b gens g_i D C enc dest
          ((List.range L).map fun l => ⟨sender l, ⟨tape E, fun _ => tapeOf h l⟩, about l, dst l⟩) k0 d0 chk b' = .ok out}.ncard
      ≤ (searchBound b'.toNat + 1) * E.fr.p ^ (L - 1) := by
  classical
  obtain ⟨l, hl, hfl⟩ := hf
  have hn' : 0 < n.toNat := by
    rcases Nat.eq_zero_or_pos n.toNat with h | h
    · exact absurd (UInt8.toNat_inj.mp h) hn0
    · exact h
  obtain ⟨V, hVc, hV⟩ := few_logs (g_i.getD 0 0)
    ((nums (enc k0).2).getD 0 0 • g_i.getD 0 0 + keyGap N P enc
      ((List.range L).map fun l => (⟨sender l, ⟨tape E, fun _ => 0⟩, about l, dst l⟩ : ReShare E)) k0 0 • D) gens.G hG
    (searchBound b'.toNat)
  have hkg : ∀ h : Fin L → E.Fr, keyGap N P enc
      ((List.range L).map fun l => (⟨sender l, ⟨tape E, fun _ => tapeOf h l⟩, about l, dst l⟩ : ReShare E)) k0 0 =
      keyGap N P enc
      ((List.range L).map fun l => (⟨sender l, ⟨tape E, fun _ => 0⟩, about l, dst l⟩ : ReShare E)) k0 0 := by
    intro h
    unfold keyGap
    simp only [List.map_map, Function.comp_def]
  have hmg : ∀ h : Fin L → E.Fr, maskGap dest
      ((List.range L).map fun l => (⟨sender l, ⟨tape E, fun _ => tapeOf h l⟩, about l, dst l⟩ : ReShare E)) d0 =
      ∑ l ∈ Finset.range L, tapeOf h l * (draw (dest (dst l)).1 (dest (dst l)).2 0 - draw (dest d0).1 (dest d0).2 0) := by
    intro h
    unfold maskGap
    rw [List.map_map]
    refine (sum_tab L _).trans (Finset.sum_congr rfl fun l _ => ?_)
    show draw (tape E) _ 0 * _ = _
    rw [draw_tape]
  have key := count_many (E := E) (K := L) (n := 1) (fun _ => ⟨l, hl⟩) (fun a b _ => Subsingleton.elim a b)
    (fun h _ => maskGap dest
      ((List.range L).map fun l => (⟨sender l, ⟨tape E, fun _ => tapeOf h l⟩, about l, dst l⟩ : ReShare E)) d0)
    (draw (dest (dst l)).1 (dest (dst l)).2 0 - draw (dest d0).1 (dest d0).2 0) (sub_ne_zero.mpr hfl) ?_ (fun _ => V)
    (searchBound b'.toNat + 1) (fun _ => hVc)
  · rw [pow_one] at key
    refine le_trans (Set.ncard_le_ncard ?_ (Set.toFinite _)) key
    rintro h ⟨out, hout⟩ i
    have hall := C106_any_delivery b n hn gens g_i hg D C N hN P enc hlen dest
      ((List.range L).map fun l => (⟨sender l, ⟨tape E, fun _ => tapeOf h l⟩, about l, dst l⟩ : ReShare E)) (by
        intro S hS
        obtain ⟨l', hl', rfl⟩ := List.mem_map.mp hS
        exact hj l' (List.mem_range.mp hl')) k0 d0 chk b' hb'
    have hs : ((List.range L).map fun l => (⟨sender l, ⟨tape E, fun _ => tapeOf h l⟩, about l, dst l⟩ : ReShare E)) ≠ [] := by
      intro h
      have := congrArg List.length h
      simp at this
      omega
    have := (((hall.2 hs).1 out).mp hout).2 0 hn'
    dsimp only at this
    rw [hkg] at this
    exact hV _ _ this.1 this.2.1
  · intro h h' hh i
    rw [hmg, hmg, ← Finset.add_sum_erase _ _ (Finset.mem_range.mpr hl), ← Finset.add_sum_erase _ _ (Finset.mem_range.mpr hl)]
    have e1 : ∀ h : Fin L → E.Fr, tapeOf h l = h ⟨l, hl⟩ := by
      intro h
      unfold tapeOf
      rw [dif_pos hl]
    rw [e1, e1]
    have e2 : ∑ q ∈ (Finset.range L).erase l, tapeOf h q *
          (draw (dest (dst q)).1 (dest (dst q)).2 0 - draw (dest d0).1 (dest d0).2 0) =
        ∑ q ∈ (Finset.range L).erase l, tapeOf h' q *
          (draw (dest (dst q)).1 (dest (dst q)).2 0 - draw (dest d0).1 (dest d0).2 0) := by
      apply Finset.sum_congr rfl
      intro q hq
      congr 1
      unfold tapeOf
      split
      · rename_i hqL
        apply hh
        intro _ e
        exact (Finset.mem_erase.mp hq).1 (congrArg Fin.val e)
      · rfl
    rw [e2]
    ring

/-! ### examples: three parties, two ciphertexts (randomness 1 and 2), two destinations (secret keys 5 and 6) -/

namespace Rdl

abbrev exEnc : ℕ → Party Fix.E × List UInt16 := fun k =>
  (⟨tape Fix.E, fun _ => ((k + 1 : ℕ) : Fix.F)⟩, if k = 0 then [1, 2, 300, 4] else [7, 7, 7, 7])

abbrev exDest : ℕ → Party Fix.E := fun d => ⟨tape Fix.E, fun _ => ((d + 5 : ℕ) : Fix.F)⟩

abbrev exShare (j k d : ℕ) : ReShare Fix.E := ⟨j, ⟨tape Fix.E, fun _ => ((j + 11 : ℕ) : Fix.F)⟩, k, d⟩

theorem exLen : ∀ k, (exEnc k).2.length = (4 : UInt8).toNat := by
  intro k
  by_cases h : k = 0
  · simp [h]
  · simp [h]

theorem exRand (k : ℕ) : draw (exEnc k).1.1 (exEnc k).1.2 0 = ((k + 1 : ℕ) : Fix.F) := draw_tape (E := Fix.E) _ _

theorem exGi : ∀ i < (4 : UInt8).toNat, Fix.gi.getD i 0 ≠ 0 := by
  intro i hi
  have hl : (4 : UInt8).toNat ≤ Fix.gi.length := by decide +kernel
  rw [List.getD_eq_getElem _ _ (show i < Fix.gi.length by omega)]
  exact Fix.gi_ne _ (List.getElem_mem _)

/-- all shares once, in another order: the destination gets the chunks, whatever the parties' secrets -/
example (P : ℕ → Party Fix.E) :
    reEncryptAsDelivered ((List.range 3).map P) 16 Fix.gens Fix.gi Fix.D Fix.C exEnc exDest
      [exShare 2 0 1, exShare 0 0 1, exShare 1 0 1] 0 1 true 16 = .ok [1, 2, 300, 4] :=
  C106_faultless (E := Fix.E) 16 4 Fix.count Fix.gens Fix.gi (by decide +kernel) exGi Fix.D Fix.C 3 (by omega) P exEnc
    exLen exDest [exShare 2 0 1, exShare 0 0 1, exShare 1 0 1] (by decide) 0 1 (by simp) (by simp) true 16 (by decide)
    (by decide +kernel)

/-- one share is lost -/
example : ∃ j < 3, sharesOf exEnc [exShare 0 0 0, exShare 2 0 0] j ≠ draw (exEnc 0).1.1 (exEnc 0).1.2 0 :=
  ((C106_fault_kinds (E := Fix.E) 3 exEnc [exShare 0 0 0, exShare 2 0 0] 0).1 (by simp)
    (by rw [exRand]; exact (by decide +kernel : ((0 + 1 : ℕ) : Fix.F) ≠ 0))
    (by exact (by decide +kernel : 2 < goldR)) (by simp)).mpr (by decide)

/-- one share is repeated -/
example : ∃ j < 3, sharesOf exEnc [exShare 0 0 0, exShare 1 0 0, exShare 2 0 0, exShare 1 0 0] j ≠
    draw (exEnc 0).1.1 (exEnc 0).1.2 0 :=
  ((C106_fault_kinds (E := Fix.E) 3 exEnc [exShare 0 0 0, exShare 1 0 0, exShare 2 0 0, exShare 1 0 0] 0).1 (by simp)
    (by rw [exRand]; exact (by decide +kernel : ((0 + 1 : ℕ) : Fix.F) ≠ 0))
    (by exact (by decide +kernel : 4 < goldR)) (by simp)).mpr (by decide)

/-- the second party's share is for the other ciphertext: the destination gets nothing on nearly all secrets -/
example : {g : Fin (3 * (2 * (4 : UInt8).toNat + 1)) → Fix.E.Fr | ∃ out,
    reEncryptAsDelivered ((List.range 3).map (partyAt Fix.E g (2 * (4 : UInt8).toNat + 1))) 16 Fix.gens Fix.gi Fix.D Fix.C
      exEnc exDest [exShare 0 0 0, exShare 1 1 0, exShare 2 0 0] 0 0 true 16 = .ok out}.ncard
    ≤ (searchBound (16 : UInt8).toNat + 1) ^ (4 : UInt8).toNat *
      Fix.E.fr.p ^ (3 * (2 * (4 : UInt8).toNat + 1) - (4 : UInt8).toNat) :=
  C106_faults_noticed (E := Fix.E) 16 4 Fix.count Fix.gens Fix.gi (by decide +kernel) Fix.D Fix.C
    (by exact (by decide +kernel : Fix.D ≠ 0)) 3 exEnc exLen exDest [exShare 0 0 0, exShare 1 1 0, exShare 2 0 0]
    (by simp) 0 0 true 16 (by decide)
    (((C106_fault_kinds (E := Fix.E) 3 exEnc [exShare 0 0 0, exShare 1 1 0, exShare 2 0 0] 0).2 (by decide)).mpr
      ⟨exShare 1 1 0, by simp, by
        rw [exRand, exRand]
        exact (by decide +kernel : ((1 + 1 : ℕ) : Fix.F) ≠ ((0 + 1 : ℕ) : Fix.F))⟩)

/-- the third party's share is for the other destination -/
example (P : ℕ → Party Fix.E) : {h : Fin 3 → Fix.E.Fr | ∃ out,
    reEncryptAsDelivered ((List.range 3).map P) 16 Fix.gens Fix.gi Fix.D Fix.C exEnc exDest
      ((List.range 3).map fun l => ⟨l, ⟨tape Fix.E, fun _ => tapeOf h l⟩, 0, l / 2⟩) 0 0 true 16 = .ok out}.ncard
    ≤ (searchBound (16 : UInt8).toNat + 1) * Fix.E.fr.p ^ (3 - 1) :=
  C106_wrong_destination (E := Fix.E) 16 4 Fix.count (by decide) Fix.gens Fix.gens_ne.1 Fix.gi (by decide +kernel) Fix.D Fix.C
    3 (by omega) P exEnc exLen exDest 3 (fun l => l) (fun _ => 0) (fun l => l / 2) (fun l hl => hl) 0 0 true 16 (by decide)
    ⟨2, by omega, by
      have hd : ∀ d, draw (exDest d).1 (exDest d).2 0 = ((d + 5 : ℕ) : Fix.F) := fun d => draw_tape (E := Fix.E) _ _
      rw [hd, hd]
      exact (by decide +kernel : ((2 / 2 + 5 : ℕ) : Fix.F) ≠ ((0 + 5 : ℕ) : Fix.F))⟩

end Rdl

end Verif
