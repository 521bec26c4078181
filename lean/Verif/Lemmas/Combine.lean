/-
Normal forms of the combination functions of src/keygen.rs:361-452 and of the distributed key
generation.
-/
import Verif.Lemmas.Keys
import Mathlib.Algebra.BigOperators.Group.List.Basic
import Mathlib.Algebra.Module.BigOperators

universe u

namespace Verif
open Spec

theorem foldRes_ok {α β : Type} {f : β → α → Res β} {g : β → α → β} {l : List α} {acc : β}
    (P : β → Prop) (h0 : P acc) (hP : ∀ b, P b → ∀ a ∈ l, f b a = .ok (g b a) ∧ P (g b a)) :
    foldRes f acc l = .ok (l.foldl g acc) ∧ P (l.foldl g acc) := by
  induction l generalizing acc with
  | nil => exact ⟨rfl, h0⟩
  | cons a l ih =>
    obtain ⟨h1, h2⟩ := hP acc h0 a (by simp)
    have := ih h2 (fun b hb x hx => hP b hb x (by simp [hx]))
    simp only [foldRes, h1, Res.ok_bind, List.foldl_cons]
    exact this

theorem addInto_eq {A : Type} [AddCommGroup A] {a b : List A} (h : a.length ≤ b.length) :
    addInto a b = .ok (tab a.length fun i => a.getD i 0 + b.getD i 0) := by
  unfold addInto
  apply mapRes_range_ok
  intro j hj
  rw [idx_ok 0 hj, idx_ok 0 (show j < b.length by omega)]
  rfl

theorem addInto_panic {A : Type} [AddCommGroup A] {a b : List A} (h : b.length < a.length) :
    addInto a b = .panic := by
  unfold addInto
  apply mapRes_range_panic h
  · rw [idx_ok 0 h, idx_panic le_rfl]
    rfl
  · intro j hj e
    rw [idx_ok 0 hj]
    simp only [Res.ok_bind]
    cases hb : idx b j with
    | ok x => simp
    | panic => simp
    | err e' => exact absurd hb idx_ne_err

theorem sum_map_add {α : Type u} {M : Type} [AddCommMonoid M] (l : List α) (f g : α → M) :
    (l.map fun a => f a + g a).sum = (l.map f).sum + (l.map g).sum := by
  induction l with
  | nil => simp
  | cons a l ih => simp only [List.map_cons, List.sum_cons, ih]; abel

theorem sum_map_smul {α : Type u} {R M : Type} [Semiring R] [AddCommMonoid M] [Module R M]
    (l : List α) (f : α → R) (x : M) :
    (l.map fun a => f a • x).sum = (l.map f).sum • x := by
  induction l with
  | nil => simp
  | cons a l ih => simp only [List.map_cons, List.sum_cons, ih, add_smul]

theorem sum_map_finset {α : Type u} {M : Type} [AddCommMonoid M] (l : List α) (n : ℕ)
    (f : α → ℕ → M) :
    (l.map fun a => ∑ i ∈ Finset.range n, f a i).sum
      = ∑ i ∈ Finset.range n, (l.map fun a => f a i).sum := by
  induction l with
  | nil => simp
  | cons a l ih => simp only [List.map_cons, List.sum_cons, ih, Finset.sum_add_distrib]

variable {E : Engine}

/-- `e` has at least as many elements in `X`, `Y`, `Z` as `ek` -/
def FEncryptionKeyPartial.Fits (ek e : FEncryptionKeyPartial E) : Prop :=
  ek.X.length ≤ e.X.length ∧ ek.Y.length ≤ e.Y.length ∧ ek.Z.length ≤ e.Z.length

theorem combineStep_eq {ek e : FEncryptionKeyPartial E} (h : ek.Fits e) :
    combineStep ek e = .ok
      { X_0 := ek.X_0
        X := tab ek.X.length fun i => ek.X.getD i 0 + e.X.getD i 0
        Y := tab ek.Y.length fun i => ek.Y.getD i 0 + e.Y.getD i 0
        Z := tab ek.Z.length fun i => ek.Z.getD i 0 + e.Z.getD i 0
        P_2 := ek.P_2 + e.P_2 } := by
  obtain ⟨h1, h2, h3⟩ := h
  unfold combineStep
  rw [addInto_eq h1, addInto_eq h2, addInto_eq h3]
  rfl

theorem combineStep_panic {ek e : FEncryptionKeyPartial E} (h : ¬ ek.Fits e) :
    combineStep ek e = .panic := by
  unfold combineStep
  by_cases h1 : ek.X.length ≤ e.X.length
  · rw [addInto_eq h1]
    by_cases h2 : ek.Y.length ≤ e.Y.length
    · rw [addInto_eq h2]
      have h3 : ¬ ek.Z.length ≤ e.Z.length := fun h3 => h ⟨h1, h2, h3⟩
      rw [addInto_panic (by omega)]
      rfl
    · rw [addInto_panic (by omega)]
      rfl
  · rw [addInto_panic (by omega)]
    rfl

theorem foldCombine_eq (ek : FEncryptionKeyPartial E) (rest : List (FEncryptionKeyPartial E))
    (h : ∀ e ∈ rest, ek.Fits e) :
    foldRes combineStep ek rest = .ok
      { X_0 := ek.X_0
        X := tab ek.X.length fun i => ((ek :: rest).map fun e => e.X.getD i 0).sum
        Y := tab ek.Y.length fun i => ((ek :: rest).map fun e => e.Y.getD i 0).sum
        Z := tab ek.Z.length fun i => ((ek :: rest).map fun e => e.Z.getD i 0).sum
        P_2 := ((ek :: rest).map fun e => e.P_2).sum } := by
  induction rest generalizing ek with
  | nil =>
    simp only [foldRes, List.map_cons, List.map_nil, List.sum_cons, List.sum_nil, add_zero]
    rw [← eq_tab rfl, ← eq_tab rfl, ← eq_tab rfl]
  | cons e rest ih =>
    simp only [foldRes]
    rw [combineStep_eq (h e (by simp))]
    simp only [Res.ok_bind]
    rw [ih]
    · simp only [length_tab, List.map_cons, List.sum_cons]
      congr 2
      · apply tab_congr
        intro i hi
        rw [getD_tab, if_pos hi, add_assoc]
      · apply tab_congr
        intro i hi
        rw [getD_tab, if_pos hi, add_assoc]
      · apply tab_congr
        intro i hi
        rw [getD_tab, if_pos hi, add_assoc]
      · rw [add_assoc]
    · intro e' he'
      have := h e' (by simp [he'])
      unfold FEncryptionKeyPartial.Fits at this ⊢
      simpa using this

theorem foldCombine_panic (ek : FEncryptionKeyPartial E) (rest : List (FEncryptionKeyPartial E))
    (h : ∃ e ∈ rest, ¬ ek.Fits e) : foldRes combineStep ek rest = .panic := by
  induction rest generalizing ek with
  | nil => simp at h
  | cons e rest ih =>
    simp only [foldRes]
    by_cases he : ek.Fits e
    · rw [combineStep_eq he]
      simp only [Res.ok_bind]
      apply ih
      obtain ⟨e', hm, hb⟩ := h
      rcases List.mem_cons.mp hm with rfl | hm
      · exact absurd he hb
      · refine ⟨e', hm, ?_⟩
        unfold FEncryptionKeyPartial.Fits at hb ⊢
        simpa using hb
    · rw [combineStep_panic he]
      rfl

theorem combineEKs_eq (C : E.G1) (ek : FEncryptionKeyPartial E)
    (rest : List (FEncryptionKeyPartial E)) (h : ∀ e ∈ rest, ek.Fits e) :
    combineEKs C (ek :: rest) = .ok
      { X_0 := ek.X_0
        X := tab ek.X.length fun i => ((ek :: rest).map fun e => e.X.getD i 0).sum
        Y := tab ek.Y.length fun i => ((ek :: rest).map fun e => e.Y.getD i 0).sum
        Z := tab ek.Z.length fun i => ((ek :: rest).map fun e => e.Z.getD i 0).sum
        P_2 := C + ((ek :: rest).map fun e => e.P_2).sum } := by
  unfold combineEKs
  rw [show idx (ek :: rest) 0 = .ok ek from rfl]
  simp only [Res.ok_bind, List.tail_cons]
  rw [foldCombine_eq ek rest h]
  rfl

theorem combineEKs_panic (C : E.G1) (ek : FEncryptionKeyPartial E)
    (rest : List (FEncryptionKeyPartial E)) (h : ∃ e ∈ rest, ¬ ek.Fits e) :
    combineEKs C (ek :: rest) = .panic := by
  unfold combineEKs
  rw [show idx (ek :: rest) 0 = .ok ek from rfl]
  simp only [Res.ok_bind, List.tail_cons]
  rw [foldCombine_panic ek rest h]
  rfl

theorem genP1share_eq {ek : FEncryptionKeyPartial E} {sk : SecretKeyST E}
    (h : ek.X.length < sk.t.length) :
    genP1share ek sk = .ok ⟨sk.t.getD 0 0 • ek.X_0
      + ∑ j ∈ Finset.range ek.X.length, sk.t.getD (j + 1) 0 • ek.X.getD j 0⟩ := by
  unfold genP1share
  rw [idx_ok 0 (show 0 < sk.t.length by omega)]
  simp only [Res.ok_bind]
  have : mapRes (fun j => do
      let x ← idx ek.X j
      let t ← idx sk.t (j + 1)
      return mulBigint x (intoBigint (K := E.fr) t)) (List.range ek.X.length)
      = .ok (tab ek.X.length fun j => sk.t.getD (j + 1) 0 • ek.X.getD j 0) := by
    apply mapRes_range_ok
    intro j hj
    rw [idx_ok 0 hj, idx_ok 0 (show j + 1 < sk.t.length by omega)]
    simp only [Res.ok_bind, Res.pure_eq, intoBigint_smul]
  rw [this]
  simp only [Res.ok_bind, Res.pure_eq, foldl_add_eq_sum, sum_tab, intoBigint_smul]

theorem genP1share_panic {ek : FEncryptionKeyPartial E} {sk : SecretKeyST E}
    (h : sk.t.length ≤ ek.X.length) : genP1share ek sk = .panic := by
  unfold genP1share
  by_cases h0 : sk.t.length = 0
  · rw [idx_panic (by omega)]
    rfl
  · rw [idx_ok 0 (show 0 < sk.t.length by omega)]
    simp only [Res.ok_bind]
    rw [mapRes_range_panic (i := sk.t.length - 1) (by omega)]
    · rfl
    · rw [idx_ok 0 (show sk.t.length - 1 < ek.X.length by omega), idx_panic (by omega)]
      rfl
    · intro j hj e
      rw [idx_ok 0 hj]
      simp only [Res.ok_bind]
      cases hb : idx sk.t (j + 1) with
      | ok x => simp
      | panic => simp
      | err e' => exact absurd hb idx_ne_err

theorem combineP1share_eq {shares : List (P1share E)} (h : shares ≠ []) :
    combineP1share shares = .ok ⟨(shares.map fun s => s.P_1).sum⟩ := by
  cases shares with
  | nil => exact absurd rfl h
  | cons a l =>
    unfold combineP1share
    rw [show idx (a :: l) 0 = .ok a from rfl]
    simp only [Res.ok_bind, List.tail_cons, Res.pure_eq, List.map_cons, List.sum_cons]
    congr 2
    rw [← foldl_add_eq_sum, List.foldl_map]

/-- A party's `s_i`: the scalars it draws first. -/
def partyS (P : Party E) (i : ℕ) : E.Fr := draw P.1 P.2 i

/-- A party's `t_i`: the scalars it draws after its `n` values `s_i`. -/
def partyT (n : ℕ) (P : Party E) (i : ℕ) : E.Fr := draw P.1 P.2 (n + i)

/-- A party's secret key. -/
def partySK (n : ℕ) (P : Party E) : SecretKeyST E where
  s := tab n (partyS P)
  t := tab (n + 1) (partyT n P)

/-- sum over all parties -/
def sumS (parties : List (Party E)) (i : ℕ) : E.Fr := (parties.map fun P => partyS P i).sum
def sumT (n : ℕ) (parties : List (Party E)) (i : ℕ) : E.Fr :=
  (parties.map fun P => partyT n P i).sum

theorem dkgRound1_eq (parties : List (Party E)) {b n8 : UInt8} (gens : EncryptionGens E)
    (g_i : List E.G1) (D C : E.G1) (hn : chunksCount E.fr b = .ok n8)
    (hg : n8.toNat ≤ g_i.length) :
    dkgRound1 parties b gens g_i D C = .ok (parties.map fun P =>
      (partySK n8.toNat P, partialKey n8.toNat (partyS P) (partyT n8.toNat P)
        (fun i => g_i.getD i 0) D C gens.H)) := by
  unfold dkgRound1
  apply mapRes_ok
  intro P _
  rw [fkeygenPartial_eq P.1 P.2 gens g_i D C hn hg]
  rfl

theorem combine_honest (parties : List (Party E)) (hne : parties ≠ []) (n : ℕ)
    (g : ℕ → E.G1) (D C : E.G1) (H : E.G2) :
    combineEKs C (parties.map fun P => partialKey n (partyS P) (partyT n P) g D C H) = .ok
      { X_0 := D
        X := tab n fun i => sumS parties i • D
        Y := tab n fun i => sumT n parties (i + 1) • g i
        Z := tab (n + 1) fun i => sumT n parties i • H
        P_2 := (1 + ∑ i ∈ Finset.range n, sumS parties i) • C } := by
  obtain ⟨P, ps, rfl⟩ := List.exists_cons_of_ne_nil hne
  rw [List.map_cons, combineEKs_eq]
  · rw [← List.map_cons (f := fun P => partialKey n (partyS P) (partyT n P) g D C H)]
    simp only [List.map_map, Function.comp_def, partialKey, length_tab]
    congr 2
    · apply tab_congr
      intro i hi
      simp only [getD_tab, hi, if_true]
      exact sum_map_smul _ _ _
    · apply tab_congr
      intro i hi
      simp only [getD_tab, hi, if_true]
      exact sum_map_smul _ _ _
    · apply tab_congr
      intro i hi
      simp only [getD_tab, hi, if_true]
      exact sum_map_smul _ _ _
    · rw [sum_map_smul, sum_map_finset, add_smul, one_smul]
      rfl
  · intro e he
    obtain ⟨Q, _, rfl⟩ := List.mem_map.mp he
    simp [FEncryptionKeyPartial.Fits, partialKey]

theorem dkg_eq (parties : List (Party E)) (hne : parties ≠ []) {b n8 : UInt8}
    (gens : EncryptionGens E) (g_i : List E.G1) (D C : E.G1)
    (hn : chunksCount E.fr b = .ok n8) (hg : n8.toNat ≤ g_i.length) :
    dkg parties b gens g_i D C = .ok (parties.map (partySK n8.toNat),
      encKey n8.toNat (sumS parties) (sumT n8.toNat parties) (fun i => g_i.getD i 0)
        D C gens.H) := by
  unfold dkg
  rw [dkgRound1_eq parties gens g_i D C hn hg]
  generalize n8.toNat = n at hg ⊢
  simp only [Res.ok_bind, List.map_map, Function.comp_def]
  rw [combine_honest parties hne]
  simp only [Res.ok_bind]
  rw [mapRes_ok (g := fun sk : SecretKeyST E => (⟨sk.t.getD 0 0 • D
      + ∑ j ∈ Finset.range n, sk.t.getD (j + 1) 0 • sumS parties j • D⟩ : P1share E))]
  · simp only [Res.ok_bind]
    rw [combineP1share_eq (by simpa using hne)]
    simp only [Res.ok_bind, Res.pure_eq, List.map_map, Function.comp_def, partySK]
    simp only [keygenFinal, encKey]
    congr 3
    rw [sum_map_add, sum_map_finset, add_smul, Finset.sum_smul]
    congr 1
    · rw [sum_map_smul]
      simp only [getD_tab, Nat.zero_lt_succ, if_true]
      rfl
    · apply Finset.sum_congr rfl
      intro i hi
      have hi' : i < n := Finset.mem_range.mp hi
      rw [sum_map_smul, smul_smul, mul_comm]
      simp only [getD_tab, show i + 1 < n + 1 by omega, if_true]
      rfl
  · intro sk hsk
    obtain ⟨P, _, rfl⟩ := List.mem_map.mp hsk
    rw [genP1share_eq (by simp [partySK])]
    simp only [length_tab]
    congr 3
    apply Finset.sum_congr rfl
    intro i hi
    rw [getD_tab n, if_pos (Finset.mem_range.mp hi)]

theorem dkg_nil (b : UInt8) (gens : EncryptionGens E) (g_i : List E.G1) (D C : E.G1) :
    dkg [] b gens g_i D C = .panic := rfl

end Verif
