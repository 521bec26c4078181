/-
Helper lemmas about lists, the result monad and scalar multiplication.  No property statements.
-/
import Verif.Spec
import Verif.Model.Encryption
import Verif.Model.Commitment
import Mathlib.Algebra.BigOperators.Group.Finset.Basic
import Mathlib.Algebra.BigOperators.Intervals
import Mathlib.Algebra.Module.BigOperators
import Mathlib.Algebra.Order.Group.Nat

universe u

namespace Verif

section tab
variable {α β γ : Type}

@[simp] theorem length_tab (n : ℕ) (f : ℕ → α) : (tab n f).length = n := by simp [tab]

theorem tab_congr {n : ℕ} {f g : ℕ → α} (h : ∀ i < n, f i = g i) : tab n f = tab n g := by
  unfold tab
  apply List.map_congr_left
  intro i hi
  exact h i (List.mem_range.mp hi)

theorem getElem?_tab (n : ℕ) (f : ℕ → α) (i : ℕ) :
    (tab n f)[i]? = if i < n then some (f i) else none := by
  unfold tab
  by_cases h : i < n <;> simp [h]

theorem getD_tab (n : ℕ) (f : ℕ → α) (i : ℕ) (d : α) :
    (tab n f).getD i d = if i < n then f i else d := by
  rw [List.getD_eq_getElem?_getD, getElem?_tab]
  split <;> simp

theorem eq_tab {l : List α} {n : ℕ} (h : l.length = n) (d : α) :
    l = tab n (fun i => l.getD i d) := by
  apply List.ext_getElem?
  intro i
  rw [getElem?_tab]
  split
  · rename_i hi
    rw [List.getD_eq_getElem?_getD, List.getElem?_eq_getElem (by omega)]
    simp
  · rw [List.getElem?_eq_none (by omega)]

@[simp] theorem map_tab (n : ℕ) (f : ℕ → α) (g : α → β) :
    (tab n f).map g = tab n (fun i => g (f i)) := by
  simp [tab, List.map_map, Function.comp_def]

@[simp] theorem zipWith_tab (n : ℕ) (f : ℕ → α) (g : ℕ → β) (h : α → β → γ) :
    List.zipWith h (tab n f) (tab n g) = tab n (fun i => h (f i) (g i)) := by
  simp [tab, List.zipWith_map, List.zipWith_self]

theorem tab_succ (n : ℕ) (f : ℕ → α) : tab (n + 1) f = f 0 :: tab n (fun i => f (i + 1)) := by
  simp [tab, List.range_succ_eq_map, List.map_map, Function.comp_def]

theorem tab_succ_last (n : ℕ) (f : ℕ → α) : tab (n + 1) f = tab n f ++ [f n] := by
  simp [tab, List.range_succ]

@[simp] theorem tab_zero (f : ℕ → α) : tab 0 f = [] := rfl

@[simp] theorem tail_tab (n : ℕ) (f : ℕ → α) :
    (tab n f).tail = tab (n - 1) (fun i => f (i + 1)) := by
  cases n with
  | zero => rfl
  | succ n => rw [tab_succ]; rfl

theorem sum_tab {M : Type} [AddCommMonoid M] (n : ℕ) (f : ℕ → M) :
    (tab n f).sum = ∑ i ∈ Finset.range n, f i := by
  induction n with
  | zero => simp
  | succ n ih => rw [tab_succ_last, List.sum_append, ih, Finset.sum_range_succ]; simp

theorem tab_inj {n : ℕ} {f g : ℕ → α} (h : tab n f = tab n g) : ∀ i < n, f i = g i := by
  intro i hi
  have : (tab n f)[i]? = (tab n g)[i]? := by rw [h]
  rw [getElem?_tab, getElem?_tab, if_pos hi, if_pos hi] at this
  exact Option.some.inj this

theorem take_tab (n k : ℕ) (f : ℕ → α) : (tab n f).take k = tab (min k n) f := by
  simp [tab, ← List.map_take, List.take_range]

end tab

section res
variable {α β : Type}

theorem idx_ok {v : List α} {i : ℕ} (d : α) (h : i < v.length) : idx v i = .ok (v.getD i d) := by
  unfold idx
  rw [List.getElem?_eq_getElem h, List.getD_eq_getElem?_getD, List.getElem?_eq_getElem h]
  rfl

theorem idx_panic {v : List α} {i : ℕ} (h : v.length ≤ i) : idx v i = .panic := by
  unfold idx
  rw [List.getElem?_eq_none h]

theorem idx_tab (n : ℕ) (f : ℕ → α) (i : ℕ) :
    idx (tab n f) i = if i < n then .ok (f i) else .panic := by
  unfold idx
  rw [getElem?_tab]
  by_cases h : i < n <;> simp [h]

theorem idx_eq_ok {v : List α} {i : ℕ} {a : α} : idx v i = .ok a ↔ v[i]? = some a := by
  unfold idx
  cases h : v[i]? <;> simp

theorem idx_ne_err {v : List α} {i : ℕ} {e : SaverError} : idx v i ≠ .err e := by
  unfold idx
  cases h : v[i]? <;> simp

theorem mapRes_ok {α : Type u} {f : α → Res β} {g : α → β} {l : List α} (h : ∀ a ∈ l, f a = .ok (g a)) :
    mapRes f l = .ok (l.map g) := by
  induction l with
  | nil => rfl
  | cons a l ih =>
    simp [mapRes, h a (by simp), ih (fun a ha => h a (by simp [ha]))]

theorem mapRes_congr {α : Type u} {f g : α → Res β} {l : List α} (h : ∀ a ∈ l, f a = g a) :
    mapRes f l = mapRes g l := by
  induction l with
  | nil => rfl
  | cons a l ih =>
    simp [mapRes, h a (by simp), ih (fun a ha => h a (by simp [ha]))]

theorem mapRes_range_ok {f : ℕ → Res β} {g : ℕ → β} {n : ℕ} (h : ∀ i < n, f i = .ok (g i)) :
    mapRes f (List.range n) = .ok (tab n g) :=
  mapRes_ok fun a ha => h a (List.mem_range.mp ha)

theorem mapRes_append {α : Type u} {f : α → Res β} {l₁ l₂ : List α} :
    mapRes f (l₁ ++ l₂) = (do
      let a ← mapRes f l₁
      let b ← mapRes f l₂
      return a ++ b) := by
  induction l₁ with
  | nil => cases h : mapRes f l₂ <;> simp [mapRes, h]
  | cons a l ih =>
    simp only [List.cons_append, mapRes, ih]
    cases f a <;> simp
    cases mapRes f l <;> simp
    cases mapRes f l₂ <;> simp

/-- exact success criterion of `mapRes` over a range -/
theorem mapRes_eq_ok_iff {α : Type u} {f : α → Res β} {l : List α} {bs : List β} :
    mapRes f l = .ok bs ↔ List.Forall₂ (fun a b => f a = .ok b) l bs := by
  induction l generalizing bs with
  | nil => cases bs <;> simp [mapRes]
  | cons a l ih =>
    cases bs with
    | nil =>
      simp only [mapRes, Res.bind_eq_ok]
      simp
    | cons b bs =>
      simp only [mapRes, Res.bind_eq_ok, List.forall₂_cons, ← ih, Res.pure_eq, Res.ok.injEq,
        List.cons.injEq]
      constructor
      · rintro ⟨x, hx, y, hy, rfl, rfl⟩; exact ⟨hx, hy⟩
      · rintro ⟨hx, hy⟩; exact ⟨b, hx, bs, hy, rfl, rfl⟩

theorem mapRes_range_eq_ok_iff {f : ℕ → Res β} {n : ℕ} {bs : List β} :
    mapRes f (List.range n) = .ok bs ↔
      bs.length = n ∧ ∀ i < n, ∃ b, bs[i]? = some b ∧ f i = .ok b := by
  rw [mapRes_eq_ok_iff, List.forall₂_iff_get]
  constructor
  · rintro ⟨h1, h2⟩
    have hl : bs.length = n := by simpa using h1.symm
    refine ⟨hl, fun i hi => ⟨bs[i], by simp [hl, hi], ?_⟩⟩
    have := h2 i (by simpa using hi) (by omega)
    simpa using this
  · rintro ⟨h1, h2⟩
    refine ⟨by simp [h1], fun i hi hi' => ?_⟩
    obtain ⟨b, hb, hf⟩ := h2 i (by simpa using hi)
    rw [List.getElem?_eq_getElem hi'] at hb
    simp only [Option.some.injEq] at hb
    simpa [hb] using hf

/-- the first failing element decides the outcome (panic case) -/
theorem mapRes_panic {α : Type u} {f : α → Res β} {l₁ l₂ : List α} {a : α}
    (h₁ : ∀ x ∈ l₁, ∃ b, f x = .ok b) (h : f a = .panic) :
    mapRes f (l₁ ++ a :: l₂) = .panic := by
  induction l₁ with
  | nil => simp [mapRes, h]
  | cons x l ih =>
    obtain ⟨b, hb⟩ := h₁ x (by simp)
    simp [mapRes, hb, ih (fun x hx => h₁ x (by simp [hx]))]

theorem mapRes_err {α : Type u} {f : α → Res β} {l₁ l₂ : List α} {a : α} {e : SaverError}
    (h₁ : ∀ x ∈ l₁, ∃ b, f x = .ok b) (h : f a = .err e) :
    mapRes f (l₁ ++ a :: l₂) = .err e := by
  induction l₁ with
  | nil => simp [mapRes, h]
  | cons x l ih =>
    obtain ⟨b, hb⟩ := h₁ x (by simp)
    simp [mapRes, hb, ih (fun x hx => h₁ x (by simp [hx]))]

/-- if no element errs (only ok or panic) and one panics, the loop panics -/
theorem mapRes_range_panic {f : ℕ → Res β} {n i : ℕ} (hi : i < n) (h : f i = .panic)
    (hne : ∀ j < n, ∀ e, f j ≠ .err e) : mapRes f (List.range n) = .panic := by
  -- take the first panicking index
  classical
  have hex : ∃ k, k < n ∧ f k = .panic := ⟨i, hi, h⟩
  let k := Nat.find hex
  have hk := Nat.find_spec hex
  have hlt : ∀ j < k, ∃ b, f j = .ok b := by
    intro j hj
    have hjn : j < n := lt_trans hj hk.1
    have := Nat.find_min hex hj
    cases hfj : f j with
    | ok b => exact ⟨b, rfl⟩
    | err e => exact absurd hfj (hne j hjn e)
    | panic => exact absurd ⟨hjn, hfj⟩ this
  have hsplit : List.range n = List.range k ++ (k :: (List.range' (k+1) (n - k - 1))) := by
    apply List.ext_getElem?
    intro j
    have hk1 : k < n := hk.1
    by_cases hjn : j < n
    · rw [List.getElem?_range hjn]
      by_cases hjk : j < k
      · rw [List.getElem?_append_left (by simpa using hjk)]
        simp [hjk]
      · rw [List.getElem?_append_right (by simpa using hjk)]
        simp only [List.length_range]
        rcases Nat.eq_or_lt_of_le (Nat.le_of_not_lt hjk) with h | h
        · simp [← h]
        · have : j - k = (j - k - 1) + 1 := by omega
          rw [this, List.getElem?_cons_succ]
          rw [List.getElem?_range' (by omega)]
          simp; omega
    · rw [List.getElem?_eq_none (by simpa using hjn), List.getElem?_eq_none]
      simp; omega
  rw [hsplit]
  exact mapRes_panic (fun x hx => hlt x (by simpa using hx)) hk.2

end res

section smul
variable {K : FieldCfg} {G : Type} [AddCommGroup G] [Module (ZMod K.p) G]

/-- `g.mul_bigint(x.into_bigint())` is scalar multiplication. -/
theorem mulBigint_intoBigint (g : G) (x : K.F) : mulBigint g (intoBigint x) = x • g := by
  unfold mulBigint intoBigint
  rw [← Nat.cast_smul_eq_nsmul (ZMod K.p), ZMod.natCast_zmod_val]

theorem nsmul_eq_cast_smul (g : G) (k : ℕ) : k • g = ((k : ℕ) : ZMod K.p) • g := by
  rw [Nat.cast_smul_eq_nsmul]

theorem mulBigint_nat (g : G) (k : ℕ) : mulBigint g k = ((k : ℕ) : ZMod K.p) • g := by
  unfold mulBigint
  rw [Nat.cast_smul_eq_nsmul]

end smul

end Verif
