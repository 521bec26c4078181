/-
Helper lemmas for the soundness of the checks against algebraic adversaries (C60-C62): extraction of
coefficients from identities that hold for all trapdoors.
-/
import Verif.Lemmas.Groth16
import Mathlib.Algebra.Polynomial.Roots
import Mathlib.Algebra.BigOperators.Fin
import Mathlib.Tactic.FieldSimp

namespace Verif
namespace Agm

section extraction
variable {F : Type} [Field F]

open Polynomial in
theorem coeffs_zero (S : Finset F) (k : ℕ) (hS : k ≤ S.card) (c : ℕ → F)
    (h : ∀ x ∈ S, ∑ i ∈ Finset.range k, c i * x ^ i = 0) : ∀ i < k, c i = 0 := by
  intro i hi
  have hP : (∑ i ∈ Finset.range k, C (c i) * X ^ i : F[X]) = 0 := by
    apply Polynomial.eq_zero_of_natDegree_lt_card_of_eval_eq_zero' _ S
    · intro x hx
      rw [← h x hx]
      simp [Polynomial.eval_finsetSum]
    · refine lt_of_le_of_lt (Polynomial.natDegree_sum_le_of_forall_le _ _ (n := k - 1) ?_) (by omega)
      intro j hj
      refine (Polynomial.natDegree_C_mul_X_pow_le _ _).trans ?_
      have := Finset.mem_range.mp hj
      omega
  have := congrArg (fun P => P.coeff i) hP
  simpa [Polynomial.finsetSum_coeff, Polynomial.coeff_C_mul, Polynomial.coeff_X_pow, hi] using this

variable [Fintype F] [DecidableEq F]

theorem grid4 (hp : 5 ≤ Fintype.card F) (e : ℕ → ℕ → F)
    (h : ∀ g d : F, g ≠ 0 → d ≠ 0 →
      ∑ i ∈ Finset.range 4, (∑ j ∈ Finset.range 4, e i j * d ^ j) * g ^ i = 0) :
    ∀ i < 4, ∀ j < 4, e i j = 0 := by
  have hS : 4 ≤ (Finset.univ.erase (0 : F)).card := by
    rw [Finset.card_erase_of_mem (Finset.mem_univ _), Finset.card_univ]; omega
  intro i hi
  apply coeffs_zero (Finset.univ.erase 0) 4 hS
  intro d hd
  exact coeffs_zero (Finset.univ.erase 0) 4 hS (fun i => ∑ j ∈ Finset.range 4, e i j * d ^ j)
    (fun g hg => h g d (Finset.ne_of_mem_erase hg) (Finset.ne_of_mem_erase hd)) i hi

omit [DecidableEq F] in
theorem grid3 (hp : 5 ≤ Fintype.card F) (e : ℕ → ℕ → F)
    (h : ∀ a b : F, ∑ i ∈ Finset.range 3, (∑ j ∈ Finset.range 3, e i j * b ^ j) * a ^ i = 0) :
    ∀ i < 3, ∀ j < 3, e i j = 0 := by
  have hS : 3 ≤ (Finset.univ : Finset F).card := by rw [Finset.card_univ]; omega
  intro i hi
  apply coeffs_zero Finset.univ 3 hS
  intro b _
  exact coeffs_zero Finset.univ 3 hS (fun i => ∑ j ∈ Finset.range 3, e i j * b ^ j)
    (fun a _ => h a b) i hi

/-- a combination of the `G1` elements of an SRS at a fixed evaluation point, as a function of the four
other trapdoors -/
def ev1 (f : Fin 11 → F) (α β γ δ : F) : F :=
  f 0 + f 1 * α + f 2 * β + f 3 * δ + f 4 * γ + (f 5 * α + f 6 * β + f 7) * γ⁻¹ +
    (f 8 * α + f 9 * β + f 10) * δ⁻¹

/-- the same for `G2` -/
def ev2 (f : Fin 4 → F) (β γ δ : F) : F := f 0 + f 1 * β + f 2 * γ + f 3 * δ

/-- The algebraic core of Groth16's knowledge soundness: if the verification equation holds for all
trapdoors, the coefficients of the third proof element on the witness part give the QAP equation. -/
theorem core' (hp : 5 ≤ Fintype.card F) (A C : Fin 11 → F) (B : Fin 4 → F) (Sa Sb S1 r : F)
    (h : ∀ α β γ δ : F, γ ≠ 0 → δ ≠ 0 → ev1 A α β γ δ * ev2 B β γ δ =
      α * β + ev1 C α β γ δ * δ + ((Sa * α + Sb * β + S1) * γ⁻¹ + r * δ) * γ) :
    (C 9 + Sb) * (C 8 + Sa) = C 10 + S1 ∧ B 2 = 0 := by
  have key : ∀ α β : F, ∀ i < 4, ∀ j < 4, (fun i j : ℕ =>
      match i, j with
      | 0, 1 => (A 5 * α + A 6 * β + A 7) * (B 0 + B 1 * β)
      | 0, 2 => (A 5 * α + A 6 * β + A 7) * B 3 - (C 5 * α + C 6 * β + C 7)
      | 1, 0 => (A 8 * α + A 9 * β + A 10) * (B 0 + B 1 * β)
      | 1, 1 => (A 0 + A 1 * α + A 2 * β) * (B 0 + B 1 * β) + (A 5 * α + A 6 * β + A 7) * B 2 +
          (A 8 * α + A 9 * β + A 10) * B 3 - (α * β + (C 8 * α + C 9 * β + C 10) +
            (Sa * α + Sb * β + S1))
      | 1, 2 => A 3 * (B 0 + B 1 * β) + (A 0 + A 1 * α + A 2 * β) * B 3 - (C 0 + C 1 * α + C 2 * β)
      | 1, 3 => A 3 * B 3 - C 3
      | 2, 0 => (A 8 * α + A 9 * β + A 10) * B 2
      | 2, 1 => A 4 * (B 0 + B 1 * β) + (A 0 + A 1 * α + A 2 * β) * B 2
      | 2, 2 => A 4 * B 3 + A 3 * B 2 - C 4 - r
      | 3, 1 => A 4 * B 2
      | _, _ => (0 : F)) i j = 0 := by
    intro α β
    apply grid4 hp
    intro g d hg hd
    have hx := h α β g d hg hd
    have hA : ev1 A α β g d * (g * d) = (A 0 + A 1 * α + A 2 * β + A 3 * d + A 4 * g) * (g * d) +
        (A 5 * α + A 6 * β + A 7) * d + (A 8 * α + A 9 * β + A 10) * g := by
      unfold ev1; field_simp
    have hC : ev1 C α β g d * (g * d) = (C 0 + C 1 * α + C 2 * β + C 3 * d + C 4 * g) * (g * d) +
        (C 5 * α + C 6 * β + C 7) * d + (C 8 * α + C 9 * β + C 10) * g := by
      unfold ev1; field_simp
    have hS : ((Sa * α + Sb * β + S1) * g⁻¹ + r * d) * g * (g * d) =
        (Sa * α + Sb * β + S1) * (g * d) + r * d * g * (g * d) := by
      field_simp
    generalize ev1 A α β g d = x at *
    generalize ev1 C α β g d = y at *
    generalize ((Sa * α + Sb * β + S1) * g⁻¹ + r * d) * g = z at *
    unfold ev2 at hx
    simp only [Finset.sum_range_succ, Finset.sum_range_zero]
    linear_combination (g * d) * hx - (B 0 + B 1 * β + B 2 * g + B 3 * d) * hA + d * hC + hS
  have k11 : ∀ i < 3, ∀ j < 3, (fun i j : ℕ =>
      match i, j with
      | 0, 0 => A 0 * B 0 + A 7 * B 2 + A 10 * B 3 - C 10 - S1
      | 0, 1 => A 0 * B 1 + A 2 * B 0 + A 6 * B 2 + A 9 * B 3 - C 9 - Sb
      | 0, 2 => A 2 * B 1
      | 1, 0 => A 1 * B 0 + A 5 * B 2 + A 8 * B 3 - C 8 - Sa
      | 1, 1 => A 1 * B 1 - 1
      | _, _ => (0 : F)) i j = 0 := by
    apply grid3 hp
    intro α β
    have := key α β 1 (by norm_num) 1 (by norm_num)
    simp only at this
    simp only [Finset.sum_range_succ, Finset.sum_range_zero]
    linear_combination this
  have k10 : ∀ i < 3, ∀ j < 3, (fun i j : ℕ =>
      match i, j with
      | 0, 0 => A 10 * B 0
      | 0, 1 => A 10 * B 1 + A 9 * B 0
      | 0, 2 => A 9 * B 1
      | 1, 0 => A 8 * B 0
      | 1, 1 => A 8 * B 1
      | _, _ => (0 : F)) i j = 0 := by
    apply grid3 hp
    intro α β
    have := key α β 1 (by norm_num) 0 (by norm_num)
    simp only at this
    simp only [Finset.sum_range_succ, Finset.sum_range_zero]
    linear_combination this
  have k21 : ∀ i < 3, ∀ j < 3, (fun i j : ℕ =>
      match i, j with
      | 0, 0 => A 4 * B 0 + A 0 * B 2
      | 0, 1 => A 4 * B 1 + A 2 * B 2
      | 1, 0 => A 1 * B 2
      | _, _ => (0 : F)) i j = 0 := by
    apply grid3 hp
    intro α β
    have := key α β 2 (by norm_num) 1 (by norm_num)
    simp only at this
    simp only [Finset.sum_range_succ, Finset.sum_range_zero]
    linear_combination this
  have h00 : A 0 * B 0 + A 7 * B 2 + A 10 * B 3 - C 10 - S1 = 0 := k11 0 (by norm_num) 0 (by norm_num)
  have h01 : A 0 * B 1 + A 2 * B 0 + A 6 * B 2 + A 9 * B 3 - C 9 - Sb = 0 :=
    k11 0 (by norm_num) 1 (by norm_num)
  have h02 : A 2 * B 1 = 0 := k11 0 (by norm_num) 2 (by norm_num)
  have h10 : A 1 * B 0 + A 5 * B 2 + A 8 * B 3 - C 8 - Sa = 0 := k11 1 (by norm_num) 0 (by norm_num)
  have h11 : A 1 * B 1 - 1 = 0 := k11 1 (by norm_num) 1 (by norm_num)
  have hA1 : A 1 ≠ 0 := by intro h; rw [h] at h11; norm_num at h11
  have hB1 : B 1 ≠ 0 := by intro h; rw [h] at h11; norm_num at h11
  have w8 : A 8 = 0 := (mul_eq_zero.mp (k10 1 (by norm_num) 1 (by norm_num))).resolve_right hB1
  have w9 : A 9 = 0 := (mul_eq_zero.mp (k10 0 (by norm_num) 2 (by norm_num))).resolve_right hB1
  have w10 : A 10 = 0 := by
    have : A 10 * B 1 + A 9 * B 0 = 0 := k10 0 (by norm_num) 1 (by norm_num)
    rw [w9, zero_mul, add_zero] at this
    exact (mul_eq_zero.mp this).resolve_right hB1
  have b2 : B 2 = 0 := (mul_eq_zero.mp (k21 1 (by norm_num) 0 (by norm_num))).resolve_left hA1
  have a2 : A 2 = 0 := (mul_eq_zero.mp h02).resolve_right hB1
  rw [b2, w10] at h00
  rw [b2, w9, a2] at h01
  rw [b2, w8] at h10
  refine ⟨?_, b2⟩
  linear_combination (-(C 8 + Sa)) * h01 - A 0 * B 1 * h10 + A 0 * B 0 * h11 + h00

theorem core (hp : 5 ≤ Fintype.card F) (A C : Fin 11 → F) (B : Fin 4 → F) (Sa Sb S1 r : F)
    (h : ∀ α β γ δ : F, γ ≠ 0 → δ ≠ 0 → ev1 A α β γ δ * ev2 B β γ δ =
      α * β + ev1 C α β γ δ * δ + ((Sa * α + Sb * β + S1) * γ⁻¹ + r * δ) * γ) :
    (C 9 + Sb) * (C 8 + Sa) = C 10 + S1 := (core' hp A C B Sa Sb S1 r h).1

/-- at most `size` points are in the domain -/
theorem card_outside (d : EvalDomain F) :
    Fintype.card F ≤ (Finset.univ.filter fun t => d.vanishing t ≠ 0).card + d.size := by
  have h1 := Finset.card_filter_add_card_filter_not (s := (Finset.univ : Finset F))
    (fun t => d.vanishing t ≠ 0)
  have h2 : (Finset.univ.filter fun t => ¬ d.vanishing t ≠ 0).card ≤ d.size := by
    have hX : (Polynomial.X ^ d.size - 1 : Polynomial F) ≠ 0 :=
      by rw [← Polynomial.C_1]; exact Polynomial.X_pow_sub_C_ne_zero d.size_pos 1
    have hdeg : (Polynomial.X ^ d.size - 1 : Polynomial F).natDegree = d.size := by
      rw [← Polynomial.C_1]
      exact Polynomial.natDegree_X_pow_sub_C
    rw [← hdeg]
    refine le_trans (Finset.card_le_card ?_) (Polynomial.card_roots' _ |>.trans' <|
      Multiset.toFinset_card_le (Polynomial.roots _))
    intro t ht
    have ht := (Finset.mem_filter.mp ht).2
    push Not at ht
    rw [Multiset.mem_toFinset, Polynomial.mem_roots hX, Polynomial.IsRoot]
    simpa [EvalDomain.vanishing] using ht
  rw [Finset.card_univ] at h1
  omega

open Polynomial in
/-- two low-degree polynomials that agree outside the domain are equal; `poly` is injective on value
vectors -/
theorem poly_zero (d : EvalDomain F) (hF : 3 * d.size < Fintype.card F) (P : F[X])
    (hP : P.natDegree ≤ 2 * d.size) (h : ∀ t, d.vanishing t ≠ 0 → P.eval t = 0) : P = 0 := by
  apply Polynomial.eq_zero_of_natDegree_lt_card_of_eval_eq_zero' P
    (Finset.univ.filter fun t => d.vanishing t ≠ 0)
  · intro t ht
    exact h t (Finset.mem_filter.mp ht).2
  · have := card_outside d
    omega

open Polynomial in
/-- The QAP equation outside the domain gives the constraints. -/
theorem qap_sound (cs : CS F) (hi : cs.inst.length = cs.numInst) (hw : cs.wit.length = cs.numWit)
    (d : EvalDomain F) (hN : cs.cons.length + cs.numInst ≤ d.size)
    (hF : 3 * d.size < Fintype.card F) (hq : ℕ → F)
    (h : ∀ t, d.vanishing t ≠ 0 →
      wsum cs (qapA cs (d.lagrange t)) * wsum cs (qapB cs (d.lagrange t)) =
        wsum cs (qapC cs (d.lagrange t)) +
          (∑ i ∈ Finset.range (d.size - 1), hq i * t ^ i) * d.vanishing t) :
    ∀ r ∈ cs.cons, r.Holds (lookup cs.inst) (lookup cs.wit) := by
  have hsum : (∑ i ∈ Finset.range (d.size - 1), C (hq i) * X ^ i : F[X]).natDegree ≤ d.size - 2 := by
    apply Polynomial.natDegree_sum_le_of_forall_le
    intro k hk
    refine (Polynomial.natDegree_C_mul_X_pow_le _ _).trans ?_
    have := Finset.mem_range.mp hk
    omega
  have hZ : (X ^ d.size - 1 : F[X]).natDegree ≤ d.size := by
    rw [← Polynomial.C_1]
    exact Polynomial.natDegree_X_pow_sub_C.le
  have hzero := poly_zero d hF (d.poly (rowsA cs) * d.poly (rows cs R1C.b) - d.poly (rows cs R1C.c) -
    (∑ i ∈ Finset.range (d.size - 1), C (hq i) * X ^ i) * (X ^ d.size - 1)) (by
      refine (Polynomial.natDegree_sub_le_of_le (Polynomial.natDegree_sub_le_of_le
        (Polynomial.natDegree_mul_le_of_le (d.poly_natDegree _) (d.poly_natDegree _))
        (d.poly_natDegree _)) (Polynomial.natDegree_mul_le_of_le hsum hZ)).trans ?_
      simp only [sup_le_iff]
      omega) (by
      intro t ht
      have := h t ht
      unfold qapB qapC at this
      rw [wsum_qapA cs hi hw _ d.size hN, wsum_rows cs hi hw _ R1C.b d.size (by omega),
        wsum_rows cs hi hw _ R1C.c d.size (by omega), d.lagrange_sum _ t ht, d.lagrange_sum _ t ht,
        d.lagrange_sum _ t ht] at this
      simp only [Polynomial.eval_sub, Polynomial.eval_mul, Polynomial.eval_finsetSum,
        Polynomial.eval_C, Polynomial.eval_pow, Polynomial.eval_X, Polynomial.eval_one]
      rw [this, EvalDomain.vanishing]
      ring)
  intro r hr
  obtain ⟨j, hj, rfl⟩ := List.mem_iff_getElem.mp hr
  have hjN : j < d.size := by omega
  have := congrArg (fun P => P.eval (d.omega ^ j)) hzero
  simp only [Polynomial.eval_sub, Polynomial.eval_mul, Polynomial.eval_pow, Polynomial.eval_X,
    Polynomial.eval_one, Polynomial.eval_zero, d.eval_omega _ j hjN] at this
  rw [← pow_mul, mul_comm j, pow_mul, d.prim.pow_eq_one, one_pow, sub_self, mul_zero, sub_zero] at this
  unfold rowsA rows at this
  rw [if_pos hj, if_pos hj, if_pos hj] at this
  unfold rowValue at this
  simp only [List.getD_eq_getElem?_getD, List.getElem?_map, List.getElem?_eq_getElem hj,
    Option.map_some, Option.getD_some] at this
  exact sub_eq_zero.mp this

/-- the columns of the first QAP matrix: the instance part of a combination that vanishes as a function of
the evaluation point is zero -/
theorem inst_indep' (cs : CS F) (d : EvalDomain F) (hN : cs.cons.length + cs.numInst ≤ d.size)
    (hF : 3 * d.size < Fintype.card F) (a k : ℕ → F)
    (h : ∀ t, d.vanishing t ≠ 0 →
      (∑ i ∈ Finset.range cs.numInst, a i * qapA cs (d.lagrange t) (.inst i)) +
      ∑ i ∈ Finset.range cs.numWit, k i * qapA cs (d.lagrange t) (.wit i) = 0) :
    ∀ i < cs.numInst, a i = 0 := by
  have hq : ∀ u, qapA { cs with inst := tab cs.numInst a, wit := tab cs.numWit k } u =
      qapA cs u := by
    intro u
    funext w
    cases w <;> rfl
  have hzero := poly_zero d hF (d.poly (rowsA { cs with inst := tab cs.numInst a, wit := tab cs.numWit k }))
    ((d.poly_natDegree _).trans (by omega)) (by
      intro t ht
      have h1 := wsum_qapA { cs with inst := tab cs.numInst a, wit := tab cs.numWit k }
        (by simp) (by simp) (d.lagrange t) d.size hN
      rw [d.lagrange_sum _ t ht] at h1
      rw [← h1, hq, wsum]
      dsimp only
      have h2 : ∀ i ∈ Finset.range cs.numInst, lookup (tab cs.numInst a) i *
          qapA cs (d.lagrange t) (.inst i) = a i * qapA cs (d.lagrange t) (.inst i) := by
        intro i hi
        unfold lookup
        rw [getD_tab, if_pos (Finset.mem_range.mp hi)]
      have h3 : ∀ i ∈ Finset.range cs.numWit, lookup (tab cs.numWit k) i *
          qapA cs (d.lagrange t) (.wit i) = k i * qapA cs (d.lagrange t) (.wit i) := by
        intro i hi
        unfold lookup
        rw [getD_tab, if_pos (Finset.mem_range.mp hi)]
      rw [Finset.sum_congr rfl h2, Finset.sum_congr rfl h3, h t ht])
  intro i hi
  have h1 := d.eval_omega (rowsA { cs with inst := tab cs.numInst a, wit := tab cs.numWit k })
    (cs.cons.length + i) (by omega)
  rw [hzero, Polynomial.eval_zero] at h1
  unfold rowsA at h1
  dsimp only at h1
  rw [if_neg (by omega), if_pos (by omega), Nat.add_sub_cancel_left] at h1
  unfold lookup at h1
  rw [getD_tab, if_pos hi] at h1
  exact h1.symm

/-- the instance columns of the first QAP matrix are linearly independent as functions of the evaluation
point -/
theorem inst_indep (cs : CS F) (d : EvalDomain F) (hN : cs.cons.length + cs.numInst ≤ d.size)
    (hF : 3 * d.size < Fintype.card F) (a : ℕ → F)
    (h : ∀ t, d.vanishing t ≠ 0 →
      ∑ i ∈ Finset.range cs.numInst, a i * qapA cs (d.lagrange t) (.inst i) = 0) :
    ∀ i < cs.numInst, a i = 0 :=
  inst_indep' cs d hN hF a (fun _ => 0) fun t ht => by simp [h t ht]

omit [Fintype F] [DecidableEq F] in
/-- a quadratic form that equals a linear form at all points -/
theorem quad (h2 : (2 : F) ≠ 0) (n : ℕ) (w : F) (N u : ℕ → F) (M : ℕ → ℕ → F)
    (h : ∀ t : ℕ → F, w + ∑ l ∈ Finset.range n, N l * t l =
      ∑ k ∈ Finset.range n, t k * (u k + ∑ l ∈ Finset.range n, M k l * t l)) :
    w = 0 ∧ (∀ k < n, N k = u k ∧ M k k = 0) ∧ ∀ k < n, ∀ l < n, M k l + M l k = 0 := by
  have h0 : w = 0 := by
    have := h fun _ => 0
    simpa using this
  have hk : ∀ k < n, ∀ x : F, N k * x = x * (u k + M k k * x) := by
    intro k hk x
    have := h fun i => if i = k then x else 0
    simpa [h0, hk] using this
  have hd : ∀ k < n, N k = u k ∧ M k k = 0 := by
    intro k hkn
    have a := hk k hkn 1
    have b := hk k hkn (-1)
    have c : (2 : F) * M k k = 0 := by linear_combination -a - b
    have c := (mul_eq_zero.mp c).resolve_left h2
    refine ⟨?_, c⟩
    rw [c] at a
    linear_combination a
  refine ⟨h0, hd, ?_⟩
  intro k hkn l hln
  by_cases hkl : k = l
  · subst hkl
    rw [(hd k hkn).2, add_zero]
  have := h fun i => (if i = k then 1 else 0) + if i = l then 1 else 0
  simp only [mul_add, add_mul, Finset.sum_add_distrib, mul_ite, ite_mul, mul_one, one_mul, mul_zero,
    zero_mul, Finset.sum_ite_eq', Finset.mem_range, hkn, hln, if_true, h0, (hd k hkn).1, (hd k hkn).2,
    (hd l hln).1, (hd l hln).2] at this
  linear_combination -this

end extraction
end Agm
end Verif
