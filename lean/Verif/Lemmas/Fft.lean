/-
Helper lemmas: discrete Fourier transforms and the quotient polynomial of the QAP reduction.
-/
import Verif.Model.Fft
import Mathlib.Algebra.Polynomial.Roots
import Mathlib.Algebra.Polynomial.Div
import Mathlib.Algebra.Field.GeomSum
import Mathlib.Tactic.FieldSimp
import Mathlib.Tactic.Ring
import Mathlib.Tactic.LinearCombination

namespace Verif
namespace EvalDomain
open Polynomial

variable {F : Type} [Field F] (d : EvalDomain F)

theorem omega_ne_zero : d.omega ≠ 0 := d.prim.ne_zero d.size_pos.ne'

theorem size_ne_zero : (d.size : F) ≠ 0 := by
  have : NeZero d.size := ⟨d.size_pos.ne'⟩
  exact (d.prim.neZero').out

/-- the polynomial with coefficients `ifft a` -/
noncomputable def poly (a : ℕ → F) : F[X] :=
  ∑ k ∈ Finset.range d.size, C (d.ifft a k) * X ^ k

theorem poly_eval (a : ℕ → F) (t : F) :
    (d.poly a).eval t = ∑ k ∈ Finset.range d.size, d.ifft a k * t ^ k := by
  simp [poly, Polynomial.eval_finsetSum]

theorem poly_natDegree (a : ℕ → F) : (d.poly a).natDegree ≤ d.size - 1 := by
  apply Polynomial.natDegree_sum_le_of_forall_le
  intro k hk
  refine (Polynomial.natDegree_C_mul_X_pow_le _ _).trans ?_
  have := Finset.mem_range.mp hk
  omega

/-- orthogonality of the characters -/
theorem char_sum (i j : ℕ) (hi : i < d.size) (hj : j < d.size) :
    ∑ k ∈ Finset.range d.size, (d.omega⁻¹ ^ i * d.omega ^ j) ^ k
      = if i = j then (d.size : F) else 0 := by
  have h0 := d.omega_ne_zero
  split
  · rename_i h
    subst h
    have : d.omega⁻¹ ^ i * d.omega ^ i = 1 := by
      rw [← mul_pow, inv_mul_cancel₀ h0, one_pow]
    simp only [this, one_pow]
    simp
  · rename_i h
    have hne : d.omega⁻¹ ^ i * d.omega ^ j ≠ 1 := by
      intro hc
      apply h
      have : d.omega ^ j = d.omega ^ i := by
        have h2 : d.omega ^ i * (d.omega⁻¹ ^ i * d.omega ^ j) = d.omega ^ j := by
          rw [← mul_assoc, ← mul_pow, mul_inv_cancel₀ h0, one_pow, one_mul]
        rw [hc, mul_one] at h2
        exact h2.symm
      exact (d.prim.pow_inj hj hi this).symm
    rw [geom_sum_eq hne]
    have : (d.omega⁻¹ ^ i * d.omega ^ j) ^ d.size = 1 := by
      rw [mul_pow, ← pow_mul, ← pow_mul, mul_comm i, mul_comm j, pow_mul, pow_mul, inv_pow,
        d.prim.pow_eq_one]
      simp
    rw [this, sub_self, zero_div]

theorem eval_omega (a : ℕ → F) (j : ℕ) (hj : j < d.size) :
    (d.poly a).eval (d.omega ^ j) = a j := by
  rw [poly_eval]
  have : ∀ k ∈ Finset.range d.size, d.ifft a k * (d.omega ^ j) ^ k =
      ∑ i ∈ Finset.range d.size,
        (d.size : F)⁻¹ * a i * (d.omega⁻¹ ^ i * d.omega ^ j) ^ k := by
    intro k _
    unfold ifft
    rw [mul_assoc, Finset.sum_mul, Finset.mul_sum]
    apply Finset.sum_congr rfl
    intro i _
    rw [mul_pow, ← pow_mul]
    ring
  rw [Finset.sum_congr rfl this, Finset.sum_comm]
  have h2 : ∀ i ∈ Finset.range d.size, ∑ k ∈ Finset.range d.size,
      (d.size : F)⁻¹ * a i * (d.omega⁻¹ ^ i * d.omega ^ j) ^ k
      = if i = j then a i else 0 := by
    intro i hi
    rw [← Finset.mul_sum, d.char_sum i j (Finset.mem_range.mp hi) hj]
    split
    · have := d.size_ne_zero
      field_simp
    · simp
  rw [Finset.sum_congr rfl h2]
  simp [hj]

theorem lagrange_eq [DecidableEq F] (t : F) (ht : d.vanishing t ≠ 0) (i : ℕ) :
    d.lagrange t i = (d.size : F)⁻¹ * ∑ k ∈ Finset.range d.size, (t * d.omega⁻¹ ^ i) ^ k := by
  have h0 := d.omega_ne_zero
  have hN := d.size_ne_zero
  have hw : (d.omega⁻¹ ^ i) * d.omega ^ i = 1 := by
    rw [← mul_pow, inv_mul_cancel₀ h0, one_pow]
  have hw0 : d.omega ^ i ≠ 0 := pow_ne_zero _ h0
  have hone : (d.omega ^ i) ^ d.size = 1 := by
    rw [← pow_mul, mul_comm, pow_mul, d.prim.pow_eq_one, one_pow]
  have hone' : (d.omega⁻¹ ^ i) ^ d.size = 1 := by
    rw [inv_pow, inv_pow, hone, inv_one]
  have hne : t ≠ d.omega ^ i := by
    rintro rfl
    apply ht
    unfold vanishing
    rw [hone, sub_self]
  have hne1 : t * d.omega⁻¹ ^ i ≠ 1 := by
    intro hc
    apply hne
    have : t * (d.omega⁻¹ ^ i * d.omega ^ i) = d.omega ^ i := by rw [← mul_assoc, hc, one_mul]
    rwa [hw, mul_one] at this
  have hinv : d.omega⁻¹ ^ i = (d.omega ^ i)⁻¹ := by rw [inv_pow]
  unfold lagrange
  rw [if_neg ht, geom_sum_eq hne1, mul_pow, hone', mul_one]
  unfold vanishing
  have h1 : t - d.omega ^ i ≠ 0 := sub_ne_zero.mpr hne
  have h2 : t * d.omega⁻¹ ^ i - 1 = (t - d.omega ^ i) * (d.omega ^ i)⁻¹ := by
    rw [sub_mul, mul_inv_cancel₀ hw0, hinv]
  rw [h2]
  field_simp

/-- Lagrange interpolation at `t`. -/
theorem lagrange_sum [DecidableEq F] (a : ℕ → F) (t : F) (ht : d.vanishing t ≠ 0) :
    ∑ i ∈ Finset.range d.size, d.lagrange t i * a i = (d.poly a).eval t := by
  rw [poly_eval]
  have h1 : ∀ i ∈ Finset.range d.size, d.lagrange t i * a i =
      ∑ k ∈ Finset.range d.size, (d.size : F)⁻¹ * a i * (d.omega⁻¹ ^ i) ^ k * t ^ k := by
    intro i _
    rw [d.lagrange_eq t ht, mul_assoc, Finset.sum_mul, Finset.mul_sum]
    apply Finset.sum_congr rfl
    intro k _
    rw [mul_pow]
    ring
  rw [Finset.sum_congr rfl h1, Finset.sum_comm]
  apply Finset.sum_congr rfl
  intro k _
  unfold ifft
  rw [Finset.mul_sum, Finset.sum_mul]
  apply Finset.sum_congr rfl
  intro i _
  rw [pow_mul]
  ring

theorem cosetFft_eq (g : F) (a : ℕ → F) (i : ℕ) :
    d.cosetFft g (d.ifft a) i = (d.poly a).eval (g * d.omega ^ i) := by
  rw [poly_eval]
  rfl

/-- the polynomial with coefficients `cosetIfft g v` takes the value `v i` at `g * omega^i` -/
theorem cosetIfft_eval (g : F) (hg : g ≠ 0) (v : ℕ → F) (i : ℕ) (hi : i < d.size) :
    ∑ k ∈ Finset.range d.size, d.cosetIfft g v k * (g * d.omega ^ i) ^ k = v i := by
  rw [← d.eval_omega v i hi, poly_eval]
  apply Finset.sum_congr rfl
  intro k _
  unfold cosetIfft
  rw [mul_pow]
  have : (g⁻¹) ^ k * g ^ k = 1 := by rw [← mul_pow, inv_mul_cancel₀ hg, one_pow]
  linear_combination (d.ifft v k * (d.omega ^ i) ^ k) * this

/-- The quotient polynomial: if `a_i b_i = c_i` on the domain then the coefficients computed on the
coset are those of `(A B - C) / Z`, of degree at most `size - 2`. -/
theorem quotient (g : F) (hg : g ≠ 0) (hgd : g ^ d.size ≠ 1) (a b c : ℕ → F)
    (h : ∀ i < d.size, a i * b i = c i) (t : F) :
    (∑ k ∈ Finset.range (d.size - 1), d.cosetIfft g (fun i =>
      (d.cosetFft g (d.ifft a) i * d.cosetFft g (d.ifft b) i - d.cosetFft g (d.ifft c) i) *
        (d.vanishing g)⁻¹) k * t ^ k) * d.vanishing t
    = (d.poly a).eval t * (d.poly b).eval t - (d.poly c).eval t := by
  classical
  have hN := d.size_pos
  let P : F[X] := d.poly a * d.poly b - d.poly c
  let Z : F[X] := X ^ d.size - 1
  have hZm : Z.Monic := by
    have := Polynomial.monic_X_pow_sub_C (1 : F) hN.ne'
    simpa [Z] using this
  have hZdeg : Z.natDegree = d.size := by
    have := Polynomial.natDegree_X_pow_sub_C (n := d.size) (r := (1 : F))
    simpa [Z] using this
  have hPdeg : P.natDegree ≤ 2 * (d.size - 1) := by
    refine (Polynomial.natDegree_sub_le _ _).trans (max_le ?_ ?_)
    · refine (Polynomial.natDegree_mul_le).trans ?_
      have h1 := d.poly_natDegree a
      have h2 := d.poly_natDegree b
      omega
    · have := d.poly_natDegree c
      omega
  -- the remainder vanishes
  have hpow1 : ∀ i, (d.omega ^ i) ^ d.size = 1 := by
    intro i
    rw [← pow_mul, mul_comm, pow_mul, d.prim.pow_eq_one, one_pow]
  have hrem : P %ₘ Z = 0 := by
    have hdeg : (P %ₘ Z).natDegree < d.size := by
      have h1 : Z ≠ 1 := by
        intro h1
        have := hZdeg
        rw [h1] at this
        simp at this
        omega
      have := Polynomial.natDegree_modByMonic_lt P hZm h1
      rwa [hZdeg] at this
    apply Polynomial.eq_zero_of_natDegree_lt_card_of_eval_eq_zero
      (f := fun i : Fin d.size => d.omega ^ (i : ℕ))
    · intro i j hij
      exact Fin.ext (d.prim.pow_inj i.2 j.2 hij)
    · intro i
      have h1 := congrArg (Polynomial.eval (d.omega ^ (i : ℕ))) (Polynomial.modByMonic_add_div P Z)
      rw [Polynomial.eval_add, Polynomial.eval_mul] at h1
      have h2 : Z.eval (d.omega ^ (i : ℕ)) = 0 := by simp [Z, hpow1]
      have h3 : P.eval (d.omega ^ (i : ℕ)) = 0 := by
        simp only [P, Polynomial.eval_sub, Polynomial.eval_mul, d.eval_omega _ _ i.2, h i i.2,
          sub_self]
      rw [h2, h3, zero_mul, add_zero] at h1
      exact h1
    · simpa using hdeg
  let Q : F[X] := P /ₘ Z
  have hPQ : P = Z * Q := by
    have := Polynomial.modByMonic_add_div P Z
    rw [hrem, zero_add] at this
    exact this.symm
  have hQdeg : Q.natDegree ≤ d.size - 2 := by
    have := Polynomial.natDegree_divByMonic P hZm
    rw [hZdeg] at this
    show (P /ₘ Z).natDegree ≤ _
    omega
  -- the computed coefficients
  let v : ℕ → F := fun i =>
      (d.cosetFft g (d.ifft a) i * d.cosetFft g (d.ifft b) i - d.cosetFft g (d.ifft c) i) *
        (d.vanishing g)⁻¹
  have hvz : d.vanishing g ≠ 0 := sub_ne_zero.mpr hgd
  have hv : ∀ i, v i = Q.eval (g * d.omega ^ i) := by
    intro i
    have h1 : P.eval (g * d.omega ^ i) = d.vanishing g * Q.eval (g * d.omega ^ i) := by
      rw [hPQ, Polynomial.eval_mul]
      congr 1
      simp [Z, vanishing, mul_pow, hpow1]
    have h2 : d.cosetFft g (d.ifft a) i * d.cosetFft g (d.ifft b) i - d.cosetFft g (d.ifft c) i
        = P.eval (g * d.omega ^ i) := by
      simp only [P, Polynomial.eval_sub, Polynomial.eval_mul, cosetFft_eq]
    show (_ - _) * _ = _
    rw [h2, h1]
    field_simp
  let H : F[X] := ∑ k ∈ Finset.range d.size, C (d.cosetIfft g v k) * X ^ k
  have hHeval : ∀ x, H.eval x = ∑ k ∈ Finset.range d.size, d.cosetIfft g v k * x ^ k := by
    intro x
    simp [H, Polynomial.eval_finsetSum]
  have hHQ : H = Q := by
    rw [← sub_eq_zero]
    apply Polynomial.eq_zero_of_natDegree_lt_card_of_eval_eq_zero
      (f := fun i : Fin d.size => g * d.omega ^ (i : ℕ))
    · intro i j hij
      exact Fin.ext (d.prim.pow_inj i.2 j.2 (mul_left_cancel₀ hg hij))
    · intro i
      rw [Polynomial.eval_sub, hHeval, d.cosetIfft_eval g hg v i i.2, hv, sub_self]
    · have h1 : H.natDegree ≤ d.size - 1 := by
        apply Polynomial.natDegree_sum_le_of_forall_le
        intro k hk
        refine (Polynomial.natDegree_C_mul_X_pow_le _ _).trans ?_
        have := Finset.mem_range.mp hk
        omega
      have h2 := Polynomial.natDegree_sub_le H Q
      have h3 : (H - Q).natDegree ≤ d.size - 1 := h2.trans (max_le h1 (by omega))
      simp only [Fintype.card_fin]
      omega
  -- the top coefficient is zero
  have hcoeff : ∀ k < d.size, H.coeff k = d.cosetIfft g v k := by
    intro k hk
    simp only [H, Polynomial.finsetSum_coeff, Polynomial.coeff_C_mul_X_pow]
    rw [Finset.sum_eq_single k]
    · simp
    · intro j _ hj
      rw [if_neg (fun h => hj h.symm)]
    · intro hn
      exact absurd (Finset.mem_range.mpr hk) hn
  have htop : d.cosetIfft g v (d.size - 1) = 0 ∨ d.size = 1 := by
    rcases Nat.lt_or_ge 1 d.size with h1 | h1
    · left
      rw [← hcoeff _ (by omega), hHQ]
      exact Polynomial.coeff_eq_zero_of_natDegree_lt (by omega)
    · right; omega
  have hsum : ∑ k ∈ Finset.range (d.size - 1), d.cosetIfft g v k * t ^ k = Q.eval t ∨
      d.size = 1 := by
    rcases htop with h0 | h1
    · left
      rw [← hHQ, hHeval]
      obtain ⟨m, hm⟩ : ∃ m, d.size = m + 1 := ⟨d.size - 1, by omega⟩
      rw [hm] at h0 ⊢
      simp only [Nat.add_sub_cancel] at h0 ⊢
      rw [Finset.sum_range_succ, h0, zero_mul, add_zero]
    · right; exact h1
  have hPt : (d.poly a).eval t * (d.poly b).eval t - (d.poly c).eval t = P.eval t := by
    simp [P]
  rw [hPt]
  rcases hsum with hs | h1
  · show (∑ k ∈ Finset.range (d.size - 1), d.cosetIfft g v k * t ^ k) * _ = _
    rw [hs, hPQ, Polynomial.eval_mul, mul_comm]
    simp [Z, vanishing]
  · -- a single point: all polynomials are constant
    have hP0 : P.natDegree = 0 := by omega
    have hroot : P.eval 1 = 0 := by
      have := h 0 hN
      have h1e : (1 : F) = d.omega ^ 0 := by simp
      rw [h1e]
      simp only [P, Polynomial.eval_sub, Polynomial.eval_mul, d.eval_omega _ 0 hN, this, sub_self]
    have hPc := Polynomial.eq_C_of_natDegree_eq_zero hP0
    rw [hPc] at hroot ⊢
    simp only [Polynomial.eval_C] at hroot ⊢
    rw [h1, hroot]
    simp

end EvalDomain
end Verif
