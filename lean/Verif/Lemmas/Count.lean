/-
Helper lemmas for the quantitative soundness statements (C62, C63): the verification equations as
polynomials in the draws of the setup, and the Schwartz-Zippel bound.
-/
import Verif.Lemmas.Sound
import Mathlib.Algebra.MvPolynomial.SchwartzZippel

namespace Verif
open Spec

namespace Agm

section poly
variable {F : Type} [Field F] {K : ℕ}

/-- `φ` agrees, on the good points, with a polynomial of total degree at most `D` -/
def PolyOn (Good : (Fin K → F) → Prop) (D : ℕ) (φ : (Fin K → F) → F) : Prop :=
  ∃ P : MvPolynomial (Fin K) F, P.totalDegree ≤ D ∧ ∀ g, Good g → φ g = MvPolynomial.eval g P

variable {Good : (Fin K → F) → Prop} {D D' : ℕ} {φ ψ : (Fin K → F) → F}

theorem PolyOn.mono (h : PolyOn Good D φ) (hD : D ≤ D') : PolyOn Good D' φ := by
  obtain ⟨P, h1, h2⟩ := h
  exact ⟨P, h1.trans hD, h2⟩

theorem PolyOn.congr (h : PolyOn Good D φ) (he : ∀ g, Good g → ψ g = φ g) : PolyOn Good D ψ := by
  obtain ⟨P, h1, h2⟩ := h
  exact ⟨P, h1, fun g hg => (he g hg).trans (h2 g hg)⟩

theorem PolyOn.const (D : ℕ) (c : F) : PolyOn Good D (fun _ => c) :=
  ⟨MvPolynomial.C c, by simp, fun g _ => by simp⟩

theorem PolyOn.coord (i : Fin K) : PolyOn Good 1 (fun g => g i) :=
  ⟨MvPolynomial.X i, by simp, fun g _ => by simp⟩

theorem PolyOn.add (h : PolyOn Good D φ) (h' : PolyOn Good D ψ) :
    PolyOn Good D (fun g => φ g + ψ g) := by
  obtain ⟨P, h1, h2⟩ := h
  obtain ⟨Q, h3, h4⟩ := h'
  exact ⟨P + Q, (MvPolynomial.totalDegree_add _ _).trans (max_le h1 h3),
    fun g hg => by rw [map_add, ← h2 g hg, ← h4 g hg]⟩

theorem PolyOn.sub (h : PolyOn Good D φ) (h' : PolyOn Good D ψ) :
    PolyOn Good D (fun g => φ g - ψ g) := by
  obtain ⟨P, h1, h2⟩ := h
  obtain ⟨Q, h3, h4⟩ := h'
  exact ⟨P - Q, (MvPolynomial.totalDegree_sub _ _).trans (max_le h1 h3),
    fun g hg => by rw [map_sub, ← h2 g hg, ← h4 g hg]⟩

theorem PolyOn.neg (h : PolyOn Good D φ) : PolyOn Good D (fun g => -φ g) :=
  ((PolyOn.const D 0).sub h).congr fun g _ => by simp

theorem PolyOn.mul {a b : ℕ} (h : PolyOn Good a φ) (h' : PolyOn Good b ψ) (hD : a + b ≤ D) :
    PolyOn Good D (fun g => φ g * ψ g) := by
  obtain ⟨P, h1, h2⟩ := h
  obtain ⟨Q, h3, h4⟩ := h'
  exact ⟨P * Q, (MvPolynomial.totalDegree_mul _ _).trans ((Nat.add_le_add h1 h3).trans hD),
    fun g hg => by rw [map_mul, ← h2 g hg, ← h4 g hg]⟩

theorem PolyOn.cmul (c : F) (h : PolyOn Good D φ) : PolyOn Good D (fun g => c * φ g) :=
  (PolyOn.const 0 c).mul h (by omega)

theorem PolyOn.pow {a : ℕ} (h : PolyOn Good a φ) (k : ℕ) : PolyOn Good (a * k) (fun g => φ g ^ k) := by
  obtain ⟨P, h1, h2⟩ := h
  refine ⟨P ^ k, (MvPolynomial.totalDegree_pow _ _).trans ?_, fun g hg => by rw [map_pow, ← h2 g hg]⟩
  rw [Nat.mul_comm]
  exact Nat.mul_le_mul_right _ h1

theorem PolyOn.sum {ι : Type} (s : Finset ι) (f : ι → (Fin K → F) → F)
    (h : ∀ i ∈ s, PolyOn Good D (f i)) : PolyOn Good D (fun g => ∑ i ∈ s, f i g) := by
  classical
  induction s using Finset.induction_on with
  | empty => simpa using PolyOn.const D 0
  | insert a s ha ih =>
    simp only [Finset.sum_insert ha]
    exact (h a (Finset.mem_insert_self _ _)).add
      (ih fun i hi => h i (Finset.mem_insert_of_mem hi))

/-- The Schwartz-Zippel bound: a function that agrees with a polynomial of degree at most `D` on the good
points and has one good point where it does not vanish, vanishes on at most `D |F|^(K-1)` good points. -/
theorem PolyOn.count [Fintype F] [DecidableEq F] (h : PolyOn Good D φ) (g0 : Fin K → F) (h0 : Good g0)
    (hne : φ g0 ≠ 0) (A : Finset (Fin K → F)) (hA : ∀ g ∈ A, Good g ∧ φ g = 0) :
    A.card ≤ D * Fintype.card F ^ (K - 1) := by
  obtain ⟨P, hdeg, hP⟩ := h
  have hP0 : P ≠ 0 := by
    rintro rfl
    exact hne (by rw [hP g0 h0, map_zero])
  have hsz := MvPolynomial.schwartz_zippel_totalDegree hP0 (Finset.univ : Finset F)
  have hsub : A ⊆ {f ∈ Fintype.piFinset fun _ : Fin K => (Finset.univ : Finset F) | MvPolynomial.eval f P = 0} := by
    intro g hg
    obtain ⟨h1, h2⟩ := hA g hg
    rw [hP g h1] at h2
    simp [h2]
  have hcard := Finset.card_le_card hsub
  refine hcard.trans ?_
  generalize ({f ∈ Fintype.piFinset fun _ : Fin K => (Finset.univ : Finset F) | MvPolynomial.eval f P = 0}).card
    = c at hsz
  rw [Finset.card_univ] at hsz
  have hF : 0 < Fintype.card F := Fintype.card_pos
  rcases Nat.eq_zero_or_pos K with rfl | hK
  · -- no variables: `P` is a nonzero constant
    have hPt : P.totalDegree = 0 := by
      rw [MvPolynomial.eq_C_of_isEmpty P]; simp
    rw [hPt] at hsz
    simp at hsz
    simp [hsz]
  · have hFq : (0 : ℚ≥0) < Fintype.card F := by exact_mod_cast hF
    rw [div_le_div_iff₀ (pow_pos hFq _) hFq] at hsz
    obtain ⟨k, rfl⟩ : ∃ k, K = k + 1 := ⟨K - 1, by omega⟩
    have h2 : c * Fintype.card F ≤ P.totalDegree * Fintype.card F ^ (k + 1) := by exact_mod_cast hsz
    rw [pow_succ, ← Nat.mul_assoc] at h2
    have h3 := Nat.le_of_mul_le_mul_right h2 hF
    rw [Nat.add_sub_cancel]
    exact h3.trans (Nat.mul_le_mul_right _ hdeg)

/-- lists of coefficient vectors of constant length with polynomial entries -/
def PolyL (Good : (Fin K → F) → Prop) (D : ℕ) {m : ℕ} (L : (Fin K → F) → List (Fin m → F)) : Prop :=
  ∃ len, (∀ g, (L g).length = len) ∧ ∀ i j, PolyOn Good D (fun g => (L g).getD i 0 j)

variable {m : ℕ} {L L' : (Fin K → F) → List (Fin m → F)}

theorem PolyL.append (h : PolyL Good D L) (h' : PolyL Good D L') :
    PolyL Good D (fun g => L g ++ L' g) := by
  obtain ⟨a, h1, h2⟩ := h
  obtain ⟨b, h3, h4⟩ := h'
  refine ⟨a + b, fun g => by simp [h1, h3], fun i j => ?_⟩
  by_cases hi : i < a
  · refine (h2 i j).congr fun g _ => ?_
    rw [List.getD_append _ _ _ _ (by rw [h1]; exact hi)]
  · refine (h4 (i - a) j).congr fun g _ => ?_
    rw [List.getD_append_right _ _ _ _ (by rw [h1]; omega), h1]

theorem PolyL.map {α : Type} (l : List α) (f : (Fin K → F) → α → Fin m → F)
    (h : ∀ a ∈ l, ∀ j, PolyOn Good D (fun g => f g a j)) : PolyL Good D (fun g => l.map (f g)) := by
  refine ⟨l.length, fun g => by simp, fun i j => ?_⟩
  by_cases hi : i < l.length
  · refine (h l[i] (List.getElem_mem hi) j).congr fun g _ => ?_
    rw [List.getD_eq_getElem?_getD, List.getElem?_map, List.getElem?_eq_getElem hi]
    rfl
  · refine (PolyOn.const D 0).congr fun g _ => ?_
    rw [List.getD_eq_getElem?_getD, List.getElem?_map, List.getElem?_eq_none (by omega)]
    rfl

theorem PolyL.tab (n : ℕ) (f : (Fin K → F) → ℕ → Fin m → F)
    (h : ∀ i < n, ∀ j, PolyOn Good D (fun g => f g i j)) : PolyL Good D (fun g => Verif.tab n (f g)) :=
  PolyL.map (List.range n) f fun i hi => h i (List.mem_range.mp hi)

theorem PolyL.single (f : (Fin K → F) → Fin m → F) (h : ∀ j, PolyOn Good D (fun g => f g j)) :
    PolyL Good D (fun g => [f g]) :=
  PolyL.map [()] (fun g _ => f g) fun _ _ => h

theorem PolyL.comb (h : PolyL Good D L) (k : ℕ → F) (j : Fin m) :
    PolyOn Good D (fun g => comb k (L g) j) := by
  obtain ⟨a, h1, h2⟩ := h
  refine (PolyOn.sum (Finset.range a) (fun i g => k i * (L g).getD i 0 j)
    fun i _ => (h2 i j).cmul (k i)).congr fun g _ => ?_
  unfold Spec.comb
  rw [h1, Finset.sum_apply]
  rfl

end poly

section params
variable {E : Engine} {K : ℕ}

/-- the scalars of a setup as functions of the draws -/
structure Params (d : EvalDomain E.Fr) (Good : (Fin K → E.Fr) → Prop) where
  tau : (Fin K → E.Fr) → E.Fr
  alpha : (Fin K → E.Fr) → E.Fr
  beta : (Fin K → E.Fr) → E.Fr
  gamma : (Fin K → E.Fr) → E.Fr
  delta : (Fin K → E.Fr) → E.Fr
  rho : (Fin K → E.Fr) → E.Fr
  s : (Fin K → E.Fr) → ℕ → E.Fr
  t : (Fin K → E.Fr) → ℕ → E.Fr
  v : (Fin K → E.Fr) → ℕ → E.Fr
  htau : PolyOn Good 1 tau
  halpha : PolyOn Good 1 alpha
  hbeta : PolyOn Good 1 beta
  hgamma : PolyOn Good 1 gamma
  hdelta : PolyOn Good 1 delta
  hrho : PolyOn Good 1 rho
  hs : ∀ i, PolyOn Good 1 (fun g => s g i)
  ht : ∀ i, PolyOn Good 1 (fun g => t g i)
  hv : ∀ i, PolyOn Good 1 (fun g => v g i)
  out : ∀ g, Good g → d.vanishing (tau g) ≠ 0
  gne : ∀ g, Good g → gamma g ≠ 0
  dne : ∀ g, Good g → delta g ≠ 0

variable {d : EvalDomain E.Fr} {Good : (Fin K → E.Fr) → Prop} (P : Params d Good)

theorem Params.vanishing : PolyOn Good d.size (fun g => d.vanishing (P.tau g)) := by
  refine (((P.htau.pow d.size).mono (by omega)).sub (PolyOn.const _ 1)).congr fun g _ => ?_
  rfl

theorem Params.lagrange (i : ℕ) : PolyOn Good (d.size - 1) (fun g => d.lagrange (P.tau g) i) := by
  refine ((PolyOn.sum (Finset.range d.size) (fun k g => (P.tau g * d.omega⁻¹ ^ i) ^ k) ?_).cmul
    ((d.size : E.Fr)⁻¹)).congr fun g hg => d.lagrange_eq _ (P.out g hg) i
  intro k hk
  have hk := Finset.mem_range.mp hk
  exact ((P.htau.mul (PolyOn.const 0 (d.omega⁻¹ ^ i)) (by omega : 1 + 0 ≤ 1)).pow k).mono (by omega)

theorem Params.matrix (cs : CS E.Fr) (sel : R1C E.Fr → LC E.Fr) (w : Var) :
    PolyOn Good (d.size - 1) (fun g => matrixAt cs (d.lagrange (P.tau g)) sel w) := by
  unfold matrixAt
  refine PolyOn.sum _ _ fun j _ => ?_
  exact (P.lagrange j).mul (PolyOn.const 0 _) (by omega)

theorem Params.qapA (cs : CS E.Fr) (w : Var) :
    PolyOn Good (d.size - 1) (fun g => qapA cs (d.lagrange (P.tau g)) w) := by
  cases w with
  | inst i => exact (P.lagrange _).add (P.matrix cs _ _)
  | wit i => exact P.matrix cs _ _

theorem Params.qapB (cs : CS E.Fr) (w : Var) :
    PolyOn Good (d.size - 1) (fun g => qapB cs (d.lagrange (P.tau g)) w) := P.matrix cs _ w

theorem Params.qapC (cs : CS E.Fr) (w : Var) :
    PolyOn Good (d.size - 1) (fun g => qapC cs (d.lagrange (P.tau g)) w) := P.matrix cs _ w

theorem Params.mixG (cs : CS E.Fr) (w : Var) (j : Fin 11) :
    PolyOn Good (d.size - 1) (fun g => mixG cs (d.lagrange (P.tau g)) w j) := by
  fin_cases j
  any_goals exact PolyOn.const _ (0 : E.Fr)
  · exact P.qapB cs w
  · exact P.qapA cs w
  · exact P.qapC cs w

theorem Params.all1 (cs : CS E.Fr) (n : ℕ) :
    PolyL Good (2 * d.size) (fun g => all1 cs d (P.tau g) n (P.s g) (P.t g)) := by
  have hN := d.size_pos
  have c0 : PolyOn Good (2 * d.size) (fun _ => (0 : E.Fr)) := PolyOn.const _ 0
  have c1 : PolyOn Good (2 * d.size) (fun _ => (1 : E.Fr)) := PolyOn.const _ 1
  have cm : PolyOn Good (2 * d.size) (fun _ => (-1 : E.Fr)) := PolyOn.const _ _
  have qA := fun w => (P.qapA cs w).mono (by omega : d.size - 1 ≤ 2 * d.size)
  have qB := fun w => (P.qapB cs w).mono (by omega : d.size - 1 ≤ 2 * d.size)
  have qC := fun w => (P.qapC cs w).mono (by omega : d.size - 1 ≤ 2 * d.size)
  unfold Agm.all1
  refine PolyL.append ?_ (PolyL.append ?_ (PolyL.append ?_ ?_))
  · refine PolyL.tab _ _ fun i _ j => ?_
    fin_cases j
    any_goals exact c0
    · exact qB (.wit i)
    · exact qA (.wit i)
    · exact qC (.wit i)
  · refine PolyL.tab _ _ fun i hi j => ?_
    fin_cases j
    any_goals exact c0
    exact P.vanishing.mul (P.htau.pow i) (by omega)
  · refine PolyL.append ?_ (PolyL.append ?_ (PolyL.append ?_ (PolyL.append ?_ (PolyL.append ?_
      (PolyL.append ?_ ?_)))))
    · refine PolyL.append (PolyL.single _ ?_) (PolyL.append (PolyL.single _ ?_) (PolyL.append
        (PolyL.single _ ?_) (PolyL.append (PolyL.single _ ?_) (PolyL.single _ ?_))))
      all_goals
        intro j
        fin_cases j
        all_goals first | exact c0 | exact c1 | exact cm
    · refine PolyL.map _ _ fun w _ j => ?_
      fin_cases j
      any_goals exact c0
      exact qA w
    · refine PolyL.map _ _ fun w _ j => ?_
      fin_cases j
      any_goals exact c0
      exact qB w
    · exact PolyL.tab _ _ fun i _ j => (P.mixG cs _ j).mono (by omega)
    · refine PolyL.single _ fun j => ?_
      fin_cases j
      all_goals first | exact c0 | exact c1
    · refine PolyL.tab _ _ fun i _ j => ?_
      fin_cases j
      any_goals exact c0
      exact (P.hs i).mono (by omega)
    · refine PolyL.single _ fun j => ?_
      fin_cases j
      any_goals exact c0
      exact (c1.add (PolyOn.sum _ _ fun i _ => (P.hs i).mono (by omega))).neg
  · refine PolyL.append ?_ ?_
    · exact PolyL.tab _ _ fun i _ j => (P.ht (i + 1)).mul (P.mixG cs _ j) (by omega)
    · refine PolyL.single _ fun j => ?_
      fin_cases j
      any_goals exact c0
      exact ((P.ht 0).mono (by omega)).add (PolyOn.sum _ _ fun i _ =>
        (P.hs i).mul (P.ht (i + 1)) (by omega))

theorem Params.lf2 (cs : CS E.Fr) (n : ℕ) :
    PolyL Good (d.size + 1) (fun g => lf2 cs (d.lagrange (P.tau g)) n (P.s g) (P.t g) (P.v g) (P.rho g)) := by
  have hN := d.size_pos
  have c0 : PolyOn Good (d.size + 1) (fun _ => (0 : E.Fr)) := PolyOn.const _ 0
  have c1 : PolyOn Good (d.size + 1) (fun _ => (1 : E.Fr)) := PolyOn.const _ 1
  unfold Agm.lf2
  refine PolyL.append ?_ (PolyL.append ?_ (PolyL.append ?_ (PolyL.append ?_ (PolyL.append ?_ ?_))))
  · refine PolyL.append (PolyL.single _ ?_) (PolyL.append (PolyL.single _ ?_) (PolyL.append
      (PolyL.single _ ?_) (PolyL.single _ ?_)))
    all_goals
      intro j
      fin_cases j
      all_goals first | exact c0 | exact c1
  · refine PolyL.map _ _ fun w _ j => ?_
    fin_cases j
    any_goals exact c0
    exact (P.qapB cs w).mono (by omega)
  · refine PolyL.tab _ _ fun i _ j => ?_
    fin_cases j
    any_goals exact c0
    exact (P.ht i).mono (by omega)
  · refine PolyL.single _ fun j => ?_
    fin_cases j
    any_goals exact c0
    exact P.hrho.mono (by omega)
  · refine PolyL.tab _ _ fun i _ j => ?_
    fin_cases j
    any_goals exact c0
    exact (P.hs i).mul (P.hv i) (by omega)
  · refine PolyL.tab _ _ fun i _ j => ?_
    fin_cases j
    any_goals exact c0
    exact P.hrho.mul (P.hv i) (by omega)

/-- a published combination, times `gamma delta` -/
theorem Params.comb1 (cs : CS E.Fr) (n : ℕ) (k : ℕ → E.Fr) :
    PolyOn Good (2 * d.size + 3) (fun g => ev1 (comb k (Agm.all1 cs d (P.tau g) n (P.s g) (P.t g)))
      (P.alpha g) (P.beta g) (P.gamma g) (P.delta g) * (P.gamma g * P.delta g)) := by
  have h := fun j => (P.all1 cs n).comb k j
  have hgd : PolyOn Good 2 (fun g => P.gamma g * P.delta g) := P.hgamma.mul P.hdelta (by omega)
  have m1 := fun j {x} (hx : PolyOn Good 1 x) => ((h j).mul hx (le_refl (2 * d.size + 1)))
  have e1 : PolyOn Good (2 * d.size + 1) _ := (h 0).mono (by omega)
  have e5 := (e1.add (m1 1 P.halpha)).add (m1 2 P.hbeta) |>.add (m1 3 P.hdelta) |>.add (m1 4 P.hgamma)
  have e6 := ((m1 5 P.halpha).add (m1 6 P.hbeta)).add ((h 7).mono (by omega))
  have e7 := ((m1 8 P.halpha).add (m1 9 P.hbeta)).add ((h 10).mono (by omega))
  refine (((e5.mul hgd (le_refl _)).add ((e6.mul P.hdelta (le_refl _)).mono (by omega))).add
    ((e7.mul P.hgamma (le_refl _)).mono (by omega))).congr fun g hg => ?_
  have hg0 := P.gne g hg
  have hd0 := P.dne g hg
  unfold ev1
  field_simp

theorem Params.comb2 (cs : CS E.Fr) (n : ℕ) (k : ℕ → E.Fr) :
    PolyOn Good (d.size + 2) (fun g => ev2 (comb k (Agm.lf2 cs (d.lagrange (P.tau g)) n (P.s g) (P.t g)
      (P.v g) (P.rho g))) (P.beta g) (P.gamma g) (P.delta g)) := by
  have h := fun j => (P.lf2 cs n).comb k j
  have m1 := fun j {x} (hx : PolyOn Good 1 x) => ((h j).mul hx (le_refl (d.size + 2)))
  exact (((h 0).mono (by omega)).add (m1 1 P.hbeta)).add (m1 2 P.hgamma) |>.add (m1 3 P.hdelta)

theorem Params.mix (cs : CS E.Fr) (w : Var) :
    PolyOn Good d.size (fun g => mixAt cs (d.lagrange (P.tau g)) (P.alpha g) (P.beta g) w) := by
  have hN := d.size_pos
  unfold mixAt
  exact ((P.hbeta.mul (P.qapA cs w) (by omega)).add (P.halpha.mul (P.qapB cs w) (by omega))).add
    ((P.qapC cs w).mono (by omega))

/-- counting the solutions of an equation, after multiplication by a nonzero weight -/
theorem count_eqn {D : ℕ} {x y w : (Fin K → E.Fr) → E.Fr}
    (h : PolyOn Good D (fun g => (x g - y g) * w g)) (hw : ∀ g, Good g → w g ≠ 0)
    (g0 : Fin K → E.Fr) (h0 : Good g0) (hne : x g0 ≠ y g0) (A : Finset (Fin K → E.Fr))
    (hA : ∀ g ∈ A, Good g ∧ x g = y g) : A.card ≤ D * E.fr.p ^ (K - 1) := by
  have hcard : Fintype.card E.Fr = E.fr.p := ZMod.card _
  rw [← hcard]
  refine PolyOn.count h g0 h0 (mul_ne_zero (sub_ne_zero.mpr hne) (hw g0 h0)) A fun g hg => ⟨(hA g hg).1, ?_⟩
  rw [(hA g hg).2, sub_self, zero_mul]

theorem Params.hw (g : Fin K → E.Fr) (hg : Good g) : P.gamma g * P.delta g ≠ 0 :=
  mul_ne_zero (P.gne g hg) (P.dne g hg)

/-- the commitment equation fails on all but a few draws, if it fails on one -/
theorem Params.count_commit (cs : CS E.Fr) (n : ℕ) (S : Strategy E.Fr) (g0 : Fin K → E.Fr) (h0 : Good g0)
    (hne : ¬ CommitEqn cs d n S (P.tau g0) (P.alpha g0) (P.beta g0) (P.gamma g0) (P.delta g0) (P.s g0)
      (P.t g0)) (A : Finset (Fin K → E.Fr)) (hA : ∀ g ∈ A, Good g ∧ CommitEqn cs d n S (P.tau g) (P.alpha g)
        (P.beta g) (P.gamma g) (P.delta g) (P.s g) (P.t g)) :
    A.card ≤ (3 * d.size + 5) * E.fr.p ^ (K - 1) := by
  have hN := d.size_pos
  have h1 := P.comb1 cs n S.psi
  have h2 := (P.ht 0).mul (P.comb1 cs n S.x) (by omega : 1 + (2 * d.size + 3) ≤ 3 * d.size + 5)
  have h3 := PolyOn.sum (Finset.range n) _ fun i _ =>
    (P.ht (i + 1)).mul (P.comb1 cs n (S.chunk i)) (by omega : 1 + (2 * d.size + 3) ≤ 3 * d.size + 5)
  have key := (h1.mono (by omega : 2 * d.size + 3 ≤ 3 * d.size + 5)).sub (h2.add h3)
  unfold CommitEqn at hne hA
  refine count_eqn (key.congr fun g _ => ?_) P.hw g0 h0 hne A hA
  simp only [sub_mul, add_mul, Finset.sum_mul, mul_assoc]

/-- the proof equation fails on all but a few draws, if it fails on one -/
theorem Params.count_proof (cs : CS E.Fr) (n : ℕ) (S : Strategy E.Fr) (g0 : Fin K → E.Fr) (h0 : Good g0)
    (hne : ¬ ProofEqn cs d n S (P.tau g0) (P.alpha g0) (P.beta g0) (P.gamma g0) (P.delta g0) (P.rho g0)
      (P.s g0) (P.t g0) (P.v g0)) (A : Finset (Fin K → E.Fr)) (hA : ∀ g ∈ A, Good g ∧ ProofEqn cs d n S
        (P.tau g) (P.alpha g) (P.beta g) (P.gamma g) (P.delta g) (P.rho g) (P.s g) (P.t g) (P.v g)) :
    A.card ≤ (3 * d.size + 5) * E.fr.p ^ (K - 1) := by
  have hN := d.size_pos
  have hgd : PolyOn Good 2 (fun g => P.gamma g * P.delta g) := P.hgamma.mul P.hdelta (by omega)
  have h1 := (P.comb1 cs n S.a).mul (P.comb2 cs n S.b)
    (by omega : 2 * d.size + 3 + (d.size + 2) ≤ 3 * d.size + 5)
  have h2 := (P.halpha.mul P.hbeta (by omega : 1 + 1 ≤ 2)).mul hgd (by omega : 2 + 2 ≤ 3 * d.size + 5)
  have h3 := (P.comb1 cs n S.c).mul P.hdelta (by omega : 2 * d.size + 3 + 1 ≤ 3 * d.size + 5)
  have h4 := (P.comb1 cs n S.x).mul P.hgamma (by omega : 2 * d.size + 3 + 1 ≤ 3 * d.size + 5)
  have h5 := (PolyOn.sum (Finset.range n) _ fun i _ => P.comb1 cs n (S.chunk i)).mul P.hgamma
    (by omega : 2 * d.size + 3 + 1 ≤ 3 * d.size + 5)
  have h6 := (P.mix cs (.inst 0)).mul hgd (by omega : d.size + 2 ≤ 3 * d.size + 5)
  have key := h1.sub ((h2.add h3).add ((h4.add h5).add h6))
  unfold ProofEqn at hne hA
  refine count_eqn (key.congr fun g hg => ?_) P.hw g0 h0 hne A hA
  have hg0 := P.gne g hg
  rw [← Finset.sum_mul]
  field_simp

/-- the same for the equation of C60 -/
theorem Params.count_range (cs : CS E.Fr) (n : ℕ) (ka kb kc m : ℕ → E.Fr) (r : E.Fr) (g0 : Fin K → E.Fr)
    (h0 : Good g0) (q : (Fin K → E.Fr) → E.Fr)
    (hq : ∀ g, q g = (r * (1 + ∑ i ∈ Finset.range n, P.s g i)) * P.delta g + (∑ i ∈ Finset.range n, m i *
      (mixAt cs (d.lagrange (P.tau g)) (P.alpha g) (P.beta g) (.inst (i + 1)) * (P.gamma g)⁻¹)) +
      mixAt cs (d.lagrange (P.tau g)) (P.alpha g) (P.beta g) (.inst 0) * (P.gamma g)⁻¹)
    (Eqn : (Fin K → E.Fr) → Prop)
    (hEqn : ∀ g, Eqn g ↔ ev1 (comb ka (Agm.all1 cs d (P.tau g) n (P.s g) (P.t g))) (P.alpha g) (P.beta g)
          (P.gamma g) (P.delta g) *
        ev2 (comb kb (Agm.lf2 cs (d.lagrange (P.tau g)) n (P.s g) (P.t g) (P.v g) (P.rho g)))
          (P.beta g) (P.gamma g) (P.delta g) =
        P.alpha g * P.beta g + ev1 (comb kc (Agm.all1 cs d (P.tau g) n (P.s g) (P.t g))) (P.alpha g)
          (P.beta g) (P.gamma g) (P.delta g) * P.delta g + q g * P.gamma g)
    (hne : ¬ Eqn g0) (A : Finset (Fin K → E.Fr)) (hA : ∀ g ∈ A, Good g ∧ Eqn g) :
    A.card ≤ (3 * d.size + 5) * E.fr.p ^ (K - 1) := by
  have hN := d.size_pos
  have hgd : PolyOn Good 2 (fun g => P.gamma g * P.delta g) := P.hgamma.mul P.hdelta (by omega)
  have h1 := (P.comb1 cs n ka).mul (P.comb2 cs n kb)
    (by omega : 2 * d.size + 3 + (d.size + 2) ≤ 3 * d.size + 5)
  have h2 := (P.halpha.mul P.hbeta (by omega : 1 + 1 ≤ 2)).mul hgd (by omega : 2 + 2 ≤ 3 * d.size + 5)
  have h3 := (P.comb1 cs n kc).mul P.hdelta (by omega : 2 * d.size + 3 + 1 ≤ 3 * d.size + 5)
  have h4 := ((((PolyOn.const 1 (1 : E.Fr)).add (PolyOn.sum (Finset.range n) _ fun i _ => P.hs i)).cmul
    r).mul P.hdelta (le_refl _)).mul (hgd.mul P.hgamma (le_refl _))
    (by omega : 1 + 1 + (2 + 1) ≤ 3 * d.size + 5)
  have h5 := (PolyOn.sum (Finset.range n) _ fun i _ => (P.mix cs (.inst (i + 1))).cmul (m i)).mul hgd
    (by omega : d.size + 2 ≤ 3 * d.size + 5)
  have h6 := (P.mix cs (.inst 0)).mul hgd (by omega : d.size + 2 ≤ 3 * d.size + 5)
  have key := h1.sub ((h2.add h3).add ((h4.add h5).add h6))
  rw [hEqn] at hne
  simp only [hEqn] at hA
  refine count_eqn (key.congr fun g hg => ?_) P.hw g0 h0 hne A hA
  have hg0 := P.gne g hg
  rw [hq]
  simp only [← mul_assoc]
  rw [← Finset.sum_mul]
  field_simp

end params

end Agm
end Verif
