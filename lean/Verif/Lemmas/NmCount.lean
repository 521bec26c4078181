/-
Helper lemmas for C83: the equations of C81 as polynomials in all draws of a run.
-/
import Verif.Lemmas.NmLink
import Verif.Lemmas.Count

namespace Verif
open Spec Agm

namespace Nm
variable {E : Engine} {K : ℕ} {d : EvalDomain E.Fr} {Gd : (Fin K → E.Fr) → Prop}

/-- the scalars of a setup at given draws -/
def ptOf (P : Params d Gd) (g : Fin K → E.Fr) : Pt E :=
  ⟨P.tau g, P.alpha g, P.beta g, P.gamma g, P.delta g, P.rho g, P.s g, P.t g, P.v g⟩

variable (P : Params d Gd) (cs : CS E.Fr) (n q : ℕ) (mm : ℕ → ℕ → E.Fr)

theorem v1_congr (k : ℕ → E.Fr) (Q : Pt E) {r a b r' a' b' : ℕ → E.Fr} (hr : ∀ j < q, r j = r' j)
    (ha : ∀ j < q, a j = a' j) (hb : ∀ j < q, b j = b' j) :
    v1 cs d n q mm k Q r a b = v1 cs d n q mm k Q r' a' b' := by
  unfold v1
  refine congrArg₂ _ rfl (Finset.sum_congr rfl fun j hj => ?_)
  have hj := Finset.mem_range.mp hj
  rw [hr j hj, ha j hj, hb j hj]

theorem v2_congr (k : ℕ → E.Fr) (Q : Pt E) {b b' : ℕ → E.Fr} (hb : ∀ j < q, b j = b' j) :
    v2 cs d n q k Q b = v2 cs d n q k Q b' := by
  unfold v2
  refine congrArg₂ _ rfl (Finset.sum_congr rfl fun j hj => ?_)
  rw [hb j (Finset.mem_range.mp hj)]

/-- the equations depend on the draws of the honest users only -/
theorem eqs_congr (S : Strategy E.Fr) (Q : Pt E) {r a b r' a' b' : ℕ → E.Fr} (hr : ∀ j < q, r j = r' j)
    (ha : ∀ j < q, a j = a' j) (hb : ∀ j < q, b j = b' j) :
    (CEq cs d n q mm S Q r a b ↔ CEq cs d n q mm S Q r' a' b') ∧
    (PEq cs d n q mm S Q r a b ↔ PEq cs d n q mm S Q r' a' b') := by
  have h := fun k => v1_congr (d := d) cs n q mm k Q hr ha hb
  have h2 := fun k => v2_congr (d := d) cs n q k Q hb
  unfold CEq PEq
  simp only [h, h2, and_self]

theorem poly_gel (i : ℕ) :
    PolyOn Gd (d.size + 1) (fun g => gel cs d (ptOf P g) i * (P.gamma g * P.delta g)) := by
  refine ((P.mix cs (.inst i)).mul P.hdelta (le_refl _)).congr fun g hg => ?_
  have := P.gne g hg
  show mixAt cs (d.lagrange (P.tau g)) (P.alpha g) (P.beta g) (.inst i) * (P.gamma g)⁻¹ * (P.gamma g * P.delta g) = _
  field_simp

theorem poly_sig : PolyOn Gd 1 (fun g => sig n (ptOf P g)) :=
  (PolyOn.const 1 1).add (PolyOn.sum _ _ fun i _ => P.hs i)

theorem poly_p1 : PolyOn Gd 2 (fun g => p1 n (ptOf P g)) :=
  ((P.ht 0).mono (by omega)).add (PolyOn.sum _ _ fun i _ => (P.hs i).mul (P.ht (i + 1)) (by omega))

variable {r a b : (Fin K → E.Fr) → ℕ → E.Fr} (hr : ∀ j, PolyOn Gd 1 (fun g => r g j))
  (ha : ∀ j, PolyOn Gd (d.size + 1) (fun g => a g j)) (hb : ∀ j, PolyOn Gd (d.size + 1) (fun g => b g j))

include hr ha hb in
theorem poly_cel (m : ℕ → E.Fr) (j : ℕ) : PolyOn Gd (2 * d.size + 3)
    (fun g => cel cs d n m (ptOf P g) (r g j) (a g j) (b g j) * (P.gamma g * P.delta g)) := by
  have hN := d.size_pos
  have h1 := (((ha j).mul (hb j) (by omega : d.size + 1 + (d.size + 1) ≤ 2 * d.size + 2)).sub
    (P.halpha.mul P.hbeta (by omega))).mul P.hgamma (le_refl (2 * d.size + 2 + 1))
  have h2 := (((hr j).mul (poly_sig P n) (le_refl _)).mul P.hdelta (le_refl _)).mul
    (P.hgamma.mul P.hgamma (le_refl _)) (by omega : 1 + 1 + 1 + (1 + 1) ≤ 2 * d.size + 3)
  have h3 := ((PolyOn.sum (Finset.range n) _ fun i _ => (P.mix cs (.inst (i + 1))).cmul (m i)).add
    (P.mix cs (.inst 0))).mul P.hgamma (by omega : d.size + 1 ≤ 2 * d.size + 3)
  refine ((h1.sub h2).sub h3).congr fun g hg => ?_
  have hg0 := P.gne g hg
  have hd0 := P.dne g hg
  have e : ∀ i, gel cs d (ptOf P g) i =
      mixAt cs (d.lagrange (P.tau g)) (P.alpha g) (P.beta g) (.inst i) * (P.gamma g)⁻¹ := fun i => rfl
  unfold cel
  simp only [e]
  show ((a g j * b g j - P.alpha g * P.beta g) * (P.delta g)⁻¹ - P.gamma g * (P.delta g)⁻¹ *
    (r g j * sig n (ptOf P g) * P.delta g + (∑ i ∈ Finset.range n, m i *
      (mixAt cs (d.lagrange (P.tau g)) (P.alpha g) (P.beta g) (.inst (i + 1)) * (P.gamma g)⁻¹)) +
      mixAt cs (d.lagrange (P.tau g)) (P.alpha g) (P.beta g) (.inst 0) * (P.gamma g)⁻¹)) *
      (P.gamma g * P.delta g) = _
  simp only [← mul_assoc (m _)]
  rw [← Finset.sum_mul]
  field_simp
  ring

include hr ha hb in
theorem poly_v1 (k : ℕ → E.Fr) : PolyOn Gd (2 * d.size + 4)
    (fun g => v1 cs d n q mm k (ptOf P g) (r g) (a g) (b g) * (P.gamma g * P.delta g)) := by
  have hN := d.size_pos
  have hgd : PolyOn Gd 2 (fun g => P.gamma g * P.delta g) := P.hgamma.mul P.hdelta (by omega)
  have h0 := (P.comb1 cs n k).mono (by omega : 2 * d.size + 3 ≤ 2 * d.size + 4)
  have h1 := fun j => (((hr j).mul P.hdelta (le_refl _)).mul hgd
    (by omega : 1 + 1 + 2 ≤ 2 * d.size + 4)).cmul (k (off cs d n j))
  have h2 := fun j => PolyOn.sum (Finset.range n) _ fun i _ =>
    (((((hr j).mul ((P.hs i).mul P.hdelta (le_refl _)) (le_refl _)).mul hgd
      (by omega : 1 + (1 + 1) + 2 ≤ 2 * d.size + 4)).add
      (((poly_gel P cs (i + 1)).cmul (mm j i)).mono (by omega))).cmul (k (off cs d n j + (1 + i))))
  have h3 := fun j => ((PolyOn.sum (Finset.range n) _ fun i _ =>
    (((P.ht (i + 1)).mul (poly_gel P cs (i + 1)) (by omega : 1 + (d.size + 1) ≤ 2 * d.size + 4)).cmul (mm j i))).add
    (((hr j).mul ((poly_p1 P n).mul P.hdelta (le_refl _)) (le_refl _)).mul hgd
      (by omega : 1 + (2 + 1) + 2 ≤ 2 * d.size + 4))).cmul (k (off cs d n j + (1 + n)))
  have h4 := fun j => ((ha j).mul hgd (by omega : d.size + 1 + 2 ≤ 2 * d.size + 4)).cmul (k (off cs d n j + (n + 2)))
  have h5 := fun j => ((poly_cel P cs n hr ha hb (mm j) j).mono
    (by omega : 2 * d.size + 3 ≤ 2 * d.size + 4)).cmul (k (off cs d n j + (n + 3)))
  refine (h0.add (PolyOn.sum (Finset.range q) _ fun j _ =>
    ((((h1 j).add (h2 j)).add (h3 j)).add (h4 j)).add (h5 j))).congr fun g _ => ?_
  unfold v1
  rw [add_mul, Finset.sum_mul]
  refine congrArg₂ _ rfl (Finset.sum_congr rfl fun j _ => ?_)
  simp only [add_mul, mul_add, Finset.sum_mul, Finset.mul_sum, mul_assoc]
  rfl

include hb in
theorem poly_v2 (k : ℕ → E.Fr) : PolyOn Gd (d.size + 2) (fun g => v2 cs d n q k (ptOf P g) (b g)) :=
  (P.comb2 cs n k).add (PolyOn.sum _ _ fun j _ => ((hb j).cmul _).mono (by omega))

include hr ha hb in
/-- the commitment equation fails on all but a few draws, if it fails on one -/
theorem count_commit (S : Strategy E.Fr) (g0 : Fin K → E.Fr) (h0 : Gd g0)
    (hne : ¬ CEq cs d n q mm S (ptOf P g0) (r g0) (a g0) (b g0)) (A : Finset (Fin K → E.Fr))
    (hA : ∀ g ∈ A, Gd g ∧ CEq cs d n q mm S (ptOf P g) (r g) (a g) (b g)) :
    A.card ≤ (3 * d.size + 6) * E.fr.p ^ (K - 1) := by
  have hN := d.size_pos
  have hv := fun k => poly_v1 P cs n q mm hr ha hb k
  have h2 := (P.ht 0).mul (hv S.x) (by omega : 1 + (2 * d.size + 4) ≤ 3 * d.size + 6)
  have h3 := PolyOn.sum (Finset.range n) _ fun i _ =>
    (P.ht (i + 1)).mul (hv (S.chunk i)) (by omega : 1 + (2 * d.size + 4) ≤ 3 * d.size + 6)
  have key := ((hv S.psi).mono (by omega : 2 * d.size + 4 ≤ 3 * d.size + 6)).sub (h2.add h3)
  unfold CEq at hne hA
  refine count_eqn (key.congr fun g _ => ?_) P.hw g0 h0 hne A hA
  simp only [sub_mul, add_mul, Finset.sum_mul, mul_assoc]
  rfl

include hr ha hb in
/-- the proof equation fails on all but a few draws, if it fails on one -/
theorem count_proof (S : Strategy E.Fr) (g0 : Fin K → E.Fr) (h0 : Gd g0)
    (hne : ¬ PEq cs d n q mm S (ptOf P g0) (r g0) (a g0) (b g0)) (A : Finset (Fin K → E.Fr))
    (hA : ∀ g ∈ A, Gd g ∧ PEq cs d n q mm S (ptOf P g) (r g) (a g) (b g)) :
    A.card ≤ (3 * d.size + 6) * E.fr.p ^ (K - 1) := by
  have hN := d.size_pos
  have hgd : PolyOn Gd 2 (fun g => P.gamma g * P.delta g) := P.hgamma.mul P.hdelta (by omega)
  have hv := fun k => poly_v1 P cs n q mm hr ha hb k
  have h1 := (hv S.a).mul (poly_v2 P cs n q hb S.b) (by omega : 2 * d.size + 4 + (d.size + 2) ≤ 3 * d.size + 6)
  have h2 := (P.halpha.mul P.hbeta (by omega : 1 + 1 ≤ 2)).mul hgd (by omega : 2 + 2 ≤ 3 * d.size + 6)
  have h3 := (hv S.c).mul P.hdelta (by omega : 2 * d.size + 4 + 1 ≤ 3 * d.size + 6)
  have h4 := (hv S.x).mul P.hgamma (by omega : 2 * d.size + 4 + 1 ≤ 3 * d.size + 6)
  have h5 := (PolyOn.sum (Finset.range n) _ fun i _ => hv (S.chunk i)).mul P.hgamma
    (by omega : 2 * d.size + 4 + 1 ≤ 3 * d.size + 6)
  have h6 := (poly_gel P cs 0).mul P.hgamma (by omega : d.size + 1 + 1 ≤ 3 * d.size + 6)
  have key := h1.sub ((h2.add h3).add ((h4.add h5).add h6))
  unfold PEq at hne hA
  refine count_eqn (key.congr fun g hg => ?_) P.hw g0 h0 hne A hA
  rw [← Finset.sum_mul]
  show _ = _
  simp only [ptOf]
  ring

end Nm
end Verif
