/-
Helper lemmas for adaptive generic-group provers (C74 onwards): a question about polynomial group elements has the
same answer on all but a few draws.
-/
import Verif.SpecAdaptive
import Verif.Lemmas.Count
import Verif.Lemmas.Honest

namespace Verif
open Spec

namespace Adapt

section
variable {E : Engine} {K : ℕ}

/-- the views of the two groups, as polynomials in the draws, times the generators -/
structure Views (Good : (Fin K → E.Fr) → Prop) (G : E.G1) (H : E.G2) (D1 D2 : ℕ)
    (V1 : (Fin K → E.Fr) → List E.G1) (V2 : (Fin K → E.Fr) → List E.G2) where
  l1 : ℕ
  l2 : ℕ
  w : (Fin K → E.Fr) → E.Fr
  x : (ℕ → E.Fr) → (Fin K → E.Fr) → E.Fr
  y : (ℕ → E.Fr) → (Fin K → E.Fr) → E.Fr
  hl1 : ∀ g, Good g → (V1 g).length = l1
  hl2 : ∀ g, Good g → (V2 g).length = l2
  hw : ∀ g, Good g → w g ≠ 0
  hx : ∀ k g, Good g → comb k (V1 g) = x k g • G
  hy : ∀ k g, Good g → comb k (V2 g) = y k g • H
  px : ∀ k, Agm.PolyOn Good D1 (fun g => x k g * w g)
  py : ∀ k, Agm.PolyOn Good D2 (y k)
  pw : Agm.PolyOn Good D1 w

variable {Good : (Fin K → E.Fr) → Prop} {G : E.G1} {H : E.G2} {D1 D2 : ℕ}
    {V1 : (Fin K → E.Fr) → List E.G1} {V2 : (Fin K → E.Fr) → List E.G2}

theorem smul_zero_iff {V : Type} [AddCommGroup V] [Module E.Fr V] {v : V} (hv : v ≠ 0) {x : E.Fr} :
    x • v = 0 ↔ x = 0 := by
  constructor
  · intro h
    exact (smul_eq_zero.mp h).resolve_right hv
  · rintro rfl
    exact zero_smul _ _

/-- the combination of pairings, in terms of the combinations of elements of the second group -/
theorem target_eq (v1 : List E.G1) (v2 : List E.G2) (k : ℕ → ℕ → E.Fr) :
    (∑ i ∈ Finset.range v1.length, ∑ j ∈ Finset.range v2.length, k i j • E.e (v1.getD i 0) (v2.getD j 0)) =
      ∑ i ∈ Finset.range v1.length, E.e (comb (fun j => if j = i then (1 : E.Fr) else 0) v1) (comb (k i) v2) := by
  refine Finset.sum_congr rfl fun i hi => ?_
  rw [comb_single _ _ _ (Finset.mem_range.mp hi), one_smul]
  unfold comb
  rw [map_sum]
  exact Finset.sum_congr rfl fun j _ => (map_smul _ _ _).symm

/-- A question has the answer "yes" on all good draws, or on few. -/
theorem dichotomy (W : Views Good G H D1 D2 V1 V2) (hG : G ≠ 0) (hH : H ≠ 0) (q : Question E) :
    (∀ g, Good g → q.Yes (V1 g) (V2 g)) ∨ ∀ A : Finset (Fin K → E.Fr),
      (∀ g ∈ A, Good g ∧ q.Yes (V1 g) (V2 g)) → A.card ≤ (D1 + D2) * E.fr.p ^ (K - 1) := by
  classical
  rw [or_iff_not_imp_left]
  intro hno A hA
  push Not at hno
  obtain ⟨g0, h0, hq0⟩ := hno
  have hmono : ∀ D, D ≤ D1 + D2 → A.card ≤ D * E.fr.p ^ (K - 1) → A.card ≤ (D1 + D2) * E.fr.p ^ (K - 1) :=
    fun D hD h => h.trans (Nat.mul_le_mul_right _ hD)
  cases q with
  | first k =>
    simp only [Question.Yes] at hq0 hA
    refine hmono D1 (by omega) (Agm.count_eqn (x := W.x k) (y := fun _ => 0) (w := W.w)
      ((W.px k).congr fun g _ => by rw [sub_zero]) W.hw g0 h0 ?_ A fun g hg => ⟨(hA g hg).1, ?_⟩)
    · intro hc
      rw [W.hx k g0 h0, hc, zero_smul] at hq0
      exact hq0 rfl
    · have h := (hA g hg).2
      rw [W.hx k g (hA g hg).1] at h
      exact (smul_zero_iff hG).mp h
  | second k =>
    simp only [Question.Yes] at hq0 hA
    refine hmono D2 (by omega) (Agm.count_eqn (x := W.y k) (y := fun _ => 0) (w := fun _ => 1)
      ((W.py k).congr fun g _ => by rw [sub_zero, mul_one]) (fun _ _ => one_ne_zero) g0 h0 ?_ A
      fun g hg => ⟨(hA g hg).1, ?_⟩)
    · intro hc
      rw [W.hy k g0 h0, hc, zero_smul] at hq0
      exact hq0 rfl
    · have h := (hA g hg).2
      rw [W.hy k g (hA g hg).1] at h
      exact (smul_zero_iff hH).mp h
  | target k T =>
    rcases A.eq_empty_or_nonempty with rfl | ⟨g1, hg1⟩
    · simp
    have he : E.e G H ≠ 0 := fun h => (E.nondeg _ _ h).elim hG hH
    let z : (Fin K → E.Fr) → E.Fr := fun g =>
      ∑ i ∈ Finset.range W.l1, W.x (fun j => if j = i then (1 : E.Fr) else 0) g * W.y (k i) g
    have hz : ∀ g, Good g → (∑ i ∈ Finset.range (V1 g).length, ∑ j ∈ Finset.range (V2 g).length,
        k i j • E.e ((V1 g).getD i 0) ((V2 g).getD j 0)) = z g • E.e G H := by
      intro g hg
      rw [target_eq, W.hl1 g hg, Finset.sum_smul]
      refine Finset.sum_congr rfl fun i _ => ?_
      rw [W.hx _ g hg, W.hy _ g hg, map_smul, map_smul, LinearMap.smul_apply, smul_smul, mul_comm]
    simp only [Question.Yes] at hq0 hA
    have hT : T = (-z g1) • E.e G H := by
      have h := (hA g1 hg1).2
      rw [hz g1 (hA g1 hg1).1] at h
      rw [neg_smul]
      exact (neg_eq_of_add_eq_zero_right h).symm
    have hyes : ∀ g, Good g → ((∑ i ∈ Finset.range (V1 g).length, ∑ j ∈ Finset.range (V2 g).length,
        k i j • E.e ((V1 g).getD i 0) ((V2 g).getD j 0)) + T = 0 ↔ z g = z g1) := by
      intro g hg
      rw [hz g hg, hT, ← add_smul, smul_zero_iff he, ← sub_eq_add_neg, sub_eq_zero]
    refine Agm.count_eqn (x := z) (y := fun g => (z g1 : E.Fr)) (w := W.w) ?_ W.hw g0 h0
      (fun hc => hq0 ((hyes g0 h0).mpr hc)) A fun g hg => ⟨(hA g hg).1, (hyes g (hA g hg).1).mp (hA g hg).2⟩
    refine Agm.PolyOn.congr (φ := fun g => (∑ i ∈ Finset.range W.l1,
      (W.x (fun j => if j = i then (1 : E.Fr) else 0) g * W.w g) * W.y (k i) g) - z g1 * W.w g) ?_ ?_
    · refine (Agm.PolyOn.sum _ _ fun i _ => (W.px _).mul (W.py _) le_rfl).sub
        ((W.pw.cmul _).mono (by omega))
    · intro g _
      rw [sub_mul]
      refine congrArg (· - _) ?_
      rw [Finset.sum_mul]
      exact Finset.sum_congr rfl fun i _ => by ring

/-- On all but a few good draws, an adaptive prover chooses the same coefficients. -/
theorem choice_const (W : Views Good G H D1 D2 V1 V2) (hG : G ≠ 0) (hH : H ≠ 0) {α : Type}
    (A : Prover E α) :
    ∃ (S : α) (Bad : Finset (Fin K → E.Fr)),
      Bad.card ≤ A.questions * ((D1 + D2) * E.fr.p ^ (K - 1)) ∧
      ∀ g, Good g → g ∉ Bad → A.choice (V1 g) (V2 g) = S := by
  classical
  induction A with
  | output S => exact ⟨S, ∅, by simp, fun _ _ _ => rfl⟩
  | ask q yes no ihy ihn =>
    obtain ⟨Sy, By, hy1, hy2⟩ := ihy
    obtain ⟨Sn, Bn, hn1, hn2⟩ := ihn
    simp only [Prover.questions, Prover.choice]
    have hdich := dichotomy W hG hH q
    generalize (D1 + D2) * E.fr.p ^ (K - 1) = B at hy1 hn1 hdich ⊢
    rcases hdich with hall | hfew
    · refine ⟨Sy, By, hy1.trans (Nat.mul_le_mul_right _ (by omega)), fun g hg hb => ?_⟩
      rw [if_pos (hall g hg)]
      exact hy2 g hg hb
    · let Q : Finset (Fin K → E.Fr) := Finset.univ.filter fun g => Good g ∧ q.Yes (V1 g) (V2 g)
      refine ⟨Sn, Bn ∪ Q, ?_, fun g hg hb => ?_⟩
      · have h1 := hfew Q fun g hg => (Finset.mem_filter.mp hg).2
        have h2 := Finset.card_union_le Bn Q
        have h3 : no.questions * B ≤ max yes.questions no.questions * B :=
          Nat.mul_le_mul_right _ (by omega)
        rw [Nat.add_mul, Nat.one_mul]
        omega
      · rw [Finset.mem_union, not_or] at hb
        rw [if_neg fun h => hb.2 (Finset.mem_filter.mpr ⟨Finset.mem_univ _, hg, h⟩)]
        exact hn2 g hg hb.1

end
end Adapt
end Verif
