/-
Helper lemmas for C81: the adversary's coefficients do not depend on the honest messages.
-/
import Verif.Lemmas.NmLink
import Verif.Props.Error

namespace Verif
open Spec

namespace Nm
open Agm
variable {E : Engine}

/-- the form of a ciphertext that passes the commitment check -/
def Form (cs : CS E.Fr) (d : EvalDomain E.Fr) (n q : ℕ) (mm : ℕ → ℕ → E.Fr) (S : Strategy E.Fr) (mu : ℕ → E.Fr)
    (ro : E.Fr) (ka : ℕ → E.Fr) : Prop :=
  ∀ P, Good d P → ∀ r a b,
    v1 cs d n q mm S.x P r a b = (ro + ∑ j ∈ Finset.range q, ka j * r j) * P.delta ∧
    (∀ i < n, v1 cs d n q mm (S.chunk i) P r a b =
      (ro + ∑ j ∈ Finset.range q, ka j * r j) * (P.s i * P.delta) + mu i * gel cs d P (i + 1)) ∧
    v1 cs d n q mm S.psi P r a b = (∑ i ∈ Finset.range n, mu i * (P.t (i + 1) * gel cs d P (i + 1))) +
      (ro + ∑ j ∈ Finset.range q, ka j * r j) * (p1 n P * P.delta)

/-- a constant coefficient of `r_j delta` -/
theorem wf_const (cs : CS E.Fr) (d : EvalDomain E.Fr) (n : ℕ) (k : ℕ → E.Fr) (j : ℕ) (tau c : E.Fr)
    (h : ∀ s t : ℕ → E.Fr, wf cs d n k j (pt0 tau s t) = c) :
    k (off cs d n j) = c ∧ (∀ i < n, k (off cs d n j + (1 + i)) = 0) ∧ k (off cs d n j + (1 + n)) = 0 := by
  have h0 := h (fun _ => 0) fun _ => 0
  have h1 := h (fun _ => 0) fun i => if i = 0 then 1 else 0
  simp only [wf, p1, pt0, mul_zero, Finset.sum_const_zero, add_zero, zero_mul] at h0 h1
  rw [h0] at h1
  simp only [if_true, mul_one, add_eq_left] at h1
  refine ⟨h0, ?_, h1⟩
  intro i hi
  have h2 := h (fun l => if l = i then 1 else 0) fun _ => 0
  simp only [wf, p1, pt0, mul_zero, Finset.sum_const_zero, add_zero] at h2
  rw [h0, sum_one hi (by intro l hl; simp [hl])] at h2
  simpa using h2

/-- such coefficients make the combination independent of the honest messages -/
theorem v1_free (cs : CS E.Fr) (d : EvalDomain E.Fr) (n q : ℕ) (k : ℕ → E.Fr) (ka : ℕ → E.Fr)
    (h : ∀ j < q, k (off cs d n j) = ka j ∧ (∀ i < n, k (off cs d n j + (1 + i)) = 0) ∧
      k (off cs d n j + (1 + n)) = 0) (hla : ∀ j < q, la cs d n k j = 0) (hnu : ∀ j < q, nu cs d n k j = 0)
    (mm : ℕ → ℕ → E.Fr) (P : Pt E) (r a b : ℕ → E.Fr) :
    v1 cs d n q mm k P r a b = l1 cs d n k P + ∑ j ∈ Finset.range q, ka j * (r j * P.delta) := by
  unfold v1
  congr 1
  refine Finset.sum_congr rfl fun j hj => ?_
  have hj := Finset.mem_range.mp hj
  obtain ⟨h1, h2, h3⟩ := h j hj
  have e1 := hla j hj
  have e2 := hnu j hj
  unfold la at e1
  unfold nu at e2
  rw [h1, h3, e1, e2, Finset.sum_eq_zero]
  · ring
  · intro i hi
    rw [h2 i (Finset.mem_range.mp hi), zero_mul]

section
variable (cs : CS E.Fr) (d : EvalDomain E.Fr) (n q : ℕ) (mm : ℕ → ℕ → E.Fr) (S : Strategy E.Fr) (mu : ℕ → E.Fr)
  (ro : E.Fr) (ka : ℕ → E.Fr)

/-- the coefficient of `r_j` -/
theorem form_wf (hp : 3 * d.size < E.fr.p) (h : ∀ P, Good d P → ∀ r a b, CEq cs d n q mm S P r a b)
    (hf : Form cs d n q mm S mu ro ka) (j : ℕ) (hj : j < q) (P : Pt E) (hP : Good d P) :
    wf cs d n S.x j P = ka j ∧ (∀ i < n, wf cs d n (S.chunk i) j P = ka j * P.s i) ∧
    wf cs d n S.psi j P = ka j * p1 n P := by
  have hnp := no_proof cs d n q mm S hp h
  have hdiff : ∀ k, (∀ j < q, la cs d n k j = 0 ∧ nu cs d n k j = 0) →
      v1 cs d n q mm k P (fun i => if i = j then 1 else 0) (fun _ => 0) (fun _ => 0) -
        v1 cs d n q mm k P (fun _ => 0) (fun _ => 0) (fun _ => 0) = P.delta * wf cs d n k j P := by
    intro k hk
    have hl : ∀ i < q, k (off cs d n i + (n + 2)) = 0 ∧ k (off cs d n i + (n + 3)) = 0 := hk
    rw [v1_split, v1_split, add_sub_add_left_eq_sub, ← Finset.sum_sub_distrib]
    rw [Finset.sum_eq_single j]
    · obtain ⟨e1, e2⟩ := hl j hj
      rw [e1, e2]
      simp
    · intro i hi hij
      obtain ⟨e1, e2⟩ := hl i (Finset.mem_range.mp hi)
      rw [e1, e2]
      simp [hij]
    · intro hn
      exact absurd (Finset.mem_range.mpr hj) hn
  have hka : ∑ i ∈ Finset.range q, ka i * (if i = j then (1 : E.Fr) else 0) = ka j := by
    rw [sum_one hj (by intro i hi; simp [hi])]
    simp
  obtain ⟨x1, x2, x3⟩ := hf P hP (fun i => if i = j then 1 else 0) (fun _ => 0) fun _ => 0
  obtain ⟨y1, y2, y3⟩ := hf P hP (fun _ => 0) (fun _ => 0) fun _ => 0
  rw [hka] at x1 x3
  simp only [mul_zero, Finset.sum_const_zero, add_zero] at y1 y2 y3
  have dx := hdiff S.x fun j hj => ⟨(hnp j hj).1.2.1, (hnp j hj).2.2.1⟩
  have dp := hdiff S.psi fun j hj => ⟨(hnp j hj).1.1, (hnp j hj).2.1⟩
  refine ⟨?_, ?_, ?_⟩
  · apply mul_left_cancel₀ hP.2.2
    linear_combination x1 - y1 - dx
  · intro i hi
    have dc := hdiff (S.chunk i) fun j hj => ⟨(hnp j hj).1.2.2 i hi, (hnp j hj).2.2.2 i hi⟩
    have x := x2 i hi
    have y := y2 i hi
    rw [hka] at x
    apply mul_left_cancel₀ hP.2.2
    linear_combination x - y - dc
  · apply mul_left_cancel₀ hP.2.2
    linear_combination x3 - y3 - dp

/-- `X_r` does not depend on the honest messages -/
theorem form_x (hp : 3 * d.size < E.fr.p) (h : ∀ P, Good d P → ∀ r a b, CEq cs d n q mm S P r a b)
    (hf : Form cs d n q mm S mu ro ka) : (∀ j < q, ka j = S.x (off cs d n j)) ∧
    ∀ P, Good d P → l1 cs d n S.x P = ro * P.delta := by
  obtain ⟨tau0, ht0⟩ := exists_outside d hp
  have hnp := no_proof cs d n q mm S hp h
  have hw := fun j hj => wf_const cs d n S.x j tau0 (ka j) fun s t =>
    (form_wf cs d n q mm S mu ro ka hp h hf j hj _ (pt0_good ht0 s t)).1
  refine ⟨fun j hj => (hw j hj).1.symm, ?_⟩
  intro P hP
  have h1 := (hf P hP (fun _ => 0) (fun _ => 0) fun _ => 0).1
  rw [v1_free cs d n q S.x ka hw (fun j hj => (hnp j hj).1.2.1) (fun j hj => (hnp j hj).2.2.1)] at h1
  simpa using h1

/-- if the honest randomness is not used, nothing of the honest ciphertexts is -/
theorem form_unused (hp : 3 * d.size < E.fr.p) (h : ∀ P, Good d P → ∀ r a b, CEq cs d n q mm S P r a b)
    (hf : Form cs d n q mm S mu ro ka) (hka : ∀ j < q, ka j = 0) (mm' : ℕ → ℕ → E.Fr) :
    Form cs d n q mm' S mu ro ka := by
  obtain ⟨tau0, ht0⟩ := exists_outside d hp
  have hnp := no_proof cs d n q mm S hp h
  have hw := fun j hj s t => form_wf cs d n q mm S mu ro ka hp h hf j hj _ (pt0_good ht0 s t)
  have ex := fun mm P r a b => v1_free cs d n q S.x (fun _ => 0)
    (fun j hj => wf_const cs d n S.x j tau0 0 fun s t => by rw [(hw j hj s t).1, hka j hj])
    (fun j hj => (hnp j hj).1.2.1) (fun j hj => (hnp j hj).2.2.1) mm P r a b
  have ep := fun mm P r a b => v1_free cs d n q S.psi (fun _ => 0)
    (fun j hj => wf_const cs d n S.psi j tau0 0 fun s t => by rw [(hw j hj s t).2.2, hka j hj, zero_mul])
    (fun j hj => (hnp j hj).1.1) (fun j hj => (hnp j hj).2.1) mm P r a b
  have ec := fun i (hi : i < n) mm P r a b => v1_free cs d n q (S.chunk i) (fun _ => 0)
    (fun j hj => wf_const cs d n (S.chunk i) j tau0 0 fun s t => by rw [(hw j hj s t).2.1 i hi, hka j hj, zero_mul])
    (fun j hj => (hnp j hj).1.2.2 i hi) (fun j hj => (hnp j hj).2.2.2 i hi) mm P r a b
  intro P hP r a b
  obtain ⟨x1, x2, x3⟩ := hf P hP r a b
  refine ⟨?_, ?_, ?_⟩
  · rw [ex mm', ← ex mm P r a b, x1]
  · intro i hi
    rw [ec i hi mm', ← ec i hi mm P r a b, x2 i hi]
  · rw [ep mm', ← ep mm P r a b, x3]

end

end Nm
end Verif
