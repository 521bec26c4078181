/-
Helper lemmas for C81: extraction from algebraic adversaries that have seen honest ciphertexts and proofs.
-/
import Verif.Lemmas.Count
import Verif.Lemmas.Span

namespace Verif
open Spec

namespace Nm
open Agm

section field
variable {F : Type} [Field F]

/-- Coefficients of an identity that is bilinear in the elements of honest proofs. -/
theorem bilin (h2 : (2 : F) ≠ 0) (q : ℕ) (U B0 W δ g : F) (lam nu eta w lam' nu' kap w' : ℕ → F)
    (h : ∀ a b r : ℕ → F,
      (U + ∑ j ∈ Finset.range q, (r j * (δ * w j) + lam j * a j + nu j * (a j * b j * δ⁻¹ - r j * g))) *
        (B0 + ∑ j ∈ Finset.range q, eta j * b j) =
      W + ∑ j ∈ Finset.range q, (kap j * r j * g * δ + δ * (r j * (δ * w' j) + lam' j * a j) +
        nu' j * (a j * b j - δ * r j * g))) :
    U * B0 = W ∧ (∀ k < q, U * eta k = 0) ∧ (∀ j < q, lam j * B0 = δ * lam' j) ∧
    (∀ j < q, ∀ k < q, nu j * eta k * δ⁻¹ = 0) ∧ (∀ j < q, ∀ k < q, j ≠ k → lam j * eta k = 0) ∧
    (∀ j < q, lam j * eta j + nu j * δ⁻¹ * B0 = nu' j) ∧
    (∀ j < q, (δ * w j - nu j * g) * B0 = kap j * g * δ + δ * (δ * w' j) - nu' j * δ * g) ∧
    (∀ j < q, ∀ k < q, (δ * w j - nu j * g) * eta k = 0) := by
  have e0 : U * B0 = W := by simpa using h (fun _ => 0) (fun _ => 0) fun _ => 0
  -- one index
  have e1 : ∀ j < q, ∀ x y z : F, (U + (z * (δ * w j) + lam j * x + nu j * (x * y * δ⁻¹ - z * g))) *
      (B0 + eta j * y) = W + (kap j * z * g * δ + δ * (z * (δ * w' j) + lam' j * x) +
        nu' j * (x * y - δ * z * g)) := by
    intro j hj x y z
    have := h (fun i => if i = j then x else 0) (fun i => if i = j then y else 0)
      fun i => if i = j then z else 0
    have hs : ∀ f : ℕ → F, (∀ i, i ≠ j → f i = 0) → ∑ i ∈ Finset.range q, f i = f j := by
      intro f hf
      exact Finset.sum_eq_single j (fun i _ hi => hf i hi) fun hn => absurd (Finset.mem_range.mpr hj) hn
    rw [hs, hs, hs] at this
    · simpa using this
    all_goals
      intro i hi
      simp [hi]
  -- two indices
  have e2 : ∀ j < q, ∀ k < q, j ≠ k → ∀ x y y' z : F,
      (U + (z * (δ * w j) + lam j * x + nu j * (x * y * δ⁻¹ - z * g))) *
      (B0 + (eta j * y + eta k * y')) = W + (kap j * z * g * δ + δ * (z * (δ * w' j) + lam' j * x) +
        nu' j * (x * y - δ * z * g)) := by
    intro j hj k hk hjk x y y' z
    have := h (fun i => if i = j then x else 0) (fun i => if i = j then y else if i = k then y' else 0)
      fun i => if i = j then z else 0
    have hs : ∀ f : ℕ → F, (∀ i, i ≠ j → f i = 0) → ∑ i ∈ Finset.range q, f i = f j := by
      intro f hf
      exact Finset.sum_eq_single j (fun i _ hi => hf i hi) fun hn => absurd (Finset.mem_range.mpr hj) hn
    have hs2 : ∀ f : ℕ → F, (∀ i, i ≠ j → i ≠ k → f i = 0) → ∑ i ∈ Finset.range q, f i = f j + f k := by
      intro f hf
      have hsub : ({j, k} : Finset ℕ) ⊆ Finset.range q := by
        intro i hi
        simp only [Finset.mem_insert, Finset.mem_singleton] at hi
        rcases hi with rfl | rfl <;> simpa
      rw [← Finset.sum_subset hsub, Finset.sum_pair hjk]
      intro i _ hi
      simp only [Finset.mem_insert, Finset.mem_singleton, not_or] at hi
      exact hf i hi.1 hi.2
    rw [hs, hs2, hs] at this
    · simpa [hjk, Ne.symm hjk] using this
    · intro i hi
      simp [hi]
    · intro i hi hi'
      simp [hi, hi']
    · intro i hi
      simp [hi]
  have f2 : ∀ k < q, U * eta k = 0 := by
    intro k hk
    linear_combination e1 k hk 0 1 0 - e0
  have f3 : ∀ j < q, lam j * B0 = δ * lam' j := by
    intro j hj
    linear_combination e1 j hj 1 0 0 - e0
  have f67 : ∀ j < q, lam j * eta j + nu j * δ⁻¹ * B0 = nu' j ∧ nu j * eta j * δ⁻¹ = 0 := by
    intro j hj
    have a := e1 j hj 1 1 0
    have b := e1 j hj 1 (-1) 0
    have c := f2 j hj
    have d := f3 j hj
    have x1 : (2 : F) * (nu j * eta j * δ⁻¹) = 0 := by linear_combination a + b - 2 * e0 - 2 * d
    have x1 := (mul_eq_zero.mp x1).resolve_left h2
    exact ⟨by linear_combination a - e0 - c - d - x1, x1⟩
  have f8 : ∀ j < q, (δ * w j - nu j * g) * B0 = kap j * g * δ + δ * (δ * w' j) - nu' j * δ * g := by
    intro j hj
    linear_combination e1 j hj 0 0 1 - e0
  refine ⟨e0, f2, f3, ?_, ?_, fun j hj => (f67 j hj).1, f8, ?_⟩
  · intro j hj k hk
    by_cases hjk : j = k
    · subst hjk
      exact (f67 j hj).2
    · have a := e2 j hj k hk hjk 1 1 1 0
      have b := e2 j hj k hk hjk 1 0 1 0
      have c := e1 j hj 1 1 0
      have d := e1 j hj 1 0 0
      linear_combination a - b - c + d
  · intro j hj k hk hjk
    have b := e2 j hj k hk hjk 1 0 1 0
    have d := e1 j hj 1 0 0
    linear_combination b - d - f2 k hk
  · intro j hj k hk
    by_cases hjk : j = k
    · subst hjk
      have a := e1 j hj 0 1 1
      have b := e1 j hj 0 0 1
      linear_combination a - b - f2 j hj
    · have a := e2 j hj k hk hjk 0 0 1 1
      have b := e1 j hj 0 0 1
      linear_combination a - b - f2 k hk

end field

variable {E : Engine}

/-- the scalars of a setup -/
structure Pt (E : Engine) where
  tau : E.Fr
  alpha : E.Fr
  beta : E.Fr
  gamma : E.Fr
  delta : E.Fr
  rho : E.Fr
  s : ℕ → E.Fr
  t : ℕ → E.Fr
  v : ℕ → E.Fr

def Good (d : EvalDomain E.Fr) (P : Pt E) : Prop :=
  d.vanishing P.tau ≠ 0 ∧ P.gamma ≠ 0 ∧ P.delta ≠ 0

/-- discrete logarithm of a combination of the published elements of the first group -/
def l1 (cs : CS E.Fr) (d : EvalDomain E.Fr) (n : ℕ) (k : ℕ → E.Fr) (P : Pt E) : E.Fr :=
  ev1 (comb k (all1 cs d P.tau n P.s P.t)) P.alpha P.beta P.gamma P.delta

/-- the same for the second group -/
def l2 (cs : CS E.Fr) (d : EvalDomain E.Fr) (n : ℕ) (k : ℕ → E.Fr) (P : Pt E) : E.Fr :=
  ev2 (comb k (lf2 cs (d.lagrange P.tau) n P.s P.t P.v P.rho)) P.beta P.gamma P.delta

/-- discrete logarithm of `gamma_abc_g1[i]` -/
def gel (cs : CS E.Fr) (d : EvalDomain E.Fr) (P : Pt E) (i : ℕ) : E.Fr :=
  mixAt cs (d.lagrange P.tau) P.alpha P.beta (.inst i) * P.gamma⁻¹

def sig (n : ℕ) (P : Pt E) : E.Fr := 1 + ∑ i ∈ Finset.range n, P.s i

def p1 (n : ℕ) (P : Pt E) : E.Fr := P.t 0 + ∑ i ∈ Finset.range n, P.s i * P.t (i + 1)

/-- discrete logarithm of the third element of an honest proof -/
def cel (cs : CS E.Fr) (d : EvalDomain E.Fr) (n : ℕ) (m : ℕ → E.Fr) (P : Pt E) (r a b : E.Fr) : E.Fr :=
  (a * b - P.alpha * P.beta) * P.delta⁻¹ - P.gamma * P.delta⁻¹ * (r * sig n P * P.delta +
    (∑ i ∈ Finset.range n, m i * gel cs d P (i + 1)) + gel cs d P 0)

/-- position of the elements of honest ciphertext `j` -/
def off (cs : CS E.Fr) (d : EvalDomain E.Fr) (n j : ℕ) : ℕ := baseLen cs d n + n + 1 + j * (n + 4)

/-- discrete logarithm of a combination of everything in the first group that the adversary sees -/
def v1 (cs : CS E.Fr) (d : EvalDomain E.Fr) (n q : ℕ) (mm : ℕ → ℕ → E.Fr) (k : ℕ → E.Fr) (P : Pt E)
    (r a b : ℕ → E.Fr) : E.Fr :=
  l1 cs d n k P + ∑ j ∈ Finset.range q, (k (off cs d n j) * (r j * P.delta) +
    (∑ i ∈ Finset.range n, k (off cs d n j + (1 + i)) *
      (r j * (P.s i * P.delta) + mm j i * gel cs d P (i + 1))) +
    k (off cs d n j + (1 + n)) * ((∑ i ∈ Finset.range n, mm j i * (P.t (i + 1) * gel cs d P (i + 1))) +
      r j * (p1 n P * P.delta)) + k (off cs d n j + (n + 2)) * a j +
    k (off cs d n j + (n + 3)) * cel cs d n (mm j) P (r j) (a j) (b j))

/-- position of the second element of honest proof `0` -/
def off2 (cs : CS E.Fr) (n : ℕ) : ℕ := 4 + (cs.vars.length + (n + 1 + (1 + (n + n))))

def v2 (cs : CS E.Fr) (d : EvalDomain E.Fr) (n q : ℕ) (k : ℕ → E.Fr) (P : Pt E)
    (b : ℕ → E.Fr) : E.Fr :=
  l2 cs d n k P + ∑ j ∈ Finset.range q, k (off2 cs n + j) * b j

/-- the coefficient of `r_j delta` -/
def wf (cs : CS E.Fr) (d : EvalDomain E.Fr) (n : ℕ) (k : ℕ → E.Fr) (j : ℕ) (P : Pt E) : E.Fr :=
  k (off cs d n j) + (∑ i ∈ Finset.range n, k (off cs d n j + (1 + i)) * P.s i) +
    k (off cs d n j + (1 + n)) * p1 n P

/-- the part without `r_j`, `a_j` and the third proof elements -/
def mf (cs : CS E.Fr) (d : EvalDomain E.Fr) (n q : ℕ) (mm : ℕ → ℕ → E.Fr) (k : ℕ → E.Fr) (P : Pt E) : E.Fr :=
  l1 cs d n k P + ∑ j ∈ Finset.range q, ((∑ i ∈ Finset.range n, k (off cs d n j + (1 + i)) *
      (mm j i * gel cs d P (i + 1))) +
    k (off cs d n j + (1 + n)) * ∑ i ∈ Finset.range n, mm j i * (P.t (i + 1) * gel cs d P (i + 1)))

theorem v1_split (cs : CS E.Fr) (d : EvalDomain E.Fr) (n q : ℕ) (mm : ℕ → ℕ → E.Fr) (k : ℕ → E.Fr) (P : Pt E)
    (r a b : ℕ → E.Fr) : v1 cs d n q mm k P r a b = mf cs d n q mm k P +
      ∑ j ∈ Finset.range q, (r j * (P.delta * wf cs d n k j P) + k (off cs d n j + (n + 2)) * a j +
        k (off cs d n j + (n + 3)) * cel cs d n (mm j) P (r j) (a j) (b j)) := by
  unfold v1 mf
  rw [add_assoc, ← Finset.sum_add_distrib]
  congr 1
  refine Finset.sum_congr rfl fun j _ => ?_
  have : ∑ i ∈ Finset.range n, k (off cs d n j + (1 + i)) *
      (r j * (P.s i * P.delta) + mm j i * gel cs d P (i + 1)) =
      (∑ i ∈ Finset.range n, k (off cs d n j + (1 + i)) * P.s i) * (r j * P.delta) +
      ∑ i ∈ Finset.range n, k (off cs d n j + (1 + i)) * (mm j i * gel cs d P (i + 1)) := by
    rw [Finset.sum_mul, ← Finset.sum_add_distrib]
    exact Finset.sum_congr rfl fun i _ => by ring
  rw [this]
  unfold wf
  ring

theorem all1_length (cs : CS E.Fr) (d : EvalDomain E.Fr) (n : ℕ) (P : Pt E) :
    (all1 cs d P.tau n P.s P.t).length = baseLen cs d n + n + 1 := by
  simp [all1, partL, partH, restA, restT, baseLen]
  omega

theorem getD_skip {G : Type} [Zero G] {l : List G} {N : ℕ} (h : l.length = N) (l' : List G) (i : ℕ) :
    (l ++ l').getD (N + i) 0 = l'.getD i 0 := by
  rw [List.getD_append_right _ _ _ _ (by omega), h, Nat.add_sub_cancel_left]

theorem all1_gabc (cs : CS E.Fr) (d : EvalDomain E.Fr) (n : ℕ) (P : Pt E) (i : ℕ) (hi : i < cs.numInst) :
    (all1 cs d P.tau n P.s P.t).getD (cs.numWit + ((d.size - 1) + (5 + (cs.vars.length +
      (cs.vars.length + i))))) 0 = mixG cs (d.lagrange P.tau) (.inst i) := by
  unfold all1
  rw [getD_skip (by simp [partL]), getD_skip (by simp [partH]),
    List.getD_append _ _ _ _ (by simp [restA]; omega)]
  unfold restA
  rw [getD_skip (by simp), getD_skip (by simp), getD_skip (by simp),
    List.getD_append _ _ _ _ (by simp; omega), getD_tab, if_pos hi]

theorem all1_Y (cs : CS E.Fr) (d : EvalDomain E.Fr) (n : ℕ) (P : Pt E) (i : ℕ) (hi : i < n) :
    (all1 cs d P.tau n P.s P.t).getD (cs.numWit + ((d.size - 1) + ((5 + (cs.vars.length +
      (cs.vars.length + (cs.numInst + (1 + (n + 1)))))) + i))) 0 =
      P.t (i + 1) • mixG cs (d.lagrange P.tau) (.inst (i + 1)) := by
  unfold all1
  rw [getD_skip (by simp [partL]), getD_skip (by simp [partH]), getD_skip (by simp [restA]; omega)]
  unfold restT
  rw [List.getD_append _ _ _ _ (by simp; omega), getD_tab, if_pos hi]

/-- `mf` is itself a combination of the published elements -/
theorem mf_lin (cs : CS E.Fr) (d : EvalDomain E.Fr) (n : ℕ) (hn : cs.numInst = n + 1) (q : ℕ)
    (mm : ℕ → ℕ → E.Fr) (k : ℕ → E.Fr) : ∃ k0, ∀ P, mf cs d n q mm k P = l1 cs d n k0 P := by
  have hall : Span.All E.Fr (fun P : Pt E => all1 cs d P.tau n P.s P.t) fun P : Pt E =>
      all1 cs d P.tau n P.s P.t :=
    Span.All.refl (N := baseLen cs d n + n + 1) fun P => all1_length cs d n P
  have g1 : ∀ i < n, Span.In E.Fr (fun P : Pt E => all1 cs d P.tau n P.s P.t) fun P =>
      mixG cs (d.lagrange P.tau) (.inst (i + 1)) := fun i hi =>
    (hall.2 _).congr fun P => (all1_gabc cs d n P (i + 1) (by omega)).symm
  have g2 : ∀ i < n, Span.In E.Fr (fun P : Pt E => all1 cs d P.tau n P.s P.t) fun P =>
      P.t (i + 1) • mixG cs (d.lagrange P.tau) (.inst (i + 1)) := fun i hi =>
    (hall.2 _).congr fun P => (all1_Y cs d n P i hi).symm
  have hin := (hall.comb k).add (Span.In.sum q fun j _ => (Span.In.sum n fun i hi =>
      ((g1 i hi).smul (mm j i)).smul (k (off cs d n j + (1 + i)))).add
    ((Span.In.sum n fun i hi => (g2 i hi).smul (mm j i)).smul (k (off cs d n j + (1 + n)))))
  obtain ⟨k0, hk0⟩ := hin
  refine ⟨k0, fun P => ?_⟩
  have hL : ∀ f, ev1 f P.alpha P.beta P.gamma P.delta = evL P.alpha P.beta P.gamma P.delta f := fun f => rfl
  have hg : ∀ i, evL P.alpha P.beta P.gamma P.delta (mixG cs (d.lagrange P.tau) (.inst i)) = gel cs d P i := by
    intro i
    rw [← hL]
    simp [ev1, mixG, gel, mixAt, -mul_eq_mul_right_iff]
    ring
  unfold l1
  rw [← hk0 P, hL, map_add, ← hL]
  unfold mf
  congr 1
  rw [map_sum]
  refine Finset.sum_congr rfl fun j _ => ?_
  simp only [map_add, map_smul, map_sum, smul_eq_mul, hg]

/-- the coefficients of the first and third element of honest proof `j` -/
def la (cs : CS E.Fr) (d : EvalDomain E.Fr) (n : ℕ) (k : ℕ → E.Fr) (j : ℕ) : E.Fr := k (off cs d n j + (n + 2))

def nu (cs : CS E.Fr) (d : EvalDomain E.Fr) (n : ℕ) (k : ℕ → E.Fr) (j : ℕ) : E.Fr := k (off cs d n j + (n + 3))

theorem sum_one {q j : ℕ} (hj : j < q) {f : ℕ → E.Fr} (hf : ∀ i, i ≠ j → f i = 0) :
    ∑ i ∈ Finset.range q, f i = f j :=
  Finset.sum_eq_single j (fun i _ hi => hf i hi) fun hn => absurd (Finset.mem_range.mpr hj) hn

theorem v1_one (cs : CS E.Fr) (d : EvalDomain E.Fr) (n q : ℕ) (mm : ℕ → ℕ → E.Fr) (k : ℕ → E.Fr) (P : Pt E)
    (j : ℕ) (hj : j < q) (x y : E.Fr) :
    v1 cs d n q mm k P (fun _ => 0) (fun i => if i = j then x else 0) (fun i => if i = j then y else 0) =
      v1 cs d n q mm k P (fun _ => 0) (fun _ => 0) (fun _ => 0) + (la cs d n k j * x +
        nu cs d n k j * (x * y * P.delta⁻¹)) := by
  rw [v1_split, v1_split, add_assoc]
  congr 1
  rw [← sub_eq_iff_eq_add', ← Finset.sum_sub_distrib, sum_one hj]
  · unfold la nu cel
    simp only [if_true]
    ring
  · intro i hi
    simp [hi]

theorem lin_zero {F : Type} [Field F] (n : ℕ) (c u : F) (f : ℕ → F)
    (h : ∀ t : ℕ → F, c = t 0 * u + ∑ i ∈ Finset.range n, t (i + 1) * f i) :
    c = 0 ∧ u = 0 ∧ ∀ i < n, f i = 0 := by
  have hc : c = 0 := by simpa using h fun _ => 0
  refine ⟨hc, ?_, ?_⟩
  · have := h fun i => if i = 0 then 1 else 0
    simpa [hc] using this.symm
  · intro i hi
    have := h fun j => if j = i + 1 then 1 else 0
    simpa [hc, hi] using this.symm

/-- any scalars -/
def pt0 (tau : E.Fr) (s t : ℕ → E.Fr) : Pt E := ⟨tau, 0, 0, 1, 1, 0, s, t, fun _ => 0⟩

theorem pt0_good {d : EvalDomain E.Fr} {tau : E.Fr} (h : d.vanishing tau ≠ 0) (s t : ℕ → E.Fr) :
    Good d (pt0 tau s t) := ⟨h, one_ne_zero, one_ne_zero⟩

/-- the commitment equation -/
def CEq (cs : CS E.Fr) (d : EvalDomain E.Fr) (n q : ℕ) (mm : ℕ → ℕ → E.Fr) (S : Strategy E.Fr) (P : Pt E)
    (r a b : ℕ → E.Fr) : Prop :=
  v1 cs d n q mm S.psi P r a b = P.t 0 * v1 cs d n q mm S.x P r a b +
    ∑ i ∈ Finset.range n, P.t (i + 1) * v1 cs d n q mm (S.chunk i) P r a b

/-- the ciphertext uses no proof elements -/
theorem no_proof (cs : CS E.Fr) (d : EvalDomain E.Fr) (n q : ℕ) (mm : ℕ → ℕ → E.Fr) (S : Strategy E.Fr)
    (hp : 3 * d.size < E.fr.p)
    (h : ∀ P, Good d P → ∀ r a b, CEq cs d n q mm S P r a b) (j : ℕ) (hj : j < q) :
    (la cs d n S.psi j = 0 ∧ la cs d n S.x j = 0 ∧ ∀ i < n, la cs d n (S.chunk i) j = 0) ∧
    (nu cs d n S.psi j = 0 ∧ nu cs d n S.x j = 0 ∧ ∀ i < n, nu cs d n (S.chunk i) j = 0) := by
  obtain ⟨tau0, ht0⟩ := exists_outside d hp
  have key : ∀ (t : ℕ → E.Fr) (x y : E.Fr), la cs d n S.psi j * x + nu cs d n S.psi j * (x * y) =
      t 0 * (la cs d n S.x j * x + nu cs d n S.x j * (x * y)) + ∑ i ∈ Finset.range n, t (i + 1) *
        (la cs d n (S.chunk i) j * x + nu cs d n (S.chunk i) j * (x * y)) := by
    intro t x y
    have h0 := h (pt0 tau0 (fun _ => 0) t) (pt0_good ht0 _ _) (fun _ => 0) (fun _ => 0) (fun _ => 0)
    have h1 := h (pt0 tau0 (fun _ => 0) t) (pt0_good ht0 _ _) (fun _ => 0) (fun i => if i = j then x else 0)
      (fun i => if i = j then y else 0)
    unfold CEq at h0 h1
    simp only [v1_one _ _ _ _ _ _ _ j hj, mul_add, Finset.sum_add_distrib] at h1
    simp only [mul_add, Finset.sum_add_distrib]
    simp only [pt0, inv_one, mul_one] at h0 h1 ⊢
    linear_combination h1 - h0
  have hla := lin_zero n (la cs d n S.psi j) (la cs d n S.x j) (fun i => la cs d n (S.chunk i) j) fun t => by
    simpa using key t 1 0
  refine ⟨hla, ?_⟩
  refine lin_zero n (nu cs d n S.psi j) (nu cs d n S.x j) (fun i => nu cs d n (S.chunk i) j) fun t => ?_
  have := key t 1 1
  rw [hla.1, hla.2.1, Finset.sum_congr rfl fun i hi => by rw [hla.2.2 i (Finset.mem_range.mp hi)]] at this
  simpa using this

/-- The ciphertext of an adversary that passes the commitment check: an encryption of fixed field elements,
with randomness that is a fixed affine function of the honest users' randomness. -/
theorem commit (cs : CS E.Fr) (d : EvalDomain E.Fr) (hN : cs.cons.length + cs.numInst ≤ d.size)
    (hp : 3 * d.size < E.fr.p) (n : ℕ) (hn : cs.numInst = n + 1) (q : ℕ) (mm : ℕ → ℕ → E.Fr)
    (S : Strategy E.Fr) (h : ∀ P, Good d P → ∀ r a b, CEq cs d n q mm S P r a b) :
    ∃ (mu : ℕ → E.Fr) (ro : E.Fr) (ka : ℕ → E.Fr), ∀ P, Good d P → ∀ r a b,
      v1 cs d n q mm S.x P r a b = (ro + ∑ j ∈ Finset.range q, ka j * r j) * P.delta ∧
      (∀ i < n, v1 cs d n q mm (S.chunk i) P r a b =
        (ro + ∑ j ∈ Finset.range q, ka j * r j) * (P.s i * P.delta) + mu i * gel cs d P (i + 1)) ∧
      v1 cs d n q mm S.psi P r a b = (∑ i ∈ Finset.range n, mu i * (P.t (i + 1) * gel cs d P (i + 1))) +
        (ro + ∑ j ∈ Finset.range q, ka j * r j) * (p1 n P * P.delta) := by
  have hsz := d.size_pos
  have h2 : (2 : E.Fr) ≠ 0 := by
    intro h0
    have h1 : ((2 : ℕ) : ZMod E.fr.p) = 0 := by exact_mod_cast h0
    rw [ZMod.natCast_eq_zero_iff] at h1
    have := Nat.le_of_dvd (by norm_num) h1
    omega
  have hnp := no_proof cs d n q mm S hp h
  have hv : ∀ k, (∀ j < q, la cs d n k j = 0 ∧ nu cs d n k j = 0) → ∀ P r a b,
      v1 cs d n q mm k P r a b = mf cs d n q mm k P +
        ∑ j ∈ Finset.range q, r j * (P.delta * wf cs d n k j P) := by
    intro k hk P r a b
    rw [v1_split]
    congr 1
    refine Finset.sum_congr rfl fun j hj => ?_
    obtain ⟨e1, e2⟩ := hk j (Finset.mem_range.mp hj)
    unfold la at e1
    unfold nu at e2
    rw [e1, e2]
    ring
  have hvx := hv S.x fun j hj => ⟨(hnp j hj).1.2.1, (hnp j hj).2.2.1⟩
  have hvp := hv S.psi fun j hj => ⟨(hnp j hj).1.1, (hnp j hj).2.1⟩
  have hvc : ∀ i < n, _ := fun i hi => hv (S.chunk i) fun j hj =>
    ⟨(hnp j hj).1.2.2 i hi, (hnp j hj).2.2.2 i hi⟩
  have hvcs : ∀ P r a b, ∑ i ∈ Finset.range n, P.t (i + 1) * v1 cs d n q mm (S.chunk i) P r a b =
      ∑ i ∈ Finset.range n, P.t (i + 1) * (mf cs d n q mm (S.chunk i) P +
        ∑ j ∈ Finset.range q, r j * (P.delta * wf cs d n (S.chunk i) j P)) := by
    intro P r a b
    exact Finset.sum_congr rfl fun i hi => by rw [hvc i (Finset.mem_range.mp hi)]
  -- the part without `r`
  obtain ⟨kx, hkx⟩ := mf_lin cs d n hn q mm S.x
  obtain ⟨kp, hkp⟩ := mf_lin cs d n hn q mm S.psi
  choose kc hkc using fun i => mf_lin cs d n hn q mm (S.chunk i)
  have base : ∀ P, Good d P → mf cs d n q mm S.psi P = P.t 0 * mf cs d n q mm S.x P +
      ∑ i ∈ Finset.range n, P.t (i + 1) * mf cs d n q mm (S.chunk i) P := by
    intro P hP
    have := h P hP (fun _ => 0) (fun _ => 0) (fun _ => 0)
    unfold CEq at this
    rw [hvp, hvx, hvcs] at this
    simpa using this
  have hex := commit_extract cs d hN hp n hn kx kp kc (by
    intro tau alpha beta gamma delta s t h1 h3 h4
    have := base ⟨tau, alpha, beta, gamma, delta, 0, s, t, fun _ => 0⟩ ⟨h1, h3, h4⟩
    simp only [hkx, hkp, hkc] at this
    exact this)
  -- the coefficient of `r_j`
  have hw : ∀ j < q, ∀ P, Good d P → wf cs d n S.x j P = S.psi (off cs d n j + (1 + n)) ∧
      (∀ i < n, wf cs d n (S.chunk i) j P = S.psi (off cs d n j + (1 + n)) * P.s i) ∧
      wf cs d n S.psi j P = S.psi (off cs d n j + (1 + n)) * p1 n P := by
    intro j hj P hP
    let kk : ℕ → ℕ → E.Fr := fun i => match i with
      | 0 => S.x
      | i + 1 => S.chunk i
    let si : ℕ → E.Fr := fun i => match i with
      | 0 => 1
      | i + 1 => P.s i
    have hwq : ∀ t : ℕ → E.Fr, wf cs d n S.psi j { P with t := t } = t 0 * wf cs d n S.x j { P with t := t } +
        ∑ i ∈ Finset.range n, t (i + 1) * wf cs d n (S.chunk i) j { P with t := t } := by
      intro t
      have hG : Good d { P with t := t } := hP
      have h1 := h { P with t := t } hG (fun i => if i = j then 1 else 0) (fun _ => 0) (fun _ => 0)
      have h0 := base { P with t := t } hG
      unfold CEq at h1
      rw [hvp, hvx, hvcs] at h1
      have hone : ∀ k : ℕ → E.Fr, ∑ i ∈ Finset.range q, (if i = j then (1 : E.Fr) else 0) *
          (P.delta * wf cs d n k i { P with t := t }) = P.delta * wf cs d n k j { P with t := t } := by
        intro k
        rw [sum_one hj]
        · simp
        · intro i hi
          simp [hi]
      simp only [hone, mul_add, Finset.sum_add_distrib] at h1
      have hs : ∑ i ∈ Finset.range n, t (i + 1) * (P.delta * wf cs d n (S.chunk i) j { P with t := t }) =
          P.delta * ∑ i ∈ Finset.range n, t (i + 1) * wf cs d n (S.chunk i) j { P with t := t } := by
        rw [Finset.mul_sum]
        exact Finset.sum_congr rfl fun i _ => by ring
      rw [hs] at h1
      apply mul_left_cancel₀ hP.2.2
      linear_combination h1 - h0
    have hp1 : ∀ t : ℕ → E.Fr, p1 n { P with t := t } = ∑ l ∈ Finset.range (n + 1), si l * t l := by
      intro t
      rw [Finset.sum_range_succ']
      simp only [p1, si, one_mul]
      rw [add_comm]
    have hq := quad h2 (n + 1) (S.psi (off cs d n j) + ∑ i ∈ Finset.range n, S.psi (off cs d n j + (1 + i)) * P.s i)
      (fun l => S.psi (off cs d n j + (1 + n)) * si l)
      (fun i => kk i (off cs d n j) + ∑ l ∈ Finset.range n, kk i (off cs d n j + (1 + l)) * P.s l)
      (fun i l => kk i (off cs d n j + (1 + n)) * si l) (by
        intro t
        have := hwq t
        unfold wf at this
        simp only [hp1, Finset.mul_sum] at this
        rw [Finset.sum_range_succ' (fun k => t k * _)]
        simp only [mul_assoc, kk]
        rw [this, add_comm])
    obtain ⟨q1, q2, q3⟩ := hq
    have x0 : kk 0 (off cs d n j + (1 + n)) = 0 := by
      have := (q2 0 (by omega)).2
      simpa [si] using this
    have c0 : ∀ i < n, kk (i + 1) (off cs d n j + (1 + n)) = 0 := by
      intro i hi
      have := q3 0 (by omega) (i + 1) (by omega)
      rw [x0] at this
      simpa [si] using this
    refine ⟨?_, ?_, ?_⟩
    · have := (q2 0 (by omega)).1
      simp only [kk, si, mul_one] at this x0
      unfold wf
      rw [x0, ← this]
      ring
    · intro i hi
      have h1 := (q2 (i + 1) (by omega)).1
      have h3 := c0 i hi
      simp only [kk, si] at h1 h3
      unfold wf
      rw [h3, ← h1]
      ring
    · unfold wf
      rw [q1, zero_add]
  refine ⟨fun i => kp (baseLen cs d n + i), kp (baseLen cs d n + n), fun j => S.psi (off cs d n j + (1 + n)), ?_⟩
  intro P hP r a b
  obtain ⟨x1, x2, x3⟩ := hex P.tau P.alpha P.beta P.gamma P.delta P.s P.t hP.1 hP.2.1 hP.2.2
  have hsum : ∀ (k : ℕ → E.Fr) (c : E.Fr), (∀ j < q, wf cs d n k j P = S.psi (off cs d n j + (1 + n)) * c) →
      ∑ j ∈ Finset.range q, r j * (P.delta * wf cs d n k j P) =
        (∑ j ∈ Finset.range q, S.psi (off cs d n j + (1 + n)) * r j) * (c * P.delta) := by
    intro k c hk
    rw [Finset.sum_mul]
    refine Finset.sum_congr rfl fun j hj => ?_
    rw [hk j (Finset.mem_range.mp hj)]
    ring
  refine ⟨?_, ?_, ?_⟩
  · rw [hvx, hkx, hsum S.x 1 fun j hj => by rw [(hw j hj P hP).1, mul_one]]
    unfold l1
    rw [x1]
    ring
  · intro i hi
    rw [hvc i hi, hkc, hsum (S.chunk i) (P.s i) fun j hj => (hw j hj P hP).2.1 i hi]
    unfold l1
    rw [x2 i hi]
    unfold gel
    ring
  · rw [hvp, hkp, hsum S.psi (p1 n P) fun j hj => (hw j hj P hP).2.2]
    unfold l1
    rw [x3]
    unfold p1 gel
    ring

/-- `core'` for the equation of `witness_of_accepted`: the second proof element does not use `gamma` -/
theorem b2_zero (cs : CS E.Fr) (d : EvalDomain E.Fr) (hp5 : 5 ≤ E.fr.p) (n : ℕ)
    (s t v : ℕ → E.Fr) (rho tau : E.Fr) (ka kb kc : ℕ → E.Fr) (m : ℕ → E.Fr) (r : E.Fr)
    (h : ∀ alpha beta gamma delta : E.Fr, gamma ≠ 0 → delta ≠ 0 →
      ev1 (comb ka (all1 cs d tau n s t)) alpha beta gamma delta *
      ev2 (comb kb (lf2 cs (d.lagrange tau) n s t v rho)) beta gamma delta =
      alpha * beta + ev1 (comb kc (all1 cs d tau n s t)) alpha beta gamma delta * delta +
      ((r * (1 + ∑ i ∈ Finset.range n, s i)) * delta + (∑ i ∈ Finset.range n, m i *
        (mixAt cs (d.lagrange tau) alpha beta (.inst (i + 1)) * gamma⁻¹)) +
        mixAt cs (d.lagrange tau) alpha beta (.inst 0) * gamma⁻¹) * gamma) :
    comb kb (lf2 cs (d.lagrange tau) n s t v rho) 2 = 0 := by
  have hcard : Fintype.card E.Fr = E.fr.p := ZMod.card _
  refine (core' (by rw [hcard]; exact hp5) (comb ka (all1 cs d tau n s t))
    (comb kc (all1 cs d tau n s t)) _
    ((∑ i ∈ Finset.range n, m i * qapB cs (d.lagrange tau) (.inst (i + 1))) +
      qapB cs (d.lagrange tau) (.inst 0))
    ((∑ i ∈ Finset.range n, m i * qapA cs (d.lagrange tau) (.inst (i + 1))) +
      qapA cs (d.lagrange tau) (.inst 0))
    ((∑ i ∈ Finset.range n, m i * qapC cs (d.lagrange tau) (.inst (i + 1))) +
      qapC cs (d.lagrange tau) (.inst 0)) (r * (1 + ∑ i ∈ Finset.range n, s i)) ?_).2
  intro alpha beta gamma delta hgam hdel
  have hx := h alpha beta gamma delta hgam hdel
  have hs : ∑ i ∈ Finset.range n, m i * (mixAt cs (d.lagrange tau) alpha beta (.inst (i + 1)) * gamma⁻¹) =
      ((∑ i ∈ Finset.range n, m i * qapB cs (d.lagrange tau) (.inst (i + 1))) * alpha +
      (∑ i ∈ Finset.range n, m i * qapA cs (d.lagrange tau) (.inst (i + 1))) * beta +
      ∑ i ∈ Finset.range n, m i * qapC cs (d.lagrange tau) (.inst (i + 1))) * gamma⁻¹ := by
    rw [Finset.sum_mul _ _ alpha, Finset.sum_mul _ _ beta, ← Finset.sum_add_distrib,
      ← Finset.sum_add_distrib, Finset.sum_mul]
    refine Finset.sum_congr rfl fun i _ => ?_
    unfold mixAt
    ring
  rw [hs] at hx
  rw [hx]
  unfold mixAt
  ring

/-- the alternating sum over the four points `(alpha, beta)` with entries 0 and 1 -/
def alt {F : Type} [Field F] (f : F → F → F) : F := f 1 1 - f 1 0 - f 0 1 + f 0 0

theorem alt_ev1 {F : Type} [Field F] (f : Fin 11 → F) (g d : F) : alt (fun a b => ev1 f a b g d) = 0 := by
  unfold alt ev1
  ring

theorem alt_mix (cs : CS E.Fr) (u : ℕ → E.Fr) (v : Var) : alt (fun a b => mixAt cs u a b v) = 0 := by
  unfold alt mixAt
  ring

theorem alt_sum {F : Type} [Field F] (n : ℕ) (m : ℕ → F) (f : ℕ → F → F → F) (h : ∀ i, alt (f i) = 0) :
    alt (fun a b => ∑ i ∈ Finset.range n, m i * f i a b) = 0 := by
  have : alt (fun a b => ∑ i ∈ Finset.range n, m i * f i a b) = ∑ i ∈ Finset.range n, m i * alt (f i) := by
    unfold alt
    rw [← Finset.sum_sub_distrib, ← Finset.sum_sub_distrib, ← Finset.sum_add_distrib]
    exact Finset.sum_congr rfl fun i _ => by ring
  rw [this]
  exact Finset.sum_eq_zero fun i _ => by rw [h, mul_zero]

/-- the proof equation -/
def PEq (cs : CS E.Fr) (d : EvalDomain E.Fr) (n q : ℕ) (mm : ℕ → ℕ → E.Fr) (S : Strategy E.Fr) (P : Pt E)
    (r a b : ℕ → E.Fr) : Prop :=
  v1 cs d n q mm S.a P r a b * v2 cs d n q S.b P b = P.alpha * P.beta + v1 cs d n q mm S.c P r a b * P.delta +
    (v1 cs d n q mm S.x P r a b + (∑ i ∈ Finset.range n, v1 cs d n q mm (S.chunk i) P r a b) +
      gel cs d P 0) * P.gamma

/-- the part of the third element of an honest proof that does not depend on the prover's draws, times `delta` -/
def ecl (cs : CS E.Fr) (d : EvalDomain E.Fr) (n : ℕ) (m : ℕ → E.Fr) (P : Pt E) : E.Fr :=
  -(P.alpha * P.beta) - P.gamma * ((∑ i ∈ Finset.range n, m i * gel cs d P (i + 1)) + gel cs d P 0)

theorem cel_eq (cs : CS E.Fr) (d : EvalDomain E.Fr) (n : ℕ) (m : ℕ → E.Fr) (P : Pt E) (hd : P.delta ≠ 0)
    (r a b : E.Fr) : cel cs d n m P r a b = ecl cs d n m P * P.delta⁻¹ +
      (a * b * P.delta⁻¹ - r * (P.gamma * sig n P)) := by
  unfold cel ecl
  field_simp
  ring

/-- The coefficients of the proof equation. -/
theorem proof_coeffs (cs : CS E.Fr) (d : EvalDomain E.Fr) (hp : 3 * d.size < E.fr.p) (n : ℕ)
    (q : ℕ) (mm : ℕ → ℕ → E.Fr) (S : Strategy E.Fr) (mu : ℕ → E.Fr) (ro : E.Fr) (ka : ℕ → E.Fr) (P : Pt E)
    (hP : Good d P)
    (hc : ∀ r a b, v1 cs d n q mm S.x P r a b = (ro + ∑ j ∈ Finset.range q, ka j * r j) * P.delta ∧
      (∀ i < n, v1 cs d n q mm (S.chunk i) P r a b =
        (ro + ∑ j ∈ Finset.range q, ka j * r j) * (P.s i * P.delta) + mu i * gel cs d P (i + 1)))
    (h : ∀ r a b, PEq cs d n q mm S P r a b) :
    let eta := fun k => S.b (off2 cs n + k)
    let U := mf cs d n q mm S.a P + (∑ j ∈ Finset.range q, nu cs d n S.a j * ecl cs d n (mm j) P) * P.delta⁻¹
    let B0 := l2 cs d n S.b P
    U * B0 = P.alpha * P.beta + P.delta * mf cs d n q mm S.c P +
        (∑ j ∈ Finset.range q, nu cs d n S.c j * ecl cs d n (mm j) P) +
        (ro * sig n P * P.delta + (∑ i ∈ Finset.range n, mu i * gel cs d P (i + 1)) + gel cs d P 0) * P.gamma ∧
    (∀ k < q, U * eta k = 0) ∧ (∀ j < q, la cs d n S.a j * B0 = P.delta * la cs d n S.c j) ∧
    (∀ j < q, ∀ k < q, nu cs d n S.a j * eta k = 0) ∧
    (∀ j < q, ∀ k < q, j ≠ k → la cs d n S.a j * eta k = 0) ∧
    (∀ j < q, la cs d n S.a j * eta j + nu cs d n S.a j * P.delta⁻¹ * B0 = nu cs d n S.c j) ∧
    (∀ j < q, (P.delta * wf cs d n S.a j P - nu cs d n S.a j * (P.gamma * sig n P)) * B0 =
      ka j * (P.gamma * sig n P) * P.delta + P.delta * (P.delta * wf cs d n S.c j P) -
        nu cs d n S.c j * P.delta * (P.gamma * sig n P)) ∧
    (∀ j < q, ∀ k < q, (P.delta * wf cs d n S.a j P - nu cs d n S.a j * (P.gamma * sig n P)) * eta k = 0) := by
  intro eta U B0
  have hsz := d.size_pos
  have h2 : (2 : E.Fr) ≠ 0 := by
    intro h0
    have h1 : ((2 : ℕ) : ZMod E.fr.p) = 0 := by exact_mod_cast h0
    rw [ZMod.natCast_eq_zero_iff] at h1
    have := Nat.le_of_dvd (by norm_num) h1
    omega
  have hd := hP.2.2
  have key := bilin h2 q U B0 (P.alpha * P.beta + P.delta * mf cs d n q mm S.c P +
        (∑ j ∈ Finset.range q, nu cs d n S.c j * ecl cs d n (mm j) P) +
        (ro * sig n P * P.delta + (∑ i ∈ Finset.range n, mu i * gel cs d P (i + 1)) + gel cs d P 0) * P.gamma)
    P.delta (P.gamma * sig n P) (la cs d n S.a) (nu cs d n S.a) eta (fun j => wf cs d n S.a j P)
    (la cs d n S.c) (nu cs d n S.c) ka (fun j => wf cs d n S.c j P) (by
      intro a b r
      have hx := h r a b
      unfold PEq at hx
      obtain ⟨hc1, hc2⟩ := hc r a b
      have hv : ∀ k : ℕ → E.Fr, v1 cs d n q mm k P r a b = mf cs d n q mm k P +
          (∑ j ∈ Finset.range q, nu cs d n k j * ecl cs d n (mm j) P) * P.delta⁻¹ +
          ∑ j ∈ Finset.range q, (r j * (P.delta * wf cs d n k j P) + la cs d n k j * a j +
            nu cs d n k j * (a j * b j * P.delta⁻¹ - r j * (P.gamma * sig n P))) := by
        intro k
        rw [v1_split, add_assoc, Finset.sum_mul, ← Finset.sum_add_distrib]
        congr 1
        refine Finset.sum_congr rfl fun j _ => ?_
        rw [cel_eq _ _ _ _ _ hd]
        unfold la nu
        ring
      rw [hv S.a, hc1, Finset.sum_congr rfl fun i hi => hc2 i (Finset.mem_range.mp hi)] at hx
      unfold v2 at hx
      refine hx.trans ?_
      rw [hv S.c]
      have e1 : ∑ i ∈ Finset.range n, ((ro + ∑ j ∈ Finset.range q, ka j * r j) * (P.s i * P.delta) +
          mu i * gel cs d P (i + 1)) = (ro + ∑ j ∈ Finset.range q, ka j * r j) * (sig n P - 1) * P.delta +
          ∑ i ∈ Finset.range n, mu i * gel cs d P (i + 1) := by
        rw [Finset.sum_add_distrib, ← Finset.mul_sum, ← Finset.sum_mul]
        unfold sig
        ring
      rw [e1]
      have e2 : ∑ j ∈ Finset.range q, (ka j * r j * (P.gamma * sig n P) * P.delta + P.delta * (r j * (P.delta *
          wf cs d n S.c j P) + la cs d n S.c j * a j) +
          nu cs d n S.c j * (a j * b j - P.delta * r j * (P.gamma * sig n P))) =
          (∑ j ∈ Finset.range q, ka j * r j) * ((P.gamma * sig n P) * P.delta) +
          P.delta * ∑ j ∈ Finset.range q, (r j * (P.delta * wf cs d n S.c j P) + la cs d n S.c j * a j +
            nu cs d n S.c j * (a j * b j * P.delta⁻¹ - r j * (P.gamma * sig n P))) := by
        rw [Finset.sum_mul, Finset.mul_sum, ← Finset.sum_add_distrib]
        refine Finset.sum_congr rfl fun j _ => ?_
        field_simp
        ring
      rw [e2]
      have e3 : P.delta⁻¹ * P.delta = 1 := inv_mul_cancel₀ hd
      linear_combination (∑ j ∈ Finset.range q, nu cs d n S.c j * ecl cs d n (mm j) P) * e3)
  obtain ⟨k1, k2, k3, k4, k5, k6, k7, k8⟩ := key
  refine ⟨k1, k2, k3, ?_, k5, k6, k7, k8⟩
  intro j hj k hk
  exact (mul_eq_zero.mp (k4 j hj k hk)).resolve_right (inv_ne_zero hd)

/-- What an accepted ciphertext contains: chunks that satisfy the circuit, with randomness that is independent
of the honest users' randomness; or the chunks of one honest ciphertext, with its randomness shifted. -/
theorem proof_extract (cs : CS E.Fr) (d : EvalDomain E.Fr) (hN : cs.cons.length + cs.numInst ≤ d.size)
    (hp : 3 * d.size < E.fr.p) (hp5 : 5 ≤ E.fr.p) (n : ℕ) (hn : cs.numInst = n + 1)
    (q : ℕ) (mm : ℕ → ℕ → E.Fr) (S : Strategy E.Fr) (mu : ℕ → E.Fr) (ro : E.Fr) (ka : ℕ → E.Fr)
    (hc : ∀ P, Good d P → ∀ r a b,
      v1 cs d n q mm S.x P r a b = (ro + ∑ j ∈ Finset.range q, ka j * r j) * P.delta ∧
      (∀ i < n, v1 cs d n q mm (S.chunk i) P r a b =
        (ro + ∑ j ∈ Finset.range q, ka j * r j) * (P.s i * P.delta) + mu i * gel cs d P (i + 1)))
    (h : ∀ P, Good d P → ∀ r a b, PEq cs d n q mm S P r a b) :
    ((∀ j < q, ka j = 0) ∧ ∃ wit : List E.Fr,
      ∀ row ∈ cs.cons, row.Holds (lookup (1 :: tab n mu)) (lookup wit)) ∨
    ∃ k < q, (∀ i < n, mu i = mm k i) ∧ ∀ j < q, ka j = if j = k then 1 else 0 := by
  have hsz := d.size_pos
  have h2 : (2 : E.Fr) ≠ 0 := by
    intro h0
    have h1 : ((2 : ℕ) : ZMod E.fr.p) = 0 := by exact_mod_cast h0
    rw [ZMod.natCast_eq_zero_iff] at h1
    have := Nat.le_of_dvd (by norm_num) h1
    omega
  have hone : (-1 : E.Fr) ≠ 0 := neg_ne_zero.mpr one_ne_zero
  obtain ⟨tau0, ht0⟩ := exists_outside d hp
  have co := fun P hP => proof_coeffs cs d hp n q mm S mu ro ka P hP (hc P hP) (h P hP)
  dsimp only at co
  obtain ⟨ka0, hka0⟩ := mf_lin cs d n hn q mm S.a
  obtain ⟨kc0, hkc0⟩ := mf_lin cs d n hn q mm S.c
  let z : ℕ → E.Fr := fun _ => 0
  let pt : E.Fr → E.Fr → E.Fr → E.Fr → E.Fr → Pt E := fun tau al be ga de => ⟨tau, al, be, ga, de, 0, z, z, z⟩
  have hpt : ∀ tau al be ga de, d.vanishing tau ≠ 0 → ga ≠ 0 → de ≠ 0 → Good d (pt tau al be ga de) :=
    fun tau al be ga de h1 h3 h4 => ⟨h1, h3, h4⟩
  have hsig : ∀ tau al be ga de, sig n (pt tau al be ga de) = 1 := by
    intros
    simp [sig, pt, z]
  -- the product `alpha beta` cannot come from linear combinations of published elements
  have noab : ∀ (x1 x2 th : E.Fr) (m1 m2 : ℕ → E.Fr) (c1 c2 : E.Fr),
      (∀ al be, x1 * l1 cs d n ka0 (pt tau0 al be 1 1) = (1 - th) * (al * be) +
        x2 * l1 cs d n kc0 (pt tau0 al be 1 1) + c1 + (∑ i ∈ Finset.range n, m1 i *
          gel cs d (pt tau0 al be 1 1) (i + 1)) + c2 * gel cs d (pt tau0 al be 1 1) 0 +
          ∑ i ∈ Finset.range n, m2 i * gel cs d (pt tau0 al be 1 1) (i + 1)) → th = 1 := by
    intro x1 x2 th m1 m2 c1 c2 hx
    have ea := alt_ev1 (comb ka0 (all1 cs d tau0 n z z)) 1 1
    have ec := alt_ev1 (comb kc0 (all1 cs d tau0 n z z)) 1 1
    have e0 := alt_mix cs (d.lagrange tau0) (.inst 0)
    have em1 := alt_sum n m1 (fun i a b => mixAt cs (d.lagrange tau0) a b (.inst (i + 1)))
      fun i => alt_mix cs _ _
    have em2 := alt_sum n m2 (fun i a b => mixAt cs (d.lagrange tau0) a b (.inst (i + 1)))
      fun i => alt_mix cs _ _
    have h11 := hx 1 1
    have h10 := hx 1 0
    have h01 := hx 0 1
    have h00 := hx 0 0
    simp only [l1, gel, pt, inv_one, mul_one, mul_zero, zero_mul] at h11 h10 h01 h00
    unfold alt at ea ec e0 em1 em2
    linear_combination h11 - h10 - h01 + h00 - x1 * ea + x2 * ec + c2 * e0 + em1 + em2
  by_cases heta : ∀ k < q, S.b (off2 cs n + k) = 0
  · -- no second element of an honest proof is used
    left
    have zero : ∀ j < q, la cs d n S.a j = 0 ∧ nu cs d n S.a j = 0 := by
      by_contra hcon
      have hcon : ∃ c : E.Fr, ∀ P, Good d P → l2 cs d n S.b P = c * P.delta := by
        push Not at hcon
        obtain ⟨j, hj, hne⟩ := hcon
        by_cases hl : la cs d n S.a j = 0
        · refine ⟨nu cs d n S.c j * (nu cs d n S.a j)⁻¹, fun P hP => ?_⟩
          have := (co P hP).2.2.2.2.2.1 j hj
          rw [heta j hj, hl] at this
          have hd := hP.2.2
          have hne := hne hl
          field_simp at this ⊢
          linear_combination this
        · refine ⟨la cs d n S.c j * (la cs d n S.a j)⁻¹, fun P hP => ?_⟩
          have := (co P hP).2.2.1 j hj
          field_simp
          linear_combination this
      obtain ⟨c, hB⟩ := hcon
      have hnu : ∀ j < q, nu cs d n S.c j = c * nu cs d n S.a j := by
        intro j hj
        have hP := pt0_good ht0 z z
        have := (co _ hP).2.2.2.2.2.1 j hj
        rw [heta j hj, hB _ hP] at this
        simp only [pt0, inv_one, mul_one] at this
        linear_combination -this
      have := noab c 1 0 mu z ro 1 (by
        intro al be
        have hP := hpt tau0 al be 1 1 ht0 one_ne_zero one_ne_zero
        have e := (co _ hP).1
        have es : ∑ j ∈ Finset.range q, nu cs d n S.c j * ecl cs d n (mm j) (pt tau0 al be 1 1) =
            c * ∑ j ∈ Finset.range q, nu cs d n S.a j * ecl cs d n (mm j) (pt tau0 al be 1 1) := by
          rw [Finset.mul_sum]
          exact Finset.sum_congr rfl fun j hj => by rw [hnu j (Finset.mem_range.mp hj), mul_assoc]
        rw [hB _ hP, es, hka0, hkc0, hsig] at e
        simp only [show (pt tau0 al be 1 1).delta = 1 from rfl, show (pt tau0 al be 1 1).gamma = 1 from rfl,
          show (pt tau0 al be 1 1).alpha = al from rfl, show (pt tau0 al be 1 1).beta = be from rfl,
          inv_one, mul_one, one_mul] at e
        simp only [z, zero_mul, Finset.sum_const_zero, add_zero, one_mul, sub_zero]
        linear_combination e)
      exact zero_ne_one this
    have zero' : ∀ j < q, nu cs d n S.c j = 0 := by
      intro j hj
      have := (co _ (pt0_good ht0 z z)).2.2.2.2.2.1 j hj
      rw [(zero j hj).1, (zero j hj).2] at this
      simpa using this.symm
    have eqn : ∀ P, Good d P → l1 cs d n ka0 P * l2 cs d n S.b P = P.alpha * P.beta +
        l1 cs d n kc0 P * P.delta + (ro * sig n P * P.delta +
          (∑ i ∈ Finset.range n, mu i * gel cs d P (i + 1)) + gel cs d P 0) * P.gamma := by
      intro P hP
      have e := (co P hP).1
      have s1 : ∑ j ∈ Finset.range q, nu cs d n S.a j * ecl cs d n (mm j) P = 0 :=
        Finset.sum_eq_zero fun j hj => by rw [(zero j (Finset.mem_range.mp hj)).2, zero_mul]
      have s2 : ∑ j ∈ Finset.range q, nu cs d n S.c j * ecl cs d n (mm j) P = 0 :=
        Finset.sum_eq_zero fun j hj => by rw [zero' j (Finset.mem_range.mp hj), zero_mul]
      rw [s1, s2, hka0, hkc0] at e
      linear_combination e
    have hb2 := b2_zero cs d hp5 n z z z 0 tau0 ka0 S.b kc0 mu ro (by
      intro al be ga de h3 h4
      exact eqn (pt tau0 al be ga de) (hpt _ _ _ _ _ ht0 h3 h4))
    refine ⟨?_, tab cs.numWit kc0, ?_⟩
    · intro j hj
      have e : ∀ ga : E.Fr, ga ≠ 0 → wf cs d n S.a j (pt tau0 0 0 ga 1) * l2 cs d n S.b (pt tau0 0 0 ga 1) =
          ka j * ga + wf cs d n S.c j (pt tau0 0 0 ga 1) := by
        intro ga hga
        have := (co _ (hpt tau0 0 0 ga 1 ht0 hga one_ne_zero)).2.2.2.2.2.2.1 j hj
        rw [(zero j hj).2, zero' j hj, hsig] at this
        simp only [show (pt tau0 0 0 ga 1).delta = 1 from rfl, show (pt tau0 0 0 ga 1).gamma = ga from rfl,
          mul_one, one_mul, zero_mul, sub_zero] at this
        exact this
      have e1 := e 1 one_ne_zero
      have e2 := e (-1) hone
      have hl2 : l2 cs d n S.b (pt tau0 0 0 (-1) 1) = l2 cs d n S.b (pt tau0 0 0 1 1) := by
        simp only [l2, pt, ev2]
        rw [hb2]
        ring
      have hw1 : ∀ k, wf cs d n k j (pt tau0 0 0 (-1) 1) = wf cs d n k j (pt tau0 0 0 1 1) := fun k => rfl
      rw [hl2, hw1, hw1] at e2
      have : (2 : E.Fr) * ka j = 0 := by linear_combination e2 - e1
      exact (mul_eq_zero.mp this).resolve_left h2
    · refine witness_of_accepted cs d hN hp hp5 n hn z z z 0 ka0 S.b kc0 mu ro ?_
      intro tau al be ga de h1 h3 h4
      exact eqn (pt tau al be ga de) (hpt _ _ _ _ _ h1 h3 h4)
  · -- the second element of honest proof `k` is used
    right
    push Not at heta
    obtain ⟨k, hk, hne⟩ := heta
    have hP0 := pt0_good ht0 z z
    have znu : ∀ j < q, nu cs d n S.a j = 0 := fun j hj =>
      (mul_eq_zero.mp ((co _ hP0).2.2.2.1 j hj k hk)).resolve_right hne
    have zla : ∀ j < q, j ≠ k → la cs d n S.a j = 0 := fun j hj hjk =>
      (mul_eq_zero.mp ((co _ hP0).2.2.2.2.1 j hj k hk hjk)).resolve_right hne
    have znu' : ∀ j < q, j ≠ k → nu cs d n S.c j = 0 := by
      intro j hj hjk
      have := (co _ hP0).2.2.2.2.2.1 j hj
      rw [zla j hj hjk, znu j hj] at this
      simpa using this.symm
    have hW : ∀ P, Good d P → P.alpha * P.beta + P.delta * l1 cs d n kc0 P +
        nu cs d n S.c k * ecl cs d n (mm k) P +
        (ro * sig n P * P.delta + (∑ i ∈ Finset.range n, mu i * gel cs d P (i + 1)) + gel cs d P 0) * P.gamma = 0 := by
      intro P hP
      have e := (co P hP).1
      have u := (mul_eq_zero.mp ((co P hP).2.1 k hk)).resolve_right hne
      have es : ∑ j ∈ Finset.range q, nu cs d n S.c j * ecl cs d n (mm j) P =
          nu cs d n S.c k * ecl cs d n (mm k) P :=
        Finset.sum_eq_single k (fun j hj hjk => by rw [znu' j (Finset.mem_range.mp hj) hjk, zero_mul])
          fun hn => absurd (Finset.mem_range.mpr hk) hn
      rw [u, zero_mul, hkc0, es] at e
      exact e.symm
    have th1 : nu cs d n S.c k = 1 := by
      refine noab 0 1 (nu cs d n S.c k) mu (fun i => -(nu cs d n S.c k * mm k i)) ro (1 - nu cs d n S.c k) ?_
      intro al be
      have e := hW _ (hpt tau0 al be 1 1 ht0 one_ne_zero one_ne_zero)
      rw [hsig] at e
      unfold ecl at e
      simp only [show (pt tau0 al be 1 1).delta = 1 from rfl, show (pt tau0 al be 1 1).gamma = 1 from rfl,
        show (pt tau0 al be 1 1).alpha = al from rfl, show (pt tau0 al be 1 1).beta = be from rfl,
        inv_one, mul_one, one_mul] at e
      simp only [neg_mul, Finset.sum_neg_distrib, mul_assoc, ← Finset.mul_sum]
      linear_combination -e
    refine ⟨k, hk, ?_, ?_⟩
    · -- the chunks are those of the honest ciphertext
      let D : ℕ → E.Fr := fun i => match i with
        | 0 => 0
        | i + 1 => mu i - mm k i
      have hcard : Fintype.card E.Fr = E.fr.p := ZMod.card _
      have := inst_indep' cs d hN (by rw [hcard]; exact hp) D kc0 (by
        intro tau htau
        obtain ⟨-, c9, -⟩ := comb_components kc0 cs d tau n z z
        have e : ∀ be de : E.Fr, de ≠ 0 → de * ev1 (comb kc0 (all1 cs d tau n z z)) 0 be 1 de + ro * de +
            ∑ i ∈ Finset.range n, (mu i - mm k i) *
              (be * qapA cs (d.lagrange tau) (.inst (i + 1)) + qapC cs (d.lagrange tau) (.inst (i + 1))) = 0 := by
          intro be de hde
          have e := hW _ (hpt tau 0 be 1 de htau one_ne_zero hde)
          rw [hsig, th1] at e
          unfold ecl at e
          simp only [show (pt tau 0 be 1 de).delta = de from rfl, show (pt tau 0 be 1 de).gamma = 1 from rfl,
            show (pt tau 0 be 1 de).alpha = 0 from rfl, show (pt tau 0 be 1 de).beta = be from rfl,
            mul_one, one_mul, zero_mul] at e
          have hs : ∑ i ∈ Finset.range n, (mu i - mm k i) * (be * qapA cs (d.lagrange tau) (.inst (i + 1)) +
              qapC cs (d.lagrange tau) (.inst (i + 1))) =
              (∑ i ∈ Finset.range n, mu i * gel cs d (pt tau 0 be 1 de) (i + 1)) -
              ∑ i ∈ Finset.range n, mm k i * gel cs d (pt tau 0 be 1 de) (i + 1) := by
            rw [← Finset.sum_sub_distrib]
            refine Finset.sum_congr rfl fun i _ => ?_
            simp only [gel, pt, mixAt, inv_one, mul_one, zero_mul]
            ring
          have hl : l1 cs d n kc0 (pt tau 0 be 1 de) = ev1 (comb kc0 (all1 cs d tau n z z)) 0 be 1 de := rfl
          rw [hs, ← hl]
          linear_combination e
        have hsA : ∀ be : E.Fr, ∑ i ∈ Finset.range n, (mu i - mm k i) *
              (be * qapA cs (d.lagrange tau) (.inst (i + 1)) + qapC cs (d.lagrange tau) (.inst (i + 1))) =
            be * (∑ i ∈ Finset.range n, (mu i - mm k i) * qapA cs (d.lagrange tau) (.inst (i + 1))) +
            ∑ i ∈ Finset.range n, (mu i - mm k i) * qapC cs (d.lagrange tau) (.inst (i + 1)) := by
          intro be
          rw [Finset.mul_sum, ← Finset.sum_add_distrib]
          exact Finset.sum_congr rfl fun i _ => by ring
        have e11 := e 1 1 one_ne_zero
        have e01 := e 0 1 one_ne_zero
        have e1m := e 1 (-1) hone
        have e0m := e 0 (-1) hone
        rw [hsA] at e11 e01 e1m e0m
        have c9' : comb kc0 (all1 cs d tau n z z) 9 = _ := c9
        rw [hn, Finset.sum_range_succ', ← c9']
        simp only [D, zero_mul, add_zero]
        have hinv : (-1 : E.Fr)⁻¹ = -1 := by
          rw [inv_neg, inv_one]
        simp only [ev1, hinv, inv_one, mul_one, zero_mul, mul_zero, one_mul, add_zero, zero_add] at e11 e01 e1m e0m
        have : (2 : E.Fr) * ((∑ i ∈ Finset.range n, (mu i - mm k i) * qapA cs (d.lagrange tau) (.inst (i + 1))) +
            comb kc0 (all1 cs d tau n z z) 9) = 0 := by
          linear_combination e11 - e01 + e1m - e0m
        exact (mul_eq_zero.mp this).resolve_left h2)
      intro i hi
      have := this (i + 1) (by omega)
      exact sub_eq_zero.mp this
    · intro j hj
      have hwa : ∀ P, Good d P → wf cs d n S.a j P = 0 := by
        intro P hP
        have := (mul_eq_zero.mp ((co P hP).2.2.2.2.2.2.2 j hj k hk)).resolve_right hne
        rw [znu j hj, zero_mul, sub_zero] at this
        exact (mul_eq_zero.mp this).resolve_left hP.2.2
      have e : ∀ ga : E.Fr, ga ≠ 0 → ka j * ga + wf cs d n S.c j (pt tau0 0 0 ga 1) = nu cs d n S.c j * ga := by
        intro ga hga
        have hP := hpt tau0 0 0 ga 1 ht0 hga one_ne_zero
        have := (co _ hP).2.2.2.2.2.2.1 j hj
        rw [hwa _ hP, znu j hj, hsig] at this
        simp only [show (pt tau0 0 0 ga 1).delta = 1 from rfl, show (pt tau0 0 0 ga 1).gamma = ga from rfl,
          mul_one, one_mul, zero_mul, mul_zero, sub_zero] at this
        linear_combination -this
      have e1 := e 1 one_ne_zero
      have e2 := e (-1) hone
      have hw1 : wf cs d n S.c j (pt tau0 0 0 (-1) 1) = wf cs d n S.c j (pt tau0 0 0 1 1) := rfl
      rw [hw1] at e2
      have h3 : (2 : E.Fr) * (ka j - nu cs d n S.c j) = 0 := by linear_combination e1 - e2
      have h3 := sub_eq_zero.mp ((mul_eq_zero.mp h3).resolve_left h2)
      rw [h3]
      by_cases hjk : j = k
      · rw [if_pos hjk, hjk, th1]
      · rw [if_neg hjk, znu' j hj hjk]

end Nm
end Verif
