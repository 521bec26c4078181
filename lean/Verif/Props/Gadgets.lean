/-
Property C42, continued: the boolean gadgets behind the bit-size circuit do what their names say for every kind of
operand (constant or allocated), also for those that the circuit never meets; and the Lagrange coefficients behind
`generate_srs` interpolate at every point, also inside the domain.
-/
import Verif.Model.Circuit
import Verif.Lemmas.Fft

namespace Verif

namespace Spec
variable {F : Type} [Field F]

/-- the value of a bit under an assignment -/
def bitVal (x w : ℕ → F) : BoolVar → F
  | .const true => 1
  | .const false => 0
  | .is (.inst k) _ => x k
  | .is (.wit k) _ => w k

end Spec
open Spec

section
variable {F : Type} [Field F]

theorem eval_nil (x w : ℕ → F) : LC.eval x w ([] : LC F) = 0 := rfl

theorem eval_cons (x w : ℕ → F) (c : F) (v : Var) (l : LC F) :
    LC.eval x w ((c, v) :: l) = c * v.eval x w + LC.eval x w l := by
  simp [LC.eval]

theorem eval_append (x w : ℕ → F) (l l' : LC F) : LC.eval x w (l ++ l') = LC.eval x w l + LC.eval x w l' := by
  simp [LC.eval]

theorem bitVal_is (x w : ℕ → F) (v : Var) (o : Option Bool) : bitVal x w (.is v o) = v.eval x w := by
  cases v <;> rfl

/-- **C42** `Boolean::lc` has the value of the bit. -/
theorem C42_gadget_lc (x w : ℕ → F) (hx : x 0 = 1) (p : BoolVar) : LC.eval x w p.lc = bitVal x w p := by
  rcases p with ⟨_ | _⟩ | ⟨v, o⟩
  · rfl
  · simp [BoolVar.lc, eval_cons, eval_nil, Var.eval, bitVal, hx]
  · simp [BoolVar.lc, eval_cons, eval_nil, bitVal_is]

/-- **C42** The packing sum has the value `bit_0 + 2 bit_1 + 4 bit_2 + ...`. -/
theorem C42_gadget_pack (x w : ℕ → F) (hx : x 0 = 1) (bits : List BoolVar) :
    LC.eval x w (packLC 1 bits) = ∑ i ∈ Finset.range bits.length, 2 ^ i * (bits.map (bitVal x w)).getD i 0 := by
  have key : ∀ (c : F), LC.eval x w (packLC c bits) =
      c * ∑ i ∈ Finset.range bits.length, 2 ^ i * (bits.map (bitVal x w)).getD i 0 := by
    induction bits with
    | nil => intro c; simp [packLC, eval_nil]
    | cons p ps ih =>
      intro c
      rw [packLC, eval_append, ih, List.length_cons, Finset.sum_range_succ']
      have h1 : ∀ l : LC F, LC.eval x w (l.map fun t => (t.1 * c, t.2)) = c * LC.eval x w l := by
        intro l
        induction l with
        | nil => simp [eval_nil]
        | cons t l ih => obtain ⟨a, v⟩ := t; rw [List.map_cons, eval_cons, eval_cons, ih]; ring
      rw [h1, C42_gadget_lc x w hx]
      simp only [List.map_cons, List.getD_cons_succ, List.getD_cons_zero, pow_zero, one_mul]
      rw [mul_add, Finset.mul_sum, Finset.mul_sum, Finset.sum_congr rfl fun i _ => ?_]
      · rw [add_comm]
      · rw [pow_succ]; ring
  rw [key, one_mul]

/-- **C42** `Boolean::or`, for constants and allocated bits: the new constraints force the result to be the
disjunction. -/
theorem C42_gadget_or (cs cs' : CS F) (p q r : BoolVar) (h : BoolVar.or cs p q = .ok (r, cs')) :
    (∃ new, cs'.cons = cs.cons ++ new) ∧
    ∀ x w : ℕ → F, Satisfies x w cs'.cons → (bitVal x w p = 0 ∨ bitVal x w p = 1) →
      (bitVal x w q = 0 ∨ bitVal x w q = 1) →
      (bitVal x w r = 0 ∨ bitVal x w r = 1) ∧ (bitVal x w r = 1 ↔ bitVal x w p = 1 ∨ bitVal x w q = 1) := by
  have h01 : (0 : F) ≠ 1 := zero_ne_one
  rcases p with ⟨_ | _⟩ | ⟨a, va⟩
  · simp only [BoolVar.or, Res.ok.injEq, Prod.mk.injEq] at h
    obtain ⟨rfl, rfl⟩ := h
    exact ⟨⟨[], by simp⟩, fun x w _ _ hq => ⟨hq, by simp [bitVal]⟩⟩
  · have : r = .const true ∧ cs' = cs := by
      rcases q with ⟨_ | _⟩ | ⟨c, vc⟩ <;>
        (simp only [BoolVar.or, Res.ok.injEq, Prod.mk.injEq] at h; exact ⟨h.1.symm, h.2.symm⟩)
    obtain ⟨rfl, rfl⟩ := this
    exact ⟨⟨[], by simp⟩, fun x w _ _ hq => ⟨Or.inr rfl, by simp [bitVal]⟩⟩
  · rcases q with ⟨_ | _⟩ | ⟨c, vc⟩
    · simp only [BoolVar.or, Res.ok.injEq, Prod.mk.injEq] at h
      obtain ⟨rfl, rfl⟩ := h
      refine ⟨⟨[], by simp⟩, fun x w _ hp _ => ⟨hp, ?_⟩⟩
      rw [show bitVal x w (.const false) = (0 : F) from rfl]
      simp
    · simp only [BoolVar.or, Res.ok.injEq, Prod.mk.injEq] at h
      obtain ⟨rfl, rfl⟩ := h
      exact ⟨⟨[], by simp⟩, fun x w _ _ _ => ⟨Or.inr rfl, by simp [bitVal]⟩⟩
    · simp only [BoolVar.or] at h
      obtain ⟨⟨e, cs1⟩, h1, h2⟩ := Res.bind_eq_ok.mp h
      simp only [Res.pure_eq, Res.ok.injEq, Prod.mk.injEq] at h2
      obtain ⟨rfl, rfl⟩ := h2
      have hc : cs1.cons = cs.cons := by
        unfold CS.newWitness at h1
        split at h1
        · cases h1; rfl
        · obtain ⟨v, -, h3⟩ := Res.bind_eq_ok.mp h1
          cases h3; rfl
      refine ⟨⟨[⟨[(1, .one), (-1, a)], [(1, .one), (-1, c)], [(1, .one), (-1, e)]⟩], by
        simp only [CS.enforce]; rw [hc]⟩, fun x w hs hp hq => ?_⟩
      have hn := hs.2 ⟨[(1, .one), (-1, a)], [(1, .one), (-1, c)], [(1, .one), (-1, e)]⟩
        (by simp only [CS.enforce]; exact List.mem_append_right _ (List.mem_singleton.mpr rfl))
      simp only [R1C.Holds, eval_cons, eval_nil] at hn
      rw [show Var.one.eval x w = (1 : F) from hs.1] at hn
      rw [bitVal_is] at hp hq ⊢
      rw [bitVal_is, bitVal_is]
      generalize a.eval x w = α at *
      generalize c.eval x w = β at *
      generalize e.eval x w = γ at *
      have hγ : γ = α + β - α * β := by linear_combination hn
      rcases hp with rfl | rfl <;> rcases hq with rfl | rfl <;> simp [hγ]

example : ∃ r cs', BoolVar.or (F := ℚ) (CS.new false) (.is (.wit 0) (some true)) (.is (.wit 1) (some false)) = .ok (r, cs') ∧
    Satisfies (fun _ => 1) (fun k => if k = 1 then 0 else 1) cs'.cons :=
  ⟨_, _, rfl, rfl, by
    intro r hr
    simp only [CS.enforce, CS.new, List.nil_append, List.mem_singleton] at hr
    subst hr
    simp [R1C.Holds, LC.eval, Var.eval]⟩

/-- **C42** `Boolean::or` on two allocated bits allocates one witness; outside setup mode the value assigned to it, and noted
for later, is the disjunction of the noted values, and a value that is missing is an error. -/
theorem C42_gadget_or_value (cs : CS F) (hcs : cs.setup = false) (a c : Var) (u v : Option Bool) :
    (∀ p q, u = some p → v = some q → ∃ cs', BoolVar.or cs (.is a u) (.is c v) =
      .ok (.is (.wit cs.numWit) (some (p || q)), cs') ∧
      cs'.numWit = cs.numWit + 1 ∧ cs'.numInst = cs.numInst ∧ cs'.inst = cs.inst ∧
      cs'.wit = cs.wit ++ [if p || q then 1 else 0]) ∧
    ((u = none ∨ v = none) → BoolVar.or cs (.is a u) (.is c v) = .err .assignmentMissing) := by
  constructor
  · rintro p q rfl rfl
    have h : BoolVar.or cs (.is a (some p)) (.is c (some q)) = .ok (.is (.wit cs.numWit) (some (p || q)),
        { cs with numWit := cs.numWit + 1, wit := cs.wit ++ [ofBool (p || q)],
                  cons := cs.cons ++ [⟨[(1, .one), (-1, a)], [(1, .one), (-1, c)], [(1, .one), (-1, .wit cs.numWit)]⟩] }) := by
      simp only [BoolVar.or, CS.newWitness, hcs]
      rfl
    exact ⟨_, h, rfl, rfl, rfl, rfl⟩
  · intro h
    simp only [BoolVar.or, CS.newWitness, hcs]
    rcases h with rfl | rfl
    · rfl
    · cases u <;> rfl

/-- **C42** `enforce_equal(&Boolean::constant(false))`: it fails for the constant `true` only, and otherwise exactly the
assignments that give the bit the value zero satisfy the result. -/
theorem C42_gadget_enforce_false (cs : CS F) (p : BoolVar) :
    (BoolVar.enforceFalse cs p = .err .assignmentMissing ↔ p = .const true) ∧
    (p ≠ .const true → ∃ cs', BoolVar.enforceFalse cs p = .ok cs' ∧ cs'.numInst = cs.numInst ∧ cs'.numWit = cs.numWit ∧
      ∀ x w : ℕ → F, Satisfies x w cs'.cons ↔ Satisfies x w cs.cons ∧ bitVal x w p = 0) := by
  rcases p with ⟨_ | _⟩ | ⟨v, o⟩
  · refine ⟨by simp [BoolVar.enforceFalse], fun _ => ⟨cs, rfl, rfl, rfl, fun x w => ?_⟩⟩
    simp [bitVal]
  · exact ⟨by simp [BoolVar.enforceFalse], fun h => absurd rfl h⟩
  · refine ⟨by simp [BoolVar.enforceFalse], fun _ => ⟨_, rfl, rfl, rfl, fun x w => ?_⟩⟩
    unfold Satisfies
    simp only [CS.enforce, List.mem_append, List.mem_singleton]
    constructor
    · rintro ⟨h0, h⟩
      refine ⟨⟨h0, fun r hr => h r (Or.inl hr)⟩, ?_⟩
      have := h _ (Or.inr rfl)
      simp only [R1C.Holds, eval_cons, eval_nil] at this
      rw [show Var.one.eval x w = (1 : F) from h0] at this
      rw [bitVal_is]
      linear_combination this
    · rintro ⟨⟨h0, h⟩, hp⟩
      refine ⟨h0, fun r hr => ?_⟩
      rcases hr with hr | rfl
      · exact h r hr
      · rw [bitVal_is] at hp
        simp only [R1C.Holds, eval_cons, eval_nil, hp]
        ring

/-- **C49** The Lagrange coefficients that `generate_srs` computes at the evaluation point interpolate at every point of
the field: for every polynomial of degree below the size of the domain, the combination of its values on the
domain is its value at the point. -/
theorem C49_lagrange_interpolates [DecidableEq F] (d : EvalDomain F) (t : F) (P : Polynomial F)
    (hP : P.natDegree < d.size) :
    ∑ i ∈ Finset.range d.size, d.lagrange t i * P.eval (d.omega ^ i) = P.eval t := by
  have hpoly : ∀ j < d.size, (d.poly fun i => P.eval (d.omega ^ i)).eval (d.omega ^ j) = P.eval (d.omega ^ j) :=
    fun j hj => d.eval_omega _ j hj
  have heq : d.poly (fun i => P.eval (d.omega ^ i)) = P := by
    refine Polynomial.eq_of_natDegree_lt_card_of_eval_eq' _ _ ((Finset.range d.size).image fun j => d.omega ^ j) ?_ ?_
    · intro x hx
      obtain ⟨j, hj, rfl⟩ := Finset.mem_image.mp hx
      exact hpoly j (Finset.mem_range.mp hj)
    · rw [Finset.card_image_of_injOn, Finset.card_range]
      · have := d.poly_natDegree fun i => P.eval (d.omega ^ i)
        have := d.size_pos
        omega
      · intro i hi j hj h
        exact d.prim.pow_inj (Finset.mem_range.mp (Finset.mem_coe.mp hi)) (Finset.mem_range.mp (Finset.mem_coe.mp hj)) h
  by_cases ht : d.vanishing t = 0
  · have : NeZero d.size := ⟨d.size_pos.ne'⟩
    obtain ⟨j, hj, rfl⟩ := d.prim.eq_pow_of_pow_eq_one (sub_eq_zero.mp ht)
    rw [Finset.sum_eq_single j]
    · unfold EvalDomain.lagrange
      rw [if_pos ht, if_pos rfl, one_mul]
    · intro i hi hne
      unfold EvalDomain.lagrange
      rw [if_pos ht, if_neg, zero_mul]
      exact fun h => hne (d.prim.pow_inj (Finset.mem_range.mp hi) hj h)
    · exact fun h => absurd (Finset.mem_range.mpr hj) h
  · rw [d.lagrange_sum _ t ht, heq]

end

example : ∃ d : EvalDomain ℚ, d.size = 2 ∧ (Polynomial.X : Polynomial ℚ).natDegree < d.size :=
  ⟨⟨2, -1, by norm_num, IsPrimitiveRoot.neg_one 0 (by norm_num)⟩, rfl, by simp⟩

end Verif
