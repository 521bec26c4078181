/-
Helper lemmas: Groth16 setup, prover and verifier.
-/
import Verif.Model.Groth16
import Verif.Lemmas.Fft
import Verif.Lemmas.Basic
import Mathlib.Tactic.LinearCombination
import Mathlib.Tactic.Module

namespace Verif

section qap
variable {F : Type} [Field F]

theorem lookup_of_le (l : List F) (i : ℕ) (h : l.length ≤ i) : lookup l i = 0 := by
  unfold lookup
  rw [List.getD_eq_getElem?_getD, List.getElem?_eq_none h]
  rfl

/-- sum of `f` over all variables, weighted by the assignment -/
def wsum (cs : CS F) (f : Var → F) : F :=
  (∑ i ∈ Finset.range cs.numInst, lookup cs.inst i * f (.inst i)) +
    ∑ i ∈ Finset.range cs.numWit, lookup cs.wit i * f (.wit i)

theorem wsum_coeff (cs : CS F) (hi : cs.inst.length = cs.numInst)
    (hw : cs.wit.length = cs.numWit) (lc : LC F) :
    wsum cs (LC.coeff lc) = lc.eval (lookup cs.inst) (lookup cs.wit) := by
  induction lc with
  | nil => simp [wsum, LC.coeff, LC.eval]
  | cons t lc ih =>
    obtain ⟨c, v⟩ := t
    have h1 : wsum cs (LC.coeff ((c, v) :: lc)) =
        wsum cs (fun u => if v = u then c else 0) + wsum cs (LC.coeff lc) := by
      simp only [wsum, LC.coeff, List.map_cons, List.sum_cons, mul_add, Finset.sum_add_distrib]
      ring
    have h2 : LC.eval (lookup cs.inst) (lookup cs.wit) ((c, v) :: lc) =
        c * v.eval (lookup cs.inst) (lookup cs.wit) + LC.eval (lookup cs.inst) (lookup cs.wit) lc := by
      simp [LC.eval]
    rw [h1, h2, ih]
    congr 1
    unfold wsum
    cases v with
    | inst k =>
      simp only [Var.inst.injEq, reduceCtorEq, if_false, mul_zero, Finset.sum_const_zero, add_zero,
        mul_ite, Finset.sum_ite_eq, Finset.mem_range, Var.eval]
      split
      · ring
      · rw [lookup_of_le _ _ (by omega)]; ring
    | wit k =>
      simp only [Var.wit.injEq, reduceCtorEq, if_false, mul_zero, Finset.sum_const_zero, zero_add,
        mul_ite, Finset.sum_ite_eq, Finset.mem_range, Var.eval]
      split
      · ring
      · rw [lookup_of_le _ _ (by omega)]; ring

theorem wsum_add (cs : CS F) (f g : Var → F) :
    wsum cs (fun v => f v + g v) = wsum cs f + wsum cs g := by
  simp only [wsum, mul_add, Finset.sum_add_distrib]; ring

theorem wsum_smul (cs : CS F) (c : F) (f : Var → F) :
    wsum cs (fun v => c * f v) = c * wsum cs f := by
  simp only [wsum, mul_add, Finset.mul_sum]
  congr 1 <;> exact Finset.sum_congr rfl fun i _ => by ring

theorem wsum_matrix (cs : CS F) (hi : cs.inst.length = cs.numInst)
    (hw : cs.wit.length = cs.numWit) (u : ℕ → F) (sel : R1C F → LC F) :
    wsum cs (matrixAt cs u sel) =
      ∑ j ∈ Finset.range cs.cons.length, u j * rowValue cs sel j := by
  have h1 : wsum cs (matrixAt cs u sel) = ∑ j ∈ Finset.range cs.cons.length,
      u j * wsum cs (LC.coeff ((cs.cons.map sel).getD j [])) := by
    unfold wsum matrixAt
    simp only [mul_add, Finset.mul_sum, Finset.sum_add_distrib]
    congr 1
    · rw [Finset.sum_comm]
      exact Finset.sum_congr rfl fun j _ => Finset.sum_congr rfl fun i _ => by ring
    · rw [Finset.sum_comm]
      exact Finset.sum_congr rfl fun j _ => Finset.sum_congr rfl fun i _ => by ring
  rw [h1]
  apply Finset.sum_congr rfl
  intro j _
  rw [wsum_coeff cs hi hw]
  rfl

theorem wsum_rows (cs : CS F) (hi : cs.inst.length = cs.numInst)
    (hw : cs.wit.length = cs.numWit) (u : ℕ → F) (sel : R1C F → LC F) (N : ℕ)
    (hN : cs.cons.length ≤ N) :
    wsum cs (matrixAt cs u sel) = ∑ i ∈ Finset.range N, u i * rows cs sel i := by
  rw [wsum_matrix cs hi hw]
  rw [← Finset.sum_subset (Finset.range_subset_range.mpr hN)]
  · apply Finset.sum_congr rfl
    intro j hj
    unfold rows
    rw [if_pos (Finset.mem_range.mp hj)]
  · intro j _ hj
    unfold rows
    rw [if_neg (by simpa using hj), mul_zero]

theorem wsum_qapA (cs : CS F) (hi : cs.inst.length = cs.numInst)
    (hw : cs.wit.length = cs.numWit) (u : ℕ → F) (N : ℕ)
    (hN : cs.cons.length + cs.numInst ≤ N) :
    wsum cs (qapA cs u) = ∑ i ∈ Finset.range N, u i * rowsA cs i := by
  have h1 : wsum cs (qapA cs u) =
      (∑ i ∈ Finset.range cs.numInst, u (cs.cons.length + i) * lookup cs.inst i) +
      wsum cs (matrixAt cs u R1C.a) := by
    unfold wsum
    simp only [qapA, mul_add, Finset.sum_add_distrib]
    rw [← add_assoc]
    congr 2
    exact Finset.sum_congr rfl fun i _ => by ring
  rw [h1, wsum_matrix cs hi hw]
  rw [← Finset.sum_subset (Finset.range_subset_range.mpr hN)]
  · rw [Finset.sum_range_add, add_comm]
    congr 1
    · apply Finset.sum_congr rfl
      intro j hj
      unfold rowsA
      rw [if_pos (Finset.mem_range.mp hj)]
    · apply Finset.sum_congr rfl
      intro j hj
      have := Finset.mem_range.mp hj
      unfold rowsA
      rw [if_neg (by omega), if_pos (by omega), Nat.add_sub_cancel_left]
  · intro j _ hj
    have : cs.cons.length + cs.numInst ≤ j := by simpa using hj
    unfold rowsA
    rw [if_neg (by omega), if_neg (by omega), mul_zero]

/-- a satisfying assignment gives the QAP equation on the whole domain -/
theorem rows_mul (cs : CS F) (hsat : ∀ r ∈ cs.cons, r.Holds (lookup cs.inst) (lookup cs.wit))
    (i : ℕ) : rowsA cs i * rows cs R1C.b i = rows cs R1C.c i := by
  unfold rowsA rows
  by_cases h : i < cs.cons.length
  · rw [if_pos h, if_pos h, if_pos h]
    have := hsat cs.cons[i] (List.getElem_mem h)
    unfold rowValue
    simp only [List.getD_eq_getElem?_getD, List.getElem?_map, List.getElem?_eq_getElem h,
      Option.map_some, Option.getD_some]
    exact this
  · rw [if_neg h, if_neg h, if_neg h, mul_zero]

end qap

section msm
variable {K : FieldCfg} {G : Type} [AddCommGroup G] [Module (ZMod K.p) G]

theorem msm_map {α : Type} (L : List α) (f : α → K.F) (g : G) (zs : List K.F) :
    msmBigint (L.map fun v => f v • g) (zs.map intoBigint) =
      (List.zipWith (fun v z => z * f v) L zs).sum • g := by
  unfold msmBigint
  induction L generalizing zs with
  | nil => simp
  | cons v L ih =>
    cases zs with
    | nil => simp
    | cons z zs =>
      simp only [List.map_cons, List.zipWith_cons_cons, List.sum_cons, ih, add_smul]
      congr 1
      rw [nsmul_eq_cast_smul (K := K), intoBigint, ZMod.natCast_zmod_val, mul_smul]

theorem zip_range {F : Type} [Field F] (n : ℕ) (f : ℕ → F) (zs : List F) :
    (List.zipWith (fun v z => z * f v) (List.range n) zs).sum =
      ∑ i ∈ Finset.range n, lookup zs i * f i := by
  induction zs generalizing n f with
  | nil => simp [lookup]
  | cons z zs ih =>
    cases n with
    | zero => simp
    | succ n =>
      rw [List.range_succ_eq_map, List.zipWith_cons_cons, List.sum_cons, Finset.sum_range_succ',
        List.zipWith_map_left, ih n (fun i => f (i + 1)), add_comm]
      rfl

/-- `initial + query[0] + msm(query[1..], assignment) + param` -/
theorem calculateCoeff_eq (cs : CS K.F) (hi : cs.inst.length = cs.numInst)
    (h0 : lookup cs.inst 0 = 1) (hpos : 0 < cs.numInst) (initial param g : G) (f : Var → K.F) :
    calculateCoeff (K := K) initial (cs.vars.map fun v => f v • g) param (cs.inst.tail ++ cs.wit) =
      .ok (initial + param + wsum cs f • g) := by
  obtain ⟨n, hn⟩ : ∃ n, cs.numInst = n + 1 := ⟨cs.numInst - 1, by omega⟩
  have hv : cs.vars = .inst 0 :: ((List.range n).map (fun i => Var.inst (i + 1)) ++
      (List.range cs.numWit).map Var.wit) := by
    unfold CS.vars
    rw [hn, List.range_succ_eq_map]
    simp [List.map_map, Function.comp_def]
  have ht : cs.inst.tail.length = n := by rw [List.length_tail, hi, hn]; rfl
  unfold calculateCoeff
  rw [hv]
  simp only [List.map_cons, idx, List.getElem?_cons_zero, Res.ok_bind, Res.pure_eq, List.tail_cons]
  rw [msm_map, List.zipWith_append (by simp [ht]), List.sum_append, List.zipWith_map_left,
    List.zipWith_map_left]
  have z1 := zip_range n (fun i => f (.inst (i + 1))) cs.inst.tail
  have z2 := zip_range cs.numWit (fun i => f (.wit i)) cs.wit
  rw [z1, z2]
  have hx : ∀ i, lookup cs.inst.tail i = lookup cs.inst (i + 1) := by
    intro i
    unfold lookup
    simp [List.getD_eq_getElem?_getD]
  have hsum : wsum cs f = f (.inst 0) + (∑ i ∈ Finset.range n, lookup cs.inst.tail i *
      f (.inst (i + 1)) + ∑ i ∈ Finset.range cs.numWit, lookup cs.wit i * f (.wit i)) := by
    unfold wsum
    rw [hn, Finset.sum_range_succ', h0]
    simp only [hx]
    ring
  rw [hsum]
  congr 1
  rw [add_smul (f (.inst 0))]
  abel

theorem msm_range (n : ℕ) (f : ℕ → K.F) (g : G) (zs : List K.F) :
    msmBigint ((List.range n).map fun i => f i • g) (zs.map intoBigint) =
      (∑ i ∈ Finset.range n, lookup zs i * f i) • g := by
  rw [msm_map, zip_range]

end msm

variable {E : Engine}

/-- the linear combination in the verification key and the l-query -/
def mixAt (cs : CS E.Fr) (u : ℕ → E.Fr) (alpha beta : E.Fr) (v : Var) : E.Fr :=
  beta * qapA cs u v + alpha * qapB cs u v + qapC cs u v

/-- closed form of the proving key -/
def srsKey (cs : CS E.Fr) (d : EvalDomain E.Fr) (t alpha beta gamma delta : E.Fr)
    (g1 : E.G1) (g2 : E.G2) : ProvingKey E where
  pk :=
    { vk :=
        { alpha_g1 := alpha • g1
          beta_g2 := beta • g2
          gamma_g2 := gamma • g2
          delta_g2 := delta • g2
          gamma_abc_g1 := (List.range cs.numInst).map fun i =>
            (mixAt cs (d.lagrange t) alpha beta (.inst i) * gamma⁻¹) • g1 }
      beta_g1 := beta • g1
      delta_g1 := delta • g1
      a_query := cs.vars.map fun v => qapA cs (d.lagrange t) v • g1
      b_g1_query := cs.vars.map fun v => qapB cs (d.lagrange t) v • g1
      b_g2_query := cs.vars.map fun v => qapB cs (d.lagrange t) v • g2
      h_query := (List.range (d.size - 1)).map fun i => (d.vanishing t * delta⁻¹ * t ^ i) • g1
      l_query := (List.range cs.numWit).map fun i =>
        (mixAt cs (d.lagrange t) alpha beta (.wit i) * delta⁻¹) • g1 }
  gamma_g1 := (-gamma) • g1

theorem sampleOutside_ok {R : RngCore E} {d : EvalDomain E.Fr} {fuel : ℕ} {st st' : R.σ}
    {t : E.Fr} (h : sampleOutside R d fuel st = .ok (t, st')) : d.vanishing t ≠ 0 := by
  induction fuel generalizing st with
  | zero => simp [sampleOutside] at h
  | succ n ih =>
    simp only [sampleOutside] at h
    split at h
    · exact ih h
    · rename_i hne
      simp only [Res.ok.injEq, Prod.mk.injEq] at h
      rw [← h.1]
      exact hne

theorem sampleOutside_not_err {R : RngCore E} {d : EvalDomain E.Fr} {fuel : ℕ} {st : R.σ}
    {e : SaverError} : sampleOutside R d fuel st ≠ .err e := by
  induction fuel generalizing st with
  | zero => simp [sampleOutside]
  | succ n ih =>
    simp only [sampleOutside]
    split
    · exact ih
    · simp

/-- everything a successful `generate_srs` tells -/
theorem srs_inv {T : FftCfg E.Fr} {R : RngCore E} {fuel : ℕ} {st st' : R.σ}
    {C : Synthesizer E.Fr} {gens : EncryptionGens E} {pk : ProvingKey E}
    (h : generateSrs T R fuel st C gens = .ok (pk, st')) :
    ∃ (cs : CS E.Fr) (d : EvalDomain E.Fr) (t alpha beta gamma delta : E.Fr),
      C (CS.new true) = .ok cs ∧ T.newDomain (cs.cons.length + cs.numInst) = some d ∧
      d.vanishing t ≠ 0 ∧ gamma ≠ 0 ∧ delta ≠ 0 ∧
      pk = srsKey cs d t alpha beta gamma delta gens.G gens.H := by
  unfold generateSrs at h
  obtain ⟨⟨pk', st1⟩, hp, h⟩ := Res.bind_eq_ok.mp h
  simp only [Res.pure_eq, Res.ok.injEq, Prod.mk.injEq] at h
  obtain ⟨rfl, -⟩ := h
  unfold generateParametersWithQap at hp
  obtain ⟨cs, hcs, hp⟩ := Res.bind_eq_ok.mp hp
  cases hd : T.newDomain (cs.cons.length + cs.numInst) with
  | none => rw [hd] at hp; simp at hp
  | some d =>
    rw [hd] at hp
    simp only at hp
    obtain ⟨⟨t, st2⟩, ht, hp⟩ := Res.bind_eq_ok.mp hp
    simp only at hp
    split at hp
    · cases hp
    · rename_i hg
      split at hp
      · cases hp
      · rename_i hdl
        simp only [Res.ok.injEq, Prod.mk.injEq] at hp
        refine ⟨cs, d, t, (R.fr st).1, (R.fr (R.fr st).2).1, (R.fr (R.fr (R.fr st).2).2).1,
          (R.fr (R.fr (R.fr (R.fr st).2).2).2).1, hcs, hd, sampleOutside_ok ht, hg, hdl, ?_⟩
        unfold srsKey mixAt
        rw [← hp.1, mulBigint_intoBigint]

/-- Groth16 completeness: what `create_proof_with_reduction` returns satisfies the verification
equation, in the exponent. -/
theorem groth16_proof_eq (T : FftCfg E.Fr) (chk : Bool) (C : Synthesizer E.Fr)
    (cs0 cs : CS E.Fr) (d : EvalDomain E.Fr) (t alpha beta gamma delta : E.Fr) (g1 : E.G1)
    (g2 : E.G2) (r s : E.Fr)
    (hC : C (CS.new false) = .ok cs)
    (hcons : cs0.cons = cs.cons) (hnI : cs0.numInst = cs.numInst) (hnW : cs0.numWit = cs.numWit)
    (hi : cs.inst.length = cs.numInst) (hw : cs.wit.length = cs.numWit)
    (h0 : lookup cs.inst 0 = 1) (hpos : 0 < cs.numInst)
    (hsat : ∀ r ∈ cs.cons, r.Holds (lookup cs.inst) (lookup cs.wit))
    (hd : T.newDomain (cs.cons.length + cs.numInst) = some d) (ht : d.vanishing t ≠ 0)
    (hdelta : delta ≠ 0) :
    ∃ A B Cc : E.Fr, createProofWithReduction T chk C
      (srsKey cs0 d t alpha beta gamma delta g1 g2).pk r s = .ok ⟨A • g1, B • g2, Cc • g1⟩ ∧
      A * B = alpha * beta +
        (∑ i ∈ Finset.range cs0.numInst,
          lookup cs.inst i * mixAt cs0 (d.lagrange t) alpha beta (.inst i)) + Cc * delta ∧
      A = alpha + wsum cs (qapA cs (d.lagrange t)) + r * delta ∧
      B = beta + wsum cs (qapB cs (d.lagrange t)) + s * delta := by
  -- the setup constraint system can be replaced by the proving one
  have hq : ∀ u, qapA cs0 u = qapA cs u ∧ qapB cs0 u = qapB cs u ∧ qapC cs0 u = qapC cs u := by
    intro u
    refine ⟨?_, ?_, ?_⟩
    · funext v
      cases v <;> simp only [qapA, matrixAt, hcons]
    · unfold qapB matrixAt; rw [hcons]
    · unfold qapC matrixAt; rw [hcons]
  have hvars : cs0.vars = cs.vars := by unfold CS.vars; rw [hnI, hnW]
  have hmix : ∀ u, mixAt cs0 u alpha beta = mixAt cs u alpha beta := by
    intro u
    funext v
    unfold mixAt
    rw [(hq u).1, (hq u).2.1, (hq u).2.2]
  have hkey : srsKey (E := E) cs0 d t alpha beta gamma delta g1 g2 =
      srsKey cs d t alpha beta gamma delta g1 g2 := by
    unfold srsKey
    rw [hvars, hmix, hnI, hnW, (hq _).1, (hq _).2.1]
  rw [hkey, hmix, hnI]
  clear hkey hmix hvars hq hnI hnW hcons cs0
  have hsatB : cs.isSatisfied = true := by
    unfold CS.isSatisfied
    rw [List.all_eq_true]
    intro r hr
    exact decide_eq_true (hsat r hr)
  have hle := T.le_size _ _ hd
  let u := d.lagrange t
  have hA : wsum cs (qapA cs u) = (d.poly (rowsA cs)).eval t := by
    rw [wsum_qapA cs hi hw u d.size hle, d.lagrange_sum _ t ht]
  have hB : wsum cs (qapB cs u) = (d.poly (rows cs R1C.b)).eval t := by
    unfold qapB
    rw [wsum_rows cs hi hw u R1C.b d.size (by omega), d.lagrange_sum _ t ht]
  have hCt : wsum cs (qapC cs u) = (d.poly (rows cs R1C.c)).eval t := by
    unfold qapC
    rw [wsum_rows cs hi hw u R1C.c d.size (by omega), d.lagrange_sum _ t ht]
  have hquot := d.quotient T.gen T.gen_ne_zero (T.coset _ _ hd) (rowsA cs) (rows cs R1C.b)
    (rows cs R1C.c) (fun i _ => rows_mul cs hsat i) t
  -- the h part
  let hs := witnessMap T.gen d cs
  have hh : ∑ i ∈ Finset.range (d.size - 1), lookup hs i * (d.vanishing t * delta⁻¹ * t ^ i) =
      (wsum cs (qapA cs u) * wsum cs (qapB cs u) - wsum cs (qapC cs u)) * delta⁻¹ := by
    rw [hA, hB, hCt, ← hquot, Finset.sum_mul, Finset.sum_mul]
    apply Finset.sum_congr rfl
    intro i hi'
    have : i < d.size := by have := Finset.mem_range.mp hi'; omega
    have hl : lookup hs i = d.cosetIfft T.gen (fun i =>
      (d.cosetFft T.gen (d.ifft (rowsA cs)) i * d.cosetFft T.gen (d.ifft (rows cs R1C.b)) i -
        d.cosetFft T.gen (d.ifft (rows cs R1C.c)) i) * (d.vanishing T.gen)⁻¹) i := by
      unfold lookup
      show (witnessMap T.gen d cs).getD i 0 = _
      unfold witnessMap
      rw [List.getD_eq_getElem?_getD, List.getElem?_map, List.getElem?_range this]
      rfl
    rw [hl]
    ring
  let A := alpha + wsum cs (qapA cs u) + r * delta
  let B := beta + wsum cs (qapB cs u) + s * delta
  let L := ∑ i ∈ Finset.range cs.numWit, lookup cs.wit i * (mixAt cs u alpha beta (.wit i) * delta⁻¹)
  let Hq := (wsum cs (qapA cs u) * wsum cs (qapB cs u) - wsum cs (qapC cs u)) * delta⁻¹
  refine ⟨A, B, s * A + r * B - r * s * delta + L + Hq, ?_, ?_, rfl, rfl⟩
  · unfold createProofWithReduction
    rw [hC]
    simp only [Res.ok_bind, hsatB, Bool.not_true, Bool.and_false, Bool.false_eq_true, if_false, hd]
    unfold createProofWithAssignment
    simp only [srsKey]
    rw [calculateCoeff_eq (K := E.fr) cs hi h0 hpos, Res.ok_bind,
      calculateCoeff_eq (K := E.fr) cs hi h0 hpos (s • delta • g1) (beta • g1) g1,
      calculateCoeff_eq (K := E.fr) cs hi h0 hpos (s • delta • g2) (beta • g2) g2,
      msm_range (K := E.fr), msm_range (K := E.fr), hh]
    by_cases hr : r = 0
    · rw [if_neg (by simpa using hr)]
      simp only [Res.ok_bind, Res.pure_eq]
      congr 2
      · simp only [A, u]; module
      · simp only [B, u]; module
      · simp only [A, L, Hq, u, hr]; module
    · rw [if_pos hr]
      simp only [Res.ok_bind, Res.pure_eq]
      congr 2
      · simp only [A, u]; module
      · simp only [B, u]; module
      · simp only [A, B, L, Hq, u]; module
  · have hmixsum : (∑ i ∈ Finset.range cs.numInst,
          lookup cs.inst i * mixAt cs (d.lagrange t) alpha beta (.inst i)) + L * delta =
        beta * wsum cs (qapA cs u) + alpha * wsum cs (qapB cs u) + wsum cs (qapC cs u) := by
      have h1 : L * delta =
          ∑ i ∈ Finset.range cs.numWit, lookup cs.wit i * mixAt cs u alpha beta (.wit i) := by
        simp only [L]
        rw [Finset.sum_mul]
        apply Finset.sum_congr rfl
        intro i _
        rw [mul_assoc, mul_assoc, inv_mul_cancel₀ hdelta, mul_one]
      rw [h1]
      have : wsum cs (mixAt cs u alpha beta) = beta * wsum cs (qapA cs u) +
          alpha * wsum cs (qapB cs u) + wsum cs (qapC cs u) := by
        rw [← wsum_smul, ← wsum_smul, ← wsum_add, ← wsum_add]
        rfl
      rw [← this]
      rfl
    have hHd : Hq * delta =
        wsum cs (qapA cs u) * wsum cs (qapB cs u) - wsum cs (qapC cs u) := by
      simp only [Hq]
      rw [mul_assoc, inv_mul_cancel₀ hdelta, mul_one]
    simp only [A, B]
    linear_combination -hmixsum - hHd

/-! ### verification -/

theorem foldl_add {A : Type} [AddCommGroup A] (l : List A) (a : A) :
    l.foldl (· + ·) a = a + l.sum := by
  induction l generalizing a with
  | nil => simp
  | cons x l ih => simp [ih, add_assoc]

/-- the verification equation of `verify_qap_proof` -/
theorem verifyQapProof_eq (vk : VerifyingKey E) (a : E.G1) (b : E.G2) (c d : E.G1) :
    verifyQapProof (prepareVerifyingKey vk) a b c d =
      if E.e a b = E.e vk.alpha_g1 vk.beta_g2 + E.e c vk.delta_g2 + E.e d vk.gamma_g2
      then .ok () else .err .pairingCheckFailed := by
  unfold verifyQapProof Engine.multiPairing prepareVerifyingKey
  simp only [List.length_cons, List.length_nil, if_true, Res.ok_bind, List.zipWith_cons_cons,
    List.zipWith_nil_left, List.sum_cons, List.sum_nil, E.pairP_prep, map_neg, add_zero]
  by_cases h : E.e a b = E.e vk.alpha_g1 vk.beta_g2 + E.e c vk.delta_g2 + E.e d vk.gamma_g2
  · rw [if_pos h, if_neg]
    · rfl
    · simp only [ne_eq, not_not]
      rw [h]; abel
  · rw [if_neg h, if_pos]
    intro hc
    apply h
    rw [← hc]; abel

/-- `verify_proof` as an equation -/
theorem verifyProof_eq (vk : VerifyingKey E) (proof : Proof E) (ct : Ciphertext E)
    (hne : vk.gamma_abc_g1 ≠ []) :
    verifyProof (prepareVerifyingKey vk) proof ct =
      if E.e proof.a proof.b = E.e vk.alpha_g1 vk.beta_g2 + E.e proof.c vk.delta_g2 +
        E.e (ct.X_r + ct.enc_chunks.sum + vk.gamma_abc_g1.getD 0 0) vk.gamma_g2
      then .ok () else .err .pairingCheckFailed := by
  unfold verifyProof calculateD
  have : idx (prepareVerifyingKey vk).vk.gamma_abc_g1 0 = .ok (vk.gamma_abc_g1.getD 0 0) :=
    idx_ok 0 (List.length_pos_iff.mpr hne)
  rw [this]
  simp only [Res.ok_bind, Res.pure_eq, foldl_add, verifyQapProof_eq]

end Verif
