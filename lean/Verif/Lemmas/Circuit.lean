/-
Helper lemmas: closed form of the constraint system synthesised by the bit-size circuit.
-/
import Verif.Model.Circuit
import Verif.Lemmas.Basic
import Mathlib.Tactic.LinearCombination
import Mathlib.Tactic.Ring
import Mathlib.Data.List.GetD
import Mathlib.Data.Nat.Bitwise

namespace Verif

section
variable {F : Type} [Field F]

/-- outcome of the value computations in setup mode: nothing recorded -/
def recorded (setup : Bool) (l : List F) : List F := if setup then [] else l

def boolC (v : Var) : R1C F := ⟨[(1, .one), (-1, v)], [(1, v)], []⟩

def orC (a b c : Var) : R1C F :=
  ⟨[(1, .one), (-1, a)], [(1, .one), (-1, b)], [(1, .one), (-1, c)]⟩

def falseC (v : Var) : R1C F := ⟨[(1, v)], [(1, .one)], []⟩

def bitVars (setup : Bool) (w0 : ℕ) : List Bool → List BoolVar
  | [] => []
  | b :: bs => .is (.wit w0) (if setup then none else some b) :: bitVars setup (w0 + 1) bs

theorem length_bitVars (setup : Bool) (w0 : ℕ) (bs : List Bool) :
    (bitVars setup w0 bs).length = bs.length := by
  induction bs generalizing w0 with
  | nil => rfl
  | cons b bs ih => simp [bitVars, ih]

theorem drop_bitVars (setup : Bool) (w0 k : ℕ) (bs : List Bool) :
    (bitVars setup w0 bs).drop k = bitVars setup (w0 + k) (bs.drop k) := by
  induction k generalizing w0 bs with
  | zero => simp
  | succ k ih =>
    cases bs with
    | nil => rfl
    | cons b bs =>
      simp only [bitVars, List.drop_succ_cons, ih]
      congr 1; omega

def packBits : F → ℕ → ℕ → LC F
  | _, _, 0 => []
  | coeff, w0, n + 1 => (1 * coeff, .wit w0) :: packBits (coeff + coeff) (w0 + 1) n

theorem packLC_bitVars (setup : Bool) (coeff : F) (w0 : ℕ) (bs : List Bool) :
    packLC coeff (bitVars setup w0 bs) = packBits coeff w0 bs.length := by
  induction bs generalizing coeff w0 with
  | nil => rfl
  | cons b bs ih => simp [bitVars, packLC, packBits, BoolVar.lc, ih]

theorem newWitnesses_eq (cs : CS F) (obs : List (Option Bool)) (bs : List Bool)
    (h : cs.setup = true ∧ obs.length = bs.length ∨ cs.setup = false ∧ obs = bs.map some) :
    BoolVar.newWitnesses cs obs = .ok (bitVars cs.setup cs.numWit bs,
      { cs with numWit := cs.numWit + bs.length,
                wit := cs.wit ++ recorded cs.setup (bs.map ofBool),
                cons := cs.cons ++ tab bs.length (fun i => boolC (.wit (cs.numWit + i))) }) := by
  induction bs generalizing cs obs with
  | nil =>
    have : obs = [] := by
      rcases h with ⟨_, h⟩ | ⟨_, h⟩
      · simpa using h
      · simpa using h
    subst this
    simp [BoolVar.newWitnesses, bitVars, recorded]
  | cons b bs ih =>
    cases obs with
    | nil => simp at h
    | cons o obs =>
      have hstep : BoolVar.newWitness cs o = .ok (.is (.wit cs.numWit)
          (if cs.setup then none else some b),
          { cs with numWit := cs.numWit + 1,
                    wit := cs.wit ++ recorded cs.setup [ofBool b],
                    cons := cs.cons ++ [boolC (.wit cs.numWit)] }) := by
        rcases h with ⟨h1, _⟩ | ⟨h1, h2⟩
        · simp [BoolVar.newWitness, CS.newWitness, h1, CS.enforce, boolC, recorded]
        · have ho : o = some b := by simpa using (List.cons.inj h2).1
          subst ho
          simp [BoolVar.newWitness, CS.newWitness, h1, CS.enforce, boolC, recorded]
      simp only [BoolVar.newWitnesses, hstep, Res.ok_bind]
      rw [ih]
      · simp only [Res.ok_bind, Res.pure_eq, bitVars, tab_succ, List.length_cons]
        simp only [recorded]
        congr 2
        congr 1
        · omega
        · cases cs.setup <;> simp
        · simp only [List.append_assoc, List.singleton_append]
          congr 2
          apply tab_congr
          intro i _
          congr 2
          omega
      · rcases h with ⟨h1, h2⟩ | ⟨h1, h2⟩
        · left; exact ⟨h1, by simpa using h2⟩
        · right; exact ⟨h1, (List.cons.inj h2).2⟩

/-- constraints of the `or` chain: accumulator variable `a`, next bit variable `w`, next fresh
witness `f`, number of remaining bits -/
def orCs : Var → ℕ → ℕ → ℕ → List (R1C F)
  | _, _, _, 0 => []
  | a, w, f, n + 1 => orC a (.wit w) (.wit f) :: orCs (.wit f) (w + 1) (f + 1) n

/-- last accumulator variable of the chain -/
def orLast : Var → ℕ → ℕ → Var
  | a, _, 0 => a
  | _, f, n + 1 => .wit (f + n)

/-- running disjunctions -/
def orVals : Bool → List Bool → List Bool
  | _, [] => []
  | a, b :: bs => (a || b) :: orVals (a || b) bs

theorem length_orVals (a : Bool) (bs : List Bool) : (orVals a bs).length = bs.length := by
  induction bs generalizing a with
  | nil => rfl
  | cons b bs ih => simp [orVals, ih]

theorem orLoop_eq (cs : CS F) (a : Var) (va : Bool) (w : ℕ) (bs : List Bool) :
    ∃ vl, orLoop cs (.is a (if cs.setup then none else some va)) (bitVars cs.setup w bs) =
      .ok (.is (orLast a cs.numWit bs.length) vl,
        { cs with numWit := cs.numWit + bs.length,
                  wit := cs.wit ++ recorded cs.setup ((orVals va bs).map ofBool),
                  cons := cs.cons ++ orCs a w cs.numWit bs.length }) := by
  induction bs generalizing cs a va w with
  | nil => exact ⟨_, by simp [orLoop, bitVars, orLast, orVals, orCs, recorded]; rfl⟩
  | cons b bs ih =>
    have hstep : BoolVar.or cs (.is a (if cs.setup then none else some va))
        (.is (.wit w) (if cs.setup then none else some b)) =
        .ok (.is (.wit cs.numWit) (if cs.setup then none else some (va || b)),
          { cs with numWit := cs.numWit + 1,
                    wit := cs.wit ++ recorded cs.setup [ofBool (va || b)],
                    cons := cs.cons ++ [orC a (.wit w) (.wit cs.numWit)] }) := by
      cases h : cs.setup <;> simp [BoolVar.or, CS.newWitness, CS.enforce, orC, recorded, h]
    obtain ⟨vl, hvl⟩ := ih ({ cs with
                    numWit := cs.numWit + 1
                    wit := cs.wit ++ recorded cs.setup [ofBool (va || b)]
                    cons := cs.cons ++ [orC a (.wit w) (.wit cs.numWit)] } : CS F)
                    (.wit cs.numWit) (va || b) (w + 1)
    refine ⟨vl, ?_⟩
    simp only [bitVars, orLoop, hstep, Res.ok_bind]
    rw [hvl]
    simp only [List.length_cons, orVals, orCs]
    congr 2
    · cases hb : bs.length with
      | zero => simp [orLast]
      | succ n => simp [orLast]; omega
    · congr 1
      · omega
      · cases cs.setup <;> simp [recorded]
      · simp

/-- The constraints generated for one value with variable `v`, whose first witness is `w0`;
`n` bits, of which the lowest `b` are free. -/
def block (n b : ℕ) (v : Var) (w0 : ℕ) : List (R1C F) :=
  tab n (fun i => boolC (.wit (w0 + i))) ++
    [⟨[], [], packBits 1 w0 n ++ [(-1, v)]⟩] ++
    (if n ≤ b then [] else
      orCs (.wit (w0 + b)) (w0 + b + 1) (w0 + n) (n - b - 1) ++
        [falseC (orLast (.wit (w0 + b)) (w0 + n) (n - b - 1))])

/-- witnesses per value -/
def blockWits (n b : ℕ) : ℕ := n + (n - b - 1)

/-- The witness values computed for one value `N`. -/
def blockVals (n b : ℕ) (N : ℕ) : List Bool :=
  tab n N.testBit ++ orVals (N.testBit b) (tab (n - b - 1) fun i => N.testBit (b + 1 + i))

theorem length_blockVals (n b N : ℕ) : (blockVals n b N).length = blockWits n b := by
  simp [blockVals, blockWits, length_orVals]

end

section
variable {K : FieldCfg}

/-- value known outside setup mode -/
def known (setup : Bool) (x : K.F) : Option K.F := if setup then none else some x

theorem checkValue_panic (b : UInt8) (cs : CS K.F) (v : Var) (x : K.F)
    (hb : K.modBits < b.toNat) : checkValue b cs ⟨known cs.setup x, v⟩ = .panic := by
  unfold checkValue FpVar.toNonUniqueBitsLe
  rw [newWitnesses_eq cs _ (tab K.modBits (intoBigint x).testBit)]
  · simp only [Res.ok_bind, Res.pure_eq, sliceFrom, length_bitVars, length_tab]
    rw [if_neg (by omega)]
    rfl
  · cases h : cs.setup
    · right; simp [known, tab, FpVar.bitValues]
    · left; simp [FpVar.bitValues]

theorem checkValue_eq (b : UInt8) (cs : CS K.F) (v : Var) (x : K.F) (hb : b.toNat ≤ K.modBits) :
    checkValue b cs ⟨known cs.setup x, v⟩ = .ok
      { cs with numWit := cs.numWit + blockWits K.modBits b.toNat,
                wit := cs.wit ++ recorded cs.setup
                  ((blockVals K.modBits b.toNat x.val).map ofBool),
                cons := cs.cons ++ block K.modBits b.toNat v cs.numWit } := by
  unfold checkValue FpVar.toNonUniqueBitsLe
  rw [newWitnesses_eq cs _ (tab K.modBits x.val.testBit)]
  · simp only [Res.ok_bind, Res.pure_eq, sliceFrom, length_bitVars, length_tab]
    rw [if_pos hb]
    simp only [Res.ok_bind, drop_bitVars, packLC_bitVars, length_tab]
    have hdrop : (tab K.modBits x.val.testBit).drop b.toNat
        = tab (K.modBits - b.toNat) (fun i => x.val.testBit (b.toNat + i)) := by
      apply List.ext_getElem?
      intro i
      rw [List.getElem?_drop, getElem?_tab, getElem?_tab]
      by_cases h : i < K.modBits - b.toNat
      · rw [if_pos h, if_pos (by omega)]
      · rw [if_neg h, if_neg (by omega)]
    rw [hdrop]
    rcases Nat.lt_or_ge b.toNat K.modBits with hlt | hge
    · obtain ⟨m, hm⟩ : ∃ m, K.modBits - b.toNat = m + 1 := ⟨K.modBits - b.toNat - 1, by omega⟩
      rw [hm, tab_succ]
      simp only [bitVars, orLoop, BoolVar.or, Res.ok_bind, CS.enforce]
      obtain ⟨vl, hvl⟩ := orLoop_eq (F := K.F)
        { cs with numWit := cs.numWit + K.modBits,
                  wit := cs.wit ++ recorded cs.setup
                    (List.map ofBool (tab K.modBits x.val.testBit)),
                  cons := cs.cons ++ tab K.modBits (fun i => boolC (Var.wit (cs.numWit + i))) ++
                    [⟨[], [], packBits 1 cs.numWit K.modBits ++ [(-1, v)]⟩] }
        (.wit (cs.numWit + b.toNat)) (x.val.testBit (b.toNat + 0)) (cs.numWit + b.toNat + 1)
        (tab m fun i => x.val.testBit (b.toNat + (i + 1)))
      refine (congrArg (fun z => z >>= _) hvl).trans ?_
      simp only [Res.ok_bind, BoolVar.enforceFalse, CS.enforce, length_tab]
      have hm' : K.modBits - b.toNat - 1 = m := by omega
      simp only [block, blockWits, blockVals, hm', if_neg (by omega : ¬ K.modBits ≤ b.toNat)]
      congr 2
      · omega
      · simp only [recorded, Nat.add_zero, List.map_append]
        cases cs.setup
        · simp only [List.append_assoc]
          simp [Nat.add_assoc, Nat.add_comm 1]
        · simp
      · simp only [List.append_assoc, falseC]
    · have h0 : K.modBits - b.toNat = 0 := by omega
      rw [h0]
      simp only [tab_zero, bitVars, orLoop, Res.ok_bind, BoolVar.enforceFalse, CS.enforce,
        block, blockWits, blockVals, h0, if_pos hge, Nat.zero_sub, orVals, List.append_nil,
        Nat.add_zero, List.append_assoc]
  · cases h : cs.setup
    · right; simp [known, tab, intoBigint, FpVar.bitValues]
    · left; simp [FpVar.bitValues]

/-- constraints of all values: `vs` are the value variables -/
def blocks (n b : ℕ) : List Var → ℕ → List (R1C K.F)
  | [], _ => []
  | v :: vs, w0 => block n b v w0 ++ blocks n b vs (w0 + blockWits n b)

theorem checkValues_eq (b : UInt8) (cs : CS K.F) (l : List (Var × K.F))
    (hb : b.toNat ≤ K.modBits) :
    checkValues b cs (l.map fun t => ⟨known cs.setup t.2, t.1⟩) = .ok
      { cs with numWit := cs.numWit + l.length * blockWits K.modBits b.toNat,
                wit := cs.wit ++ recorded cs.setup
                  ((l.flatMap fun t => blockVals K.modBits b.toNat t.2.val).map ofBool),
                cons := cs.cons ++ blocks K.modBits b.toNat (l.map (·.1)) cs.numWit } := by
  induction l generalizing cs with
  | nil => simp [checkValues, blocks, recorded]
  | cons t l ih =>
    simp only [List.map_cons, checkValues, checkValue_eq b cs _ _ hb, Res.ok_bind]
    refine (ih { cs with
      numWit := cs.numWit + blockWits K.modBits b.toNat,
      wit := cs.wit ++ recorded cs.setup ((blockVals K.modBits b.toNat t.2.val).map ofBool),
      cons := cs.cons ++ block K.modBits b.toNat t.1 cs.numWit }).trans ?_
    simp only [List.length_cons, blocks, List.flatMap_cons]
    congr 2
    · ring
    · cases cs.setup <;> simp [recorded]
    · simp

/-- variable of the value number `i` -/
def valueVar (pub : Bool) (i : ℕ) : Var := if pub then .inst (i + 1) else .wit i

theorem allocValues_eq (pub : Bool) (cs : CS K.F) (l : List (Option K.F)) (xs : List K.F)
    (h : cs.setup = true ∧ l.length = xs.length ∨ cs.setup = false ∧ l = xs.map some) :
    allocValues pub cs l = .ok
      ((xs.zipIdx).map (fun t => ⟨known cs.setup t.1,
          if pub then .inst (cs.numInst + t.2) else .wit (cs.numWit + t.2)⟩),
        { cs with numInst := if pub then cs.numInst + xs.length else cs.numInst,
                  numWit := if pub then cs.numWit else cs.numWit + xs.length,
                  inst := if pub then cs.inst ++ recorded cs.setup xs else cs.inst,
                  wit := if pub then cs.wit else cs.wit ++ recorded cs.setup xs }) := by
  induction xs generalizing cs l with
  | nil =>
    have : l = [] := by
      rcases h with ⟨_, h⟩ | ⟨_, h⟩
      · simpa using h
      · simpa using h
    subst this
    cases pub <;> simp [allocValues, recorded]
  | cons x xs ih =>
    cases l with
    | nil => simp at h
    | cons o l =>
      have hstep : FpVar.newVariable cs o pub = .ok
          (⟨known cs.setup x, if pub then .inst cs.numInst else .wit cs.numWit⟩,
          { cs with numInst := if pub then cs.numInst + 1 else cs.numInst,
                    numWit := if pub then cs.numWit else cs.numWit + 1,
                    inst := if pub then cs.inst ++ recorded cs.setup [x] else cs.inst,
                    wit := if pub then cs.wit else cs.wit ++ recorded cs.setup [x] }) := by
        rcases h with ⟨h1, _⟩ | ⟨h1, h2⟩
        · cases pub <;>
          simp [FpVar.newVariable, CS.newInput, CS.newWitness, h1, recorded, known]
        · have ho : o = some x := by simpa using (List.cons.inj h2).1
          subst ho
          cases pub <;>
          simp [FpVar.newVariable, CS.newInput, CS.newWitness, h1, recorded, known]
      simp only [allocValues, hstep, Res.ok_bind]
      rw [ih]
      · simp only [Res.ok_bind, Res.pure_eq]
        congr 2
        · rw [List.zipIdx_cons, List.map_cons]
          congr 1
          · rw [show (xs.zipIdx 1) = (xs.zipIdx).map (fun t => (t.1, t.2 + 1)) by
              rw [List.zipIdx_succ]]
            rw [List.map_map]
            apply List.map_congr_left
            intro t _
            cases pub <;> simp [Nat.add_assoc, Nat.add_comm 1]
        · cases pub
          · simp [recorded]
            constructor
            · omega
            · cases cs.setup <;> simp
          · simp [recorded]
            constructor
            · omega
            · cases cs.setup <;> simp
      · rcases h with ⟨h1, h2⟩ | ⟨h1, h2⟩
        · left; exact ⟨h1, by simpa using h2⟩
        · right; exact ⟨h1, (List.cons.inj h2).2⟩

/-- Closed form of the synthesis: `xs` are the values (arbitrary in setup mode). -/
theorem generateConstraints_eq (c : BitsizeCheckCircuit K) (setup : Bool) (xs : List K.F)
    (h : setup = true ∧ (c.values.map List.length).getD c.num_values.toNat = xs.length ∨
         setup = false ∧ c.values = some xs)
    (hb : c.required_bit_size.toNat ≤ K.modBits) :
    c.generateConstraints (CS.new setup) = .ok
      { setup := setup
        numInst := if c.alloc_as_public then 1 + xs.length else 1
        numWit := (if c.alloc_as_public then 0 else xs.length) +
          xs.length * blockWits K.modBits c.required_bit_size.toNat
        inst := if c.alloc_as_public then [1] ++ recorded setup xs else [1]
        wit := (if c.alloc_as_public then [] else recorded setup xs) ++ recorded setup
          ((xs.flatMap fun x => blockVals K.modBits c.required_bit_size.toNat x.val).map ofBool)
        cons := blocks K.modBits c.required_bit_size.toNat
          (tab xs.length (valueVar c.alloc_as_public))
          (if c.alloc_as_public then 0 else xs.length) } := by
  unfold BitsizeCheckCircuit.generateConstraints
  have hl : (CS.new (F := K.F) setup).setup = true ∧ c.valueList.length = xs.length ∨
      (CS.new (F := K.F) setup).setup = false ∧ c.valueList = xs.map some := by
    unfold BitsizeCheckCircuit.valueList
    rcases h with ⟨h1, h2⟩ | ⟨h1, h2⟩
    · left
      refine ⟨h1, ?_⟩
      cases hv : c.values with
      | none => simpa [hv] using h2
      | some vals => simpa [hv] using h2
    · right
      exact ⟨h1, by rw [h2]⟩
  rw [allocValues_eq c.alloc_as_public (CS.new setup) _ xs hl]
  simp only [Res.ok_bind]
  have hmap : (xs.zipIdx).map (fun t => (⟨known (CS.new (F := K.F) setup).setup t.1,
          if c.alloc_as_public then .inst ((CS.new (F := K.F) setup).numInst + t.2)
            else .wit ((CS.new (F := K.F) setup).numWit + t.2)⟩ : FpVar K.F))
      = ((xs.zipIdx).map (fun t => (valueVar c.alloc_as_public t.2, t.1))).map
        (fun t => ⟨known setup t.2, t.1⟩) := by
    rw [List.map_map]
    apply List.map_congr_left
    intro t _
    simp [valueVar, CS.new, Nat.add_comm]
  rw [hmap]
  refine (checkValues_eq (K := K) c.required_bit_size
    { setup := setup
      numInst := if c.alloc_as_public then 1 + xs.length else 1
      numWit := if c.alloc_as_public then 0 else 0 + xs.length
      inst := if c.alloc_as_public then [1] ++ recorded setup xs else [1]
      wit := if c.alloc_as_public then [] else [] ++ recorded setup xs
      cons := [] } _ hb).trans ?_
  have hvars : ((xs.zipIdx).map (fun t => (valueVar c.alloc_as_public t.2, t.1))).map (·.1)
      = tab xs.length (valueVar c.alloc_as_public) := by
    rw [List.map_map]
    apply List.ext_getElem?
    intro i
    rw [getElem?_tab, List.getElem?_map, List.getElem?_zipIdx]
    by_cases hi : i < xs.length
    · rw [if_pos hi, List.getElem?_eq_getElem hi]; simp
    · rw [if_neg hi, List.getElem?_eq_none (by omega)]; rfl
  have hvals : ((xs.zipIdx).map (fun t => (valueVar c.alloc_as_public t.2, t.1))).flatMap
        (fun t => blockVals K.modBits c.required_bit_size.toNat t.2.val)
      = xs.flatMap fun x => blockVals K.modBits c.required_bit_size.toNat x.val := by
    have : xs = ((xs.zipIdx).map (fun t => (valueVar c.alloc_as_public t.2, t.1))).map (·.2) := by
      rw [List.map_map]
      apply List.ext_getElem?
      intro i
      rw [List.getElem?_map, List.getElem?_zipIdx]
      cases xs[i]? <;> simp
    conv_rhs => rw [this]
    simp only [List.flatMap_map]
  rw [hvars, hvals]
  simp only [List.length_map, List.length_zipIdx, List.nil_append, Nat.zero_add]

end

/-! ### Meaning of the constraints -/

section
variable {F : Type} [Field F]

theorem eval_append (x w : ℕ → F) (l₁ l₂ : LC F) :
    LC.eval x w (l₁ ++ l₂) = LC.eval x w l₁ + LC.eval x w l₂ := by
  simp [LC.eval]

omit [Field F] in
theorem eval_inst (x w : ℕ → F) (k : ℕ) : (Var.inst k).eval x w = x k := rfl
omit [Field F] in
theorem eval_wit (x w : ℕ → F) (k : ℕ) : (Var.wit k).eval x w = w k := rfl

theorem boolC_holds (x w : ℕ → F) (hx : x 0 = 1) (v : Var) :
    (boolC v : R1C F).Holds x w ↔ v.eval x w = 0 ∨ v.eval x w = 1 := by
  simp only [R1C.Holds, boolC, LC.eval, List.map_cons, List.map_nil, List.sum_cons, List.sum_nil,
    eval_inst, hx]
  constructor
  · intro h
    have : (1 - v.eval x w) * v.eval x w = 0 := by linear_combination h
    rcases mul_eq_zero.mp this with h | h
    · right; exact (sub_eq_zero.mp h).symm
    · left; exact h
  · rintro (h | h) <;> rw [h] <;> ring

theorem orC_holds (x w : ℕ → F) (hx : x 0 = 1) (a b c : Var) :
    (orC a b c : R1C F).Holds x w ↔
      c.eval x w = 1 - (1 - a.eval x w) * (1 - b.eval x w) := by
  simp only [R1C.Holds, orC, LC.eval, List.map_cons, List.map_nil, List.sum_cons, List.sum_nil,
    eval_inst, hx]
  constructor
  · intro h; linear_combination h
  · intro h; rw [h]; ring

theorem falseC_holds (x w : ℕ → F) (hx : x 0 = 1) (v : Var) :
    (falseC v : R1C F).Holds x w ↔ v.eval x w = 0 := by
  simp [R1C.Holds, falseC, LC.eval, Var.eval, hx]

theorem packBits_eval (x w : ℕ → F) (coeff : F) (w0 n : ℕ) :
    LC.eval x w (packBits coeff w0 n) =
      coeff * ∑ i ∈ Finset.range n, (2 : F) ^ i * w (w0 + i) := by
  induction n generalizing coeff w0 with
  | zero => simp [packBits, LC.eval]
  | succ n ih =>
    have := ih (coeff + coeff) (w0 + 1)
    simp only [LC.eval] at this ⊢
    simp only [packBits, List.map_cons, List.sum_cons, this, Finset.sum_range_succ', eval_wit]
    rw [Finset.mul_sum, mul_add, Finset.mul_sum]
    simp only [pow_zero, Nat.add_zero, one_mul, Nat.add_assoc, Nat.add_comm 1]
    rw [add_comm]
    congr 1
    apply Finset.sum_congr rfl
    intro i _
    rw [pow_succ]; ring

theorem orCs_holds (x w : ℕ → F) (hx : x 0 = 1) (a : Var) (p f n : ℕ) :
    (∀ r ∈ (orCs a p f n : List (R1C F)), r.Holds x w) →
      1 - (orLast a f n).eval x w =
        (1 - a.eval x w) * ∏ i ∈ Finset.range n, (1 - w (p + i)) := by
  induction n generalizing a p f with
  | zero => intro _; simp [orLast]
  | succ n ih =>
    intro h
    have h1 := (orC_holds x w hx a (.wit p) (.wit f)).mp (h _ (by simp [orCs]))
    have h2 := ih (.wit f) (p + 1) (f + 1) (fun r hr => h r (by simp [orCs, hr]))
    have hlast : orLast (.wit f) (f + 1) n = orLast a f (n + 1) := by
      cases n with
      | zero => rfl
      | succ n => simp [orLast]; omega
    rw [← hlast, h2, h1, Finset.prod_range_succ']
    simp only [Nat.add_zero, Var.eval, Nat.add_assoc, Nat.add_comm 1]
    ring

/-- Soundness of one block. -/
theorem block_sound (x w : ℕ → F) (hx : x 0 = 1) (n b : ℕ) (hb : b ≤ n) (v : Var) (w0 : ℕ)
    (h : ∀ r ∈ (block n b v w0 : List (R1C F)), r.Holds x w) :
    ∃ N < 2 ^ b, v.eval x w = ((N : ℕ) : F) := by
  have hbits : ∀ i < n, w (w0 + i) = 0 ∨ w (w0 + i) = 1 := by
    intro i hi
    have := (boolC_holds x w hx (.wit (w0 + i))).mp (h _ (by
      simp only [block, List.mem_append]
      left; left
      simp only [tab, List.mem_map, List.mem_range]
      exact ⟨i, hi, rfl⟩))
    exact this
  have hpack : v.eval x w = ∑ i ∈ Finset.range n, (2 : F) ^ i * w (w0 + i) := by
    have := h ⟨[], [], packBits 1 w0 n ++ [(-1, v)]⟩ (by simp [block])
    simp only [R1C.Holds, eval_append, packBits_eval] at this
    simp only [LC.eval, List.map_nil, List.sum_nil, List.map_cons, List.sum_cons] at this
    linear_combination this
  have hhigh : ∀ i < n, b ≤ i → w (w0 + i) = 0 := by
    intro i hi hbi
    have hnb : ¬ n ≤ b := by omega
    have hor := orCs_holds x w hx (.wit (w0 + b)) (w0 + b + 1) (w0 + n) (n - b - 1)
      (fun r hr => h r (by simp [block, hnb, hr]))
    have hf := (falseC_holds x w hx _).mp (h (falseC (orLast (.wit (w0 + b)) (w0 + n) (n - b - 1)))
      (by simp [block, hnb]))
    rw [hf] at hor
    rcases hbits i hi with h0 | h1
    · exact h0
    · exfalso
      rcases Nat.eq_or_lt_of_le hbi with he | hl
      · subst he
        simp [Var.eval, h1] at hor
      · have : ∏ j ∈ Finset.range (n - b - 1), (1 - w (w0 + b + 1 + j)) = 0 := by
          apply Finset.prod_eq_zero (i := i - b - 1)
          · simp; omega
          · rw [show w0 + b + 1 + (i - b - 1) = w0 + i by omega, h1, sub_self]
        rw [this] at hor
        simp at hor
  classical
  refine ⟨∑ i ∈ Finset.range b, 2 ^ i * (if w (w0 + i) = 1 then 1 else 0), ?_, ?_⟩
  · calc ∑ i ∈ Finset.range b, 2 ^ i * (if w (w0 + i) = 1 then 1 else 0)
        ≤ ∑ i ∈ Finset.range b, 2 ^ i := by
          apply Finset.sum_le_sum; intro i _; split <;> simp
      _ < 2 ^ b := by
          have : ∀ k, ∑ i ∈ Finset.range k, 2 ^ i < 2 ^ k := by
            intro k
            induction k with
            | zero => simp
            | succ k ih => rw [Finset.sum_range_succ, pow_succ]; omega
          exact this b
  · rw [hpack]
    push_cast
    rw [← Finset.sum_subset (s₁ := Finset.range b) (Finset.range_subset_range.mpr hb)]
    · apply Finset.sum_congr rfl
      intro i hi
      rcases hbits i (by simp at hi; omega) with h | h <;> simp [h]
    · intro i hi hi'
      rw [hhigh i (by simpa using hi) (by simpa using hi')]
      simp

theorem orCs_complete (x w : ℕ → F) (hx : x 0 = 1) (a : Var) (va : Bool) (p f : ℕ)
    (bs : List Bool) (ha : a.eval x w = ofBool va)
    (hp : ∀ i < bs.length, w (p + i) = ofBool (bs.getD i false))
    (hf : ∀ i < bs.length, w (f + i) = ofBool ((orVals va bs).getD i false)) :
    ∀ r ∈ (orCs a p f bs.length : List (R1C F)), r.Holds x w := by
  induction bs generalizing a va p f with
  | nil => simp [orCs]
  | cons b bs ih =>
    intro r hr
    have hp0 := hp 0 (by simp)
    have hf0 := hf 0 (by simp)
    simp only [orCs, List.length_cons, List.mem_cons] at hr
    rcases hr with rfl | hr
    · rw [orC_holds x w hx]
      simp only [Nat.add_zero] at hp0 hf0
      simp only [Var.eval] at *
      rw [hp0, hf0, ha]
      cases va <;> cases b <;> simp [orVals, ofBool]
    · refine ih (.wit f) (va || b) (p + 1) (f + 1) ?_ ?_ ?_ r hr
      · simpa [Var.eval, orVals] using hf0
      · intro i hi
        have := hp (i + 1) (by simpa using hi)
        simpa [Nat.add_assoc, Nat.add_comm 1] using this
      · intro i hi
        have := hf (i + 1) (by simpa using hi)
        simpa [orVals, Nat.add_assoc, Nat.add_comm 1] using this

theorem orVals_false (bs : List Bool) (h : ∀ b ∈ bs, b = false) :
    ∀ b ∈ orVals false bs, b = false := by
  induction bs with
  | nil => simp [orVals]
  | cons b bs ih =>
    have hb : b = false := h b (by simp)
    subst hb
    intro c hc
    simp only [orVals, Bool.or_self, List.mem_cons] at hc
    rcases hc with rfl | hc
    · rfl
    · exact ih (fun b hb => h b (by simp [hb])) c hc

theorem sum_testBit (n N : ℕ) :
    ∑ i ∈ Finset.range n, 2 ^ i * (if N.testBit i then 1 else 0) = N % 2 ^ n := by
  induction n with
  | zero => simp [Nat.mod_one]
  | succ n ih =>
    rw [Finset.sum_range_succ, ih, Nat.mod_pow_succ, Nat.testBit_eq_decide_div_mod_eq]
    rcases Nat.mod_two_eq_zero_or_one (N / 2 ^ n) with h | h <;> simp [h]

/-- Completeness of one block: the computed witness satisfies it. -/
theorem block_complete (x w : ℕ → F) (hx : x 0 = 1) (n b : ℕ) (v : Var) (w0 N : ℕ)
    (hN : N < 2 ^ b) (hNn : N < 2 ^ n) (hv : v.eval x w = ((N : ℕ) : F))
    (hw : ∀ i < blockWits n b, w (w0 + i) = ofBool ((blockVals n b N).getD i false)) :
    ∀ r ∈ (block n b v w0 : List (R1C F)), r.Holds x w := by
  have hbit : ∀ i < n, w (w0 + i) = ofBool (N.testBit i) := by
    intro i hi
    rw [hw i (by unfold blockWits; omega)]
    congr 1
    unfold blockVals
    rw [List.getD_append _ _ _ _ (by simpa using hi), getD_tab, if_pos hi]
  have hhi : ∀ i, b ≤ i → N.testBit i = false := by
    intro i hi
    exact Nat.testBit_lt_two_pow (lt_of_lt_of_le hN (Nat.pow_le_pow_right (by norm_num) hi))
  intro r hr
  simp only [block, List.mem_append, List.mem_singleton] at hr
  rcases hr with (hr | rfl) | hr
  · simp only [tab, List.mem_map, List.mem_range] at hr
    obtain ⟨i, hi, rfl⟩ := hr
    rw [boolC_holds x w hx]
    show w (w0 + i) = 0 ∨ w (w0 + i) = 1
    rw [hbit i hi]
    cases N.testBit i <;> simp [ofBool]
  · simp only [R1C.Holds, eval_append, packBits_eval]
    simp only [LC.eval, List.map_nil, List.sum_nil, List.map_cons, List.sum_cons, hv]
    have : ∑ i ∈ Finset.range n, (2 : F) ^ i * w (w0 + i) = ((N % 2 ^ n : ℕ) : F) := by
      rw [← sum_testBit]
      push_cast
      apply Finset.sum_congr rfl
      intro i hi
      rw [hbit i (by simpa using hi)]
      cases N.testBit i <;> simp [ofBool]
    rw [this, Nat.mod_eq_of_lt hNn]
    ring
  · by_cases hnb : n ≤ b
    · simp [hnb] at hr
    · rw [if_neg hnb] at hr
      have hvb : (Var.wit (w0 + b)).eval x w = ofBool (N.testBit b) := hbit b (by omega)
      have hfr : ∀ i < n - b - 1, w (w0 + n + i) = ofBool ((orVals (N.testBit b)
          (tab (n - b - 1) fun i => N.testBit (b + 1 + i))).getD i false) := by
        intro i hi
        have := hw (n + i) (by unfold blockWits; omega)
        rw [← Nat.add_assoc] at this
        rw [this]
        congr 1
        unfold blockVals
        rw [List.getD_append_right _ _ _ _ (by simp)]
        simp
      have hz : ∀ i < n - b - 1, w (w0 + n + i) = 0 := by
        intro i hi
        rw [hfr i hi, hhi b (le_refl _)]
        have hl : i < (orVals false (tab (n - b - 1) fun i => N.testBit (b + 1 + i))).length := by
          rw [length_orVals]; simpa using hi
        have := orVals_false (tab (n - b - 1) fun i => N.testBit (b + 1 + i)) (by
          intro c hc
          simp only [tab, List.mem_map, List.mem_range] at hc
          obtain ⟨j, _, rfl⟩ := hc
          exact hhi _ (by omega)) _ (List.getElem_mem hl)
        rw [List.getD_eq_getElem?_getD, List.getElem?_eq_getElem hl]
        simp [this, ofBool]
      simp only [List.mem_append, List.mem_singleton] at hr
      rcases hr with hr | rfl
      · have := orCs_complete x w hx (.wit (w0 + b)) (N.testBit b) (w0 + b + 1) (w0 + n)
          (tab (n - b - 1) fun i => N.testBit (b + 1 + i)) hvb
          (by
            intro i hi
            rw [length_tab] at hi
            rw [show w0 + b + 1 + i = w0 + (b + 1 + i) by omega, hbit _ (by omega), getD_tab,
              if_pos hi])
          (by
            intro i hi
            rw [length_tab] at hi
            exact hfr i hi)
        rw [length_tab] at this
        exact this r hr
      · rw [falseC_holds x w hx]
        cases hm : n - b - 1 with
        | zero =>
          show (Var.wit (w0 + b)).eval x w = 0
          rw [hvb, hhi b (le_refl _)]; rfl
        | succ m =>
          show w (w0 + n + m) = 0
          exact hz m (by omega)

end

section
variable {K : FieldCfg}

theorem length_orCs {F : Type} [Field F] (a : Var) (p f n : ℕ) :
    (orCs a p f n : List (R1C F)).length = n := by
  induction n generalizing a p f with
  | zero => rfl
  | succ n ih => simp [orCs, ih]

theorem length_block {F : Type} [Field F] (n b : ℕ) (v : Var) (w0 : ℕ) :
    (block n b v w0 : List (R1C F)).length = if n ≤ b then n + 1 else 2 * n - b + 1 := by
  unfold block
  split <;> simp [length_orCs]
  omega

theorem length_blocks (n b : ℕ) (vs : List Var) (w0 : ℕ) :
    (blocks (K := K) n b vs w0).length = vs.length * (if n ≤ b then n + 1 else 2 * n - b + 1) := by
  induction vs generalizing w0 with
  | nil => simp [blocks]
  | cons v vs ih =>
    rw [blocks, List.length_append, ih, length_block, List.length_cons]
    ring

theorem blocks_sound (x w : ℕ → K.F) (hx : x 0 = 1) (n b : ℕ) (hb : b ≤ n) (vs : List Var)
    (w0 : ℕ) (h : ∀ r ∈ blocks (K := K) n b vs w0, r.Holds x w) :
    ∀ v ∈ vs, ∃ N < 2 ^ b, v.eval x w = ((N : ℕ) : K.F) := by
  induction vs generalizing w0 with
  | nil => simp
  | cons v vs ih =>
    intro u hu
    simp only [blocks, List.mem_append] at h
    rcases List.mem_cons.mp hu with rfl | hu
    · exact block_sound x w hx n b hb u w0 (fun r hr => h r (Or.inl hr))
    · exact ih _ (fun r hr => h r (Or.inr hr)) u hu

theorem blocks_complete (x w : ℕ → K.F) (hx : x 0 = 1) (n b : ℕ) (l : List (Var × ℕ)) (w0 : ℕ)
    (hN : ∀ t ∈ l, t.2 < 2 ^ b ∧ t.2 < 2 ^ n ∧ t.1.eval x w = ((t.2 : ℕ) : K.F))
    (hw : ∀ i < l.length * blockWits n b,
      w (w0 + i) = ofBool ((l.flatMap fun t => blockVals n b t.2).getD i false)) :
    ∀ r ∈ blocks (K := K) n b (l.map (·.1)) w0, r.Holds x w := by
  induction l generalizing w0 with
  | nil => simp [blocks]
  | cons t l ih =>
    intro r hr
    simp only [List.map_cons, blocks, List.mem_append] at hr
    have ht := hN t (by simp)
    rcases hr with hr | hr
    · refine block_complete x w hx n b t.1 w0 t.2 ht.1 ht.2.1 ht.2.2 ?_ r hr
      intro i hi
      rw [hw i (by rw [List.length_cons, Nat.succ_mul]; omega), List.flatMap_cons,
        List.getD_append _ _ _ _ (by rw [length_blockVals]; exact hi)]
    · refine ih (w0 + blockWits n b) (fun u hu => hN u (by simp [hu])) ?_ r hr
      intro i hi
      rw [Nat.add_assoc, hw (blockWits n b + i) (by rw [List.length_cons, Nat.succ_mul]; omega),
        List.flatMap_cons, List.getD_append_right _ _ _ _ (by rw [length_blockVals]; omega),
        length_blockVals, Nat.add_sub_cancel_left]

end

end Verif
