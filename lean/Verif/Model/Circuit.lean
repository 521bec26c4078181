/-
Model of src/circuit.rs, together with the parts of `ark-relations` (constraint system) and
`ark-r1cs-std` (`FpVar`, `Boolean` gadgets) that it calls.
-/
import Verif.Model.Utils

namespace Verif

/-- `ark_relations::r1cs::Variable`.  Simplification: `Variable::One` is `inst 0`, the matrix column
it is mapped to.  Symbolic linear combinations do not occur in this circuit.
The variables that src/circuit.rs:57-68 allocates. -/
inductive Var where
  | inst (k : ℕ)
  | wit (k : ℕ)
  deriving DecidableEq, Repr

/-- `Variable::One`. Used by the constraints that src/circuit.rs:74-80 creates. -/
abbrev Var.one : Var := .inst 0

/-- `LinearCombination<F>`: coefficient/variable pairs (not compacted; the value is the same).
Built by the gadgets called at src/circuit.rs:74-80. -/
abbrev LC (F : Type) := List (F × Var)

/-- One rank-1 constraint `a * b = c`. As enforced by the gadgets called at src/circuit.rs:74-80. -/
structure R1C (F : Type) where
  a : LC F
  b : LC F
  c : LC F

/-- `ConstraintSystem<F>` (`ark-relations`): synthesis mode, number of instance and witness
variables, the assignments (recorded only when not in setup mode) and the constraints.
What `cs: ConstraintSystemRef` at src/circuit.rs:49 refers to. -/
structure CS (F : Type) where
  setup : Bool
  numInst : ℕ
  numWit : ℕ
  inst : List F
  wit : List F
  cons : List (R1C F)

section
variable {F : Type} [Field F]

/-- Value of a variable under an assignment `x` of the instance and `w` of the witness variables.
For the variables of src/circuit.rs:57-68. -/
def Var.eval (x w : ℕ → F) : Var → F
  | .inst k => x k
  | .wit k => w k

/-- Value of a linear combination. For the constraints of src/circuit.rs:74-80. -/
def LC.eval (x w : ℕ → F) (lc : LC F) : F := (lc.map fun t => t.1 * t.2.eval x w).sum

/-- A constraint is satisfied by an assignment. For the constraints of src/circuit.rs:74-80. -/
def R1C.Holds (x w : ℕ → F) (r : R1C F) : Prop := r.a.eval x w * r.b.eval x w = r.c.eval x w

/-- An assignment satisfies a list of constraints (and gives `Variable::One` the value one).
For the constraints of src/circuit.rs:47-84. -/
def Satisfies (x w : ℕ → F) (cons : List (R1C F)) : Prop := x 0 = 1 ∧ ∀ r ∈ cons, r.Holds x w

/-- `ConstraintSystem::new` (`ark-relations`): one instance variable, with value one.
The system with which `generate_constraints`, src/circuit.rs:47-50, is called. -/
def CS.new (setup : Bool) : CS F :=
  { setup, numInst := 1, numWit := 0, inst := [1], wit := [], cons := [] }

/-- `ConstraintSystem::new_input_variable` (`ark-relations`): the value closure is only called
outside setup mode. Called by `FpVar::new_variable` at src/circuit.rs:59-67 in mode `Input`. -/
def CS.newInput (cs : CS F) (f : Res F) : Res (Var × CS F) :=
  if cs.setup then .ok (.inst cs.numInst, { cs with numInst := cs.numInst + 1 })
  else do
    let v ← f
    return (.inst cs.numInst, { cs with numInst := cs.numInst + 1, inst := cs.inst ++ [v] })

/-- `ConstraintSystem::new_witness_variable` (`ark-relations`).
Called by `FpVar::new_variable` at src/circuit.rs:59-67 in mode `Witness`, and by the gadgets at
src/circuit.rs:74-80. -/
def CS.newWitness (cs : CS F) (f : Res F) : Res (Var × CS F) :=
  if cs.setup then .ok (.wit cs.numWit, { cs with numWit := cs.numWit + 1 })
  else do
    let v ← f
    return (.wit cs.numWit, { cs with numWit := cs.numWit + 1, wit := cs.wit ++ [v] })

/-- `ConstraintSystem::enforce_constraint` (`ark-relations`). Called by the gadgets at src/circuit.rs:74-80. -/
def CS.enforce (cs : CS F) (a b c : LC F) : CS F := { cs with cons := cs.cons ++ [⟨a, b, c⟩] }

/-- `AllocatedFp` / `FpVar::Var` (`ark-r1cs-std`): value (known outside setup mode) and variable.
The elements of `vars`, src/circuit.rs:57-68. -/
structure FpVar (F : Type) where
  value : Option F
  var : Var

/-- `FpVar::new_variable` with mode `Input` or `Witness` (`ark-r1cs-std`), called at
src/circuit.rs:59-67 with the closure `value.ok_or(AssignmentMissing)`. -/
def FpVar.newVariable (cs : CS F) (value : Option F) (asInput : Bool) : Res (FpVar F × CS F) := do
  let f : Res F := match value with
    | some v => .ok v
    | none => .err .assignmentMissing
  let (v, cs') ← if asInput then cs.newInput f else cs.newWitness f
  return (⟨if cs.setup then none else value, v⟩, cs')

/-- `Boolean` (`ark-r1cs-std`): a constant or an allocated bit with its value (known outside setup
mode).  The negated form `Not` never arises in this circuit.
The elements of `bits` and `or_result`, src/circuit.rs:74-78. -/
inductive BoolVar where
  | const (b : Bool)
  | is (v : Var) (val : Option Bool)

/-- field value of a bit. For the bits of src/circuit.rs:74. -/
def ofBool (b : Bool) : F := if b then 1 else 0

/-- `Boolean::new_witness` (`ark-r1cs-std`): allocates a witness `a` and enforces
`(1 - a) * a = 0`. Called by `to_non_unique_bits_le` at src/circuit.rs:74. -/
def BoolVar.newWitness (cs : CS F) (b : Option Bool) : Res (BoolVar × CS F) := do
  let (v, cs') ← cs.newWitness (match b with
    | some b => .ok (ofBool b)
    | none => .err .assignmentMissing)
  return (.is v (if cs.setup then none else b),
    cs'.enforce [(1, .one), (-1, v)] [(1, v)] [])

/-- Allocation of a list of bits, in order. Called by `to_non_unique_bits_le` at src/circuit.rs:74. -/
def BoolVar.newWitnesses : CS F → List (Option Bool) → Res (List BoolVar × CS F)
  | cs, [] => .ok ([], cs)
  | cs, b :: bs => do
    let (v, cs) ← BoolVar.newWitness cs b
    let (vs, cs) ← BoolVar.newWitnesses cs bs
    return (v :: vs, cs)

/-- `Boolean::lc` (`ark-r1cs-std`). Used by the gadgets called at src/circuit.rs:74-80. -/
def BoolVar.lc : BoolVar → LC F
  | .const true => [(1, .one)]
  | .const false => []
  | .is v _ => [(1, v)]

/-- The packing sum `bit_0 + 2 bit_1 + 4 bit_2 + ..` of `to_non_unique_bits_le` (`ark-r1cs-std`):
`coeff` starts at one and is doubled for each bit. Called at src/circuit.rs:74. -/
def packLC : F → List BoolVar → LC F
  | _, [] => []
  | coeff, b :: bs => (b.lc.map fun t => (t.1 * coeff, t.2)) ++ packLC (coeff + coeff) bs

/-- `Boolean::or` (`ark-r1cs-std`): constants are folded; for two allocated bits a witness `c` is
allocated (no booleanity constraint) and `(1 - a) * (1 - b) = 1 - c` enforced. Called at src/circuit.rs:78. -/
def BoolVar.or (cs : CS F) : BoolVar → BoolVar → Res (BoolVar × CS F)
  | .const false, y => .ok (y, cs)
  | x, .const false => .ok (x, cs)
  | .const true, _ => .ok (.const true, cs)
  | _, .const true => .ok (.const true, cs)
  | .is a va, .is b vb => do
    let v : Option Bool := match va, vb with
      | some p, some q => some (p || q)
      | _, _ => none
    let (c, cs') ← cs.newWitness (match v with
      | some r => .ok (ofBool r)
      | none => .err .assignmentMissing)
    return (.is c (if cs.setup then none else v),
      cs'.enforce [(1, .one), (-1, a)] [(1, .one), (-1, b)] [(1, .one), (-1, c)])

/-- `or_result.enforce_equal(&Boolean::constant(false))` (`ark-r1cs-std`, src/circuit.rs:80): no
constraint if both are constant (`AssignmentMissing`, formerly `Unsatisfiable`, if they differ),
otherwise `a * 1 = 0`. -/
def BoolVar.enforceFalse (cs : CS F) : BoolVar → Res (CS F)
  | .const false => .ok cs
  | .const true => .err .assignmentMissing
  | .is v _ => .ok (cs.enforce [(1, v)] [(1, .one)] [])

/-- The loop of src/circuit.rs:76-79. -/
def orLoop : CS F → BoolVar → List BoolVar → Res (BoolVar × CS F)
  | cs, acc, [] => .ok (acc, cs)
  | cs, acc, b :: bs => do
    let (acc, cs) ← BoolVar.or cs acc b
    orLoop cs acc bs

/-- Slice `v[i..]`: panics if `i > len`. As at src/circuit.rs:77. -/
def sliceFrom {A : Type} (v : List A) (i : ℕ) : Res (List A) :=
  if i ≤ v.length then .ok (v.drop i) else .panic

end

section
variable {K : FieldCfg}

/-- The bit values of `to_non_unique_bits_le` (`ark-r1cs-std`): the `MODULUS_BIT_SIZE` lowest bits of
the canonical representative, unknown in setup mode. Called at src/circuit.rs:74. -/
def FpVar.bitValues (v : FpVar K.F) : List (Option Bool) :=
  (List.range K.modBits).map fun i => v.value.map fun x => (intoBigint x).testBit i

/-- `AllocatedFp::to_non_unique_bits_le` (`ark-r1cs-std`), called at src/circuit.rs:74:
`MODULUS_BIT_SIZE` boolean witnesses, least significant first, then `0 * 0 = sum 2^i b_i - v`. -/
def FpVar.toNonUniqueBitsLe (cs : CS K.F) (v : FpVar K.F) : Res (List BoolVar × CS K.F) := do
  let (bits, cs) ← BoolVar.newWitnesses cs v.bitValues
  return (bits, cs.enforce [] [] (packLC 1 bits ++ [(-1, v.var)]))

/-- `BitsizeCheckCircuit`, src/circuit.rs:13-20. -/
structure BitsizeCheckCircuit (K : FieldCfg) where
  required_bit_size : UInt8
  num_values : UInt8
  values : Option (List K.F)
  alloc_as_public : Bool

/-- `BitsizeCheckCircuit::new`, src/circuit.rs:23-40. -/
def BitsizeCheckCircuit.new (b : UInt8) (num : Option UInt8) (values : Option (List K.F))
    (pub : Bool) : Res (BitsizeCheckCircuit K) := do
  let n ← match num with
    | some n => Res.ok n
    | none => chunksCount K b
  return { required_bit_size := b, num_values := n, values := values, alloc_as_public := pub }

/-- First loop of `generate_constraints`, src/circuit.rs:57-68. -/
def allocValues (pub : Bool) : CS K.F → List (Option K.F) → Res (List (FpVar K.F) × CS K.F)
  | cs, [] => .ok ([], cs)
  | cs, v :: vs => do
    let (x, cs) ← FpVar.newVariable cs v pub
    let (xs, cs) ← allocValues pub cs vs
    return (x :: xs, cs)

/-- Body of the second loop of `generate_constraints`, src/circuit.rs:71-81. -/
def checkValue (b : UInt8) (cs : CS K.F) (v : FpVar K.F) : Res (CS K.F) := do
  let (bits, cs) ← v.toNonUniqueBitsLe cs
  let high ← sliceFrom bits b.toNat
  let (r, cs) ← orLoop cs (.const false) high
  BoolVar.enforceFalse cs r

/-- Second loop of `generate_constraints`, src/circuit.rs:71-81. -/
def checkValues (b : UInt8) : CS K.F → List (FpVar K.F) → Res (CS K.F)
  | cs, [] => .ok cs
  | cs, v :: vs => do
    let cs ← checkValue b cs v
    checkValues b cs vs

/-- The vector `values` of src/circuit.rs:51-54. -/
def BitsizeCheckCircuit.valueList (c : BitsizeCheckCircuit K) : List (Option K.F) :=
  match c.values with
  | some vals => vals.map some
  | none => List.replicate c.num_values.toNat none

/-- `generate_constraints`, src/circuit.rs:47-84. -/
def BitsizeCheckCircuit.generateConstraints (c : BitsizeCheckCircuit K) (cs : CS K.F) :
    Res (CS K.F) := do
  let (vars, cs) ← allocValues c.alloc_as_public cs c.valueList
  checkValues c.required_bit_size cs vars

end

end Verif
