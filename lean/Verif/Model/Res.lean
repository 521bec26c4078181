/-
Model of the result type of the crate: `crate::Result<T>` (src/lib.rs:22) and
`SaverError` (src/error.rs:3-20), extended by an explicit `panic` outcome for
index-out-of-bounds, division by zero, failed `assert!`s and checked overflow.
-/
universe u

namespace Verif

/-- `SaverError`, src/error.rs:3-20. `SynthesisError` carries a payload from `ark-relations`;
only the two variants that this crate can produce itself are distinguished here:
`AssignmentMissing` (src/circuit.rs:61) and `UnexpectedIdentity` (src/saver_groth16.rs:145);
the constructor `synthesisOther` stands for every other payload. -/
inductive SaverError where
  | unexpectedBase (b : UInt8)
  | invalidDecomposition
  | assignmentMissing
  | unexpectedIdentity
  | synthesisOther
  | atLeastOneNonNoneRequired
  | vectorShorterThanExpected (a b : Nat)
  | malformedEncryptionKey (a b : Nat)
  | malformedDecryptionKey (a b : Nat)
  | incompatibleEncryptionKey (a b : Nat)
  | incompatibleDecryptionKey (a b : Nat)
  | invalidProof
  | invalidCommitment
  | invalidDecryption
  | couldNotFindDiscreteLog
  | invalidPairingPowers
  | pairingCheckFailed
  deriving DecidableEq, Repr

/-- Outcome of a call: `Ok`, `Err` (src/lib.rs:22) or a Rust panic. -/
inductive Res (α : Type) where
  | ok (a : α)
  | err (e : SaverError)
  | panic
  deriving DecidableEq, Repr

namespace Res

/-- Sequencing: the `?` operator (e.g. src/keygen.rs:186,209), and unwinding of panics. -/
protected def bind {α β : Type} (x : Res α) (f : α → Res β) : Res β :=
  match x with
  | ok a => f a
  | err e => err e
  | panic => panic

/-- `do` blocks of the model: the `?` operator (e.g. src/keygen.rs:186,209), and unwinding of panics. -/
instance : Monad Res where
  pure := Res.ok
  bind := Res.bind

@[simp] theorem pure_eq {α : Type} (a : α) : (pure a : Res α) = ok a := rfl
@[simp] theorem ok_bind {α β : Type} (a : α) (f : α → Res β) : (ok a >>= f) = f a := rfl
@[simp] theorem err_bind {α β : Type} (e : SaverError) (f : α → Res β) :
    ((err e : Res α) >>= f) = err e := rfl
@[simp] theorem panic_bind {α β : Type} (f : α → Res β) :
    ((panic : Res α) >>= f) = panic := rfl
@[simp] theorem map_ok {α β : Type} (g : α → β) (a : α) : g <$> (ok a) = ok (g a) := rfl
@[simp] theorem map_err {α β : Type} (g : α → β) (e : SaverError) :
    g <$> (err e : Res α) = err e := rfl
@[simp] theorem map_panic {α β : Type} (g : α → β) : g <$> (panic : Res α) = panic := rfl

theorem bind_eq_ok {α β : Type} {x : Res α} {f : α → Res β} {b : β} :
    (x >>= f) = ok b ↔ ∃ a, x = ok a ∧ f a = ok b := by
  cases x <;> simp

end Res

/-- Slice/vector indexing `v[i]`: panics when out of bounds. E.g. src/encryption.rs:324-325,380,410,427,450,466. -/
def idx {α : Type} (v : List α) (i : Nat) : Res α :=
  match v[i]? with
  | some a => .ok a
  | none => .panic

/-- `for`-style map over a list whose body may fail: runs left to right and stops at the first
failure. Models `(0..n).map(..).collect()` and push-loops.
E.g. src/encryption.rs:322-348,376-381, src/keygen.rs:290-303. -/
def mapRes {α : Type u} {β : Type} (f : α → Res β) : List α → Res (List β)
  | [] => .ok []
  | a :: as => do
    let b ← f a
    let bs ← mapRes f as
    return b :: bs

end Verif
