/-
Specification of C120: a source of randomness for the tests, and what it means that a test is flaky.
-/
import Verif.SpecAgm
import Verif.Model.TestPrograms

namespace Verif
namespace Spec

/-- Where the tests get their points and their messages from: any state machine. -/
structure TestSource (E : Engine) where
  M : Type
  g1 : M → E.G1 × M
  g2 : M → E.G2 × M
  u32 : M → UInt32 × M

variable {E : Engine}

/-- The random number generator of a test whose scalars are the entries of an infinite sequence, one after the other, and whose
points and integers come from the source. -/
def TestSource.rng (S : TestSource E) : TestRng E where
  σ := (ℕ → E.Fr) × S.M
  fr := fun s => (s.1 0, (fun i => s.1 (i + 1), s.2))
  g1 := fun s => ((S.g1 s.2).1, (s.1, (S.g1 s.2).2))
  g2 := fun s => ((S.g2 s.2).1, (s.1, (S.g2 s.2).2))
  u32 := fun s => ((S.u32 s.2).1, (s.1, (S.u32 s.2).2))

/-- The state of that generator in which `f` is still to come and the source is in the state `m`. -/
def TestSource.state (S : TestSource E) (f : ℕ → E.Fr) (m : S.M) : S.rng.σ := (f, m)

/-- The points of the source are not the zero of their groups. -/
def TestSource.NonZero (S : TestSource E) : Prop := ∀ m, (S.g1 m).1 ≠ 0 ∧ (S.g2 m).1 ≠ 0

/-- The number of choices of the first `K` scalars with which the test does not end with the outcome `expected`. -/
noncomputable def misses (S : TestSource E) (test : (S.rng).σ → Res Unit) (m : S.M) (K : ℕ) (expected : Res Unit) : ℕ :=
  {x : Fin K → E.Fr | test (S.state (tapeOf x) m) ≠ expected}.ncard

end Spec
end Verif
