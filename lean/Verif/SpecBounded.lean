/-
Specification used in the statements of C125: steps that lose nothing.
-/
import Verif.SpecLive

namespace Verif
namespace Spec
variable {E : Engine}

/-- `k` steps. -/
inductive Steps {α : Type*} (step : α → α → Prop) : ℕ → α → α → Prop
  | zero (S : α) : Steps step 0 S S
  | succ {k : ℕ} {S T U : α} : Steps step k S T → step T U → Steps step (k + 1) S U

/-- A step of key generation, by whomever, that changes something and in which nothing is lost: nobody loses its memory, and
whatever is written is written completely. -/
def KeygenProgress (C : Codecs E) (N : ℕ) (b : UInt8) (gens : EncryptionGens E) (g_i : List E.G1) (D G : E.G1)
    (S T : Sys E) : Prop :=
  SysStep C N b gens g_i D G S T ∧ T ≠ S ∧
    ∀ j, ((S.node j).mem ≠ none → (T.node j).mem ≠ none) ∧
      ((T.node j).disk ≠ (S.node j).disk → load C (T.node j).disk ≠ none)

/-- A step of a poll after the voting, by whomever, that changes something and in which nothing is lost or replaced: whatever
the aggregator writes it writes completely, nobody votes, and a published share is not replaced by another one. -/
def PollProgress (K : PollCfg E) (S T : Poll) : Prop :=
  PollStep K S T ∧ T ≠ S ∧ T.cast = S.cast ∧
    (T.store ≠ S.store → (arkTally K.codecs).de T.store ≠ none) ∧
    ∀ j bs, S.shares j = some bs → T.shares j = some bs

/-- The same, by an aggregator that closes the poll only when everybody who has voted is counted. -/
def PatientProgress (K : PollCfg E) (S T : Poll) : Prop :=
  PollProgress K S T ∧ (S.total = none → T.total ≠ none → ∀ v ∈ S.cast, v.1 ∈ countedSoFar K.codecs S)

/-- What holders do if at every moment at most one of them does something, nothing is lost, and as long as there is something
to do somebody does something sooner or later. -/
def KeepsGoing {α : Type*} (progress : α → α → Prop) (h : ℕ → α) : Prop :=
  (∀ i, progress (h i) (h (i + 1)) ∨ h (i + 1) = h i) ∧
    ∀ i, (∃ T, progress (h i) T) → ∃ k ≥ i, progress (h k) (h (k + 1))

end Spec
end Verif
