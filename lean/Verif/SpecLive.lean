/-
Specification used in the statements of C113: histories and fairness.
-/
import Verif.Model.Whole

namespace Verif
namespace Spec
variable {E : Engine}

/-- An infinite history of a transition system: at every moment a step is done, or nothing. -/
def History {α : Type*} (step : α → α → Prop) (h : ℕ → α) : Prop := ∀ i, step (h i) (h (i + 1)) ∨ h (i + 1) = h i

/-- `act` can be done. -/
def Enabled {α : Type*} (step act : α → α → Prop) (S : α) : Prop := ∃ T, step S T ∧ act S T

/-- What can be done from some moment on without interruption is done at some time. -/
def WeaklyFair {α : Type*} (step act : α → α → Prop) (h : ℕ → α) : Prop :=
  ∀ i, (∀ k ≥ i, Enabled step act (h k)) → ∃ k ≥ i, act (h k) (h (k + 1))

/-- What can be done again and again, though perhaps with interruptions, is done at some time. -/
def StronglyFair {α : Type*} (step act : α → α → Prop) (h : ℕ → α) : Prop :=
  ∀ i, (∀ k ≥ i, ∃ l ≥ k, Enabled step act (h l)) → ∃ k ≥ i, act (h k) (h (k + 1))

/-- From some moment on, `P`. -/
def Eventually (P : ℕ → Prop) : Prop := ∃ n, ∀ i ≥ n, P i

/-! ### what the key holders have to do -/

/-- Party `j` generates its keys and stores them completely. -/
def Stores (C : Codecs E) (j : ℕ) (S T : Sys E) : Prop := load C (S.node j).disk = none ∧ load C (T.node j).disk ≠ none

/-- Party `j` publishes its partial key. -/
def Publishes (j : ℕ) (S T : Sys E) : Prop := S.keys j = none ∧ T.keys j ≠ none

/-- Party `j` gets its secret key into its memory. -/
def Loads (j : ℕ) (S T : Sys E) : Prop := (S.node j).mem = none ∧ (T.node j).mem ≠ none

/-- Party `j` publishes its share of `P_1`. -/
def Shares (j : ℕ) (S T : Sys E) : Prop := S.shares j = none ∧ T.shares j ≠ none

/-- Party `j` loses its memory. -/
def Crashes (j : ℕ) (S T : Sys E) : Prop := (S.node j).mem ≠ none ∧ (T.node j).mem = none

/-- The `N` key holders do their duty in the end, however often they crash.  (`sys`: where the key holders are in the state.) -/
structure KeygenFair {α : Type*} (C : Codecs E) (N : ℕ) (step : α → α → Prop) (sys : α → Sys E) (h : ℕ → α) : Prop where
  stores : ∀ j < N, WeaklyFair step (fun S T => Stores C j (sys S) (sys T)) h
  publishes : ∀ j < N, WeaklyFair step (fun S T => Publishes j (sys S) (sys T)) h
  loads : ∀ j < N, WeaklyFair step (fun S T => Loads j (sys S) (sys T)) h
  shares : ∀ j < N, StronglyFair step (fun S T => Shares j (sys S) (sys T)) h

/-! ### what the aggregator and the key holders have to do in a poll -/

/-- Who has been counted, according to the aggregator's storage; nobody if it is not readable. -/
def countedSoFar (C : Codecs E) (S : Poll) : List ℕ :=
  match (arkTally C).de S.store with
  | none => []
  | some (x, _) => x.1

/-- The aggregator stores a tally completely, with nothing readable in its storage before. -/
def StartsTally (C : Codecs E) (S T : Poll) : Prop := (arkTally C).de S.store = none ∧ (arkTally C).de T.store ≠ none

/-- The aggregator counts user `j`. -/
def CountsUser (C : Codecs E) (j : ℕ) (S T : Poll) : Prop := j ∉ countedSoFar C S ∧ j ∈ countedSoFar C T

/-- The aggregator publishes its tally. -/
def Closes (S T : Poll) : Prop := S.total = none ∧ T.total ≠ none

/-- Key holder `j` publishes its share of the re-encryption. -/
def SharesTally (j : ℕ) (S T : Poll) : Prop := S.shares j = none ∧ T.shares j ≠ none

/-- The aggregator loses its tally. -/
def LosesTally (C : Codecs E) (S T : Poll) : Prop := (arkTally C).de S.store ≠ none ∧ (arkTally C).de T.store = none

/-- The aggregator and the key holders do their duty in the end, however often they crash.  (`poll`: where the poll is in the
state.) -/
structure PollFair {α : Type*} (C : Codecs E) (holders : ℕ) (step : α → α → Prop) (poll : α → Poll) (h : ℕ → α) : Prop where
  starts : WeaklyFair step (fun S T => StartsTally C (poll S) (poll T)) h
  closes : StronglyFair step (fun S T => Closes (poll S) (poll T)) h
  shares : ∀ j < holders, WeaklyFair step (fun S T => SharesTally j (poll S) (poll T)) h

end Spec
end Verif
