/-
Specification for C121: what it means that dishonest users only put on the board of a poll what honest users have put on the
board of any poll.
-/
import Verif.Model.Many

namespace Verif
namespace Spec
variable {E : Engine}

/-- Honest user `u` of poll `i` has put these bytes on the board of poll `i`. -/
def HonestlyPosted (bad : ℕ → ℕ → Prop) (W : Many E) (i u : ℕ) (bs : List UInt8) : Prop :=
  ¬ bad i u ∧ (u, bs) ∈ (W.polls i).posted

/-- All that dishonest users have put on the board of poll `k` are bytes that honest users of any polls have put on the boards
of their polls. -/
def OnlyReplays (bad : ℕ → ℕ → Prop) (k : ℕ) (W : Many E) : Prop :=
  ∀ p ∈ (W.polls k).posted, bad k p.1 → ∃ i u, HonestlyPosted bad W i u p.2

end Spec
end Verif
