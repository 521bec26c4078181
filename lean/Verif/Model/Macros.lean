/-
The exported macros of src/macros.rs that compute something: `join!` with and without the feature `parallel`,
`unnest_tuple!` and `multi_pairing!`.  `concat_slices!` is list concatenation in `Model/Setup`.  The other macros of the file
only abbreviate types and trait implementations, or refer to modules that the crate does not have.
-/
import Verif.Model.Engine

namespace Verif

/-- Values as they come out of nested calls of `rayon::join`, src/macros.rs:62-67: `(a, (b, c))`.  Simplification: all
expressions have values in one type `β`. -/
inductive Nested (β : Type) where
  | one (v : β)
  | pair (a b : Nested β)

/-- `unnest_tuple!`, src/macros.rs:86-117, applied to `n` expressions and a value, arm by arm; `none` if there is no arm, or the
value does not have the form of the pattern (in both cases the program does not compile). -/
def unnestTuple {β : Type} : ℕ → Nested β → Option (List β)
  | 1, .one a => some [a]
  | 2, .pair (.one a) (.one b) => some [a, b]
  | 3, .pair (.one a) (.pair (.one b) (.one c)) => some [a, b, c]
  | 4, .pair (.one a) (.pair (.one b) (.pair (.one c) (.one d))) => some [a, b, c, d]
  | 5, .pair (.one a) (.pair (.one b) (.pair (.one c) (.pair (.one d) (.one e)))) => some [a, b, c, d, e]
  | 6, .pair (.one a) (.pair (.one b) (.pair (.one c) (.pair (.one d) (.pair (.one e) (.one f))))) =>
    some [a, b, c, d, e, f]
  | _, _ => none

/-- A state of nested calls of `rayon::join`, src/macros.rs:62-67: an expression that has not been run yet (its number), a call
of which both closures are under way, or something finished, with its value or with the payload of its panic. -/
inductive JoinTree (β P : Type) where
  | expr (i : ℕ)
  | both (a b : JoinTree β P)
  | done (r : Except P (Nested β))

/-- The arms `join!(@ ..)`, src/macros.rs:61-67, for the `k + 1` expressions from number `i` on. -/
def joinCalls {β P : Type} : ℕ → ℕ → JoinTree β P
  | i, 0 => .expr i
  | i, k + 1 => .both (.expr i) (joinCalls (i + 1) k)

/-- What `rayon::join` (called at src/macros.rs:63) returns when both closures have finished: both values; if a closure
panicked, that panic; if both did, that of the first. -/
def joinResult {β P : Type} : Except P (Nested β) → Except P (Nested β) → Except P (Nested β)
  | .ok a, .ok b => .ok (.pair a b)
  | .error p, _ => .error p
  | .ok _, .error q => .error q

/-- One step of the threads that work on nested calls of `rayon::join`, src/macros.rs:62-67, at any place and in any order: run an
expression (its number is recorded), or return from a call.  `rayon::join` runs both closures in any case.  Simplification:
expressions have no effects on each other. -/
inductive JoinStep {β P : Type} (f : ℕ → Except P β) : JoinTree β P → List ℕ → JoinTree β P → List ℕ → Prop
  | run (i : ℕ) (log : List ℕ) : JoinStep f (.expr i) log (.done ((f i).map .one)) (log ++ [i])
  | left {a a' : JoinTree β P} (b : JoinTree β P) {log log' : List ℕ} :
      JoinStep f a log a' log' → JoinStep f (.both a b) log (.both a' b) log'
  | right (a : JoinTree β P) {b b' : JoinTree β P} {log log' : List ℕ} :
      JoinStep f b log b' log' → JoinStep f (.both a b) log (.both a b') log'
  | return (x y : Except P (Nested β)) (log : List ℕ) :
      JoinStep f (.both (.done x) (.done y)) log (.done (joinResult x y)) log

/-- `k` steps from the start of the calls that `join!` makes for `n + 1` expressions, src/macros.rs:68-74. -/
inductive JoinRuns {β P : Type} (f : ℕ → Except P β) (n : ℕ) : ℕ → JoinTree β P → List ℕ → Prop
  | start : JoinRuns f n 0 (joinCalls 0 n) []
  | step {k : ℕ} {t t' : JoinTree β P} {log log' : List ℕ} :
      JoinRuns f n k t log → JoinStep f t log t' log' → JoinRuns f n (k + 1) t' log'

/-- `join!` with the feature `parallel`, src/macros.rs:58-75, for `n` expressions: some schedule runs the expressions in the
order `log` and the outcome is `r`, the values or a panic.  It does not compile if `unnest_tuple!` does not. -/
def JoinParallel {β P : Type} (f : ℕ → Except P β) (n : ℕ) (log : List ℕ) (r : Except P (List β)) : Prop :=
  (1 ≤ n ∧ ∃ v : Nested Unit, unnestTuple n v ≠ none) ∧ ∃ k x, JoinRuns f (n - 1) k (.done x) log ∧
    match x with
    | .ok v => ∃ l, unnestTuple n v = some l ∧ r = .ok l
    | .error p => r = .error p

/-- `join!` without the feature, src/macros.rs:77-84: a tuple expression; evaluated from left to right, a panic ends it.  The
expressions from number `i` on, `k` of them; with the numbers of those that are run. -/
def joinSequential {β P : Type} (f : ℕ → Except P β) : ℕ → ℕ → Except P (List β) × List ℕ
  | _, 0 => (.ok [], [])
  | i, k + 1 =>
    match f i with
    | .error p => (.error p, [i])
    | .ok a => ((joinSequential f (i + 1) k).1.map (a :: ·), i :: (joinSequential f (i + 1) k).2)

/-- `multi_pairing!`, src/macros.rs:29-55: the first components and the second components, each converted with `into()`, as the
two arguments of `E::multi_pairing`. -/
def multiPairingMacro {E : Engine} (l : List (E.G1 × E.G2)) : Res E.GT :=
  E.multiPairing (l.map (·.1)) (l.map fun x => E.prep x.2)

end Verif
