/-
Property C118: the exported macros `join!`, `unnest_tuple!` and `multi_pairing!`.
-/
import Verif.Model.Macros
import Mathlib.Data.List.Perm.Basic
import Mathlib.Algebra.BigOperators.Group.List.Basic

namespace Verif

namespace Spec

/-- The values of all the outcomes in order, or the first panic among them. -/
def firstPanic {β P : Type} : List (Except P β) → Except P (List β)
  | [] => .ok []
  | .error p :: _ => .error p
  | .ok a :: l => match firstPanic l with
    | .error p => .error p
    | .ok as => .ok (a :: as)

end Spec

open Spec

namespace Mac
variable {β P : Type} {f : ℕ → Except P β}

/-- the outcome a tree will have -/
def final (f : ℕ → Except P β) : JoinTree β P → Except P (Nested β)
  | .expr i => (f i).map .one
  | .both a b => joinResult (final f a) (final f b)
  | .done r => r

/-- the expressions still to be run -/
def todo : JoinTree β P → List ℕ
  | .expr i => [i]
  | .both a b => todo a ++ todo b
  | .done _ => []

/-- the steps still to be done -/
def size : JoinTree β P → ℕ
  | .expr _ => 1
  | .both a b => size a + size b + 1
  | .done _ => 0

theorem step_inv {t t' : JoinTree β P} {log log' : List ℕ} (h : JoinStep f t log t' log') :
    final f t' = final f t ∧ (log' ++ todo t').Perm (log ++ todo t) ∧ size t = size t' + 1 := by
  induction h with
  | run i log => exact ⟨rfl, by simp [todo], rfl⟩
  | left b h ih =>
    obtain ⟨h1, h2, h3⟩ := ih
    refine ⟨by simp only [final, h1], ?_, by simp only [size]; omega⟩
    simp only [todo]
    rw [← List.append_assoc, ← List.append_assoc]
    exact h2.append_right _
  | right a h ih =>
    obtain ⟨h1, h2, h3⟩ := ih
    refine ⟨by simp only [final, h1], ?_, by simp only [size]; omega⟩
    simp only [todo]
    have e : ∀ l x y : List ℕ, (l ++ (x ++ y)).Perm (x ++ (l ++ y)) := fun l x y => by
      rw [← List.append_assoc, ← List.append_assoc]
      exact List.perm_append_comm.append_right _
    exact (e _ _ _).trans ((h2.append_left _).trans (e _ _ _).symm)
  | «return» x y log => exact ⟨rfl, by simp [todo], rfl⟩

theorem progress (t : JoinTree β P) (log : List ℕ) :
    (∃ x, t = .done x) ∨ ∃ t' log', JoinStep f t log t' log' := by
  induction t with
  | expr i => exact .inr ⟨_, _, .run i log⟩
  | both a b iha ihb =>
    rcases iha with ⟨x, rfl⟩ | ⟨a', log', h⟩
    · rcases ihb with ⟨y, rfl⟩ | ⟨b', log', h⟩
      · exact .inr ⟨_, _, .return x y log⟩
      · exact .inr ⟨_, _, .right _ h⟩
    · exact .inr ⟨_, _, .left _ h⟩
  | done r => exact .inl ⟨r, rfl⟩

theorem todo_calls (i k : ℕ) : todo (joinCalls i k : JoinTree β P) = List.range' i (k + 1) := by
  induction k generalizing i with
  | zero => rfl
  | succ k ih => simp only [joinCalls, todo, ih]; rfl

theorem size_calls (i k : ℕ) : size (joinCalls i k : JoinTree β P) = 2 * k + 1 := by
  induction k generalizing i with
  | zero => rfl
  | succ k ih => simp only [joinCalls, size, ih]; omega

theorem runs_inv {n k : ℕ} {t : JoinTree β P} {log : List ℕ} (h : JoinRuns f n k t log) :
    final f t = final f (joinCalls 0 n) ∧ (log ++ todo t).Perm (List.range (n + 1)) ∧ k + size t = 2 * n + 1 := by
  induction h with
  | start => exact ⟨rfl, by rw [todo_calls, List.range_eq_range']; exact .refl _, by rw [size_calls]; omega⟩
  | step _ hs ih =>
    obtain ⟨h1, h2, h3⟩ := step_inv hs
    exact ⟨h1.trans ih.1, h2.trans ih.2.1, by omega⟩

/-- right-nested values -/
def nest : β → List β → Nested β
  | a, [] => .one a
  | a, b :: l => .pair (.one a) (nest b l)

theorem final_calls (f : ℕ → Except P β) (i k : ℕ) : final f (joinCalls i k) =
    match firstPanic ((List.range' i (k + 1)).map f) with
    | .error p => .error p
    | .ok [] => final f (joinCalls i k)
    | .ok (a :: l) => .ok (nest a l) := by
  induction k generalizing i with
  | zero =>
    simp only [joinCalls, final, Nat.zero_add, List.range'_one, List.map_cons, List.map_nil]
    cases f i <;> rfl
  | succ k ih =>
    have hlen : ∀ (l : List (Except P β)) as, firstPanic l = .ok as → as.length = l.length := by
      intro l
      induction l with
      | nil => intro as h; cases h; rfl
      | cons x l ihl =>
        intro as h
        cases x with
        | error p => cases h
        | ok a =>
          simp only [firstPanic] at h
          cases hf : firstPanic l with
          | error p => rw [hf] at h; cases h
          | ok as' => rw [hf] at h; cases h; simp [ihl as' hf]
    have ih' := ih (i + 1)
    rw [show List.range' i (k + 1 + 1) = i :: List.range' (i + 1) (k + 1) from rfl, List.map_cons]
    simp only [joinCalls, final]
    cases hi : f i with
    | error p => rfl
    | ok a =>
      cases hr : firstPanic ((List.range' (i + 1) (k + 1)).map f) with
      | error p =>
        rw [hr] at ih'
        simp only [firstPanic, hr]
        rw [ih']
        rfl
      | ok as =>
        have hl := hlen _ _ hr
        cases as with
        | nil => simp at hl
        | cons b as =>
          rw [hr] at ih'
          simp only [firstPanic, hr]
          rw [ih']
          rfl

theorem firstPanic_length (l : List (Except P β)) (as : List β) (h : firstPanic l = .ok as) : as.length = l.length := by
  induction l generalizing as with
  | nil => cases h; rfl
  | cons x l ihl =>
    cases x with
    | error p => cases h
    | ok a =>
      simp only [firstPanic] at h
      cases hf : firstPanic l with
      | error p => rw [hf] at h; cases h
      | ok as' => rw [hf] at h; cases h; simp [ihl as' hf]

theorem unnest_nest (a : β) (l : List β) (h : l.length < 6) : unnestTuple (l.length + 1) (nest a l) = some (a :: l) := by
  match l, h with
  | [], _ => rfl
  | [_], _ => rfl
  | [_, _], _ => rfl
  | [_, _, _], _ => rfl
  | [_, _, _, _], _ => rfl
  | [_, _, _, _, _], _ => rfl
  | _ :: _ :: _ :: _ :: _ :: _ :: l, h => simp at h; omega

theorem unnest_none {γ : Type} (n : ℕ) (hn : n = 0 ∨ 6 < n) (v : Nested γ) : unnestTuple n v = none := by
  rcases hn with rfl | hn
  · cases v <;> rfl
  · obtain ⟨m, rfl⟩ : ∃ m, n = m + 7 := ⟨n - 7, by omega⟩
    cases v <;> rfl

theorem compiles (n : ℕ) : (1 ≤ n ∧ ∃ v : Nested Unit, unnestTuple n v ≠ none) ↔ 1 ≤ n ∧ n ≤ 6 := by
  constructor
  · rintro ⟨h1, v, hv⟩
    refine ⟨h1, ?_⟩
    by_contra h
    exact hv (unnest_none n (.inr (by omega)) v)
  · rintro ⟨h1, h2⟩
    refine ⟨h1, nest () (List.replicate (n - 1) ()), ?_⟩
    have := unnest_nest () (List.replicate (n - 1) ()) (by simp; omega)
    rw [List.length_replicate, Nat.sub_add_cancel h1] at this
    rw [this]
    simp

theorem run_one (t : JoinTree β P) (log : List ℕ) (j : ℕ) (hj : j ∈ todo t) :
    ∃ t', JoinStep f t log t' (log ++ [j]) ∧ (j :: todo t').Perm (todo t) := by
  induction t with
  | expr i =>
    simp only [todo, List.mem_singleton] at hj
    subst hj
    exact ⟨_, .run j log, .refl _⟩
  | both a b iha ihb =>
    simp only [todo, List.mem_append] at hj
    rcases hj with hj | hj
    · obtain ⟨a', h1, h2⟩ := iha hj
      exact ⟨.both a' b, .left b h1, h2.append_right (todo b)⟩
    · obtain ⟨b', h1, h2⟩ := ihb hj
      exact ⟨.both a b', .right a h1, List.perm_middle.symm.trans (h2.append_left (todo a))⟩
  | done r => simp [todo] at hj

theorem run_all {n : ℕ} (l : List ℕ) {k : ℕ} {t : JoinTree β P} {log : List ℕ} (h : JoinRuns f n k t log)
    (hl : l.Perm (todo t)) : ∃ k' t', JoinRuns f n k' t' (log ++ l) ∧ todo t' = [] := by
  induction l generalizing k t log with
  | nil => exact ⟨k, t, by simpa using h, hl.symm.eq_nil⟩
  | cons j l ih =>
    obtain ⟨t', h1, h2⟩ := run_one (f := f) t log j (hl.mem_iff.mp (by simp))
    obtain ⟨k', t'', h3, h4⟩ := ih (.step h h1) ((List.perm_cons j).mp (hl.trans h2.symm))
    exact ⟨k', t'', by simpa using h3, h4⟩

theorem finish {n : ℕ} (s : ℕ) : ∀ (k : ℕ) (t : JoinTree β P) (log : List ℕ), size t = s → JoinRuns f n k t log →
    todo t = [] → ∃ k' x, JoinRuns f n k' (.done x) log := by
  induction s with
  | zero =>
    intro k t log hs h _
    rcases progress (f := f) t log with ⟨x, rfl⟩ | ⟨t', log', hst⟩
    · exact ⟨k, x, h⟩
    · have := (step_inv hst).2.2
      omega
  | succ s ih =>
    intro k t log hs h ht
    rcases progress (f := f) t log with ⟨x, rfl⟩ | ⟨t', log', hst⟩
    · exact ⟨k, x, h⟩
    · obtain ⟨-, h2, h3⟩ := step_inv hst
      rw [ht, List.append_nil] at h2
      have hpre : ∀ {t t' : JoinTree β P} {log log' : List ℕ}, JoinStep f t log t' log' → log <+: log' := by
        intro t t' log log' h
        induction h with
        | run i log => exact ⟨[i], rfl⟩
        | left b h ih => exact ih
        | right a h ih => exact ih
        | «return» x y log => exact List.prefix_rfl
      obtain ⟨u, rfl⟩ := hpre hst
      have hlen := h2.length_eq
      simp only [List.length_append] at hlen
      have hu : u = [] := List.eq_nil_of_length_eq_zero (by omega)
      have ht' : todo t' = [] := List.eq_nil_of_length_eq_zero (by omega)
      subst hu
      simp only [List.append_nil] at hst
      exact ih (k + 1) t' log (by omega) (.step h hst) ht'

end Mac

/-! ### C118 -/

section
variable {β P : Type}

/-- **C118** `join!` with the feature `parallel`, for one to six expressions: whatever the threads do, every expression is run
exactly once, also if others panic, and the outcome is the tuple of the values in the order in which the expressions are
written, or, if some panic, the panic of the first of these in that order. -/
theorem C118_join (f : ℕ → Except P β) (n : ℕ) (log : List ℕ) (r : Except P (List β)) (h : JoinParallel f n log r) :
    log.Perm (List.range n) ∧ r = firstPanic ((List.range n).map f) := by
  obtain ⟨hc, k, x, hr, hx⟩ := h
  obtain ⟨h1, h6⟩ := (Mac.compiles n).mp hc
  obtain ⟨m, rfl⟩ : ∃ m, n = m + 1 := ⟨n - 1, by omega⟩
  obtain ⟨i1, i2, -⟩ := Mac.runs_inv hr
  simp only [Mac.todo, List.append_nil, Nat.add_sub_cancel] at i2
  refine ⟨i2, ?_⟩
  have hf := Mac.final_calls f 0 m
  rw [Nat.add_sub_cancel] at i1
  rw [← i1, ← List.range_eq_range'] at hf
  simp only [Mac.final] at hf
  cases hp : firstPanic ((List.range (m + 1)).map f) with
  | error p =>
    rw [hp] at hf
    dsimp only at hf
    subst hf
    exact hx
  | ok as =>
    have hl := Mac.firstPanic_length _ _ hp
    cases as with
    | nil => simp at hl
    | cons a as =>
      rw [hp] at hf
      dsimp only at hf
      subst hf
      obtain ⟨l, hl1, rfl⟩ := hx
      simp only [List.length_cons, List.length_map, List.length_range, Nat.add_right_cancel_iff] at hl
      have := Mac.unnest_nest a as (by omega)
      rw [hl, hl1] at this
      exact congrArg Except.ok (Option.some.inj this)

/-- **C118** Every order of running the expressions is possible with the feature `parallel`, and then there is an outcome; so the
expressions must not rely on each other's order. -/
theorem C118_any_order (f : ℕ → Except P β) (n : ℕ) (h1 : 1 ≤ n) (h6 : n ≤ 6) (log : List ℕ) (hlog : log.Perm (List.range n)) :
    ∃ r, JoinParallel f n log r := by
  obtain ⟨k, x, h⟩ : ∃ k x, JoinRuns f (n - 1) k (.done x) log := by
    obtain ⟨k, t, h, ht⟩ := Mac.run_all (f := f) (n := n - 1) log .start
      (by rw [Mac.todo_calls, ← List.range_eq_range', Nat.sub_add_cancel h1]; exact hlog)
    exact Mac.finish _ k t log rfl (by simpa using h) ht
  obtain ⟨i1, -, -⟩ := Mac.runs_inv h
  have hf := Mac.final_calls f 0 (n - 1)
  rw [← i1, ← List.range_eq_range', Nat.sub_add_cancel h1] at hf
  simp only [Mac.final] at hf
  cases hp : firstPanic ((List.range n).map f) with
  | error p =>
    rw [hp] at hf
    dsimp only at hf
    subst hf
    exact ⟨.error p, (Mac.compiles n).mpr ⟨h1, h6⟩, k, _, h, rfl⟩
  | ok as =>
    have hl := Mac.firstPanic_length _ _ hp
    simp only [List.length_map, List.length_range] at hl
    cases as with
    | nil => simp at hl; omega
    | cons a as =>
      rw [hp] at hf
      dsimp only at hf
      subst hf
      simp only [List.length_cons] at hl
      have := Mac.unnest_nest a as (by omega)
      rw [hl] at this
      exact ⟨.ok (a :: as), (Mac.compiles n).mpr ⟨h1, h6⟩, k, _, h, _, this, rfl⟩

/-- **C118** `join!` always finishes: no schedule makes more than `2 n - 1` steps, and as long as it is not finished there is a
step to make; so, for one to six expressions, there is an outcome. -/
theorem C118_join_finishes (f : ℕ → Except P β) (n : ℕ) (h1 : 1 ≤ n) (h6 : n ≤ 6) :
    (∃ log r, JoinParallel f n log r) ∧ ∀ k t log, JoinRuns f (n - 1) k t log →
      k ≤ 2 * n - 1 ∧ ((∃ x, t = .done x) ∨ ∃ t' log', JoinStep f t log t' log') := by
  refine ⟨?_, fun k t log h => ⟨?_, Mac.progress t log⟩⟩
  · exact ⟨_, C118_any_order f n h1 h6 _ (.refl _)⟩
  · have := (Mac.runs_inv h).2.2
    omega

/-- **C118** the feature `parallel` does not change what `join!` returns or with which panic it ends; without it, expressions
after the first that panics are not run.  With it, at most six expressions are supported (else the program does not
compile), without it any number (but at least one). -/
theorem C118_features (f : ℕ → Except P β) (n : ℕ) :
    (joinSequential f 0 n).1 = firstPanic ((List.range n).map f) ∧
    ((∀ i < n, ∃ a, f i = .ok a) → (joinSequential f 0 n).2 = List.range n) ∧
    (∀ i < n, (∀ j < i, ∃ a, f j = .ok a) → (∃ p, f i = .error p) → (joinSequential f 0 n).2 = List.range (i + 1)) ∧
    ((∃ log r, JoinParallel f n log r) ↔ 1 ≤ n ∧ n ≤ 6) := by
  refine ⟨?_, ?_, ?_, ?_⟩
  · rw [List.range_eq_range']
    generalize 0 = i
    induction n generalizing i with
    | zero => rfl
    | succ n ih =>
      rw [List.range'_succ, List.map_cons, joinSequential]
      cases hi : f i with
      | error p => rfl
      | ok a =>
        simp only [firstPanic, ih (i + 1)]
        cases firstPanic ((List.range' (i + 1) n).map f) <;> rfl
  · intro h
    rw [List.range_eq_range']
    have : ∀ i, (∀ j < i + n, ∃ a, f j = .ok a) → (joinSequential f i n).2 = List.range' i n := by
      clear h
      induction n with
      | zero => intro i _; rfl
      | succ n ih =>
        intro i h
        obtain ⟨a, ha⟩ := h i (by omega)
        rw [List.range'_succ, joinSequential, ha, ← ih (i + 1) fun j hj => h j (by omega)]
    exact this 0 (by simpa using h)
  · intro i hi h0 ⟨p, hp⟩
    rw [List.range_eq_range']
    have : ∀ m s, s + m = i → m < n → (∀ j < i, ∃ a, f j = .ok a) → (joinSequential f s n).2 = List.range' s (m + 1) := by
      clear hi h0
      induction n with
      | zero => intro m s _ hm; omega
      | succ n ih =>
        intro m s hs hm h0
        cases m with
        | zero =>
          obtain rfl : s = i := by omega
          rw [joinSequential, hp]
          rfl
        | succ m =>
          obtain ⟨a, ha⟩ := h0 s (by omega)
          rw [List.range'_succ, joinSequential, ha, ← ih m (s + 1) (by omega) (by omega) h0]
    exact this i 0 (by omega) hi h0
  · constructor
    · rintro ⟨log, r, h⟩
      exact (Mac.compiles n).mp h.1
    · rintro ⟨h1, h6⟩
      exact (C118_join_finishes f n h1 h6).1

end

/-- **C118** `multi_pairing!` never aborts, and its value is the sum (written additively) of the pairings of the pairs, in
whatever order they are given. -/
theorem C118_multi_pairing {E : Engine} (l : List (E.G1 × E.G2)) :
    multiPairingMacro l = .ok (l.map fun x => E.e x.1 x.2).sum ∧
    ∀ l', l.Perm l' → multiPairingMacro l' = multiPairingMacro l := by
  have h : ∀ l : List (E.G1 × E.G2), multiPairingMacro l = .ok (l.map fun x => E.e x.1 x.2).sum := by
    intro l
    unfold multiPairingMacro Engine.multiPairing
    rw [if_pos (by simp)]
    congr 2
    induction l with
    | nil => rfl
    | cons x l ih => simp only [List.map_cons, List.zipWith_cons_cons, E.pairP_prep, ih]
  refine ⟨h l, fun l' hp => ?_⟩
  rw [h, h, (hp.map fun x => E.e x.1 x.2).sum_eq]

/-- all orders of four expressions are possible, for instance 3, 1, 0, 2 -/
example : ∃ r, JoinParallel (P := Unit) (fun i => .ok (10 * i)) 4 [3, 1, 0, 2] r :=
  C118_any_order _ 4 (by decide) (by decide) _ (by decide)

/-- three expressions, run in the order 2, 0, 1 -/
example : JoinParallel (P := Unit) (fun i => .ok (10 * i)) 3 [2, 0, 1] (.ok [0, 10, 20]) :=
  ⟨(Mac.compiles 3).mpr ⟨by decide, by decide⟩, 5, _,
    .step (.step (.step (.step (.step .start (.right _ (.right _ (.run 2 _)))) (.left _ (.run 0 _)))
      (.right _ (.left _ (.run 1 _)))) (.right _ (.return _ _ _))) (.return _ _ _), [0, 10, 20], rfl, rfl⟩

/-- the second and the third panic; the third is run first, and the panic is that of the second; without the feature, the third is
not run -/
example : JoinParallel (fun i => if i = 0 then .ok 5 else .error i) 3 [2, 1, 0] (.error 1) ∧
    joinSequential (fun i => if i = 0 then .ok 5 else .error i) 0 3 = (.error 1, [0, 1]) :=
  ⟨⟨(Mac.compiles 3).mpr ⟨by decide, by decide⟩, 5, _,
    .step (.step (.step (.step (.step .start (.right _ (.right _ (.run 2 _)))) (.right _ (.left _ (.run 1 _))))
      (.left _ (.run 0 _))) (.right _ (.return _ _ _))) (.return _ _ _), rfl⟩, rfl⟩

end Verif
