/-
Property C69: with the default feature `parallel`, results do not depend on the thread schedule.
-/
import Verif.Model.Parallel
import Verif.Fixtures
import Mathlib.Data.List.Perm.Basic

namespace Verif

variable {E : Engine}

namespace Par

variable {α β : Type} {f : α → β} {xs : List α}

/-- the indexes of a task -/
def span (t : ℕ × ℕ) : List ℕ := List.range' t.1 (t.2 - t.1)

/-- invariant: log and open tasks together hold every index exactly once; logged slots are written -/
structure Inv (f : α → β) (xs : List α) (S : PoolState β) : Prop where
  perm : (S.log ++ S.tasks.flatMap span).Perm (List.range xs.length)
  len : S.slots.length = xs.length
  done : ∀ i ∈ S.log, ∀ x, xs[i]? = some x → S.slots[i]? = some (some (f x))
  le : ∀ t ∈ S.tasks, t.1 ≤ t.2

theorem inv_init : Inv f xs (poolInit β xs) where
  perm := by simp [poolInit, span, List.range_eq_range']
  len := by simp [poolInit]
  done := by simp [poolInit]
  le := by simp [poolInit]

theorem span_split {lo mid hi : ℕ} (h1 : lo < mid) (h2 : mid < hi) : span (lo, hi) = span (lo, mid) ++ span (mid, hi) := by
  simp only [span]
  have := List.range'_append_1 (s := lo) (m := mid - lo) (n := hi - mid)
  rw [show lo + (mid - lo) = mid by omega, show mid - lo + (hi - mid) = hi - lo by omega] at this
  exact this.symm

theorem span_item {lo hi : ℕ} (h : lo < hi) : span (lo, hi) = lo :: span (lo + 1, hi) := by
  simp only [span]
  rw [show hi - lo = (hi - (lo + 1)) + 1 by omega, List.range'_succ]

theorem inv_step {S S' : PoolState β} (h : Inv f xs S) (hs : PoolStep f xs S S') : Inv f xs S' := by
  cases hs with
  | split h1 h2 =>
    refine ⟨?_, h.len, h.done, ?_⟩
    · have hp := h.perm
      simpa [span_split h1 h2] using hp
    · intro t ht
      simp only [List.mem_append, List.mem_cons] at ht
      rcases ht with ht | rfl | rfl | ht
      · exact h.le t (by simp [ht])
      · exact h1.le
      · exact h2.le
      · exact h.le t (by simp [ht])
  | @item pre post lo hi slots log x hlt hx =>
    have hp := h.perm
    refine ⟨?_, by simpa using h.len, ?_, ?_⟩
    · refine List.Perm.trans ?_ hp
      simp only [List.flatMap_append, List.flatMap_cons, span_item hlt, List.append_assoc]
      refine List.Perm.append_left _ ?_
      simp only [List.cons_append, List.nil_append]
      exact List.perm_middle.symm
    · intro i hi' y hy
      have hlen : lo < slots.length := by
        rw [h.len]
        exact (List.getElem?_eq_some_iff.mp hx).1
      simp only [List.mem_append, List.mem_singleton] at hi'
      by_cases hil : lo = i
      · subst hil
        rw [hx] at hy
        cases hy
        simp [hlen]
      · simp only [List.getElem?_set, hil, if_false]
        exact h.done i (hi'.resolve_right (fun e => hil e.symm)) y hy
    · intro t ht
      simp only [List.mem_append, List.mem_cons] at ht
      rcases ht with ht | rfl | ht
      · exact h.le t (by simp [ht])
      · exact hlt
      · exact h.le t (by simp [ht])
  | retire =>
    refine ⟨?_, h.len, h.done, ?_⟩
    · have hp := h.perm
      simpa [span] using hp
    · intro t ht
      simp only [List.mem_append] at ht
      rcases ht with ht | ht
      · exact h.le t (by simp [ht])
      · exact h.le t (by simp [ht])

theorem inv_runs {S : PoolState β} (h : PoolRuns f xs S) : Inv f xs S := by
  induction h with
  | refl => exact inv_init
  | tail _ hs ih => exact inv_step ih hs

/-- weight of a task in the termination measure -/
def weight (t : ℕ × ℕ) : ℕ := if t.2 ≤ t.1 then 1 else 3 * (t.2 - t.1) - 1

def size (S : PoolState β) : ℕ := (S.tasks.map weight).sum

theorem size_step {S S' : PoolState β} (hs : PoolStep f xs S S') : size S' < size S := by
  cases hs with
  | split h1 h2 =>
    simp only [size, List.map_append, List.map_cons, List.sum_append, List.sum_cons, weight]
    rw [if_neg (by omega), if_neg (by omega), if_neg (by omega)]
    omega
  | item hlt hx =>
    simp only [size, List.map_append, List.map_cons, List.sum_append, List.sum_cons, weight]
    simp only [if_neg (Nat.not_le.mpr hlt)]
    split <;> omega
  | retire =>
    simp only [size, List.map_append, List.map_cons, List.sum_append, List.sum_cons, weight, le_refl, if_true]
    omega

end Par

open Par in
/-- **C69** (every schedule) Whatever the number of threads, the splitting of the range and the interleaving: when
no work is left, the collected vector is the sequential `map`, in order, and the closure has been called exactly once
for every item. -/
theorem C69_every_schedule {α β : Type} (f : α → β) (xs : List α) (S : PoolState β) (h : PoolRuns f xs S)
    (hend : S.tasks = []) :
    S.slots = xs.map (fun x => some (f x)) ∧ S.log.Perm (List.range xs.length) := by
  have hi := inv_runs h
  have hp := hi.perm
  rw [hend] at hp
  simp only [List.flatMap_nil, List.append_nil] at hp
  refine ⟨List.ext_getElem? fun i => ?_, hp⟩
  rw [List.getElem?_map]
  by_cases hlt : i < xs.length
  · have hx : xs[i]? = some xs[i] := List.getElem?_eq_getElem hlt
    rw [hi.done i (hp.mem_iff.mpr (List.mem_range.mpr hlt)) _ hx, hx]
    rfl
  · rw [List.getElem?_eq_none (by rw [hi.len]; omega), List.getElem?_eq_none (by omega)]
    rfl

open Par in
/-- **C69** (no deadlock, no livelock) No schedule goes on for ever, and as long as work is left some step is
possible. -/
theorem C69_terminates {α β : Type} (f : α → β) (xs : List α) :
    WellFounded (fun S' S : PoolState β => PoolStep f xs S S') ∧
    ∀ S, PoolRuns f xs S → S.tasks ≠ [] → ∃ S', PoolStep f xs S S' := by
  constructor
  · exact Subrelation.wf (fun h => size_step h) (InvImage.wf size wellFounded_lt)
  · intro S h hne
    have hp := (inv_runs h).perm
    have hle := (inv_runs h).le
    obtain ⟨tasks, slots, log⟩ := S
    obtain ⟨⟨lo, hi⟩, post, rfl⟩ := List.exists_cons_of_ne_nil hne
    by_cases hlt : lo < hi
    · have hmem : lo ∈ List.range xs.length := by
        refine hp.mem_iff.mp (List.mem_append_right _ ?_)
        simp [span_item hlt]
      have hlen := List.mem_range.mp hmem
      exact ⟨_, .item (pre := []) hlt (List.getElem?_eq_getElem hlen)⟩
    · have hle' : lo ≤ hi := hle (lo, hi) (List.mem_cons_self ..)
      obtain rfl : lo = hi := by omega
      exact ⟨_, .retire (pre := [])⟩

/-- every reachable state can be completed -/
theorem Par.completes {α β : Type} (f : α → β) (xs : List α) (S : PoolState β) (h : PoolRuns f xs S) :
    ∃ S', Relation.ReflTransGen (PoolStep f xs) S S' ∧ S'.tasks = [] := by
  induction S using (C69_terminates f xs).1.induction with
  | _ S ih =>
    by_cases hne : S.tasks = []
    · exact ⟨S, .refl, hne⟩
    · obtain ⟨S1, h1⟩ := (C69_terminates f xs).2 S h hne
      obtain ⟨S2, h2, h3⟩ := ih S1 h1 (h.tail h1)
      exact ⟨S2, .head h1 h2, h3⟩

/-- **C69** What a thread pool can collect is exactly the sequential result: nothing else, and this always
(whatever has been done so far). -/
theorem C69_collects_iff {α β : Type} (f : α → β) (xs : List α) (ys : List β) :
    Collects f xs ys ↔ ys = xs.map f := by
  constructor
  · rintro ⟨S, hr, hend, hs⟩
    have h := (C69_every_schedule f xs S hr hend).1
    rw [hs, show (fun x => some (f x)) = some ∘ f from rfl, ← List.map_map] at h
    exact List.map_injective_iff.mpr (Option.some_injective _) h
  · rintro rfl
    obtain ⟨S, hr, hend⟩ := Par.completes f xs _ Relation.ReflTransGen.refl
    exact ⟨S, hr, hend, by rw [(C69_every_schedule f xs S hr hend).1, List.map_map]; rfl⟩

theorem collect_eq (P : Pool) {α β : Type} (site : ℕ) (f : α → β) (xs : List α) :
    P.collect site f xs = xs.map f :=
  (C69_collects_iff f xs _).mp (P.scheduled site f xs)

/-- **C69** The functions of the crate that use the thread pool return, for every pool and schedule, what the
sequential code returns (all other theorems are about that). -/
theorem C69_parallel_feature (P : Pool) :
    (∀ ek : EncryptionKey E, ek.prepareOn P = ek.prepare) ∧
    (∀ dk : DecryptionKey E, dk.prepareOn P = dk.prepare) ∧
    (∀ (R : RngCore E) (st : R.σ) b gens g_i D C,
      fkeygenPartialOn P R st b gens g_i D C = fkeygenPartial R st b gens g_i D C) ∧
    (∀ (R : RngCore E) (st : R.σ) b gens g_i D C,
      keygenOn P R st b gens g_i D C = keygen R st b gens g_i D C) ∧
    (∀ (R : RngCore E) (st : R.σ) chunks (ek : EncryptionKey E) g_i,
      encryptDecomposedMessageOn P R st chunks ek g_i = encryptDecomposedMessage R st chunks ek g_i) ∧
    (∀ (cts : List (Ciphertext E)) r_powers ek gens,
      verifyCommitmentsInBatchOn P cts r_powers ek gens = verifyCommitmentsInBatch cts r_powers ek gens) := by
  refine ⟨fun ek => ?_, fun dk => ?_, fun R st b gens g_i D C => ?_, fun R st b gens g_i D C => ?_,
    fun R st chunks ek g_i => ?_, fun cts rp ek gens => ?_⟩
  · simp only [EncryptionKey.prepareOn, EncryptionKey.prepare, collect_eq]
  · simp only [DecryptionKey.prepareOn, DecryptionKey.prepare, collect_eq]
  · simp only [fkeygenPartialOn, fkeygenPartial, collect_eq]
  · simp only [keygenOn, keygen, collect_eq]
  · simp only [encryptDecomposedMessageOn, encryptDecomposedMessage, collect_eq]
  · simp only [verifyCommitmentsInBatchOn, verifyCommitmentsInBatch, getG1ForBatchChecksOn, getG1ForBatchChecks,
      collect_eq]

/-- there are pools -/
def Par.pool : Pool where
  collect _ f xs := xs.map f
  scheduled _ f xs := (C69_collects_iff f xs _).mpr rfl

example : keygenOn Par.pool (listRng Fix.E) Fix.st 16 Fix.gens Fix.gi Fix.D Fix.C =
    keygen (listRng Fix.E) Fix.st 16 Fix.gens Fix.gi Fix.D Fix.C :=
  (C69_parallel_feature Par.pool).2.2.2.1 _ _ _ _ _ _ _

/-- a schedule of two threads that finishes the second half first -/
example : PoolRuns (fun x : ℕ => x + 10) [1, 2] ⟨[], [some 11, some 12], [1, 0]⟩ := by
  refine .head (PoolStep.split (pre := []) (post := []) (mid := 1) (by decide) (by decide)) ?_
  refine .head (PoolStep.item (pre := [(0, 1)]) (post := []) (x := 2) (by decide) rfl) ?_
  refine .head (PoolStep.item (pre := []) (post := [(2, 2)]) (x := 1) (by decide) rfl) ?_
  refine .head (PoolStep.retire (pre := []) (post := [(2, 2)])) ?_
  exact .head (PoolStep.retire (pre := []) (post := [])) .refl

end Verif
