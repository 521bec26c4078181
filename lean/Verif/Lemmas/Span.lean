/-
Helper lemmas for C71: group elements that are fixed linear combinations of lists of elements.
-/
import Verif.Lemmas.Honest

namespace Verif
open Spec

namespace Span
variable {Ω F G : Type} [Field F] [AddCommGroup G] [Module F G] {L : Ω → List G}

/-- `f` is a linear combination of the elements of `L`, with the same coefficients everywhere -/
def In (F : Type) [Field F] {Ω G : Type} [AddCommGroup G] [Module F G] (L : Ω → List G)
    (f : Ω → G) : Prop :=
  ∃ k : ℕ → F, ∀ ω, f ω = comb k (L ω)

theorem In.congr {f g : Ω → G} (h : In F L f) (e : ∀ ω, g ω = f ω) : In F L g := by
  obtain ⟨k, hk⟩ := h
  exact ⟨k, fun ω => (e ω).trans (hk ω)⟩

theorem In.zero : In F L fun _ => (0 : G) := ⟨fun _ => 0, fun ω => (comb_nul _).symm⟩

theorem In.add {f g : Ω → G} (hf : In F L f) (hg : In F L g) : In F L fun ω => f ω + g ω := by
  obtain ⟨k, hk⟩ := hf
  obtain ⟨k', hk'⟩ := hg
  refine ⟨fun i => k i + k' i, fun ω => ?_⟩
  dsimp only
  rw [hk, hk']
  simp only [comb, add_smul, Finset.sum_add_distrib]

theorem In.smul {f : Ω → G} (hf : In F L f) (c : F) : In F L fun ω => c • f ω := by
  obtain ⟨k, hk⟩ := hf
  refine ⟨fun i => c * k i, fun ω => ?_⟩
  dsimp only
  rw [hk]
  simp only [comb, mul_smul, Finset.smul_sum]

theorem In.sub {f g : Ω → G} (hf : In F L f) (hg : In F L g) : In F L fun ω => f ω - g ω := by
  refine (hf.add (hg.smul (-1))).congr fun ω => ?_
  rw [neg_smul, one_smul, sub_eq_add_neg]

theorem In.sum {f : ℕ → Ω → G} (n : ℕ) (h : ∀ i < n, In F L (f i)) :
    In F L fun ω => ∑ i ∈ Finset.range n, f i ω := by
  induction n with
  | zero => simpa using In.zero
  | succ n ih =>
    refine ((ih fun i hi => h i (by omega)).add (h n (by omega))).congr fun ω => ?_
    rw [Finset.sum_range_succ]

theorem In.get (i : ℕ) : In F L fun ω => (L ω).getD i 0 := by
  refine ⟨fun j => if j = i then 1 else 0, fun ω => ?_⟩
  by_cases hi : i < (L ω).length
  · rw [comb_single _ _ _ hi, one_smul]
  · dsimp only
    rw [List.getD_eq_default _ _ (by omega)]
    unfold comb
    rw [Finset.sum_eq_zero]
    intro j hj
    have := Finset.mem_range.mp hj
    dsimp only
    rw [if_neg (by omega), zero_smul]

/-- all elements of the list `l` are -/
def All (F : Type) [Field F] {Ω G : Type} [AddCommGroup G] [Module F G] (L : Ω → List G)
    (l : Ω → List G) : Prop :=
  (∃ N, ∀ ω, (l ω).length = N) ∧ ∀ i, In F L fun ω => (l ω).getD i 0

theorem All.refl {N : ℕ} (h : ∀ ω, (L ω).length = N) : All F L L := ⟨⟨N, h⟩, fun i => In.get i⟩

theorem All.congr {l l' : Ω → List G} (h : All F L l) (e : ∀ ω, l' ω = l ω) : All F L l' := by
  have : l' = l := funext e
  rw [this]
  exact h

theorem All.nil : All F L fun _ => [] := ⟨⟨0, fun _ => rfl⟩, fun i => In.zero.congr fun ω => by simp⟩

theorem All.append {l l' : Ω → List G} (h : All F L l) (h' : All F L l') : All F L fun ω => l ω ++ l' ω := by
  obtain ⟨⟨N, hN⟩, hl⟩ := h
  obtain ⟨⟨N', hN'⟩, hl'⟩ := h'
  refine ⟨⟨N + N', fun ω => by rw [List.length_append, hN, hN']⟩, fun i => ?_⟩
  by_cases hi : i < N
  · refine (hl i).congr fun ω => ?_
    rw [List.getD_append _ _ _ _ (by rw [hN]; exact hi)]
  · refine (hl' (i - N)).congr fun ω => ?_
    rw [List.getD_append_right _ _ _ _ (by rw [hN]; omega), hN]

theorem All.left {l l' : Ω → List G} {N : ℕ} (h : All F L fun ω => l ω ++ l' ω) (hN : ∀ ω, (l ω).length = N) :
    All F L l := by
  refine ⟨⟨N, hN⟩, fun i => ?_⟩
  by_cases hi : i < N
  · refine (h.2 i).congr fun ω => ?_
    rw [List.getD_append _ _ _ _ (by rw [hN]; exact hi)]
  · refine In.zero.congr fun ω => ?_
    rw [List.getD_eq_default _ _ (by rw [hN]; omega)]

theorem All.right {l l' : Ω → List G} {N : ℕ} (h : All F L fun ω => l ω ++ l' ω) (hN : ∀ ω, (l ω).length = N) :
    All F L l' := by
  obtain ⟨⟨M, hM⟩, hl⟩ := h
  refine ⟨⟨M - N, fun ω => ?_⟩, fun i => ?_⟩
  · have := hM ω
    rw [List.length_append, hN] at this
    omega
  · refine (hl (N + i)).congr fun ω => ?_
    rw [List.getD_append_right _ _ _ _ (by rw [hN]; omega), hN, Nat.add_sub_cancel_left]

theorem All.single {f : Ω → G} (h : In F L f) : All F L fun ω => [f ω] := by
  refine ⟨⟨1, fun _ => rfl⟩, fun i => ?_⟩
  cases i with
  | zero => exact h.congr fun ω => rfl
  | succ i => exact In.zero.congr fun ω => by simp

theorem All.cons {f : Ω → G} {l : Ω → List G} (h : In F L f) (h' : All F L l) : All F L fun ω => f ω :: l ω :=
  (All.single h).append h'

theorem All.tab {n : ℕ} {f : Ω → ℕ → G} (h : ∀ i < n, In F L fun ω => f ω i) :
    All F L fun ω => Verif.tab n (f ω) := by
  refine ⟨⟨n, fun ω => length_tab _ _⟩, fun i => ?_⟩
  by_cases hi : i < n
  · exact (h i hi).congr fun ω => by rw [getD_tab, if_pos hi]
  · exact In.zero.congr fun ω => by rw [getD_tab, if_neg hi]

theorem All.flattenMap {α : Type*} (as : List α) {f : Ω → α → List G} (h : ∀ a ∈ as, All F L fun ω => f ω a) :
    All F L fun ω => (as.map (f ω)).flatten := by
  induction as with
  | nil => exact All.nil
  | cons a as ih =>
    refine ((h a (by simp)).append (ih fun b hb => h b (by simp [hb]))).congr fun ω => ?_
    rw [List.map_cons, List.flatten_cons]

theorem All.map {α : Type*} (as : List α) {f : Ω → α → G} (h : ∀ a ∈ as, In F L fun ω => f ω a) :
    All F L fun ω => as.map (f ω) := by
  induction as with
  | nil => exact All.nil
  | cons a as ih =>
    exact (All.cons (h a (by simp)) (ih fun b hb => h b (by simp [hb]))).congr fun ω => by rw [List.map_cons]

theorem All.comb {l : Ω → List G} (h : All F L l) (k : ℕ → F) : In F L fun ω => comb k (l ω) := by
  obtain ⟨⟨N, hN⟩, hl⟩ := h
  refine (In.sum N fun i _ => (hl i).smul (k i)).congr fun ω => ?_
  rw [← hN ω]
  rfl

theorem In.comp {Ω' : Type} {f : Ω → G} (h : In F L f) (φ : Ω' → Ω) : In F (fun ω => L (φ ω)) fun ω => f (φ ω) := by
  obtain ⟨k, hk⟩ := h
  exact ⟨k, fun ω => hk (φ ω)⟩

theorem All.comp {Ω' : Type} {l : Ω → List G} (h : All F L l) (φ : Ω' → Ω) :
    All F (fun ω => L (φ ω)) fun ω => l (φ ω) := by
  obtain ⟨⟨N, hN⟩, hl⟩ := h
  exact ⟨⟨N, fun ω => hN (φ ω)⟩, fun i => (hl i).comp φ⟩

end Span
end Verif
