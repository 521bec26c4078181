/-
Helper lemmas for the secrecy statements (C64 onwards): adaptive generic-group adversaries, polynomials with
values in a group, and the algebra of SAVER ciphertexts.
-/
import Verif.SpecSec
import Verif.Lemmas.Count
import Mathlib.LinearAlgebra.Dual.Lemmas

namespace Verif
open Spec

namespace Sec

/-! ### Adaptive adversaries -/

section tree
variable {E : Engine} {Msg X : Type}

/-- a game described by the answers as a function of the messages encrypted so far and the random draws `x` -/
def run (legal : Msg → Bool) (ans : List Msg → Question E → X → Bool) (right : Bool) :
    Adversary E Msg → List Msg → X → Bool
  | .guess b, _, _ => b
  | .ask q yes no, h, x => if ans h q x then run legal ans right yes h x else run legal ans right no h x
  | .challenge m0 m1 next, h, x =>
    if legal (if right then m1 else m0) then run legal ans right next (h ++ [if right then m1 else m0]) x
    else false

variable [Fintype X]

theorem run_default (legal : Msg → Bool) (ans : List Msg → Question E → X → Bool) (N B : ℕ)
    (H1 : ∀ h q, (∀ m ∈ h, legal m) → h.length ≤ N → (∃ x, ans h q x = false) →
      (Finset.univ.filter fun x => ans h q x = true).card ≤ B)
    (H2 : B < Fintype.card X → ∀ h h' q, (∀ m ∈ h, legal m) → (∀ m ∈ h', legal m) → h.length ≤ N → h'.length = h.length →
      (∀ x, ans h q x = true) → ∀ x, ans h' q x = true)
    (A : Adversary E Msg) (hA : A.Fair fun m m' => legal m = legal m') (h h' : List Msg)
    (hl : ∀ m ∈ h, legal m) (hl' : ∀ m ∈ h', legal m) (hlen : h'.length = h.length)
    (hN : h.length + A.challenges ≤ N) :
    ∃ d, (Finset.univ.filter fun x => run legal ans false A h x ≠ d).card ≤ A.questions * B ∧
      (Finset.univ.filter fun x => run legal ans true A h' x ≠ d).card ≤ A.questions * B := by
  classical
  induction A generalizing h h' with
  | guess b => exact ⟨b, by simp [run], by simp [run]⟩
  | ask q yes no ihy ihn =>
    simp only [Adversary.challenges] at hN
    obtain ⟨hAy, hAn⟩ := hA
    rcases Nat.lt_or_ge B (Fintype.card X) with hB | hB
    swap
    · have hle : Fintype.card X ≤ (Adversary.ask q yes no).questions * B := by
        simp only [Adversary.questions]
        rw [Nat.add_mul, Nat.one_mul]
        omega
      exact ⟨true, (Finset.card_le_univ _).trans hle, (Finset.card_le_univ _).trans hle⟩
    have H2 := H2 hB
    by_cases hall : ∀ x, ans h q x = true
    · have hall' := H2 h h' q hl hl' (by omega) hlen hall
      obtain ⟨d, h1, h2⟩ := ihy hAy h h' hl hl' hlen (by omega)
      refine ⟨d, ?_, ?_⟩
      · simp only [run, hall, if_true]
        refine h1.trans (Nat.mul_le_mul_right _ ?_)
        simp only [Adversary.questions]; omega
      · simp only [run, hall', if_true]
        refine h2.trans (Nat.mul_le_mul_right _ ?_)
        simp only [Adversary.questions]; omega
    · have hall' : ¬ ∀ x, ans h' q x = true := fun hc => hall (H2 h' h q hl' hl (by omega) hlen.symm hc)
      have key : ∀ r l, (∀ m ∈ l, legal m) → l.length ≤ N → (¬ ∀ x, ans l q x = true) → ∀ d,
          (Finset.univ.filter fun x => run legal ans r no l x ≠ d).card ≤ no.questions * B →
          (Finset.univ.filter fun x => run legal ans r (.ask q yes no) l x ≠ d).card ≤
            (Adversary.ask q yes no).questions * B := by
        intro r l hl hln hx d hd
        push Not at hx
        have h1 := H1 l q hl hln (by simpa using hx)
        have hsub : (Finset.univ.filter fun x => run legal ans r (.ask q yes no) l x ≠ d) ⊆
            (Finset.univ.filter fun x => ans l q x = true) ∪
            (Finset.univ.filter fun x => run legal ans r no l x ≠ d) := by
          intro x hx
          simp only [Finset.mem_union, Finset.mem_filter, Finset.mem_univ, true_and] at hx ⊢
          by_cases ha : ans l q x = true
          · exact Or.inl ha
          · right
            simpa only [run, if_neg ha] using hx
        refine (Finset.card_le_card hsub).trans ((Finset.card_union_le _ _).trans
          ((Nat.add_le_add h1 hd).trans ?_))
        simp only [Adversary.questions]
        rw [Nat.add_mul, Nat.one_mul]
        exact Nat.add_le_add_left (Nat.mul_le_mul_right _ (by omega)) _
      obtain ⟨d, h1, h2⟩ := ihn hAn h h' hl hl' hlen (by omega)
      exact ⟨d, key false h hl (by omega) hall d h1, key true h' hl' (by omega) hall' d h2⟩
  | challenge m0 m1 next ih =>
    simp only [Adversary.challenges] at hN
    obtain ⟨hm, hAn⟩ := hA
    cases hleg : legal m0 with
    | false =>
      refine ⟨false, ?_, ?_⟩
      · simp [run, hleg]
      · simp [run, ← hm, hleg]
    | true =>
      have hleg1 : legal m1 = true := hm ▸ hleg
      obtain ⟨d, h1, h2⟩ := ih hAn (h ++ [m0]) (h' ++ [m1])
        (by intro m hm; rcases List.mem_append.mp hm with hm | hm
            · exact hl m hm
            · rw [List.mem_singleton.mp hm]; exact hleg)
        (by intro m hm; rcases List.mem_append.mp hm with hm | hm
            · exact hl' m hm
            · rw [List.mem_singleton.mp hm]; exact hleg1)
        (by simp [hlen]) (by simp; omega)
      refine ⟨d, ?_, ?_⟩
      · simpa [run, hleg, Adversary.questions] using h1
      · simpa [run, hleg1, Adversary.questions] using h2

/-- both games give (almost) always the same guess, so the numbers of draws with guess "right" are close -/
theorem run_close (legal : Msg → Bool) (ans : List Msg → Question E → X → Bool) (N B : ℕ)
    (H1 : ∀ h q, (∀ m ∈ h, legal m) → h.length ≤ N → (∃ x, ans h q x = false) →
      (Finset.univ.filter fun x => ans h q x = true).card ≤ B)
    (H2 : B < Fintype.card X → ∀ h h' q, (∀ m ∈ h, legal m) → (∀ m ∈ h', legal m) → h.length ≤ N → h'.length = h.length →
      (∀ x, ans h q x = true) → ∀ x, ans h' q x = true)
    (A : Adversary E Msg) (hA : A.Fair fun m m' => legal m = legal m') (hN : A.challenges ≤ N) :
    ∃ d, (Finset.univ.filter fun x => run legal ans false A [] x ≠ d).card ≤ A.questions * B ∧
      (Finset.univ.filter fun x => run legal ans true A [] x ≠ d).card ≤ A.questions * B :=
  run_default legal ans N B H1 H2 A hA [] [] (by simp) (by simp) rfl (by simpa using hN)

omit [Fintype X] in
theorem close_of_default [Fintype X] {f0 f1 : X → Bool} {B : ℕ} {d : Bool}
    (h0 : (Finset.univ.filter fun x => f0 x ≠ d).card ≤ B)
    (h1 : (Finset.univ.filter fun x => f1 x ≠ d).card ≤ B) :
    (Finset.univ.filter fun x => f0 x = true).card ≤ (Finset.univ.filter fun x => f1 x = true).card + B := by
  classical
  cases d with
  | false =>
    have : (Finset.univ.filter fun x => f0 x = true) = Finset.univ.filter fun x => f0 x ≠ false := by
      ext x; simp
    rw [this]; omega
  | true =>
    have e := Finset.card_filter_add_card_filter_not (s := (Finset.univ : Finset X)) (fun x => f1 x = true)
    have := Finset.card_le_univ (Finset.univ.filter fun x => f0 x = true)
    rw [Finset.card_univ] at e
    simp only [ne_eq] at h1
    omega

end tree

/-! ### Polynomials with values in a vector space -/

section vpoly
variable {F : Type} [Field F] {K : ℕ} {M M' M'' : Type} [AddCommGroup M] [Module F M]
  [AddCommGroup M'] [Module F M'] [AddCommGroup M''] [Module F M'']

/-- sums of terms `c(g) x` with a polynomial `c` of total degree at most `D` and a fixed vector `x` -/
inductive VPoly (D : ℕ) : ((Fin K → F) → M) → Prop
  | zero : VPoly D (fun _ => 0)
  | term (c : (Fin K → F) → F) (x : M) : Agm.PolyOn (fun _ => True) D c → VPoly D (fun g => c g • x)
  | add {V W : (Fin K → F) → M} : VPoly D V → VPoly D W → VPoly D (fun g => V g + W g)

variable {D D' : ℕ} {V W : (Fin K → F) → M}

theorem VPoly.congr (h : VPoly D V) (he : ∀ g, W g = V g) : VPoly D W := by
  rw [funext he]; exact h

theorem VPoly.mono (h : VPoly D V) (hD : D ≤ D') : VPoly D' V := by
  induction h with
  | zero => exact .zero
  | term c x hc => exact .term c x (hc.mono hD)
  | add _ _ h1 h2 => exact .add h1 h2

theorem VPoly.const (D : ℕ) (x : M) : VPoly D (fun _ : Fin K → F => x) :=
  (VPoly.term (fun _ => 1) x (Agm.PolyOn.const D 1)).congr fun _ => (one_smul _ _).symm

theorem VPoly.smul {a b : ℕ} {c : (Fin K → F) → F} (hc : Agm.PolyOn (fun _ => True) a c) (h : VPoly b V)
    (hD : a + b ≤ D) : VPoly D (fun g => c g • V g) := by
  induction h with
  | zero => exact VPoly.zero.congr fun g => smul_zero _
  | term c' x hc' => exact (VPoly.term _ x (hc.mul hc' hD)).congr fun g => smul_smul _ _ _
  | add _ _ h1 h2 => exact (h1.add h2).congr fun g => smul_add _ _ _

theorem VPoly.sum {ι : Type} (s : Finset ι) (f : ι → (Fin K → F) → M) (h : ∀ i ∈ s, VPoly D (f i)) :
    VPoly D (fun g => ∑ i ∈ s, f i g) := by
  classical
  induction s using Finset.induction_on with
  | empty => exact VPoly.zero.congr fun g => by simp
  | insert a s ha ih =>
    exact ((h a (Finset.mem_insert_self _ _)).add (ih fun i hi => h i (Finset.mem_insert_of_mem hi))).congr
      fun g => by rw [Finset.sum_insert ha]

theorem VPoly.map (h : VPoly D V) (L : M →ₗ[F] M') : VPoly D (fun g => L (V g)) := by
  induction h with
  | zero => exact VPoly.zero.congr fun g => map_zero L
  | term c x hc => exact (VPoly.term c (L x) hc).congr fun g => map_smul L _ _
  | add _ _ h1 h2 => exact (h1.add h2).congr fun g => map_add L _ _

theorem VPoly.bil {a b : ℕ} {V : (Fin K → F) → M} {W : (Fin K → F) → M'} (h : VPoly a V) (h' : VPoly b W)
    (β : M →ₗ[F] M' →ₗ[F] M'') (hD : a + b ≤ D) : VPoly D (fun g => β (V g) (W g)) := by
  induction h with
  | zero => exact VPoly.zero.congr fun g => by simp
  | term c x hc => exact (VPoly.smul hc (h'.map (β x)) hD).congr fun g => by simp
  | add _ _ h1 h2 => exact (h1.add h2).congr fun g => by simp

theorem VPoly.functional {V : (Fin K → F) → M} (h : VPoly D V) (φ : M →ₗ[F] F) :
    Agm.PolyOn (fun _ => True) D (fun g => φ (V g)) := by
  induction h with
  | zero => exact (Agm.PolyOn.const D 0).congr fun g _ => map_zero φ
  | term c x hc => exact (hc.mul (Agm.PolyOn.const 0 (φ x)) le_rfl).congr fun g _ => by simp
  | add _ _ h1 h2 => exact (h1.add h2).congr fun g _ => map_add φ _ _

/-- Schwartz-Zippel for vector-valued polynomials -/
theorem VPoly.count [Fintype F] [DecidableEq F] [DecidableEq M] {V : (Fin K → F) → M} (h : VPoly D V)
    (g0 : Fin K → F) (hne : V g0 ≠ 0) :
    (Finset.univ.filter fun g => V g = 0).card ≤ D * Fintype.card F ^ (K - 1) := by
  obtain ⟨φ, hφ⟩ : ∃ φ : Module.Dual F M, φ (V g0) ≠ 0 := by
    by_contra hc
    push Not at hc
    exact hne ((Module.forall_dual_apply_eq_zero_iff F _).mp hc)
  refine (h.functional φ).count g0 trivial hφ _ fun g hg => ⟨trivial, ?_⟩
  rw [(Finset.mem_filter.mp hg).2, map_zero]

/-- lists of constant length with polynomial entries -/
def VPolyL (D : ℕ) (L : (Fin K → F) → List M) : Prop :=
  ∃ len, (∀ g, (L g).length = len) ∧ ∀ i, VPoly D (fun g => (L g).getD i 0)

variable {L L' : (Fin K → F) → List M}

theorem VPolyL.append (h : VPolyL D L) (h' : VPolyL D L') : VPolyL D (fun g => L g ++ L' g) := by
  obtain ⟨a, h1, h2⟩ := h
  obtain ⟨b, h3, h4⟩ := h'
  refine ⟨a + b, fun g => by simp [h1, h3], fun i => ?_⟩
  by_cases hi : i < a
  · refine (h2 i).congr fun g => ?_
    rw [List.getD_append _ _ _ _ (by rw [h1]; exact hi)]
  · refine (h4 (i - a)).congr fun g => ?_
    rw [List.getD_append_right _ _ _ _ (by rw [h1]; omega), h1]

theorem VPolyL.const (D : ℕ) (l : List M) : VPolyL D (fun _ : Fin K → F => l) :=
  ⟨l.length, fun _ => rfl, fun _ => VPoly.const D _⟩

theorem VPolyL.tab (n : ℕ) (f : (Fin K → F) → ℕ → M) (h : ∀ i < n, VPoly D (fun g => f g i)) :
    VPolyL D (fun g => Verif.tab n (f g)) := by
  refine ⟨n, fun g => length_tab _ _, fun i => ?_⟩
  by_cases hi : i < n
  · exact (h i hi).congr fun g => by rw [getD_tab, if_pos hi]
  · exact (VPoly.const D 0).congr fun g => by rw [getD_tab, if_neg hi]

theorem VPolyL.nil : VPolyL D (fun _ : Fin K → F => ([] : List M)) := VPolyL.const D []

theorem VPolyL.cons (h : VPoly D V) (h' : VPolyL D L) : VPolyL D (fun g => V g :: L g) := by
  obtain ⟨b, h3, h4⟩ := h'
  refine ⟨b + 1, fun g => by simp [h3], fun i => ?_⟩
  cases i with
  | zero => exact h
  | succ i => exact h4 i

theorem VPolyL.flatten (n : ℕ) (f : (Fin K → F) → ℕ → List M) (h : ∀ i < n, VPolyL D (fun g => f g i)) :
    VPolyL D (fun g => (Verif.tab n (f g)).flatten) := by
  induction n with
  | zero => exact VPolyL.nil
  | succ n ih =>
    have := (ih fun i hi => h i (by omega)).append (h n (by omega))
    simp only [tab_succ_last, List.flatten_append, List.flatten_cons, List.flatten_nil, List.append_nil]
    exact this

theorem VPolyL.comb (h : VPolyL D L) (k : ℕ → F) : VPoly D (fun g => Spec.comb k (L g)) := by
  obtain ⟨a, h1, h2⟩ := h
  refine (VPoly.sum (Finset.range a) (fun i g => k i • (L g).getD i 0) fun i _ =>
    VPoly.smul (Agm.PolyOn.const 0 (k i)) (h2 i) (by omega)).congr fun g => ?_
  unfold Spec.comb
  rw [h1]

end vpoly

/-! ### The algebra of SAVER ciphertexts -/

section shape
variable {F : Type} [Field F] {M2 : Type} [AddCommGroup M2] [Module F M2]

/-- Functions of the secrets `s, t, v, rho` of the shape `A(t) + rho B(t) + W_1(t, s v) + rho W_2(t, v)`
(`s v` is the componentwise product): what can be combined from `t_i H, rho H, s_i v_i H, rho v_i H`. -/
def Shape (L : (ℕ → F) → (ℕ → F) → (ℕ → F) → F → M2) : Prop :=
  ∃ (A B : (ℕ → F) → M2) (W1 W2 : (ℕ → F) → (ℕ → F) → M2),
    (∀ t, W1 t (fun _ => 0) = 0) ∧ (∀ t, W2 t (fun _ => 0) = 0) ∧
    ∀ s t v rho, L s t v rho = A t + rho • B t + W1 t (fun i => s i * v i) + rho • W2 t v

variable {L L' : (ℕ → F) → (ℕ → F) → (ℕ → F) → F → M2}

theorem Shape.add (h : Shape L) (h' : Shape L') : Shape fun s t v rho => L s t v rho + L' s t v rho := by
  obtain ⟨A, B, W1, W2, h1, h2, h3⟩ := h
  obtain ⟨A', B', W1', W2', h1', h2', h3'⟩ := h'
  refine ⟨fun t => A t + A' t, fun t => B t + B' t, fun t u => W1 t u + W1' t u,
    fun t u => W2 t u + W2' t u, fun t => by dsimp only; rw [h1, h1', add_zero],
    fun t => by dsimp only; rw [h2, h2', add_zero],
    fun s t v rho => ?_⟩
  dsimp only
  rw [h3, h3', smul_add, smul_add]
  abel

theorem Shape.smul (c : (ℕ → F) → F) (h : Shape L) : Shape fun s t v rho => c t • L s t v rho := by
  obtain ⟨A, B, W1, W2, h1, h2, h3⟩ := h
  refine ⟨fun t => c t • A t, fun t => c t • B t, fun t u => c t • W1 t u,
    fun t u => c t • W2 t u, fun t => by dsimp only; rw [h1, smul_zero],
    fun t => by dsimp only; rw [h2, smul_zero],
    fun s t v rho => ?_⟩
  dsimp only
  rw [h3, smul_add, smul_add, smul_add, smul_comm rho, smul_comm rho]

theorem Shape.ofT (A : (ℕ → F) → M2) : Shape fun _ t _ _ => A t :=
  ⟨A, fun _ => 0, fun _ _ => 0, fun _ _ => 0, fun _ => rfl, fun _ => rfl, fun _ _ _ _ => by simp⟩

/-- The heart of the secrecy argument: if `N + sum_i s_i M_i` vanishes identically then so does every `M_i`. -/
theorem Shape.core (n : ℕ) {N : (ℕ → F) → (ℕ → F) → (ℕ → F) → F → M2}
    {M : ℕ → (ℕ → F) → (ℕ → F) → (ℕ → F) → F → M2} (hN : Shape N) (hM : ∀ i, Shape (M i))
    (h2 : (2 : F) ≠ 0)
    (h : ∀ s t v rho, N s t v rho + ∑ i ∈ Finset.range n, s i • M i s t v rho = 0) :
    ∀ i < n, ∀ s t v rho, M i s t v rho = 0 := by
  obtain ⟨A, B, W1, W2, hW1, hW2, hN⟩ := hN
  choose Ai Bi W1i W2i hW1i hW2i hM using hM
  -- one unit vector at a time
  have hsum : ∀ (c : F) (j : ℕ), j < n → ∀ f : ℕ → M2,
      ∑ i ∈ Finset.range n, (if i = j then c else 0) • f i = c • f j := by
    intro c j hj f
    rw [Finset.sum_eq_single j]
    · rw [if_pos rfl]
    · intro i _ hi; rw [if_neg hi, zero_smul]
    · intro hc; exact absurd (Finset.mem_range.mpr hj) hc
  intro i hi s t v rho
  simp only [hN, hM] at h
  have hA : A t = 0 := by
    have := h (fun _ => 0) t (fun _ => 0) 0
    simpa [hW1, hW2] using this
  have hB : B t = 0 := by
    have := h (fun _ => 0) t (fun _ => 0) 1
    simpa [hW1, hW2, hA] using this
  have hAi : Ai i t = 0 := by
    have := h (fun j => if j = i then 1 else 0) t (fun _ => 0) 0
    simp only [mul_zero, hW1, hW2, hW1i, hW2i, hA, zero_smul, add_zero, smul_zero, zero_add] at this
    rwa [hsum 1 i hi, one_smul] at this
  have hBi : Bi i t = 0 := by
    have := h (fun j => if j = i then 1 else 0) t (fun _ => 0) 1
    simp only [mul_zero, hW1, hW2, hW1i, hW2i, hA, hB, one_smul, add_zero, smul_zero, zero_add] at this
    rwa [hsum 1 i hi (fun j => Ai j t + Bi j t), one_smul, hAi, zero_add] at this
  -- the part in `s v` only
  have hrho : ∀ s v : ℕ → F, W1 t (fun i => s i * v i) +
      ∑ i ∈ Finset.range n, s i • W1i i t (fun i => s i * v i) = 0 := by
    intro s v
    have e := h s t v 0
    have e0 := h s t (fun _ => 0) 0
    simp only [mul_zero, hW1, hW2, hW1i, hW2i, hA, zero_smul, add_zero, zero_add, smul_add,
      Finset.sum_add_distrib] at e e0
    rw [e0, zero_add] at e
    exact e
  have hW1i0 : ∀ u, W1i i t u = 0 := by
    intro u
    have e1 := hrho (fun _ => 1) u
    have e2 := hrho (fun j => if j = i then 2 else 1) (fun j => if j = i then u j / 2 else u j)
    have eu : (fun j => (if j = i then (2 : F) else 1) * (if j = i then u j / 2 else u j)) = u := by
      funext j
      by_cases hj : j = i
      · simp only [if_pos hj]; field_simp
      · simp only [if_neg hj, one_mul]
    rw [eu] at e2
    simp only [one_mul, one_smul] at e1
    have e3 : ∑ j ∈ Finset.range n, (if j = i then (2 : F) else 1) • W1i j t u =
        ∑ j ∈ Finset.range n, W1i j t u + W1i i t u := by
      rw [← one_smul F (W1i i t u), ← hsum 1 i hi (fun j => W1i j t u), ← Finset.sum_add_distrib]
      refine Finset.sum_congr rfl fun j _ => ?_
      by_cases hj : j = i
      · simp only [if_pos hj, one_smul, two_smul]
      · simp only [if_neg hj, one_smul, zero_smul, add_zero]
    rw [e3, ← add_assoc, e1, zero_add] at e2
    exact e2
  -- the part with `rho v`
  have hW2' : ∀ s v : ℕ → F, W2 t v + ∑ i ∈ Finset.range n, s i • W2i i t v = 0 := by
    intro s v
    have e := h s t v 1
    have e0 := h s t (fun _ => 0) 1
    have e1 := hrho s v
    simp only [mul_zero, hW1, hW2, hW1i, hW2i, hA, hB, one_smul, smul_zero, add_zero, zero_add, smul_add,
      Finset.sum_add_distrib] at e e0
    rw [e0, zero_add] at e
    have : W1 t (fun i => s i * v i) + W2 t v +
        (∑ i ∈ Finset.range n, s i • W1i i t (fun i => s i * v i) + ∑ i ∈ Finset.range n, s i • W2i i t v) =
        (W1 t (fun i => s i * v i) + ∑ i ∈ Finset.range n, s i • W1i i t (fun i => s i * v i)) +
        (W2 t v + ∑ i ∈ Finset.range n, s i • W2i i t v) := by abel
    rw [this, e1, zero_add] at e
    exact e
  have hW2i0 : W2i i t v = 0 := by
    have e0 := hW2' (fun _ => 0) v
    have e1 := hW2' (fun j => if j = i then 1 else 0) v
    simp only [zero_smul, Finset.sum_const_zero, add_zero] at e0
    rw [hsum 1 i hi, e0, zero_add, one_smul] at e1
    exact e1
  rw [hM, hAi, hBi, hW1i0, hW2i0]
  simp

end shape

section cipher
variable {E : Engine} {M2 MT : Type} [AddCommGroup M2] [Module E.Fr M2] [AddCommGroup MT] [Module E.Fr MT]

/-- the pairings of the entries of a list with given elements -/
def pairSum (β : E.G1 →ₗ[E.Fr] M2 →ₗ[E.Fr] MT) (B : ℕ → M2) (l : List E.G1) : MT :=
  ∑ i ∈ Finset.range l.length, β (l.getD i 0) (B i)

variable (β : E.G1 →ₗ[E.Fr] M2 →ₗ[E.Fr] MT)

theorem pairSum_append (B : ℕ → M2) (l l' : List E.G1) :
    pairSum β B (l ++ l') = pairSum β B l + pairSum β (fun i => B (l.length + i)) l' := by
  unfold pairSum
  rw [List.length_append, Finset.sum_range_add]
  congr 1
  · refine Finset.sum_congr rfl fun i hi => ?_
    rw [List.getD_append _ _ _ _ (Finset.mem_range.mp hi)]
  · refine Finset.sum_congr rfl fun i _ => ?_
    rw [List.getD_append_right _ _ _ _ (by omega), Nat.add_sub_cancel_left]

theorem pairSum_cons (B : ℕ → M2) (a : E.G1) (l : List E.G1) :
    pairSum β B (a :: l) = β a (B 0) + pairSum β (fun i => B (i + 1)) l := by
  unfold pairSum
  rw [List.length_cons, Finset.sum_range_succ', add_comm]
  rfl

theorem pairSum_nil (B : ℕ → M2) : pairSum β B [] = 0 := by simp [pairSum]

theorem pairSum_tab (B : ℕ → M2) (n : ℕ) (f : ℕ → E.G1) :
    pairSum β B (tab n f) = ∑ i ∈ Finset.range n, β (f i) (B i) := by
  unfold pairSum
  rw [length_tab]
  refine Finset.sum_congr rfl fun i hi => ?_
  rw [getD_tab, if_pos (Finset.mem_range.mp hi)]

theorem pairSum_flatten (B : ℕ → M2) (w n : ℕ) (f : ℕ → List E.G1) (hf : ∀ i < n, (f i).length = w) :
    pairSum β B (tab n f).flatten = ∑ c ∈ Finset.range n, pairSum β (fun i => B (c * w + i)) (f c) ∧
      (tab n f).flatten.length = n * w := by
  induction n with
  | zero => exact ⟨by simp [tab, pairSum], by simp [tab]⟩
  | succ n ih =>
    obtain ⟨h1, h2⟩ := ih fun i hi => hf i (by omega)
    simp only [tab_succ_last, List.flatten_append, List.flatten_cons, List.flatten_nil, List.append_nil,
      pairSum_append, h1, h2, Finset.sum_range_succ, List.length_append, hf n (by omega)]
    exact ⟨trivial, by ring⟩

/-- the pairings of a ciphertext with given elements -/
theorem pairSum_cipher (n : ℕ) (s t : ℕ → E.Fr) (g : ℕ → E.G1) (D C : E.G1) (H : E.G2) (m : ℕ → ℕ) (r : E.Fr)
    (B : ℕ → M2) :
    pairSum β B (flat (cipher (encKey n s t g D C H) g m r)) =
      r • β D ((B 0 + t 0 • B (n + 1)) + ∑ i ∈ Finset.range n, s i • (B (i + 1) + t (i + 1) • B (n + 1))) +
      ∑ i ∈ Finset.range n, (m i : E.Fr) • β (g i) (B (i + 1) + t (i + 1) • B (n + 1)) := by
  have hX : ∀ i < n, (encKey n s t g D C H).X.getD i 0 = s i • D := fun i hi => by
    simp only [encKey]; rw [getD_tab, if_pos hi]
  have hY : ∀ i < n, (encKey n s t g D C H).Y.getD i 0 = t (i + 1) • g i := fun i hi => by
    simp only [encKey]; rw [getD_tab, if_pos hi]
  have hl : (encKey n s t g D C H).X.length = n := by simp [encKey]
  have hc : flat (cipher (encKey n s t g D C H) g m r) = (r • D) ::
      (tab n (fun i => r • s i • D + (m i : E.Fr) • g i) ++
        [∑ i ∈ Finset.range n, (m i : E.Fr) • t (i + 1) • g i +
          r • (t 0 + ∑ i ∈ Finset.range n, s i * t (i + 1)) • D]) := by
    unfold flat cipher
    rw [hl]
    refine congrArg₂ List.cons rfl (congrArg₂ (· ++ ·) (tab_congr fun i hi => ?_) (congrArg (fun x => [x]) ?_))
    · rw [hX i hi, nsmul_fr (E := E)]
    · refine congrArg₂ (· + ·) (Finset.sum_congr rfl fun i hi => ?_) rfl
      rw [hY i (Finset.mem_range.mp hi), nsmul_fr (E := E)]
  rw [hc, pairSum_cons, pairSum_append, pairSum_tab, pairSum_cons, pairSum_nil, length_tab, add_zero, add_zero]
  simp only [map_add, map_sum, map_smul, LinearMap.add_apply, LinearMap.sum_apply, LinearMap.smul_apply,
    Finset.sum_add_distrib, smul_add, Finset.smul_sum, add_smul, Finset.sum_smul, mul_smul]
  abel

/-- the ciphertexts of the messages `h`, one after the other -/
def blocks (n : ℕ) (g : ℕ → E.G1) (D C : E.G1) (H : E.G2) (s t r : ℕ → E.Fr) (h : List (List UInt16)) :
    List E.G1 :=
  (tab h.length fun c => flat (cipher (encKey n s t g D C H) g (fun i => (nums (h.getD c [])).getD i 0)
    (r c))).flatten

theorem flat_cipher_length (n : ℕ) (s t : ℕ → E.Fr) (g : ℕ → E.G1) (D C : E.G1) (H : E.G2) (m : ℕ → ℕ)
    (r : E.Fr) : (flat (cipher (encKey n s t g D C H) g m r)).length = n + 2 := by
  simp [flat, cipher, encKey]

/-- A relation that holds identically for one family of messages holds identically for every other one. -/
theorem transfer_sum (n N : ℕ) (g : ℕ → E.G1) (D C : E.G1) (H : E.G2) (hβ : ∀ b, β D b = 0 → b = 0)
    (h2 : (2 : E.Fr) ≠ 0) (B : ℕ → ℕ → (ℕ → E.Fr) → (ℕ → E.Fr) → (ℕ → E.Fr) → E.Fr → M2)
    (hB : ∀ c j, Shape (B c j))
    (base : (ℕ → E.Fr) → (ℕ → E.Fr) → (ℕ → E.Fr) → E.Fr → MT) (m m' : ℕ → ℕ → ℕ)
    (hz : ∀ s t v rho (r : ℕ → E.Fr), base s t v rho + ∑ c ∈ Finset.range N,
      pairSum β (fun j => B c j s t v rho) (flat (cipher (encKey n s t g D C H) g (m c) (r c))) = 0) :
    ∀ s t v rho (r : ℕ → E.Fr), base s t v rho + ∑ c ∈ Finset.range N,
      pairSum β (fun j => B c j s t v rho) (flat (cipher (encKey n s t g D C H) g (m' c) (r c))) = 0 := by
  have hM : ∀ c < N, ∀ i < n, ∀ s t v rho,
      B c (i + 1) s t v rho + t (i + 1) • B c (n + 1) s t v rho = 0 := by
    intro c hc
    refine Shape.core n (N := fun s t v rho => B c 0 s t v rho + t 0 • B c (n + 1) s t v rho)
      (M := fun i s t v rho => B c (i + 1) s t v rho + t (i + 1) • B c (n + 1) s t v rho)
      ((hB _ _).add ((hB _ _).smul fun t => t 0)) (fun i => (hB _ _).add ((hB _ _).smul fun t => t (i + 1))) h2
      fun s t v rho => hβ _ ?_
    have e0 := hz s t v rho fun _ => 0
    have e1 := hz s t v rho fun j => if j = c then 1 else 0
    simp only [pairSum_cipher] at e0 e1
    simp only [zero_smul, zero_add, Finset.sum_add_distrib] at e0 e1
    rw [Finset.sum_eq_single c (fun j _ hj => by rw [if_neg hj, zero_smul])
      (fun hc' => absurd (Finset.mem_range.mpr hc) hc'), if_pos rfl, one_smul, add_left_comm, e0, add_zero] at e1
    exact e1
  have hconst : ∀ l : ℕ → ℕ → ℕ, ∀ s t v rho (r : ℕ → E.Fr), ∑ c ∈ Finset.range N,
      pairSum β (fun j => B c j s t v rho) (flat (cipher (encKey n s t g D C H) g (l c) (r c))) =
      ∑ c ∈ Finset.range N, r c • β D (B c 0 s t v rho + t 0 • B c (n + 1) s t v rho) := by
    intro l s t v rho r
    refine Finset.sum_congr rfl fun c hc => ?_
    have hc := Finset.mem_range.mp hc
    rw [pairSum_cipher]
    rw [Finset.sum_eq_zero fun i hi => by rw [hM c hc i (Finset.mem_range.mp hi), smul_zero],
      Finset.sum_eq_zero fun i hi => by rw [hM c hc i (Finset.mem_range.mp hi), map_zero, smul_zero], add_zero,
      add_zero]
  intro s t v rho r
  rw [hconst m', ← hconst m]
  exact hz s t v rho r

/-- the same for consecutive ciphertexts in one list -/
theorem transfer (n : ℕ) (g : ℕ → E.G1) (D C : E.G1) (H : E.G2) (hβ : ∀ b, β D b = 0 → b = 0)
    (h2 : (2 : E.Fr) ≠ 0) (B : ℕ → (ℕ → E.Fr) → (ℕ → E.Fr) → (ℕ → E.Fr) → E.Fr → M2) (hB : ∀ j, Shape (B j))
    (base : (ℕ → E.Fr) → (ℕ → E.Fr) → (ℕ → E.Fr) → E.Fr → MT) (h h' : List (List UInt16))
    (hlen : h'.length = h.length)
    (hz : ∀ s t v rho r, base s t v rho +
      pairSum β (fun j => B j s t v rho) (blocks n g D C H s t r h) = 0) :
    ∀ s t v rho r, base s t v rho +
      pairSum β (fun j => B j s t v rho) (blocks n g D C H s t r h') = 0 := by
  have e : ∀ (l : List (List UInt16)) s t v rho r, pairSum β (fun j => B j s t v rho) (blocks n g D C H s t r l) =
      ∑ c ∈ Finset.range l.length, pairSum β (fun j => B (c * (n + 2) + j) s t v rho)
        (flat (cipher (encKey n s t g D C H) g (fun i => (nums (l.getD c [])).getD i 0) (r c))) :=
    fun l s t v rho r => (pairSum_flatten β _ (n + 2) l.length _ fun i _ =>
      flat_cipher_length n s t g D C H _ _).1
  simp only [e, hlen] at hz ⊢
  exact transfer_sum β n h.length g D C H hβ h2 (fun c j => B (c * (n + 2) + j)) (fun c j => hB _) base
    (fun c i => (nums (h.getD c [])).getD i 0) _ hz

end cipher

end Sec
end Verif
