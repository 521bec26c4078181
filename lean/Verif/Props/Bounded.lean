/-
Property C125: without losses key generation and re-encryption are complete after a bounded number of steps, in any order.
-/
import Verif.SpecBounded
import Verif.SpecLive
import Verif.Props.Poll

namespace Verif
open Spec

variable {E : Engine}

namespace Bnd

/-- if every step of a kind reduces a number by one, there are only so many -/
theorem steps_count {α : Type*} {step : α → α → Prop} {P : α → Prop} {todo : α → ℕ}
    (h : ∀ S T, P S → step S T → P T ∧ todo T + 1 = todo S) {k : ℕ} {S T : α} (hS : P S) (hT : Steps step k S T) :
    P T ∧ todo T + k = todo S := by
  induction hT with
  | zero => exact ⟨hS, rfl⟩
  | succ _ hs ih =>
    obtain ⟨h1, h2⟩ := ih hS
    obtain ⟨h3, h4⟩ := h _ _ h1 hs
    exact ⟨h3, by omega⟩

/-- then, whoever keeps going has nothing left to do in the end -/
theorem gets_stuck {α : Type*} {progress : α → α → Prop} {P : α → Prop} {todo : α → ℕ}
    (h : ∀ S T, P S → progress S T → P T ∧ todo T + 1 = todo S) {hist : ℕ → α} (h0 : P (hist 0))
    (hk : KeepsGoing progress hist) : ∃ n, ∀ T, ¬ progress (hist n) T := by
  have hP : ∀ i, P (hist i) := by
    intro i
    induction i with
    | zero => exact h0
    | succ i ih =>
      rcases hk.1 i with h1 | h1
      · exact (h _ _ ih h1).1
      · rw [h1]; exact ih
  have hmono : ∀ i d, todo (hist (i + d)) ≤ todo (hist i) := by
    intro i d
    induction d with
    | zero => exact le_rfl
    | succ d ih =>
      rcases hk.1 (i + d) with h1 | h1
      · have := (h _ _ (hP _) h1).2
        rw [← Nat.add_assoc]
        omega
      · rw [← Nat.add_assoc, h1]; exact ih
  have main : ∀ m i, todo (hist i) ≤ m → ∃ n, ∀ T, ¬ progress (hist n) T := by
    intro m
    induction m with
    | zero =>
      intro i hi
      refine ⟨i, fun T hT => ?_⟩
      have := (h _ _ (hP i) hT).2
      omega
    | succ m ih =>
      intro i hi
      by_cases hs : ∃ T, progress (hist i) T
      · obtain ⟨k, hk1, hk2⟩ := hk.2 i hs
        have h1 := (h _ _ (hP k) hk2).2
        have h2 := hmono i (k - i)
        rw [show i + (k - i) = k by omega] at h2
        exact ih (k + 1) (by omega)
      · exact ⟨i, fun T hT => hs ⟨T, hT⟩⟩
  exact main _ 0 le_rfl

/-- from everywhere one can go on until there is nothing left to do -/
theorem run_out {α : Type*} {progress : α → α → Prop} {P : α → Prop} {todo : α → ℕ}
    (h : ∀ S T, P S → progress S T → P T ∧ todo T + 1 = todo S) (S : α) (hS : P S) :
    ∃ k T, Steps progress k S T ∧ ∀ U, ¬ progress T U := by
  have main : ∀ m k T, Steps progress k S T → todo T ≤ m → ∃ k T, Steps progress k S T ∧ ∀ U, ¬ progress T U := by
    intro m
    induction m with
    | zero =>
      intro k T hT hm
      refine ⟨k, T, hT, fun U hU => ?_⟩
      have := (h _ _ (steps_count h hS hT).1 hU).2
      omega
    | succ m ih =>
      intro k T hT hm
      by_cases hs : ∃ U, progress T U
      · obtain ⟨U, hU⟩ := hs
        have := (h _ _ (steps_count h hS hT).1 hU).2
        exact ih (k + 1) U (.succ hT hU) (by omega)
      · exact ⟨k, T, hT, fun U hU => hs ⟨U, hU⟩⟩
  exact main _ 0 S (.zero S) le_rfl

theorem sum_one {N j : ℕ} (hj : j < N) (f g : ℕ → ℕ) (h : ∀ i, i ≠ j → g i = f i) (hjj : g j + 1 = f j) :
    ∑ i ∈ Finset.range N, g i + 1 = ∑ i ∈ Finset.range N, f i := by
  rw [← Finset.add_sum_erase _ g (Finset.mem_range.mpr hj), ← Finset.add_sum_erase _ f (Finset.mem_range.mpr hj),
    Finset.sum_congr rfl fun i hi => h i (Finset.ne_of_mem_erase hi), ← hjj]
  ring

open Classical in
/-- what a party still has to do -/
noncomputable def todo1 (C : Codecs E) (d : Node E) (k s : Option (List UInt8)) : ℕ :=
  (if load C d.disk = none then 1 else if d.mem = none then 1 else 0) + (if k = none then 1 else 0) +
    (if s = none then 1 else 0)

theorem todo1_le (C : Codecs E) (d : Node E) (k s : Option (List UInt8)) : todo1 C d k s ≤ 3 := by
  unfold todo1
  split_ifs <;> omega

/-- what all parties still have to do -/
noncomputable def todo (C : Codecs E) (N : ℕ) (S : Sys E) : ℕ :=
  ∑ j ∈ Finset.range N, todo1 C (S.node j) (S.keys j) (S.shares j)

theorem todo_le (C : Codecs E) (N : ℕ) (S : Sys E) : todo C N S ≤ 3 * N := by
  unfold todo
  calc _ ≤ ∑ j ∈ Finset.range N, 3 := Finset.sum_le_sum fun j _ => todo1_le C _ _ _
    _ = 3 * N := by simp [mul_comm]

theorem todo_init (C : Codecs E) (N : ℕ) : todo C N (Sys.init : Sys E) = 3 * N := by
  have : ∀ j, todo1 C ((Sys.init : Sys E).node j) ((Sys.init : Sys E).keys j) ((Sys.init : Sys E).shares j) = 3 := by
    intro j
    have hl : load C ((Sys.init : Sys E).node j).disk = none := rfl
    have hk : (Sys.init : Sys E).keys j = none := rfl
    have hs : (Sys.init : Sys E).shares j = none := rfl
    unfold todo1
    rw [if_pos hl, if_pos hk, if_pos hs]
  unfold todo
  simp [this, mul_comm]

theorem update_self' {β : Type*} (f : ℕ → β) (j : ℕ) (x : β) (h : x = f j) : Function.update f j x = f := by
  rw [h, Function.update_eq_self]

section
variable {C : Codecs E} (hC : LawfulCodecs C) {N : ℕ} {b n8 : UInt8} {gens : EncryptionGens E} {g_i : List E.G1}
  {D G : E.G1} (hn : chunksCount E.fr b = .ok n8) (hg : n8.toNat ≤ g_i.length)
include hC hn hg

theorem progress {S T : Sys E} (hI : ∃ Q, Rst.Inv C N n8 gens g_i D G S Q)
    (h : KeygenProgress C N b gens g_i D G S T) :
    (∃ Q, Rst.Inv C N n8 gens g_i D G T Q) ∧ todo C N T + 1 = todo C N S := by
  obtain ⟨Q, hI⟩ := hI
  obtain ⟨hs, hne, hkeep⟩ := h
  refine ⟨(Rst.step_inv hC hn hg hI hs).1.imp fun _ h => h.1, ?_⟩
  cases hs with
  | generate j P sk k st' hj hd hk =>
    obtain ⟨rfl, rfl⟩ := Rst.gen_inv hC hn hg hk
    unfold todo
    refine sum_one hj _ _ (fun i hi => by simp only [Function.update_of_ne hi]) ?_
    simp only [Function.update_self]
    have hl := Rst.load_stored hC n8 P gens g_i D G
    unfold todo1
    rw [if_pos hd, if_neg (by intro hh; exact Option.some_ne_none _ (hl.symm.trans hh)), if_neg (by simp)]
    omega
  | torn j P sk k st' l hj hd hk hl =>
    exfalso
    obtain ⟨rfl, rfl⟩ := Rst.gen_inv hC hn hg hk
    have ht := Rst.load_torn hC n8 P gens g_i D G l hl
    have hk := (hkeep j).2
    dsimp only at hk
    rw [Function.update_self] at hk
    have hdisk : (stored C (partySK n8.toNat P) (Rst.keyOf n8.toNat P gens g_i D G)).take l = (S.node j).disk := by
      by_contra hh
      exact hk hh ht
    have hm := (hkeep j).1
    dsimp only at hm
    rw [Function.update_self] at hm
    have hmem : (S.node j).mem = none := by
      by_contra hh
      exact hm hh rfl
    apply hne
    have : Function.update S.node j ⟨(stored C (partySK n8.toNat P) (Rst.keyOf n8.toNat P gens g_i D G)).take l, none⟩ =
        S.node := update_self' _ _ _ (by rw [hdisk, ← hmem])
    show ({ S with node := _ } : Sys E) = S
    rw [this]
  | publish j sk k hj hd =>
    cases hQ : Q j with
    | none => rw [(hI.nothing j hQ).1] at hd; cases hd
    | some P =>
      have hd' := hd
      rw [(hI.made j P hQ).1, Rst.load_stored hC] at hd'
      cases hd'
      rcases (hI.made j P hQ).2.2 with hk | hk
      · unfold todo
        refine sum_one hj _ _ (fun i hi => by simp only [Function.update_of_ne hi]) ?_
        simp only [Function.update_self]
        unfold todo1
        rw [hk, if_pos rfl, if_neg (by simp : ¬ (some _ : Option (List UInt8)) = none)]
        omega
      · exfalso
        apply hne
        show ({ S with keys := _ } : Sys E) = S
        rw [update_self' S.keys j _ hk.symm]
  | crash j =>
    exfalso
    have hm := (hkeep j).1
    dsimp only at hm
    rw [Function.update_self] at hm
    have hmem : (S.node j).mem = none := by
      by_contra hh
      exact hm hh rfl
    apply hne
    show ({ S with node := _ } : Sys E) = S
    rw [update_self' S.node j _ (by rw [← hmem])]
  | restart j sk k hj hd =>
    cases hQ : Q j with
    | none => rw [(hI.nothing j hQ).1] at hd; cases hd
    | some P =>
      have hd' := hd
      rw [(hI.made j P hQ).1, Rst.load_stored hC] at hd'
      cases hd'
      rcases (hI.made j P hQ).2.1 with hk | hk
      · unfold todo
        refine sum_one hj _ _ (fun i hi => by simp only [Function.update_of_ne hi]) ?_
        simp only [Function.update_self]
        unfold todo1
        rw [hk, hd]
        simp
        omega
      · exfalso
        apply hne
        show ({ S with node := _ } : Sys E) = S
        rw [update_self' S.node j _ (by rw [← hk])]
  | share j sk ks ek sh hj hm hr hc hs =>
    cases hsh : S.shares j with
    | none =>
      unfold todo
      refine sum_one hj _ _ (fun i hi => by simp only [Function.update_of_ne hi]) ?_
      simp only [Function.update_self]
      unfold todo1
      rw [hsh, if_pos rfl, if_neg (by simp : ¬ (some _ : Option (List UInt8)) = none)]
    | some bs =>
      exfalso
      cases hQ : Q j with
      | none => rw [(hI.nothing j hQ).2.1] at hm; cases hm
      | some P =>
        obtain ⟨ks', ek', sh', a1, a2, a3, a4⟩ := hI.shares j P bs hQ hsh
        rw [hr] at a1
        cases a1
        rw [hc] at a2
        cases a2
        rcases (hI.made j P hQ).2.1 with hk | hk
        · rw [hk] at hm; cases hm
        · rw [hk] at hm
          cases hm
          rw [hs] at a3
          cases a3
          apply hne
          show ({ S with shares := _ } : Sys E) = S
          rw [update_self' S.shares j _ (by rw [hsh, a4])]

/-- if there is nothing left to do, everybody has published everything -/
theorem stuck {S : Sys E} {Q : ℕ → Option (Party E)} (hI : Rst.Inv C N n8 gens g_i D G S Q)
    (h : ∀ T, ¬ KeygenProgress C N b gens g_i D G S T) : ∀ j < N, load C (S.node j).disk ≠ none ∧ (S.node j).mem ≠ none ∧
      S.keys j ≠ none ∧ S.shares j ≠ none := by
  have h1 : ∀ j < N, load C (S.node j).disk ≠ none := by
    intro j hj hd
    have hl := Rst.load_stored hC n8 (⟨tape E, fun _ => 0⟩ : Party E) gens g_i D G
    refine h _ ⟨.generate j (⟨tape E, fun _ => 0⟩ : Party E) _ _ _ hj hd (fkeygenPartial_eq _ _ gens g_i D G hn hg), ?_, ?_⟩
    · intro hh
      have := congrArg (fun S : Sys E => load C (S.node j).disk) hh
      dsimp only at this
      rw [Function.update_self, hd] at this
      exact Option.some_ne_none _ (hl.symm.trans this)
    · intro i
      by_cases hi : i = j
      · subst hi
        dsimp only
        rw [Function.update_self]
        exact ⟨fun _ => by simp, fun _ hh => Option.some_ne_none _ (hl.symm.trans hh)⟩
      · dsimp only
        rw [Function.update_of_ne hi]
        exact ⟨fun h => h, fun h => absurd rfl h⟩
  have hQ : ∀ j < N, ∃ P, Q j = some P := by
    intro j hj
    cases hQ : Q j with
    | none => exact absurd (hI.nothing j hQ).1 (h1 j hj)
    | some P => exact ⟨P, rfl⟩
  have h2 : ∀ j < N, (S.node j).mem ≠ none := by
    intro j hj hm
    obtain ⟨⟨sk, k⟩, hd⟩ := Option.ne_none_iff_exists'.mp (h1 j hj)
    refine h _ ⟨.restart j sk k hj hd, ?_, ?_⟩
    · intro hh
      have := congrArg (fun S : Sys E => (S.node j).mem) hh
      dsimp only at this
      rw [Function.update_self, hm] at this
      cases this
    · intro i
      by_cases hi : i = j
      · subst hi
        dsimp only
        rw [Function.update_self]
        exact ⟨fun _ => by simp, fun h => absurd rfl h⟩
      · dsimp only
        rw [Function.update_of_ne hi]
        exact ⟨fun h => h, fun h => absurd rfl h⟩
  have h3 : ∀ j < N, S.keys j ≠ none := by
    intro j hj hk
    obtain ⟨⟨sk, k⟩, hd⟩ := Option.ne_none_iff_exists'.mp (h1 j hj)
    refine h _ ⟨.publish j sk k hj hd, ?_, fun i => ⟨fun h => h, fun h => absurd rfl h⟩⟩
    intro hh
    have := congrArg (fun S : Sys E => S.keys j) hh
    dsimp only at this
    rw [Function.update_self, hk] at this
    cases this
  refine fun j hj => ⟨h1 j hj, h2 j hj, h3 j hj, fun hs => ?_⟩
  obtain ⟨e1, e2⟩ := Rst.keys_read hC hn hg hI (⟨tape E, fun _ => 0⟩ : Party E) h3
  obtain ⟨P, hP⟩ := hQ j hj
  have hm : (S.node j).mem = some (partySK n8.toNat P) := by
    rcases (hI.made j P hP).2.1 with hk | hk
    · exact absurd hk (h2 j hj)
    · exact hk
  refine h _ ⟨.share j _ _ _ _ hj hm e2
    (Rst.combine_keys (by omega) n8.toNat fun j => (Q j).getD (⟨tape E, fun _ => 0⟩ : Party E)) (Rst.share_eq _ _ _), ?_,
    fun i => ⟨fun h => h, fun h => absurd rfl h⟩⟩
  intro hh
  have := congrArg (fun S : Sys E => S.shares j) hh
  dsimp only at this
  rw [Function.update_self, hs] at this
  cases this

end
end Bnd

/-- **C125** (bounded): from whatever has happened, however often parties have crashed, the parties can do at most three steps
each in which something changes and nothing is lost. -/
theorem C125_keygen_bounded {C : Codecs E} (hC : LawfulCodecs C) (N : ℕ) (b n : UInt8)
    (hn : chunksCount E.fr b = .ok n) (gens : EncryptionGens E) (g_i : List E.G1) (hg : n.toNat ≤ g_i.length) (D G : E.G1)
    (S T : Sys E) (hS : SysRuns C N b gens g_i D G Sys.init S) (k : ℕ)
    (hT : Steps (KeygenProgress C N b gens g_i D G) k S T) : k ≤ 3 * N := by
  have := (Bnd.steps_count (P := fun S => ∃ Q, Rst.Inv C N n gens g_i D G S Q)
    (fun _ _ h1 h2 => Bnd.progress hC hn hg h1 h2) (Rst.reach_inv hC hn hg hS) hT).2
  have h2 := Bnd.todo_le C N S
  omega

/-- **C125** (complete): when there is no such step left, everybody has published everything and has its secret key in its
memory, and the key anybody computes is that of a run without crashes with these secret keys. -/
theorem C125_keygen_complete {C : Codecs E} (hC : LawfulCodecs C) (N : ℕ) (hN : 0 < N) (b n : UInt8)
    (hn : chunksCount E.fr b = .ok n) (gens : EncryptionGens E) (g_i : List E.G1) (hg : n.toNat ≤ g_i.length) (D G : E.G1)
    (S : Sys E) (hS : SysRuns C N b gens g_i D G Sys.init S) (h : ∀ T, ¬ KeygenProgress C N b gens g_i D G S T) :
    ∃ (P : ℕ → Party E) (sks : List (SecretKeyST E)) (ek : EncryptionKey E), S.finalKey C N G = some (.ok ek) ∧
      dkg ((List.range N).map P) b gens g_i D G = .ok (sks, ek) ∧ sks.length = N ∧ ∀ j < N, (S.node j).mem = sks[j]? := by
  obtain ⟨Q, hI⟩ := Rst.reach_inv hC hn hg hS
  have hs := Bnd.stuck hC hn hg hI h
  obtain ⟨ek, e1, e2⟩ := Rst.final_eq hC hn hg hN hI (⟨tape E, fun _ => 0⟩ : Party E) (fun j hj => (hs j hj).2.2.1)
    (fun j hj => (hs j hj).2.2.2)
  refine ⟨_, _, ek, e1, e2, by simp, fun j hj => ?_⟩
  have hQ := (Rst.keys_read hC hn hg hI (⟨tape E, fun _ => 0⟩ : Party E) fun j hj => (hs j hj).2.2.1).1 j hj
  rw [List.getElem?_map, List.getElem?_range hj]
  rcases (hI.made j _ hQ).2.1 with hk | hk
  · exact absurd hk (hs j hj).2.1
  · exact hk

/-- **C125** (exactly): parties that start with nothing and do only such steps are finished after exactly three steps
each, whatever the order. -/
theorem C125_keygen_exactly {C : Codecs E} (hC : LawfulCodecs C) (N : ℕ) (b n : UInt8)
    (hn : chunksCount E.fr b = .ok n) (gens : EncryptionGens E) (g_i : List E.G1) (hg : n.toNat ≤ g_i.length) (D G : E.G1)
    (T : Sys E) (k : ℕ) (hT : Steps (KeygenProgress C N b gens g_i D G) k Sys.init T) :
    (∀ U, ¬ KeygenProgress C N b gens g_i D G T U) ↔ k = 3 * N := by
  have hP : ∃ Q, Rst.Inv C N n gens g_i D G (Sys.init : Sys E) Q := ⟨_, Rst.init_inv⟩
  obtain ⟨⟨Q, hI⟩, h1⟩ := Bnd.steps_count (P := fun S => ∃ Q, Rst.Inv C N n gens g_i D G S Q)
    (fun _ _ h1 h2 => Bnd.progress hC hn hg h1 h2) hP hT
  rw [Bnd.todo_init] at h1
  constructor
  · intro h
    have hs := Bnd.stuck hC hn hg hI h
    have : Bnd.todo C N T = 0 := by
      unfold Bnd.todo
      refine Finset.sum_eq_zero fun j hj => ?_
      obtain ⟨a1, a2, a3, a4⟩ := hs j (Finset.mem_range.mp hj)
      unfold Bnd.todo1
      rw [if_neg a1, if_neg a2, if_neg a3, if_neg a4]; rfl
    omega
  · intro h U hU
    have := (Bnd.progress hC hn hg ⟨Q, hI⟩ hU).2
    omega

/-- **C125** (any order): if from some moment on nothing is lost any more and the parties keep going, in whatever order, then
sooner or later everybody computes the key of a run without crashes, and keeps computing it. -/
theorem C125_keygen_any_order {C : Codecs E} (hC : LawfulCodecs C) (N : ℕ) (hN : 0 < N) (b n : UInt8)
    (hn : chunksCount E.fr b = .ok n) (gens : EncryptionGens E) (g_i : List E.G1) (hg : n.toNat ≤ g_i.length) (D G : E.G1)
    (h : ℕ → Sys E) (h0 : SysRuns C N b gens g_i D G Sys.init (h 0)) (hk : KeepsGoing (KeygenProgress C N b gens g_i D G) h) :
    ∃ (P : ℕ → Party E) (sks : List (SecretKeyST E)) (ek : EncryptionKey E),
      dkg ((List.range N).map P) b gens g_i D G = .ok (sks, ek) ∧ Eventually fun i => (h i).finalKey C N G = some (.ok ek) := by
  have hstep : ∀ i, SysRuns C N b gens g_i D G (h i) (h (i + 1)) := by
    intro i
    rcases hk.1 i with h1 | h1
    · exact .step (.refl _) h1.1
    · rw [h1]; exact .refl _
  have hruns : ∀ i d, SysRuns C N b gens g_i D G (h i) (h (i + d)) := by
    intro i d
    induction d with
    | zero => exact .refl _
    | succ d ih => exact Rst.trans ih (hstep (i + d))
  have hreach : ∀ i, SysRuns C N b gens g_i D G Sys.init (h i) := fun i => by
    have := hruns 0 i
    rw [Nat.zero_add] at this
    exact Rst.trans h0 this
  obtain ⟨m, hm⟩ := Bnd.gets_stuck (P := fun S => ∃ Q, Rst.Inv C N n gens g_i D G S Q)
    (fun _ _ h1 h2 => Bnd.progress hC hn hg h1 h2) (Rst.reach_inv hC hn hg h0) hk
  obtain ⟨P, sks, ek, e1, e2, -⟩ := C125_keygen_complete hC N hN b n hn gens g_i hg D G (h m) (hreach m) hm
  refine ⟨P, sks, ek, e2, m, fun i hi => ?_⟩
  have := hruns m (i - m)
  rw [show m + (i - m) = i by omega] at this
  exact C107_agreement hC N hN b n hn gens g_i hg D G (h m) (h i) (hreach m) this _ e1

/-! ### polls -/

namespace Bnd

open Classical in
/-- what aggregator and key holders still have to do -/
noncomputable def pollTodo (K : PollCfg E) (S : Poll) : ℕ :=
  (K.users - (countedSoFar K.codecs S).length) + (if S.total = none then 1 else 0) +
    ∑ j ∈ Finset.range K.sks.length, if S.shares j = none then 1 else 0

theorem pollTodo_le (K : PollCfg E) (S : Poll) : pollTodo K S ≤ K.users + 1 + K.sks.length := by
  unfold pollTodo
  have h1 : (∑ j ∈ Finset.range K.sks.length, if S.shares j = none then 1 else 0) ≤ K.sks.length := by
    calc _ ≤ ∑ j ∈ Finset.range K.sks.length, 1 := Finset.sum_le_sum fun j _ => by split_ifs <;> omega
      _ = K.sks.length := by simp
  have h2 : (if S.total = none then 1 else 0) ≤ 1 := by split_ifs <;> omega
  omega

section
variable {K : PollCfg E} (hC : LawfulCodecs K.codecs) (hU : K.users < 2 ^ 64)
  {parties : List (Party E)} {b : UInt8} {D G : E.G1}
  (hdkg : dkg parties b K.gens K.g_i D G = .ok (K.sks, K.ek))

theorem tally_len {votes x} (h : Poll'.TallyOf K votes x) : x.1.length ≤ K.users := by
  obtain ⟨h1, h2, h3, h4, r, h5⟩ := h
  have h6 : ∀ j ∈ x.1, j < K.users := by
    intro j hj
    rw [← h2] at hj
    obtain ⟨v, hv, rfl⟩ := List.mem_map.mp hj
    exact h4 v hv
  have := (List.Nodup.subperm h3 (l₂ := List.range K.users) fun j hj => List.mem_range.mpr (h6 j hj)).length_le
  rwa [List.length_range] at this

include hC hU hdkg

theorem poll_progress {S T : Poll} (hI : Poll'.Inv K S) (h : PollProgress K S T) :
    Poll'.Inv K T ∧ pollTodo K T + 1 = pollTodo K S := by
  obtain ⟨hs, hne, hcast, hstore, hshares⟩ := h
  obtain ⟨hw, hX, hg⟩ := Poll'.facts hdkg
  refine ⟨(Poll'.step_inv hC hU hw hX hg hI hs).1, ?_⟩
  cases hs with
  | vote j P chunks v r st' hj he =>
    exfalso
    have := congrArg List.length hcast
    simp at this
  | count j bs rest v x hb hv hn =>
    obtain ⟨votes, h1, h2⟩ := Poll'.next_inv hC hX hI hb hv hn
    have hd := Poll'.tally_de hC hU hX h1
    have hle := tally_len h1
    have hlen : x.1.length = (countedSoFar K.codecs S).length + 1 := by
      unfold nextTally at hn
      unfold countedSoFar
      cases hst : (arkTally K.codecs).de S.store with
      | none =>
        rw [hst] at hn
        cases hn
        rfl
      | some y =>
        obtain ⟨⟨done, sum⟩, rest'⟩ := y
        rw [hst] at hn
        dsimp only at hn ⊢
        by_cases hj : j ∈ done
        · rw [if_pos hj] at hn; cases hn
        · rw [if_neg hj] at hn
          cases ha : addCts sum v with
          | ok z => rw [ha] at hn; cases hn; rfl
          | err e => rw [ha] at hn; cases hn
          | panic => rw [ha] at hn; cases hn
    have h3 : countedSoFar K.codecs { S with store := (arkTally K.codecs).ser x } = x.1 := by
      unfold countedSoFar
      dsimp only
      rw [hd]
    unfold pollTodo
    rw [h3]
    dsimp only
    omega
  | torn j bs rest v x l hb hv hn hl =>
    exfalso
    obtain ⟨votes, h1, h2⟩ := Poll'.next_inv hC hX hI hb hv hn
    have ht := (Poll'.tally_faithful hC).2.1 x (Poll'.tally_fits hU hX h1) l hl
    dsimp only at hstore
    by_cases hh : ((arkTally K.codecs).ser x).take l = S.store
    · apply hne
      show ({ S with store := _ } : Poll) = S
      rw [hh]
    · exact hstore hh ht
  | close x rest hn hd =>
    unfold pollTodo
    have h3 : countedSoFar K.codecs { S with total := some S.store } = countedSoFar K.codecs S := rfl
    rw [h3]
    dsimp only
    rw [if_pos hn, if_neg (by simp : ¬ (some S.store : Option (List UInt8)) = none)]
    omega
  | share j sk P bs rest x c_0 c sh st' hsk ht hd hsl hsh =>
    cases hc : S.shares j with
    | some bs' =>
      exfalso
      have h1 := hshares j bs' hc
      dsimp only at h1
      rw [Function.update_self] at h1
      apply hne
      show ({ S with shares := _ } : Poll) = S
      rw [update_self' S.shares j _ (h1.trans hc.symm)]
    | none =>
      have hj : j < K.sks.length := (List.getElem?_eq_some_iff.mp hsk).1
      unfold pollTodo
      have h3 : countedSoFar K.codecs { S with shares := Function.update S.shares j (some ((arkShare K.codecs).ser sh)) } =
        countedSoFar K.codecs S := rfl
      rw [h3]
      dsimp only
      have := sum_one hj (fun i => if S.shares i = none then 1 else 0)
        (fun i => if Function.update S.shares j (some ((arkShare K.codecs).ser sh)) i = none then 1 else 0)
        (fun i hi => by rw [Function.update_of_ne hi])
        (by rw [Function.update_self, hc, if_pos rfl, if_neg (by simp)])
      omega

/-- a user that has voted and is not counted can be counted -/
theorem can_count {S : Poll} (hI : Poll'.Inv K S) {u} (hu : u ∈ S.cast) (hnot : u.1 ∉ countedSoFar K.codecs S) :
    ∃ T, PollProgress K S T ∧ T.total = S.total := by
  obtain ⟨hw, hX, hg⟩ := Poll'.facts hdkg
  obtain ⟨bs, hb⟩ := Option.ne_none_iff_exists'.mp (hI.cast u hu)
  obtain ⟨v, hv⟩ := Poll'.ballot_de hC hX hI hb
  obtain ⟨-, chunks, r, -, hvr⟩ := Poll'.ballot_read hC hX hI hb hv
  have hnext : ∃ x, nextTally K.codecs S.store u.1 v = some (.ok x) ∧ u.1 ∈ x.1 := by
    unfold countedSoFar at hnot
    unfold nextTally
    cases hst : (arkTally K.codecs).de S.store with
    | none => exact ⟨_, rfl, by simp⟩
    | some y =>
      obtain ⟨⟨done, sum⟩, rest'⟩ := y
      rw [hst] at hnot
      dsimp only at hnot ⊢
      obtain ⟨-, votes, ⟨a1, a2, a3, a4, r', a5⟩, a6⟩ := hI.store _ _ hst
      dsimp only at a5
      rw [if_neg hnot, hvr, a5, addCts_cipher]
      exact ⟨_, rfl, List.mem_cons_self⟩
  obtain ⟨x, hn, hm⟩ := hnext
  obtain ⟨votes, h1, -⟩ := Poll'.next_inv hC hX hI hb hv hn
  have hd := Poll'.tally_de hC hU hX h1
  refine ⟨_, ⟨.count u.1 bs [] v x hb hv hn, ?_, rfl, ?_, fun _ _ h => h⟩, rfl⟩
  · intro hh
    apply hnot
    have := congrArg (countedSoFar K.codecs) hh
    rw [← this]
    unfold countedSoFar
    rw [hd]
    exact hm
  · intro _ hh
    rw [hd] at hh
    cases hh

/-- if there is nothing left to do and somebody has voted, everything is published, and everybody who has voted is counted in
the aggregator's storage -/
theorem poll_stuck (P0 : Party E) {S : Poll} (hI : Poll'.Inv K S) (h : ∀ T, ¬ PollProgress K S T) (hcast : S.cast ≠ []) :
    (∃ x votes, Poll'.TallyOf K votes x ∧ S.total = some ((arkTally K.codecs).ser x)) ∧
    (∀ j < K.sks.length, S.shares j ≠ none) ∧ ∀ v ∈ S.cast, v.1 ∈ countedSoFar K.codecs S := by
  obtain ⟨hw, hX, hg⟩ := Poll'.facts hdkg
  have hcount : ∀ u ∈ S.cast, u.1 ∈ countedSoFar K.codecs S := by
    intro u hu
    by_contra hnot
    obtain ⟨T, hT, -⟩ := can_count hC hU hdkg hI hu hnot
    exact h T hT
  have htot : S.total ≠ none := by
    intro ht
    obtain ⟨u, hu⟩ := List.exists_mem_of_ne_nil _ hcast
    have hc := hcount u hu
    unfold countedSoFar at hc
    cases hst : (arkTally K.codecs).de S.store with
    | none => rw [hst] at hc; cases hc
    | some y =>
      obtain ⟨y, rest⟩ := y
      refine h _ ⟨.close y rest ht hst, ?_, rfl, fun hh => absurd rfl hh, fun _ _ h => h⟩
      intro hh
      have := congrArg Poll.total hh
      dsimp only at this
      rw [ht] at this
      cases this
  obtain ⟨bs, ht⟩ := Option.ne_none_iff_exists'.mp htot
  obtain ⟨x, votes, rfl, hx, -⟩ := hI.total bs ht
  refine ⟨⟨x, votes, hx, ht⟩, fun j hj hs => ?_, hcount⟩
  obtain ⟨n, t, hgn, hsne, hsl, hek⟩ := dkg_inv hdkg
  have hXn : K.ek.X.length = n.toNat := by rw [hek]; simp [encKey]
  obtain ⟨-, -, -, -, r, hr⟩ := id hx
  have hsx := Poll'.slices_flat K.ek (fun i => K.g_i.getD i 0) (Poll'.sums votes) r
  rw [← hr] at hsx
  have hclen : (cipher K.ek (fun i => K.g_i.getD i 0) (Poll'.sums votes) r).enc_chunks.length = n.toNat := by
    rw [← hXn]; simp [cipher]
  have hget : K.sks[j]? = some K.sks[j] := List.getElem?_eq_getElem _
  have hsk := hsl _ (List.mem_of_getElem? hget)
  have hsh := reEncryptShare_eq P0.1 P0.2 K.gens (cipher K.ek (fun i => K.g_i.getD i 0) (Poll'.sums votes) r).X_r
    (cipher K.ek (fun i => K.g_i.getD i 0) (Poll'.sums votes) r).enc_chunks K.ekd K.sks[j] (by omega)
  refine h _ ⟨.share j _ P0 _ [] x _ _ _ _ hget ht (Poll'.tally_de hC hU hX hx) hsx hsh, ?_, rfl,
    fun hh => absurd rfl hh, ?_⟩
  · intro hh
    have := congrArg (fun S : Poll => S.shares j) hh
    dsimp only at this
    rw [Function.update_self, hs] at this
    cases this
  · intro i bs hb
    have : i ≠ j := by rintro rfl; rw [hs] at hb; cases hb
    dsimp only
    rw [Function.update_of_ne this]
    exact hb

end
end Bnd

section
variable {K : PollCfg E} (hC : LawfulCodecs K.codecs) (hU : K.users < 2 ^ 64)
  {parties : List (Party E)} {b : UInt8} {D G : E.G1} (hdkg : dkg parties b K.gens K.g_i D G = .ok (K.sks, K.ek))
include hC hU hdkg

/-- **C125** (bounded, polls): whatever has happened, once nobody votes any more there are at most as many steps in which
something changes and nothing is lost as there are users and key holders, and one more. -/
theorem C125_poll_bounded (S T : Poll) (hS : PollRuns K Poll.init S) (k : ℕ) (hT : Steps (PollProgress K) k S T) :
    k ≤ K.users + 1 + K.sks.length := by
  have := (Bnd.steps_count (P := Poll'.Inv K) (fun _ _ h1 h2 => Bnd.poll_progress hC hU hdkg h1 h2)
    (Poll'.reach_inv hC hU hdkg hS) hT).2
  have h2 := Bnd.pollTodo_le K S
  omega

variable {Rd : RngCore E} {std std' : Rd.σ} {skd : SecretKey E}
  (hdest : fkeygenDest Rd std K.gens = .ok ((skd, K.ekd), std'))
include hdest

/-- **C125** (complete, polls): when there is no such step left and somebody has voted, the destination gets something, and
everybody who has voted is counted in the aggregator's storage. -/
theorem C125_poll_complete (chk : Bool) (b' : UInt8) (hb' : b'.toNat < 32) (S : Poll) (hS : PollRuns K Poll.init S)
    (hcast : S.cast ≠ []) (h : ∀ T, ¬ PollProgress K S T) :
    (∃ res done, S.outcome K chk skd b' = some res ∧ S.counted K = some done) ∧
      ∀ v ∈ S.cast, v.1 ∈ countedSoFar K.codecs S := by
  have hI := Poll'.reach_inv hC hU hdkg hS
  obtain ⟨hw, hX, hg⟩ := Poll'.facts hdkg
  obtain ⟨⟨x, votes, hx, ht⟩, hs, hc⟩ := Bnd.poll_stuck hC hU hdkg ⟨Rd, std⟩ hI h hcast
  refine ⟨⟨_, x.1, Poll'.outcome_eq hC hU hdkg hdest chk b' hb' hI hx ht hs, ?_⟩, hc⟩
  rw [Poll.counted, ht]
  simp only [Option.bind_eq_bind, Option.bind_some, Poll'.tally_de hC hU hX hx]
  rfl

/-- **C125** (everybody): if the aggregator closes the poll only when everybody who has voted is counted, then, when there is
no such step left, everybody who has voted is in the published tally. -/
theorem C125_poll_everybody (chk : Bool) (b' : UInt8) (hb' : b'.toNat < 32) (S₀ S : Poll) (hS₀ : PollRuns K Poll.init S₀)
    (ht₀ : S₀.total = none) (hcast : S₀.cast ≠ []) (k : ℕ) (hS : Steps (PatientProgress K) k S₀ S)
    (h : ∀ T, ¬ PatientProgress K S T) :
    ∃ res done, S.outcome K chk skd b' = some res ∧ S.counted K = some done ∧ ∀ v ∈ S₀.cast, v.1 ∈ done := by
  have hinv : PollRuns K Poll.init S ∧ S.cast = S₀.cast ∧
      (S.total ≠ none → ∃ done, S.counted K = some done ∧ ∀ v ∈ S₀.cast, v.1 ∈ done) := by
    clear h
    induction hS with
    | zero => exact ⟨hS₀, rfl, fun hh => absurd ht₀ hh⟩
    | succ _ hs ih =>
      obtain ⟨a1, a2, a3⟩ := ih hS₀ ht₀ hcast
      obtain ⟨⟨b1, b2, b3, b4, b5⟩, b6⟩ := hs
      refine ⟨.step a1 b1, b3.trans a2, fun hT => ?_⟩
      have hI := Poll'.reach_inv hC hU hdkg a1
      obtain ⟨hw, hX, hg⟩ := Poll'.facts hdkg
      cases b1 with
      | close x rest hn hd =>
        refine ⟨x.1, ?_, ?_⟩
        · unfold Poll.counted
          simp only [Option.bind_eq_bind, Option.bind_some, hd]
          rfl
        · have := b6 hn hT
          unfold countedSoFar at this
          rw [hd, a2] at this
          exact this
      | vote => exact a3 hT
      | count => exact a3 hT
      | torn => exact a3 hT
      | share => exact a3 hT
  obtain ⟨h1, h2, h3⟩ := hinv
  have hI := Poll'.reach_inv hC hU hdkg h1
  have hcount : ∀ v ∈ S.cast, v.1 ∈ countedSoFar K.codecs S := by
    intro u hu
    by_contra hnot
    obtain ⟨T, hT, ht⟩ := Bnd.can_count hC hU hdkg hI hu hnot
    exact h T ⟨hT, fun h4 h5 => absurd (ht.trans h4) h5⟩
  have hstuck : ∀ T, ¬ PollProgress K S T := fun T hT => h T ⟨hT, fun _ _ => hcount⟩
  obtain ⟨⟨res, done, e1, e2⟩, -⟩ := C125_poll_complete hC hU hdkg hdest chk b' hb' S h1 (by rw [h2]; exact hcast) hstuck
  have ht : S.total ≠ none := by
    intro hh
    rw [Poll.counted, hh] at e2
    cases e2
  obtain ⟨done', e3, e4⟩ := h3 ht
  exact ⟨res, done', e1, e3, e4⟩

/-- **C125** (any order, polls): if from some moment on nobody votes, nothing is lost any more and aggregator and key holders
keep going, in whatever order, then sooner or later the destination gets something, and keeps getting it. -/
theorem C125_poll_any_order (chk : Bool) (b' : UInt8) (hb' : b'.toNat < 32) (h : ℕ → Poll)
    (h0 : PollRuns K Poll.init (h 0)) (hcast : (h 0).cast ≠ []) (hk : KeepsGoing (PollProgress K) h) :
    ∃ res done, Eventually fun i => (h i).outcome K chk skd b' = some res ∧ (h i).counted K = some done := by
  have hstep : ∀ i, PollRuns K (h i) (h (i + 1)) ∧ (h (i + 1)).cast = (h i).cast := by
    intro i
    rcases hk.1 i with h1 | h1
    · exact ⟨.step (.refl _) h1.1, h1.2.2.1⟩
    · rw [h1]; exact ⟨.refl _, rfl⟩
  have hruns : ∀ i d, PollRuns K (h i) (h (i + d)) ∧ (h (i + d)).cast = (h i).cast := by
    intro i d
    induction d with
    | zero => exact ⟨.refl _, rfl⟩
    | succ d ih => exact ⟨Poll'.trans ih.1 (hstep (i + d)).1, (hstep (i + d)).2.trans ih.2⟩
  have hreach : ∀ i, PollRuns K Poll.init (h i) ∧ (h i).cast ≠ [] := fun i => by
    have := hruns 0 i
    rw [Nat.zero_add] at this
    exact ⟨Poll'.trans h0 this.1, by rw [this.2]; exact hcast⟩
  obtain ⟨m, hm⟩ := Bnd.gets_stuck (P := Poll'.Inv K) (fun _ _ h1 h2 => Bnd.poll_progress hC hU hdkg h1 h2)
    (Poll'.reach_inv hC hU hdkg h0) hk
  obtain ⟨⟨res, done, e1, e2⟩, -⟩ := C125_poll_complete hC hU hdkg hdest chk b' hb' (h m) (hreach m).1 (hreach m).2 hm
  refine ⟨res, done, m, fun i hi => ?_⟩
  have := (hruns m (i - m)).1
  rw [show m + (i - m) = i by omega] at this
  obtain ⟨a1, a2⟩ := C108_agreement hC hU hdkg hdest chk b' hb' (h m) (h i) (hreach m).1 this res e1
  exact ⟨a1, a2.trans e2⟩

end

/-! ### concrete cases -/

/-- Non-vacuity: after the history with crashes of C107, in which party 0 of two has its keys in its storage but lost its
memory, there is a step to do; and whatever steps without losses the two parties do, they are finished after at most six. -/
example (P Q : Party Fix.E) : ∃ S, SysRuns (scalarCodecs goldFr) 2 16 Fix.gens Fix.gi Fix.D Fix.C Sys.init S ∧
    (S.node 0).mem = none ∧ (∃ T, KeygenProgress (scalarCodecs goldFr) 2 16 Fix.gens Fix.gi Fix.D Fix.C S T) ∧
    ∀ k T, Steps (KeygenProgress (scalarCodecs goldFr) 2 16 Fix.gens Fix.gi Fix.D Fix.C) k S T → k ≤ 6 := by
  have hC := scalarCodecs_lawful goldFr
  have hg : (4 : UInt8).toNat ≤ Fix.gi.length := by decide +kernel
  obtain ⟨S, h1, h2, h3, h4⟩ := Rst.crashing_history hC 2 (by omega) 16 4 Fix.count Fix.gens Fix.gi hg Fix.D Fix.C P Q
  refine ⟨S, h1, h3, ?_, fun k T hT => C125_keygen_bounded hC 2 16 4 Fix.count Fix.gens Fix.gi hg Fix.D Fix.C S T h1 k hT⟩
  by_contra hno
  obtain ⟨R, sks, ek, -, -, h5, h6⟩ := C125_keygen_complete hC 2 (by omega) 16 4 Fix.count Fix.gens Fix.gi hg Fix.D Fix.C S h1
    fun T hT => hno ⟨T, hT⟩
  have h7 := h6 0 (by omega)
  rw [h3, List.getElem?_eq_getElem (by omega)] at h7
  cases h7

/-- Non-vacuity: after the poll history with a crash of C108 there is a step to do, and there are at most five. -/
example : ∃ S : Poll, PollRuns Poll'.cfg Poll.init S ∧ (arkTally Poll'.cfg.codecs).de S.store = none ∧
    (∃ T, PollProgress Poll'.cfg S T) ∧ ∀ k T, Steps (PollProgress Poll'.cfg) k S T → k ≤ 5 := by
  have hC := scalarCodecs_lawful goldFr
  obtain ⟨S, h1, h2, h3, h4⟩ := Poll'.crashing_history
  refine ⟨S, h1, h4, ?_, fun k T hT => C125_poll_bounded (K := Poll'.cfg) hC (by decide) Fix.dkg_ok S T h1 k hT⟩
  by_contra hno
  obtain ⟨-, h6⟩ := C125_poll_complete (K := Poll'.cfg) hC (by decide) Fix.dkg_ok Fix.dest_ok true 16 (by decide) S h1
    (by simp [h2]) fun T hT => hno ⟨T, hT⟩
  have h7 := h6 (1, Fix.m2) (by simp [h2])
  unfold countedSoFar at h7
  rw [h4] at h7
  cases h7

/-- Non-vacuity: after that history a patient aggregator and the key holders can go on until there is nothing left to do, and
then both users are in the published tally and the destination gets something. -/
example : ∃ (S : Poll) (k : ℕ) (T : Poll) (res : Res (List UInt16)) (done : List ℕ), PollRuns Poll'.cfg Poll.init S ∧
    Steps (PatientProgress Poll'.cfg) k S T ∧ (∀ U, ¬ PatientProgress Poll'.cfg T U) ∧
    T.outcome Poll'.cfg true Fix.skd 16 = some res ∧ T.counted Poll'.cfg = some done ∧ 0 ∈ done ∧ 1 ∈ done := by
  have hC := scalarCodecs_lawful goldFr
  obtain ⟨S, h1, h2, h3, h4⟩ := Poll'.crashing_history
  obtain ⟨k, T, hT, hno⟩ := Bnd.run_out (progress := PatientProgress Poll'.cfg) (P := Poll'.Inv Poll'.cfg)
    (fun _ _ a1 a2 => Bnd.poll_progress (K := Poll'.cfg) hC (by decide) Fix.dkg_ok a1 a2.1) S
    (Poll'.reach_inv (K := Poll'.cfg) hC (by decide) Fix.dkg_ok h1)
  obtain ⟨res, done, e1, e2, e3⟩ := C125_poll_everybody (K := Poll'.cfg) hC (by decide) Fix.dkg_ok Fix.dest_ok true 16
    (by decide) S T h1 h3 (by simp [h2]) k hT hno
  exact ⟨S, k, T, res, done, h1, hT, hno, e1, e2, e3 (0, Fix.m1) (by simp [h2]), e3 (1, Fix.m2) (by simp [h2])⟩

end Verif
