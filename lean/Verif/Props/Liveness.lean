/-
Property C113: under every fair schedule key generation and the poll finish.
-/
import Verif.SpecLive
import Verif.Props.Whole

namespace Verif
open Spec

variable {E : Engine}

namespace Liv

/-! ### histories in general -/

section
variable {α : Type*} {step act : α → α → Prop} {h : ℕ → α}

theorem stays {goal : α → Prop} {i0 : ℕ} (hst : ∀ i ≥ i0, goal (h i) → goal (h (i + 1))) {n : ℕ} (hn : i0 ≤ n)
    (hg : goal (h n)) : ∀ i ≥ n, goal (h i) := by
  intro i hi
  induction i, hi using Nat.le_induction with
  | base => exact hg
  | succ m hm ih => exact hst m (by omega) ih

theorem weak_leads (goal : α → Prop) (i0 : ℕ) (hf : WeaklyFair step act h)
    (hst : ∀ i ≥ i0, goal (h i) → goal (h (i + 1))) (hen : ∀ i ≥ i0, ¬ goal (h i) → Enabled step act (h i))
    (hact : ∀ i ≥ i0, act (h i) (h (i + 1)) → goal (h (i + 1))) : ∃ n ≥ i0, ∀ i ≥ n, goal (h i) := by
  by_contra hc
  have hno : ∀ i ≥ i0, ¬ goal (h i) := fun i hi hg => hc ⟨i, hi, stays hst hi hg⟩
  obtain ⟨k, hk, ha⟩ := hf i0 fun k hk => hen k hk (hno k hk)
  exact hno (k + 1) (by omega) (hact k hk ha)

theorem strong_leads (goal : α → Prop) (i0 : ℕ) (hf : StronglyFair step act h)
    (hst : ∀ i ≥ i0, goal (h i) → goal (h (i + 1)))
    (hen : ∀ i ≥ i0, (∀ k ≥ i, ¬ goal (h k)) → ∃ k ≥ i, Enabled step act (h k))
    (hact : ∀ i ≥ i0, act (h i) (h (i + 1)) → goal (h (i + 1))) : ∃ n ≥ i0, ∀ i ≥ n, goal (h i) := by
  by_contra hc
  have hno : ∀ i ≥ i0, ¬ goal (h i) := fun i hi hg => hc ⟨i, hi, stays hst hi hg⟩
  obtain ⟨k, hk, ha⟩ := hf i0 fun k hk => hen k hk fun l hl => hno l (by omega)
  exact hno (k + 1) (by omega) (hact k hk ha)

theorem all_of_each (N : ℕ) (i0 : ℕ) (P : ℕ → ℕ → Prop) (hP : ∀ j < N, ∃ n ≥ i0, ∀ i ≥ n, P j i) :
    ∃ n ≥ i0, ∀ i ≥ n, ∀ j < N, P j i := by
  induction N with
  | zero => exact ⟨i0, le_rfl, fun i _ j hj => absurd hj (Nat.not_lt_zero j)⟩
  | succ N ih =>
    obtain ⟨n, hn, h1⟩ := ih fun j hj => hP j (by omega)
    obtain ⟨m, hm, h2⟩ := hP N (by omega)
    refine ⟨max n m, by omega, fun i hi j hj => ?_⟩
    by_cases hjN : j = N
    · subst hjN; exact h2 i (by omega)
    · exact h1 i (by omega) j (by omega)

/-- a history that begins with finitely many steps -/
theorem prepend {S T : α} (hr : Relation.ReflTransGen step S T) {g : ℕ → α} (hg : History step g) (h0 : g 0 = T) :
    ∃ (h : ℕ → α) (m : ℕ), h 0 = S ∧ History step h ∧ ∀ i, h (m + i) = g i := by
  induction hr using Relation.ReflTransGen.head_induction_on with
  | refl => exact ⟨g, 0, h0, hg, fun i => by rw [Nat.zero_add]⟩
  | @head S S' hs _ ih =>
    obtain ⟨h, m, e0, hh, e⟩ := ih
    refine ⟨fun i => match i with | 0 => S | i + 1 => h i, m + 1, rfl, ?_, ?_⟩
    · intro i
      cases i with
      | zero => exact .inl (by dsimp only; rw [e0]; exact hs)
      | succ i => exact hh i
    · intro i
      rw [Nat.add_right_comm]
      exact e i

/-- a history through a state that ends in another one -/
theorem through {S W V : α} (h1 : Relation.ReflTransGen step S W) (h2 : Relation.ReflTransGen step W V) :
    ∃ (h : ℕ → α) (m n : ℕ), h 0 = S ∧ History step h ∧ h m = W ∧ ∀ i ≥ n, h i = V := by
  obtain ⟨g, n, a1, a2, a3⟩ := prepend h2 (g := fun _ => V) (fun i => .inr rfl) rfl
  obtain ⟨h, m, b1, b2, b3⟩ := prepend h1 a2 a1
  refine ⟨h, m, m + n, b1, b2, (b3 0).trans a1, fun i hi => ?_⟩
  have e := b3 (i - m)
  rw [Nat.add_sub_cancel' (by omega)] at e
  have e' := a3 (i - m - n)
  rw [Nat.add_sub_cancel' (by omega)] at e'
  rw [e, e']

theorem weak_of_end {n : ℕ} {V : α} (he : ∀ i ≥ n, h i = V) (hV : ¬ Enabled step act V) : WeaklyFair step act h := by
  intro i hi
  exact absurd (he (max i n) (le_max_right _ _) ▸ hi (max i n) (le_max_left _ _)) hV

theorem strong_of_end {n : ℕ} {V : α} (he : ∀ i ≥ n, h i = V) (hV : ¬ Enabled step act V) : StronglyFair step act h := by
  intro i hi
  obtain ⟨l, hl, hE⟩ := hi (max i n) (le_max_left _ _)
  exact absurd (he l (le_trans (le_max_right _ _) hl) ▸ hE) hV

end

/-! ### key generation -/

section
variable {C : Codecs E} {N : ℕ} {b n8 : UInt8} {gens : EncryptionGens E} {g_i : List E.G1} {D G : E.G1}

theorem sys_runs {h : ℕ → Sys E} (hh : History (SysStep C N b gens g_i D G) h) {i k : ℕ} (hik : i ≤ k) :
    SysRuns C N b gens g_i D G (h i) (h k) := by
  induction k, hik using Nat.le_induction with
  | base => exact .refl _
  | succ m _ ih =>
    rcases hh m with hs | hs
    · exact .step ih hs
    · rw [hs]; exact ih

theorem sys_rtg {S T : Sys E} (hr : SysRuns C N b gens g_i D G S T) :
    Relation.ReflTransGen (SysStep C N b gens g_i D G) S T := by
  induction hr with
  | refl => exact .refl
  | step _ hs ih => exact .tail ih hs

variable (hC : LawfulCodecs C) (hN : 0 < N) (hn : chunksCount E.fr b = .ok n8) (hg : n8.toNat ≤ g_i.length)
include hC hn hg

theorem can_store {S : Sys E} {j : ℕ} (hj : j < N) (hl : load C (S.node j).disk = none) :
    Enabled (SysStep C N b gens g_i D G) (Stores C j) S := by
  refine ⟨_, .generate j (⟨tape E, fun _ => 0⟩ : Party E) _ _ _ hj hl (fkeygenPartial_eq _ _ gens g_i D G hn hg), hl, ?_⟩
  simp only [Function.update_self]
  have := Rst.load_stored hC n8 (⟨tape E, fun _ => 0⟩ : Party E) gens g_i D G
  intro hh
  exact Option.some_ne_none _ (this.symm.trans hh)

omit hC hn hg in
theorem can_publish {S : Sys E} {j : ℕ} (hj : j < N) (hl : load C (S.node j).disk ≠ none) (hk : S.keys j = none) :
    Enabled (SysStep C N b gens g_i D G) (Publishes j) S := by
  obtain ⟨⟨sk, k⟩, hl⟩ := Option.ne_none_iff_exists'.mp hl
  refine ⟨_, .publish j sk k hj hl, hk, ?_⟩
  simp only [Function.update_self]
  exact Option.some_ne_none _

omit hC hn hg in
theorem can_load {S : Sys E} {j : ℕ} (hj : j < N) (hl : load C (S.node j).disk ≠ none) (hm : (S.node j).mem = none) :
    Enabled (SysStep C N b gens g_i D G) (Loads j) S := by
  obtain ⟨⟨sk, k⟩, hl⟩ := Option.ne_none_iff_exists'.mp hl
  refine ⟨_, .restart j sk k hj hl, hm, ?_⟩
  simp only [Function.update_self]
  exact Option.some_ne_none _

include hN in
theorem can_share {S : Sys E} (hS : SysRuns C N b gens g_i D G Sys.init S) {j : ℕ} (hj : j < N)
    (hk : ∀ j < N, S.keys j ≠ none) (hm : (S.node j).mem ≠ none) (hs : S.shares j = none) :
    Enabled (SysStep C N b gens g_i D G) (Shares j) S := by
  obtain ⟨Q, hI⟩ := Rst.reach_inv hC hn hg hS
  obtain ⟨e1, e2⟩ := Rst.keys_read hC hn hg hI (⟨tape E, fun _ => 0⟩ : Party E) hk
  have hmem := ((hI.made j _ (e1 j hj)).2.1).resolve_left hm
  refine ⟨_, .share j _ _ _ _ hj hmem e2 (Rst.combine_keys hN n8.toNat fun j => (Q j).getD (⟨tape E, fun _ => 0⟩ : Party E))
    (Rst.share_eq _ _ _), hs, ?_⟩
  simp only [Function.update_self]
  exact Option.some_ne_none _

/-- the first part: everybody stores and publishes its keys -/
theorem keys_published {h : ℕ → Sys E} (h0 : ∀ i, SysRuns C N b gens g_i D G Sys.init (h i))
    (hh : History (SysStep C N b gens g_i D G) h)
    (hst : ∀ j < N, WeaklyFair (SysStep C N b gens g_i D G) (Stores C j) h)
    (hpu : ∀ j < N, WeaklyFair (SysStep C N b gens g_i D G) (Publishes j) h) :
    ∃ n, ∀ i ≥ n, (∀ j < N, load C ((h i).node j).disk ≠ none) ∧ ∀ j < N, (h i).keys j ≠ none := by
  have hdur := fun i j => C107_durable hC N b n8 hn gens g_i hg D G (h i) (h (i + 1)) (h0 i) (sys_runs hh (Nat.le_succ i)) j
  obtain ⟨n1, -, h1⟩ := all_of_each N 0 (fun j i => load C ((h i).node j).disk ≠ none) fun j hj =>
    weak_leads (fun S => load C (S.node j).disk ≠ none) 0 (hst j hj) (fun i _ hl => by
      obtain ⟨x, hx⟩ := Option.ne_none_iff_exists'.mp hl
      rw [(hdur i j).1 x hx]; exact Option.some_ne_none _)
      (fun i _ hl => can_store hC hn hg hj (not_not.mp hl)) (fun i _ ha => ha.2)
  obtain ⟨n2, hn2, h2⟩ := all_of_each N n1 (fun j i => (h i).keys j ≠ none) fun j hj =>
    weak_leads (fun S => S.keys j ≠ none) n1 (hpu j hj) (fun i _ hl => by
      obtain ⟨x, hx⟩ := Option.ne_none_iff_exists'.mp hl
      rw [(hdur i j).2.1 x hx]; exact Option.some_ne_none _)
      (fun i hi hl => can_publish hj (h1 i hi j hj) (not_not.mp hl)) (fun i _ ha => ha.2)
  exact ⟨n2, fun i hi => ⟨h1 i (by omega), h2 i hi⟩⟩

include hN in
/-- the end: everybody has published everything -/
theorem final_of {h : ℕ → Sys E} (h0 : ∀ i, SysRuns C N b gens g_i D G Sys.init (h i))
    (hh : History (SysStep C N b gens g_i D G) h) {n : ℕ} (hk : ∀ j < N, (h n).keys j ≠ none)
    (hs : ∀ j < N, (h n).shares j ≠ none) : ∃ ek, ∀ i ≥ n, (h i).finalKey C N G = some (.ok ek) := by
  obtain ⟨Q, hI⟩ := Rst.reach_inv hC hn hg (h0 n)
  obtain ⟨ek, e1, -⟩ := Rst.final_eq hC hn hg hN hI (⟨tape E, fun _ => 0⟩ : Party E) hk hs
  exact ⟨ek, fun i hi => C107_agreement hC N hN b n8 hn gens g_i hg D G (h n) (h i) (h0 n) (sys_runs hh hi) _ e1⟩

include hN in
theorem keygen_leads {h : ℕ → Sys E} (h0 : ∀ i, SysRuns C N b gens g_i D G Sys.init (h i))
    (hh : History (SysStep C N b gens g_i D G) h) (hf : KeygenFair C N (SysStep C N b gens g_i D G) id h) :
    ∃ ek n, ∀ i ≥ n, (h i).finalKey C N G = some (.ok ek) := by
  obtain ⟨n1, h1⟩ := keys_published hC hn hg h0 hh hf.stores hf.publishes
  have hdur := fun i j => C107_durable hC N b n8 hn gens g_i hg D G (h i) (h (i + 1)) (h0 i) (sys_runs hh (Nat.le_succ i)) j
  obtain ⟨n2, hn2, h2⟩ := all_of_each N n1 (fun j i => (h i).shares j ≠ none) fun j hj =>
    strong_leads (fun S => S.shares j ≠ none) n1 (hf.shares j hj) (fun i _ hl => by
      obtain ⟨x, hx⟩ := Option.ne_none_iff_exists'.mp hl
      rw [(hdur i j).2.2 x hx]; exact Option.some_ne_none _)
      (fun i hi hno => by
        by_contra hc
        have hmem : ∀ k ≥ i, ((h k).node j).mem = none := by
          intro k hk
          by_contra hm
          exact hc ⟨k, hk, can_share hC hN hn hg (h0 k) hj (h1 k (by omega)).2 hm (not_not.mp (hno k hk))⟩
        obtain ⟨k, hk, ha⟩ := hf.loads j hj i fun k hk => can_load hj ((h1 k (by omega)).1 j hj) (hmem k hk)
        exact ha.2 (hmem (k + 1) (by omega))) (fun i _ ha => ha.2)
  obtain ⟨ek, e⟩ := final_of hC hN hn hg h0 hh (h1 n2 (by omega)).2 (h2 n2 le_rfl)
  exact ⟨ek, n2, e⟩

include hN in
/-- from every state: everything done and everybody's secret key in its memory -/
theorem sys_end (S : Sys E) (hS : SysRuns C N b gens g_i D G Sys.init S) : ∃ T, SysRuns C N b gens g_i D G S T ∧
    ∀ j < N, load C (T.node j).disk ≠ none ∧ T.keys j ≠ none ∧ (T.node j).mem ≠ none ∧ T.shares j ≠ none := by
  obtain ⟨T, ek, h1, h2⟩ := C107_no_deadlock hC N hN b n8 hn gens g_i hg D G S hS
  obtain ⟨h3, h4⟩ := Rst.final_inv h2
  obtain ⟨_, _, _, _, _, h5⟩ := C107_every_history hC N hN b n8 hn gens g_i hg D G T (Rst.trans hS h1) _ h2
  have key : ∀ m ≤ N, ∃ U, SysRuns C N b gens g_i D G T U ∧ (∀ j, (U.node j).disk = (T.node j).disk) ∧ U.keys = T.keys ∧
      U.shares = T.shares ∧ ∀ j < m, (U.node j).mem ≠ none := by
    intro m
    induction m with
    | zero => exact fun _ => ⟨T, .refl T, fun _ => rfl, rfl, rfl, fun j hj => absurd hj (Nat.not_lt_zero j)⟩
    | succ m ih =>
      intro hm
      obtain ⟨U, u1, u2, u3, u4, u5⟩ := ih (by omega)
      obtain ⟨sk, k, -, hl⟩ := h5 m (by omega)
      rw [← u2] at hl
      refine ⟨_, .step u1 (.restart m sk k (by omega) hl), fun j => ?_, u3, u4, fun j hj => ?_⟩
      · rw [← u2]
        dsimp only
        by_cases hjm : j = m
        · rw [hjm, Function.update_self]
        · rw [Function.update_of_ne hjm]
      · dsimp only
        by_cases hjm : j = m
        · rw [hjm, Function.update_self]
          exact Option.some_ne_none _
        · rw [Function.update_of_ne hjm]
          exact u5 j (by omega)
  obtain ⟨U, u1, u2, u3, u4, u5⟩ := key N le_rfl
  refine ⟨U, Rst.trans h1 u1, fun j hj => ⟨?_, u3 ▸ h3 j hj, u5 j hj, u4 ▸ h4 j hj⟩⟩
  obtain ⟨sk, k, -, hl⟩ := h5 j hj
  rw [u2, hl]
  exact Option.some_ne_none _

end

/-! ### the poll -/

section
variable {K : PollCfg E} {bad : ℕ → Prop}

theorem open_runs {h : ℕ → Poll} (hh : History (OpenStep K bad) h) {i k : ℕ} (hik : i ≤ k) :
    OpenRuns K bad (h i) (h k) := by
  induction k, hik using Nat.le_induction with
  | base => exact .refl _
  | succ m _ ih =>
    rcases hh m with hs | hs
    · exact .step ih hs
    · rw [hs]; exact ih

theorem open_rtg {S T : Poll} (hr : OpenRuns K bad S T) : Relation.ReflTransGen (OpenStep K bad) S T := by
  induction hr with
  | refl => exact .refl
  | step _ hs ih => exact .tail ih hs

theorem countedSoFar_of {C : Codecs E} {S : Poll} {x rest} (h : (arkTally C).de S.store = some (x, rest)) :
    countedSoFar C S = x.1 := by
  unfold countedSoFar
  rw [h]

variable (hC : LawfulCodecs K.codecs) (hU : K.users < 2 ^ 64)
  {parties : List (Party E)} {b : UInt8} {D G : E.G1}
  (hdkg : dkg parties b K.gens K.g_i D G = .ok (K.sks, K.ek))
include hC hU hdkg

theorem can_count {S : Poll} (hS : OpenRuns K bad Poll.init S) {j bs v} (hb : S.ballots j = some bs) (hv : Acceptable K bs v)
    (hj : j ∉ countedSoFar K.codecs S) : ∃ T, OpenStep K bad S T ∧ j ∈ countedSoFar K.codecs T ∧
      (arkTally K.codecs).de T.store ≠ none := by
  have hI := OPoll.reach_inv hC hU hdkg hS
  obtain ⟨hw, hX, hg⟩ := Poll'.facts hdkg
  obtain ⟨ct, hvc, htc⟩ := OPoll.ballot_read hC hX hI hb hv
  obtain ⟨x, hn, hx⟩ : ∃ x, nextTally K.codecs S.store j v = some (.ok x) ∧ j ∈ x.1 := by
    unfold nextTally
    cases hd : (arkTally K.codecs).de S.store with
    | none => exact ⟨_, rfl, by simp⟩
    | some y =>
      obtain ⟨⟨done, sum⟩, rest'⟩ := y
      rw [countedSoFar_of hd] at hj
      obtain ⟨-, cnt, a1, a2, a3, a4, a5, a6⟩ := hI.store _ _ hd
      obtain ⟨-, -, -, -, b5, -⟩ := htc
      dsimp only at a5 b5 hj ⊢
      rw [if_neg hj, addCts_eq_addInto, addInto_eq (by omega)]
      exact ⟨_, rfl, List.mem_cons_self⟩
  obtain ⟨cnt, h1⟩ := OPoll.next_inv hC hX hI hb hv hn
  have hd := OPoll.tally_de hC hU hX h1
  obtain ⟨T, hT, e⟩ : ∃ T, OpenStep K bad S T ∧ T.store = (arkTally K.codecs).ser x := ⟨_, .count j bs v x hb hv hn, rfl⟩
  rw [← e] at hd
  refine ⟨T, hT, ?_, ?_⟩
  · rw [countedSoFar_of hd]
    exact hx
  · rw [hd]
    exact Option.some_ne_none _

theorem honest_ballot {S : Poll} (hS : OpenRuns K bad Poll.init S) {v} (hv : v ∈ S.cast) :
    ∃ bs w, S.ballots v.1 = some bs ∧ Acceptable K bs w := by
  have hI := OPoll.reach_inv hC hU hdkg hS
  obtain ⟨hnb, hn⟩ := hI.cast v hv
  obtain ⟨bs, hbs⟩ := Option.ne_none_iff_exists'.mp hn
  obtain ⟨w, hw⟩ := OPoll.honest_acceptable hC hdkg hI hnb hbs
  exact ⟨bs, w, hbs, hw⟩

theorem can_start {S : Poll} (hS : OpenRuns K bad Poll.init S) (hc : S.cast ≠ [])
    (hd : (arkTally K.codecs).de S.store = none) : Enabled (OpenStep K bad) (StartsTally K.codecs) S := by
  obtain ⟨v, hv⟩ := List.exists_mem_of_ne_nil _ hc
  obtain ⟨bs, w, hb, hw⟩ := honest_ballot hC hU hdkg hS hv
  obtain ⟨T, h1, -, h2⟩ := can_count hC hU hdkg hS hb hw (by unfold countedSoFar; rw [hd]; simp)
  exact ⟨T, h1, hd, h2⟩

omit hC hU hdkg in
theorem can_close {S : Poll} (ht : S.total = none) (hd : (arkTally K.codecs).de S.store ≠ none) :
    Enabled (OpenStep K bad) Closes S := by
  obtain ⟨⟨x, rest⟩, hd⟩ := Option.ne_none_iff_exists'.mp hd
  exact ⟨_, .close x rest ht hd, ht, Option.some_ne_none _⟩

theorem can_share_tally {S : Poll} (hS : OpenRuns K bad Poll.init S) (ht : S.total ≠ none) {j : ℕ} (hj : j < K.sks.length)
    (hs : S.shares j = none) : Enabled (OpenStep K bad) (SharesTally j) S := by
  have hI := OPoll.reach_inv hC hU hdkg hS
  obtain ⟨hw, hX, hg⟩ := Poll'.facts hdkg
  obtain ⟨n, t, hgn, hsne, hsl, hek⟩ := dkg_inv hdkg
  have hXn : K.ek.X.length = n.toNat := by rw [hek]; simp [encKey]
  obtain ⟨bs, ht⟩ := Option.ne_none_iff_exists'.mp ht
  obtain ⟨x, cnt, rfl, hx⟩ := hI.total bs ht
  have hsx := OPoll.slices_of_length hx.2.2.2.2.1
  have hget : K.sks[j]? = some K.sks[j] := List.getElem?_eq_getElem _
  have hsk := hsl _ (List.mem_of_getElem? hget)
  have hsh := reEncryptShare_eq (tape E) (fun _ => 0) K.gens (x.2.getD 0 0)
    (tab K.ek.X.length fun i => x.2.getD (i + 1) 0) K.ekd K.sks[j] (by rw [length_tab]; omega)
  refine ⟨_, .share j _ (⟨tape E, fun _ => 0⟩ : Party E) _ [] x _ _ _ _ hget ht (OPoll.tally_de hC hU hX hx) hsx hsh, hs, ?_⟩
  dsimp only
  rw [Function.update_self]
  exact Option.some_ne_none _

theorem later {h : ℕ → Poll} (h0 : ∀ i, OpenRuns K bad Poll.init (h i)) (hh : History (OpenStep K bad) h) {i k : ℕ}
    (hik : i ≤ k) : OPoll.Later (h i) (h k) := by
  obtain ⟨hw, hX, hg⟩ := Poll'.facts hdkg
  exact (OPoll.runs_inv hC hU hw hX hg (OPoll.reach_inv hC hU hdkg (h0 i)) (open_runs hh hik)).2

theorem total_stays {h : ℕ → Poll} (h0 : ∀ i, OpenRuns K bad Poll.init (h i)) (hh : History (OpenStep K bad) h) {i k : ℕ}
    (hik : i ≤ k) (ht : (h i).total ≠ none) : (h k).total ≠ none := by
  obtain ⟨bs, hb⟩ := Option.ne_none_iff_exists'.mp ht
  rw [(later hC hU hdkg h0 hh hik).2.1 bs hb]
  exact Option.some_ne_none _

theorem cast_stays {h : ℕ → Poll} (h0 : ∀ i, OpenRuns K bad Poll.init (h i)) (hh : History (OpenStep K bad) h) {i k : ℕ}
    (hik : i ≤ k) (hc : (h i).cast ≠ []) : (h k).cast ≠ [] := by
  obtain ⟨v, hv⟩ := List.exists_mem_of_ne_nil _ hc
  exact List.ne_nil_of_mem ((later hC hU hdkg h0 hh hik).1.1 v hv)

/-- once the tally is published, the poll finishes -/
theorem closed_leads {Rd : RngCore E} {std std' : Rd.σ} {skd : SecretKey E}
    (hdest : fkeygenDest Rd std K.gens = .ok ((skd, K.ekd), std')) (chk : Bool) (b' : UInt8) (hb' : b'.toNat < 32)
    {h : ℕ → Poll} (h0 : ∀ i, OpenRuns K bad Poll.init (h i)) (hh : History (OpenStep K bad) h) {n : ℕ}
    (ht : (h n).total ≠ none) (hf : ∀ j < K.sks.length, WeaklyFair (OpenStep K bad) (SharesTally j) h) :
    ∃ res m, ∀ i ≥ m, (h i).outcome K chk skd b' = some res := by
  obtain ⟨n2, hn2, h2⟩ := all_of_each K.sks.length n (fun j i => (h i).shares j ≠ none) fun j hj =>
    weak_leads (fun S => S.shares j ≠ none) n (hf j hj)
      (fun i _ hl hc => hl ((later hC hU hdkg h0 hh (Nat.le_succ i)).2.2 j hc))
      (fun i hi hl => can_share_tally hC hU hdkg (h0 i) (total_stays hC hU hdkg h0 hh hi ht) hj (not_not.mp hl))
      (fun i _ ha => ha.2)
  have hI := OPoll.reach_inv hC hU hdkg (h0 n2)
  obtain ⟨bs, hbs⟩ := Option.ne_none_iff_exists'.mp (total_stays hC hU hdkg h0 hh hn2 ht)
  obtain ⟨x, cnt, rfl, hx⟩ := hI.total bs hbs
  have e := OPoll.outcome_eq hC hU hdkg hdest chk b' hb' hI hx hbs (h2 n2 le_rfl)
  exact ⟨_, n2, fun i hi => (C109_agreement hC hU hdkg hdest chk b' hb' (h n2) (h i) (h0 n2) (open_runs hh hi) _ e).1⟩

theorem poll_leads {Rd : RngCore E} {std std' : Rd.σ} {skd : SecretKey E}
    (hdest : fkeygenDest Rd std K.gens = .ok ((skd, K.ekd), std')) (chk : Bool) (b' : UInt8) (hb' : b'.toNat < 32)
    {h : ℕ → Poll} (h0 : ∀ i, OpenRuns K bad Poll.init (h i)) (hh : History (OpenStep K bad) h)
    (hf : PollFair K.codecs K.sks.length (OpenStep K bad) id h) {n : ℕ} (hc : (h n).cast ≠ []) :
    ∃ res m, ∀ i ≥ m, (h i).outcome K chk skd b' = some res := by
  obtain ⟨m, hm, h1⟩ := strong_leads (fun S => S.total ≠ none) n hf.closes
    (fun i _ ht => total_stays hC hU hdkg h0 hh (Nat.le_succ i) ht) (fun i hi hno => by
      by_contra hcc
      have hst : ∀ k ≥ i, (arkTally K.codecs).de (h k).store = none := by
        intro k hk
        by_contra hd
        exact hcc ⟨k, hk, can_close (not_not.mp (hno k hk)) hd⟩
      obtain ⟨k, hk, ha⟩ := hf.starts i fun k hk => can_start hC hU hdkg (h0 k)
        (cast_stays hC hU hdkg h0 hh (by omega) hc) (hst k hk)
      exact ha.2 (hst (k + 1) (by omega))) (fun i _ ha => ha.2)
  exact closed_leads hC hU hdkg hdest chk b' hb' h0 hh (h1 m le_rfl) hf.shares

/-- nothing the aggregator and the key holders have to do is left -/
theorem poll_end' (S : Poll) (hS : OpenRuns K bad Poll.init S) : ∃ T, OpenRuns K bad S T ∧ T.posted = S.posted ∧
    ¬ Enabled (OpenStep K bad) (StartsTally K.codecs) T ∧ ¬ Enabled (OpenStep K bad) Closes T ∧
    ∀ j < K.sks.length, ¬ Enabled (OpenStep K bad) (SharesTally j) T := by
  have hI := OPoll.reach_inv hC hU hdkg hS
  obtain ⟨hw, hX, hg⟩ := Poll'.facts hdkg
  obtain ⟨T, t1, t2, t3, t4, t5⟩ := OPoll.count_all hC hU hdkg hI K.users
  have hIT := OPoll.reach_inv hC hU hdkg (OPoll.trans hS t1)
  -- the tally is published if there is one
  obtain ⟨U, u1, u2, u3, u4⟩ : ∃ U, OpenRuns K bad T U ∧ U.store = T.store ∧ (U.ballots = T.ballots ∧ U.posted = T.posted) ∧
      ((arkTally K.codecs).de T.store ≠ none → U.total ≠ none) := by
    by_cases hd : (arkTally K.codecs).de T.store = none
    · exact ⟨T, .refl T, rfl, ⟨rfl, rfl⟩, fun h => absurd hd h⟩
    · obtain ⟨⟨x, rest⟩, hx⟩ := Option.ne_none_iff_exists'.mp hd
      by_cases ht : T.total = none
      · exact ⟨_, .step (.refl T) (.close x rest ht hx), rfl, ⟨rfl, rfl⟩, fun _ => Option.some_ne_none _⟩
      · exact ⟨T, .refl T, rfl, ⟨rfl, rfl⟩, fun _ => ht⟩
  have hSU := OPoll.trans (OPoll.trans hS t1) u1
  have hIU := OPoll.reach_inv hC hU hdkg hSU
  -- and the shares
  obtain ⟨V, v1, v2, v3, v4, v5⟩ : ∃ V, OpenRuns K bad U V ∧ V.total = U.total ∧ V.store = U.store ∧
      (V.ballots = U.ballots ∧ V.posted = U.posted) ∧ (U.total ≠ none → ∀ j < K.sks.length, V.shares j ≠ none) := by
    have key : ∀ m ≤ K.sks.length, ∃ V, OpenRuns K bad U V ∧ V.total = U.total ∧ V.store = U.store ∧
      (V.ballots = U.ballots ∧ V.posted = U.posted) ∧ (U.total ≠ none → ∀ j < m, V.shares j ≠ none) := by
      intro m
      induction m with
      | zero => exact fun _ => ⟨U, .refl U, rfl, rfl, ⟨rfl, rfl⟩, fun _ j hj => absurd hj (Nat.not_lt_zero j)⟩
      | succ m ih =>
        intro hm
        obtain ⟨V, v1, v2, v3, v4, v5⟩ := ih (by omega)
        by_cases ht : U.total = none
        · exact ⟨V, v1, v2, v3, v4, fun h => absurd ht h⟩
        by_cases hs : V.shares m = none
        · have hIV := OPoll.reach_inv hC hU hdkg (OPoll.trans hSU v1)
          obtain ⟨bs, hbs⟩ := Option.ne_none_iff_exists'.mp ht
          rw [← v2] at hbs
          obtain ⟨x, cnt, rfl, hx⟩ := hIV.total bs hbs
          obtain ⟨n, t, hgn, hsne, hsl, hek⟩ := dkg_inv hdkg
          have hXn : K.ek.X.length = n.toNat := by rw [hek]; simp [encKey]
          have hsx := OPoll.slices_of_length hx.2.2.2.2.1
          have hget : K.sks[m]? = some K.sks[m] := List.getElem?_eq_getElem _
          have hsk := hsl _ (List.mem_of_getElem? hget)
          have hsh := reEncryptShare_eq (tape E) (fun _ => 0) K.gens (x.2.getD 0 0)
            (tab K.ek.X.length fun i => x.2.getD (i + 1) 0) K.ekd K.sks[m] (by rw [length_tab]; omega)
          refine ⟨_, .step v1 (.share m _ (⟨tape E, fun _ => 0⟩ : Party E) _ [] x _ _ _ _ hget hbs
            (OPoll.tally_de hC hU hX hx) hsx hsh), v2, v3, v4, fun _ j hj => ?_⟩
          dsimp only
          by_cases hjm : j = m
          · rw [hjm, Function.update_self]
            exact Option.some_ne_none _
          · rw [Function.update_of_ne hjm]
            exact v5 ht j (by omega)
        · refine ⟨V, v1, v2, v3, v4, fun _ j hj => ?_⟩
          by_cases hjm : j = m
          · rw [hjm]; exact hs
          · exact v5 ht j (by omega)
    exact key _ le_rfl
  refine ⟨V, OPoll.trans (OPoll.trans t1 u1) v1, v4.2.trans (u3.2.trans t4.2), ?_, ?_, ?_⟩
  · rintro ⟨W, hs, hd, hd'⟩
    have hno : ∀ j bs v, V.ballots j = some bs → Acceptable K bs v → False := by
      intro j bs v hb hv
      rw [v4.1, u3.1, t2] at hb
      obtain ⟨x, rest, hx, -⟩ := t5 j (hI.ballots _ _ hb).1 bs v hb hv
      rw [v3, u2, hx] at hd
      cases hd
    cases hs with
    | count j bs v x hb hv => exact hno j bs v hb hv
    | torn j bs v x l hb hv => exact hno j bs v hb hv
    | _ => exact hd' hd
  · rintro ⟨W, hs, hd, hd'⟩
    cases hs with
    | close x rest ht hx =>
      rw [v2] at hd
      rw [v3, u2] at hx
      exact u4 (by rw [hx]; exact Option.some_ne_none _) hd
    | _ => exact hd' hd
  · rintro j hj ⟨W, hs, hd, hd'⟩
    by_cases ht : U.total = none
    · cases hs with
      | share i sk P bs rest x c_0 c sh st' h1 h2 =>
        rw [v2, ht] at h2
        cases h2
      | _ => exact hd' hd
    · exact v5 ht j hj hd

theorem poll_end (S : Poll) (hS : OpenRuns K bad Poll.init S) : ∃ T, OpenRuns K bad S T ∧
    ¬ Enabled (OpenStep K bad) (StartsTally K.codecs) T ∧ ¬ Enabled (OpenStep K bad) Closes T ∧
    ∀ j < K.sks.length, ¬ Enabled (OpenStep K bad) (SharesTally j) T := by
  obtain ⟨T, h1, -, h2⟩ := poll_end' hC hU hdkg S hS
  exact ⟨T, h1, h2⟩

end
end Liv

/-! ### C113 -/

/-- **C113** (key generation) in every history in which every party in the end does what it can do — stores its keys,
publishes its partial key, loads its secret key after a crash, and publishes its share if it can do so again and again —,
however often the parties crash, also while storing their keys, the key is computed, and it stays the same. -/
theorem C113_keygen_finishes {C : Codecs E} (hC : LawfulCodecs C) (N : ℕ) (hN : 0 < N) (b n : UInt8)
    (hn : chunksCount E.fr b = .ok n) (gens : EncryptionGens E) (g_i : List E.G1) (hg : n.toNat ≤ g_i.length) (D G : E.G1)
    (h : ℕ → Sys E) (h0 : h 0 = Sys.init) (hh : History (SysStep C N b gens g_i D G) h)
    (hf : KeygenFair C N (SysStep C N b gens g_i D G) (fun S => S) h) :
    ∃ ek, Eventually fun i => (h i).finalKey C N G = some (.ok ek) :=
  Liv.keygen_leads hC hN hn hg (fun i => h0 ▸ Liv.sys_runs hh (Nat.zero_le i)) hh hf

/-- **C113** (if the crashes stop) weak fairness is enough if every party crashes only finitely often. -/
theorem C113_keygen_finishes_if_crashes_stop {C : Codecs E} (hC : LawfulCodecs C) (N : ℕ) (hN : 0 < N) (b n : UInt8)
    (hn : chunksCount E.fr b = .ok n) (gens : EncryptionGens E) (g_i : List E.G1) (hg : n.toNat ≤ g_i.length) (D G : E.G1)
    (h : ℕ → Sys E) (h0 : h 0 = Sys.init) (hh : History (SysStep C N b gens g_i D G) h)
    (hst : ∀ j < N, WeaklyFair (SysStep C N b gens g_i D G) (Stores C j) h)
    (hpu : ∀ j < N, WeaklyFair (SysStep C N b gens g_i D G) (Publishes j) h)
    (hlo : ∀ j < N, WeaklyFair (SysStep C N b gens g_i D G) (Loads j) h)
    (hsh : ∀ j < N, WeaklyFair (SysStep C N b gens g_i D G) (Shares j) h)
    (hcr : ∀ j < N, Eventually fun i => ¬ Crashes j (h i) (h (i + 1))) :
    ∃ ek, Eventually fun i => (h i).finalKey C N G = some (.ok ek) := by
  have hr := fun i => h0 ▸ Liv.sys_runs hh (Nat.zero_le i)
  refine C113_keygen_finishes hC N hN b n hn gens g_i hg D G h h0 hh ⟨hst, hpu, hlo, fun j hj i hi => ?_⟩
  obtain ⟨n1, h1⟩ := Liv.keys_published hC hn hg hr hh hst hpu
  obtain ⟨n2, h2⟩ := hcr j hj
  obtain ⟨n3, hn3, h3⟩ := Liv.weak_leads (fun S : Sys E => (S.node j).mem ≠ none) (max i (max n1 n2)) (hlo j hj)
    (fun k hk hm hc => h2 k (by omega) ⟨hm, hc⟩)
    (fun k hk hm => Liv.can_load hj ((h1 k (by omega)).1 j hj) (not_not.mp hm)) (fun k _ ha => ha.2)
  have hdur := fun i => (C107_durable hC N b n hn gens g_i hg D G (h i) (h (i + 1)) (hr i)
    (Liv.sys_runs hh (Nat.le_succ i)) j).2.2
  by_cases hs : ∀ k ≥ n3, (h k).shares j = none
  · obtain ⟨k, hk, ha⟩ := hsh j hj n3 fun k hk => Liv.can_share hC hN hn hg (hr k) hj (h1 k (by omega)).2 (h3 k hk) (hs k hk)
    exact ⟨k, by omega, ha⟩
  · exfalso
    push Not at hs
    obtain ⟨k, hk, hs⟩ := hs
    obtain ⟨l, hl, T, -, ha, -⟩ := hi k (by omega)
    exact Liv.stays (goal := fun S : Sys E => S.shares j ≠ none) (h := h) (i0 := 0) (fun i _ hx => by
      obtain ⟨x, hx⟩ := Option.ne_none_iff_exists'.mp hx
      rw [hdur i x hx]; exact Option.some_ne_none _) (Nat.zero_le _) hs l hl ha

/-- **C113** (fair histories exist) through every reachable state of key generation: nothing that has happened prevents the
parties from doing their duty. -/
theorem C113_keygen_fair_history {C : Codecs E} (hC : LawfulCodecs C) (N : ℕ) (hN : 0 < N) (b n : UInt8)
    (hn : chunksCount E.fr b = .ok n) (gens : EncryptionGens E) (g_i : List E.G1) (hg : n.toNat ≤ g_i.length) (D G : E.G1)
    (S : Sys E) (hS : SysRuns C N b gens g_i D G Sys.init S) :
    ∃ (h : ℕ → Sys E) (m : ℕ), h 0 = Sys.init ∧ History (SysStep C N b gens g_i D G) h ∧ h m = S ∧
      KeygenFair C N (SysStep C N b gens g_i D G) (fun S => S) h ∧
      ∀ j < N, Eventually fun i => ¬ Crashes j (h i) (h (i + 1)) := by
  obtain ⟨T, h1, h2⟩ := Liv.sys_end hC hN hn hg S hS
  obtain ⟨h, m, k, e0, hh, em, ee⟩ := Liv.through (Liv.sys_rtg hS) (Liv.sys_rtg h1)
  refine ⟨h, m, e0, hh, em, ⟨fun j hj => ?_, fun j hj => ?_, fun j hj => ?_, fun j hj => ?_⟩, fun j hj => ?_⟩
  · exact Liv.weak_of_end ee fun ⟨_, _, ha⟩ => (h2 j hj).1 ha.1
  · exact Liv.weak_of_end ee fun ⟨_, _, ha⟩ => (h2 j hj).2.1 ha.1
  · exact Liv.weak_of_end ee fun ⟨_, _, ha⟩ => (h2 j hj).2.2.1 ha.1
  · exact Liv.strong_of_end ee fun ⟨_, _, ha⟩ => (h2 j hj).2.2.2 ha.1
  · refine ⟨k, fun i hi hc => hc.1 ?_⟩
    rw [ee i hi, ← ee (i + 1) (by omega)]
    exact hc.2

/-- **C113** (strong fairness is needed) a single party that crashes whenever it has loaded its secret key: everything that can
be done without interruption is done, but no key is ever computed. -/
theorem C113_strong_fairness_needed {C : Codecs E} (hC : LawfulCodecs C) (b n : UInt8)
    (hn : chunksCount E.fr b = .ok n) (gens : EncryptionGens E) (g_i : List E.G1) (hg : n.toNat ≤ g_i.length) (D G : E.G1) :
    ∃ h : ℕ → Sys E, h 0 = Sys.init ∧ History (SysStep C 1 b gens g_i D G) h ∧
      WeaklyFair (SysStep C 1 b gens g_i D G) (Stores C 0) h ∧ WeaklyFair (SysStep C 1 b gens g_i D G) (Publishes 0) h ∧
      WeaklyFair (SysStep C 1 b gens g_i D G) (Loads 0) h ∧ WeaklyFair (SysStep C 1 b gens g_i D G) (Shares 0) h ∧
      ∀ i, (h i).finalKey C 1 G = none := by
  let P : Party E := ⟨tape E, fun _ => 0⟩
  have hk := fkeygenPartial_eq P.1 P.2 gens g_i D G hn hg
  have hload := Rst.load_stored hC n P gens g_i D G
  let dk := stored C (partySK n.toNat P) (Rst.keyOf n.toNat P gens g_i D G)
  let S1 : Sys E := { (Sys.init : Sys E) with node := Function.update (Sys.init : Sys E).node 0 ⟨dk, some (partySK n.toNat P)⟩ }
  let S2 : Sys E := { S1 with keys := Function.update S1.keys 0 (some ((arkPartialKey C).ser (Rst.keyOf n.toNat P gens g_i D G))) }
  let S3 : Sys E := { S2 with node := Function.update S2.node 0 ⟨(S2.node 0).disk, none⟩ }
  have d1 : S1.node 0 = ⟨dk, some (partySK n.toNat P)⟩ := by
    dsimp only [S1]
    rw [Function.update_self]
  have d2 : S2.node 0 = ⟨dk, some (partySK n.toNat P)⟩ := d1
  have d3 : S3.node 0 = ⟨dk, none⟩ := by
    dsimp only [S3]
    rw [Function.update_self, d2]
  have t1 : SysStep C 1 b gens g_i D G Sys.init S1 := .generate 0 P _ _ _ (by omega) rfl hk
  have t2 : SysStep C 1 b gens g_i D G S1 S2 := .publish 0 (partySK n.toNat P) _ (by omega) (by rw [d1]; exact hload)
  have t3 : SysStep C 1 b gens g_i D G S2 S3 := .crash 0
  have t4 : SysStep C 1 b gens g_i D G S3 S2 := by
    have := SysStep.restart (b := b) (gens := gens) (g_i := g_i) (delta_g := D) (gamma_g := G) (C := C) (N := 1) (S := S3) 0
      (partySK n.toNat P) (Rst.keyOf n.toNat P gens g_i D G) (by omega) (by rw [d3]; exact hload)
    have e : ({ S3 with node := Function.update S3.node 0 ⟨(S3.node 0).disk, some (partySK n.toNat P)⟩ } : Sys E) = S2 := by
      have : Function.update S3.node 0 ⟨(S3.node 0).disk, some (partySK n.toNat P)⟩ = S2.node := by
        rw [d3]
        show Function.update (Function.update S2.node 0 _) 0 _ = S2.node
        rw [Function.update_idem, ← d2, Function.update_eq_self]
      rw [this]
    rwa [e] at this
  let h : ℕ → Sys E := fun i => match i with
    | 0 => Sys.init
    | 1 => S1
    | i + 2 => if i % 2 = 0 then S2 else S3
  have hE : ∀ i, h (2 * i + 2) = S2 := fun i => if_pos (by omega)
  have hO : ∀ i, h (2 * i + 3) = S3 := fun i => if_neg (by omega)
  refine ⟨h, rfl, ?_, ?_, ?_, ?_, ?_, ?_⟩
  · intro i
    left
    match i with
    | 0 => exact t1
    | 1 => exact t2
    | i + 2 =>
      by_cases hi : i % 2 = 0
      · have e1 : h (i + 2) = S2 := if_pos hi
        have e2 : h (i + 2 + 1) = S3 := if_neg (by omega)
        rw [e1, e2]; exact t3
      · have e1 : h (i + 2) = S3 := if_neg hi
        have e2 : h (i + 2 + 1) = S2 := if_pos (by omega)
        rw [e1, e2]; exact t4
  · intro i hi
    obtain ⟨T, -, ha, -⟩ := hi (2 * i + 2) (by omega)
    rw [hE, d2, hload] at ha
    cases ha
  · intro i hi
    obtain ⟨T, -, ha, -⟩ := hi (2 * i + 2) (by omega)
    rw [hE] at ha
    exact absurd ha (by dsimp only [S2]; rw [Function.update_self]; exact Option.some_ne_none _)
  · intro i _
    refine ⟨2 * i + 3, by omega, ?_⟩
    have e := hE (i + 1)
    rw [show 2 * (i + 1) + 2 = 2 * i + 3 + 1 by omega] at e
    rw [hO, e]
    exact ⟨by rw [d3], by rw [d2]; exact Option.some_ne_none _⟩
  · intro i hi
    exfalso
    obtain ⟨T, hs, ha, hb⟩ := hi (2 * i + 3) (by omega)
    rw [hO] at hs ha
    cases hs with
    | share j sk ks ek sh hj hm =>
      obtain rfl : j = 0 := by omega
      rw [d3] at hm
      cases hm
    | _ => exact hb ha
  · have hsh : ∀ i, (h i).shares 0 = none := by
      intro i
      match i with
      | 0 => rfl
      | 1 => rfl
      | i + 2 =>
        by_cases hi : i % 2 = 0
        · have e1 : h (i + 2) = S2 := if_pos hi
          rw [e1]; rfl
        · have e1 : h (i + 2) = S3 := if_neg hi
          rw [e1]; rfl
    intro i
    cases hf : (h i).finalKey C 1 G with
    | none => rfl
    | some res => exact absurd (hsh i) ((Rst.final_inv hf).2 0 (by omega))

section
variable {K : PollCfg E} {bad : ℕ → Prop} (hC : LawfulCodecs K.codecs) (hU : K.users < 2 ^ 64)
  {parties : List (Party E)} {b : UInt8} {D G : E.G1} (hdkg : dkg parties b K.gens K.g_i D G = .ok (K.sks, K.ek))
include hC hU hdkg

/-- **C113** (the poll) in every history in which an honest user votes, and in which the aggregator and the key holders in the
end do what they can do — store a tally, publish it if they can do so again and again, and publish their shares —, whatever
dishonest users put on the board and however often the aggregator loses its tally, the destination gets something, and it
stays the same. -/
theorem C113_poll_finishes {Rd : RngCore E} {std std' : Rd.σ} {skd : SecretKey E}
    (hdest : fkeygenDest Rd std K.gens = .ok ((skd, K.ekd), std')) (chk : Bool) (b' : UInt8) (hb' : b'.toNat < 32)
    (h : ℕ → Poll) (h0 : h 0 = Poll.init) (hh : History (OpenStep K bad) h)
    (hf : PollFair K.codecs K.sks.length (OpenStep K bad) (fun S => S) h) (hv : ∃ i, (h i).cast ≠ []) :
    ∃ res, Eventually fun i => (h i).outcome K chk skd b' = some res :=
  hv.elim fun _ hc => Liv.poll_leads hC hU hdkg hdest chk b' hb' (fun i => h0 ▸ Liv.open_runs hh (Nat.zero_le i)) hh hf hc

/-- **C113** (the poll, if the crashes stop) weak fairness is enough if the aggregator loses its tally only finitely often. -/
theorem C113_poll_finishes_if_crashes_stop {Rd : RngCore E} {std std' : Rd.σ} {skd : SecretKey E}
    (hdest : fkeygenDest Rd std K.gens = .ok ((skd, K.ekd), std')) (chk : Bool) (b' : UInt8) (hb' : b'.toNat < 32)
    (h : ℕ → Poll) (h0 : h 0 = Poll.init) (hh : History (OpenStep K bad) h)
    (hst : WeaklyFair (OpenStep K bad) (StartsTally K.codecs) h) (hcl : WeaklyFair (OpenStep K bad) Closes h)
    (hsh : ∀ j < K.sks.length, WeaklyFair (OpenStep K bad) (SharesTally j) h)
    (hl : Eventually fun i => ¬ LosesTally K.codecs (h i) (h (i + 1))) (hv : ∃ i, (h i).cast ≠ []) :
    ∃ res, Eventually fun i => (h i).outcome K chk skd b' = some res := by
  have hr := fun i => h0 ▸ Liv.open_runs hh (Nat.zero_le i)
  refine C113_poll_finishes hC hU hdkg hdest chk b' hb' h h0 hh ⟨hst, fun i hi => ?_, hsh⟩ hv
  obtain ⟨n1, h1⟩ := hl
  obtain ⟨l, hl, T, hs, ha, hb⟩ := hi (max i n1) (le_max_left _ _)
  have hd : (arkTally K.codecs).de (h l).store ≠ none := by
    cases hs with
    | close x rest ht hx => rw [hx]; exact Option.some_ne_none _
    | _ => exact absurd ha hb
  have hd' := Liv.stays (goal := fun S : Poll => (arkTally K.codecs).de S.store ≠ none) (h := h) (i0 := l)
    (fun k hk hx hc => h1 k (by omega) ⟨hx, hc⟩) le_rfl hd
  by_cases ht : ∀ k ≥ l, (h k).total = none
  · obtain ⟨k, hk, ha⟩ := hcl l fun k hk => Liv.can_close (ht k hk) (hd' k hk)
    exact ⟨k, by omega, ha⟩
  · push Not at ht
    obtain ⟨k, hk, ht⟩ := ht
    obtain ⟨q, hq, T, -, ha, -⟩ := hi k (by omega)
    exact absurd ha (Liv.total_stays hC hU hdkg hr hh hq ht)

/-- **C113** (every vote is counted) if the aggregator loses its tally only finitely often and in the end counts a user whom
it can count without interruption, every honest user who has voted is counted in the end. -/
theorem C113_poll_counts (h : ℕ → Poll) (h0 : h 0 = Poll.init) (hh : History (OpenStep K bad) h)
    (hl : Eventually fun i => ¬ LosesTally K.codecs (h i) (h (i + 1))) (m : ℕ) (v : ℕ × List UInt16) (hv : v ∈ (h m).cast)
    (hf : WeaklyFair (OpenStep K bad) (CountsUser K.codecs v.1) h) :
    Eventually fun i => v.1 ∈ countedSoFar K.codecs (h i) := by
  have hr := fun i => h0 ▸ Liv.open_runs hh (Nat.zero_le i)
  obtain ⟨hw, hX, hg⟩ := Poll'.facts hdkg
  obtain ⟨n1, h1⟩ := hl
  suffices hs : ∃ n ≥ max m n1, ∀ i ≥ n, v.1 ∈ countedSoFar K.codecs (h i) from hs.imp fun _ h => h.2
  refine Liv.weak_leads (fun S => v.1 ∈ countedSoFar K.codecs S) (max m n1) hf ?_ ?_ (fun i _ ha => ha.2)
  · intro i hi hmem
    rcases hh i with hs | hs
    · have hI := OPoll.reach_inv hC hU hdkg (hr i)
      have hno : ¬ LosesTally K.codecs (h i) (h (i + 1)) := h1 i (by omega)
      generalize hT : h (i + 1) = T at hs hno ⊢
      cases hd : (arkTally K.codecs).de (h i).store with
      | none => unfold countedSoFar at hmem; rw [hd] at hmem; cases hmem
      | some y =>
        obtain ⟨⟨done, sum⟩, rest⟩ := y
        rw [Liv.countedSoFar_of hd] at hmem
        have hsame : T.store = (h i).store → v.1 ∈ countedSoFar K.codecs T := by
          intro e
          rw [Liv.countedSoFar_of (e ▸ hd)]
          exact hmem
        cases hs with
        | count j bs w x hb hw hn =>
          obtain ⟨cnt, hx⟩ := OPoll.next_inv hC hX hI hb hw hn
          have hd' := OPoll.tally_de hC hU hX hx
          have e := Liv.countedSoFar_of (C := K.codecs) (S := { h i with store := (arkTally K.codecs).ser x }) hd'
          rw [e]
          rw [nextTally, hd] at hn
          dsimp only at hn
          by_cases hj : j ∈ done
          · rw [if_pos hj] at hn
            cases hn
          · rw [if_neg hj] at hn
            obtain ⟨s, -, e⟩ := Res.bind_eq_ok.mp (Option.some.inj hn)
            cases e
            exact List.mem_cons_of_mem _ hmem
        | torn j bs w x l hb hw hn hl =>
          obtain ⟨cnt, hx⟩ := OPoll.next_inv hC hX hI hb hw hn
          refine absurd ⟨by rw [hd]; exact Option.some_ne_none _, ?_⟩ hno
          exact (Poll'.tally_faithful hC).2.1 x (OPoll.tally_fits hU hX hx) l hl
        | _ => exact hsame rfl
    · rw [hs]; exact hmem
  · intro i hi hmem
    obtain ⟨bs, w, hb, hw⟩ := Liv.honest_ballot hC hU hdkg (hr i)
      ((Liv.later hC hU hdkg hr hh (show m ≤ i by omega)).1.1 v hv)
    obtain ⟨T, a1, a2, -⟩ := Liv.can_count hC hU hdkg (hr i) hb hw hmem
    exact ⟨T, a1, hmem, a2⟩

/-- **C113** (fair histories of the poll exist) through every reachable state of it. -/
theorem C113_poll_fair_history (S : Poll) (hS : OpenRuns K bad Poll.init S) :
    ∃ (h : ℕ → Poll) (m : ℕ), h 0 = Poll.init ∧ History (OpenStep K bad) h ∧ h m = S ∧
      PollFair K.codecs K.sks.length (OpenStep K bad) (fun S => S) h := by
  obtain ⟨T, h1, h2, h3, h4⟩ := Liv.poll_end hC hU hdkg S hS
  obtain ⟨h, m, k, e0, hh, em, ee⟩ := Liv.through (Liv.open_rtg hS) (Liv.open_rtg h1)
  exact ⟨h, m, e0, hh, em, Liv.weak_of_end ee h2, Liv.strong_of_end ee h3, fun j hj => Liv.weak_of_end ee (h4 j hj)⟩

end

namespace Liv
section
variable {A : Public E} {bad : ℕ → Prop}

theorem whole_runs {h : ℕ → Whole E} (hh : History (WholeStep A bad) h) {i k : ℕ} (hik : i ≤ k) :
    WholeRuns A bad (h i) (h k) := by
  induction k, hik using Nat.le_induction with
  | base => exact .refl _
  | succ m _ ih =>
    rcases hh m with hs | hs
    · exact .step ih hs
    · rw [hs]; exact ih

theorem whole_rtg {S T : Whole E} (hr : WholeRuns A bad S T) : Relation.ReflTransGen (WholeStep A bad) S T := by
  induction hr with
  | refl => exact .refl
  | step _ hs ih => exact .tail ih hs

theorem sys_history {h : ℕ → Whole E} (hh : History (WholeStep A bad) h) :
    History (SysStep A.codecs A.holders A.b A.gens A.g_i A.delta_g A.gamma_g) fun i => (h i).sys := by
  intro i
  dsimp only
  rcases hh i with hs | hs
  · generalize h (i + 1) = T at hs ⊢
    cases hs with
    | keygen S hs => exact .inl hs
    | poll => exact .inr rfl
  · rw [hs]; exact .inr rfl

theorem enabled_sys {act : Sys E → Sys E → Prop} {W : Whole E}
    (he : Enabled (SysStep A.codecs A.holders A.b A.gens A.g_i A.delta_g A.gamma_g) act W.sys) :
    Enabled (WholeStep A bad) (fun S T => act S.sys T.sys) W := by
  obtain ⟨T, h1, h2⟩ := he
  exact ⟨_, .keygen T h1, h2⟩

theorem sys_fair {h : ℕ → Whole E} (hf : KeygenFair A.codecs A.holders (WholeStep A bad) Whole.sys h) :
    KeygenFair A.codecs A.holders (SysStep A.codecs A.holders A.b A.gens A.g_i A.delta_g A.gamma_g) id
      fun i => (h i).sys :=
  ⟨fun j hj i hi => hf.stores j hj i fun k hk => enabled_sys (hi k hk),
    fun j hj i hi => hf.publishes j hj i fun k hk => enabled_sys (hi k hk),
    fun j hj i hi => hf.loads j hj i fun k hk => enabled_sys (hi k hk),
    fun j hj i hi => hf.shares j hj i fun k hk => (hi k hk).imp fun _ h => ⟨h.1, enabled_sys h.2⟩⟩

theorem enabled_poll {act : Poll → Poll → Prop} {W : Whole E} {K} (hK : W.cfg A = some K)
    (he : Enabled (OpenStep K bad) act W.poll) : Enabled (WholeStep A bad) (fun S T => act S.poll T.poll) W := by
  obtain ⟨T, h1, h2⟩ := he
  exact ⟨_, .poll K T hK h1, h2⟩

theorem poll_fair {h : ℕ → Whole E} {holders : ℕ} (hf : PollFair A.codecs holders (WholeStep A bad) Whole.poll h) {K} {n : ℕ}
    (hK : ∀ i ≥ n, (h i).cfg A = some K) :
    PollFair A.codecs holders (OpenStep K bad) id fun i => (h (n + i)).poll := by
  refine ⟨fun i hi => ?_, fun i hi => ?_, fun j hj i hi => ?_⟩
  · obtain ⟨k, hk, ha⟩ := hf.starts (n + i) fun k hk => by
      have := hi (k - n) (by omega)
      rw [Nat.add_sub_cancel' (by omega)] at this
      exact enabled_poll (hK k (by omega)) this
    refine ⟨k - n, by omega, ?_⟩
    rw [← Nat.add_assoc, Nat.add_sub_cancel' (by omega)]
    exact ha
  · obtain ⟨k, hk, ha⟩ := hf.closes (n + i) fun k hk => by
      obtain ⟨l, hl, he⟩ := hi (k - n) (by omega)
      exact ⟨n + l, by omega, enabled_poll (hK _ (by omega)) he⟩
    refine ⟨k - n, by omega, ?_⟩
    rw [← Nat.add_assoc, Nat.add_sub_cancel' (by omega)]
    exact ha
  · obtain ⟨k, hk, ha⟩ := hf.shares j hj (n + i) fun k hk => by
      have := hi (k - n) (by omega)
      rw [Nat.add_sub_cancel' (by omega)] at this
      exact enabled_poll (hK k (by omega)) this
    refine ⟨k - n, by omega, ?_⟩
    rw [← Nat.add_assoc, Nat.add_sub_cancel' (by omega)]
    exact ha

theorem poll_history {h : ℕ → Whole E} (hh : History (WholeStep A bad) h) {K} {n : ℕ}
    (hK : ∀ i ≥ n, (h i).cfg A = some K) : History (OpenStep K bad) fun i => (h (n + i)).poll := by
  intro i
  dsimp only
  rw [← Nat.add_assoc]
  have hk := hK (n + i) (by omega)
  rcases hh (n + i) with hs | hs
  · generalize h (n + i + 1) = T at hs ⊢
    cases hs with
    | keygen => exact .inr rfl
    | poll K' S hK' hs =>
      rw [hk] at hK'
      cases hK'
      exact .inl hs
  · rw [hs]; exact .inr rfl

end
end Liv

section
variable {A : Public E} {bad : ℕ → Prop} (hC : LawfulCodecs A.codecs) (hN : 0 < A.holders) (hU : A.users < 2 ^ 64) {n : UInt8}
  (hn : chunksCount E.fr A.b = .ok n) (hg : n.toNat ≤ A.g_i.length)
include hC hN hU hn hg

/-- **C113** (everything together) in every history of key generation and poll in which the key holders and the aggregator in
the end do what they can do: the key is computed, and stays the same; and if an honest user votes, the destination gets
something, and it stays the same — whatever dishonest users put on the board and however often the key holders and the
aggregator crash. -/
theorem C113_whole_finishes {Rd : RngCore E} {std std' : Rd.σ} {skd : SecretKey E}
    (hdest : fkeygenDest Rd std A.gens = .ok ((skd, A.ekd), std')) (chk : Bool) (b' : UInt8) (hb' : b'.toNat < 32)
    (h : ℕ → Whole E) (h0 : h 0 = Whole.init) (hh : History (WholeStep A bad) h)
    (hk : KeygenFair A.codecs A.holders (WholeStep A bad) Whole.sys h)
    (hp : PollFair A.codecs A.holders (WholeStep A bad) Whole.poll h) :
    (∃ ek, Eventually fun i => (h i).sys.finalKey A.codecs A.holders A.gamma_g = some (.ok ek)) ∧
    ((∃ i, (h i).poll.cast ≠ []) → ∃ res, Eventually fun i => (h i).outcome A chk skd b' = some res) := by
  have hr := fun i => h0 ▸ Liv.whole_runs hh (Nat.zero_le i)
  have hre := fun i => Whl.reach hC hN hn hg (hr i)
  obtain ⟨ek, m, hek⟩ := Liv.keygen_leads hC hN hn hg (fun i => (hre i).1) (Liv.sys_history hh) (Liv.sys_fair hk)
  refine ⟨⟨ek, m, hek⟩, fun ⟨q, hq⟩ => ?_⟩
  obtain ⟨R, sks, ek', e, a2, -, hK⟩ := Whl.cfg_of_final hC hN hn hg (hre m).1 (hek m le_rfl) (h m).poll
  cases e
  have hsl : sks.length = A.holders := by
    rw [dkg_eq _ (by simp; omega) A.gens A.g_i A.delta_g A.gamma_g hn hg] at a2
    rw [← (Prod.mk.inj (Res.ok.inj a2)).1]
    simp
  have hKs : ∀ i ≥ m, (h i).cfg A = some ⟨A.codecs, A.users, ek, A.g_i, A.gens, A.ekd, sks⟩ := fun i hi =>
    Whl.cfg_later hC hN hn hg (hre m).1 (Liv.sys_runs (Liv.sys_history hh) hi) (P := (h m).poll) (Q := (h i).poll) hK
  have hph := Liv.poll_history hh hKs
  have hpf := Liv.poll_fair hp hKs
  rw [← hsl] at hpf
  have hcast : (h (m + q)).poll.cast ≠ [] := by
    obtain ⟨v, hv⟩ := List.exists_mem_of_ne_nil _ hq
    obtain ⟨-, h4⟩ := Whl.runs_split hC hN hn hg (hre q).1 (Liv.whole_runs hh (show q ≤ m + q by omega))
    rcases h4 with h4 | ⟨K', hK', h4⟩
    · rw [h4]; exact hq
    · have hdk : dkg ((List.range A.holders).map R) A.b A.gens A.g_i A.delta_g A.gamma_g = .ok (sks, ek) := a2
      rw [hKs _ (by omega)] at hK'
      cases hK'
      have hmem : ∀ {S T : Poll}, OpenRuns ⟨A.codecs, A.users, ek, A.g_i, A.gens, A.ekd, sks⟩ bad S T → S.cast ≠ [] →
          T.cast ≠ [] := by
        intro S T hST hS
        induction hST with
        | refl => exact hS
        | step _ hs ih =>
          cases hs with
          | vote => exact List.cons_ne_nil _ _
          | _ => exact ih
      exact hmem h4 hq
  obtain ⟨res, l, hl⟩ := Liv.poll_leads (K := ⟨A.codecs, A.users, ek, A.g_i, A.gens, A.ekd, sks⟩) (bad := bad) hC hU a2 hdest
    chk b' hb' (h := fun i => (h (m + i)).poll) (fun i => (hre (m + i)).2 _ (hKs _ (by omega))) hph hpf (n := q) hcast
  refine ⟨res, m + l, fun i hi => ?_⟩
  have e := hl (i - m) (by omega)
  rw [Nat.add_sub_cancel' (by omega)] at e
  show (do
    let K ← (h i).cfg A
    (h i).poll.outcome K chk skd b') = some res
  rw [hKs i (by omega)]
  exact e

/-- **C113** (fair histories of everything together exist) through every reachable state. -/
theorem C113_whole_fair_history (W : Whole E) (hW : WholeRuns A bad Whole.init W) :
    ∃ (h : ℕ → Whole E) (m : ℕ), h 0 = Whole.init ∧ History (WholeStep A bad) h ∧ h m = W ∧
      KeygenFair A.codecs A.holders (WholeStep A bad) Whole.sys h ∧
      PollFair A.codecs A.holders (WholeStep A bad) Whole.poll h := by
  have hre := Whl.reach hC hN hn hg hW
  obtain ⟨S, s1, s2⟩ := Liv.sys_end hC hN hn hg W.sys hre.1
  have hW1 : WholeRuns A bad W ⟨S, W.poll⟩ := Whl.lift_sys s1
  have hre1 := Whl.reach hC hN hn hg (Whl.trans hW hW1)
  obtain ⟨Q, hI⟩ := Rst.reach_inv hC hn hg hre1.1
  obtain ⟨ek, hf, -⟩ := Rst.final_eq hC hn hg hN hI (⟨tape E, fun _ => 0⟩ : Party E) (fun j hj => (s2 j hj).2.1)
    (fun j hj => (s2 j hj).2.2.2)
  obtain ⟨R, sks, ek', e, a2, -, hK⟩ := Whl.cfg_of_final hC hN hn hg hre1.1 hf W.poll
  cases e
  have hsl : sks.length = A.holders := by
    rw [dkg_eq _ (by simp; omega) A.gens A.g_i A.delta_g A.gamma_g hn hg] at a2
    rw [← (Prod.mk.inj (Res.ok.inj a2)).1]
    simp
  have hKs : ∀ P, Whole.cfg A ⟨S, P⟩ = some ⟨A.codecs, A.users, ek, A.g_i, A.gens, A.ekd, sks⟩ := fun P => hK
  obtain ⟨T, t1, t2, t3, t4⟩ := Liv.poll_end (K := ⟨A.codecs, A.users, ek, A.g_i, A.gens, A.ekd, sks⟩) (bad := bad) hC hU a2 W.poll
    (hre1.2 _ (hKs _))
  obtain ⟨h, m, k, e0, hh, em, ee⟩ := Liv.through (Liv.whole_rtg hW) (Liv.whole_rtg (Whl.trans hW1 (Whl.lift_poll hKs t1)))
  have down : ∀ {act : Poll → Poll → Prop}, (∀ S, ¬ act S S) →
      ¬ Enabled (OpenStep ⟨A.codecs, A.users, ek, A.g_i, A.gens, A.ekd, sks⟩ bad) act T →
      ¬ Enabled (WholeStep A bad) (fun S T => act S.poll T.poll) ⟨S, T⟩ := by
    rintro act hirr hno ⟨V, hs, ha⟩
    cases hs with
    | keygen => exact hirr _ ha
    | poll K' U hK' hs =>
      rw [hKs] at hK'
      cases hK'
      exact hno ⟨U, hs, ha⟩
  refine ⟨h, m, e0, hh, em, ⟨fun j hj => ?_, fun j hj => ?_, fun j hj => ?_, fun j hj => ?_⟩, ?_, ?_, fun j hj => ?_⟩
  · exact Liv.weak_of_end ee fun ⟨_, _, ha⟩ => (s2 j hj).1 ha.1
  · exact Liv.weak_of_end ee fun ⟨_, _, ha⟩ => (s2 j hj).2.1 ha.1
  · exact Liv.weak_of_end ee fun ⟨_, _, ha⟩ => (s2 j hj).2.2.1 ha.1
  · exact Liv.strong_of_end ee fun ⟨_, _, ha⟩ => (s2 j hj).2.2.2 ha.1
  · exact Liv.weak_of_end ee (down (fun S hS => hS.2 hS.1) t2)
  · exact Liv.strong_of_end ee (down (fun S hS => hS.2 hS.1) t3)
  · exact Liv.weak_of_end ee (down (fun S hS => hS.2 hS.1) (t4 j (hj.trans_eq hsl.symm)))

end

/-- Non-vacuity, and crashes: a fair history of key generation by two parties in which party 0 crashes while storing what it
generated from `P`, generates again from `Q`, publishes that key and crashes; the key is computed in the end. -/
example (P Q : Party Fix.E) :
    ∃ (h : ℕ → Sys Fix.E) (m : ℕ) (ek : EncryptionKey Fix.E), h 0 = Sys.init ∧
      History (SysStep (scalarCodecs goldFr) 2 16 Fix.gens Fix.gi Fix.D Fix.C) h ∧
      load (scalarCodecs goldFr) ((h m).node 0).disk =
        some (partySK (4 : UInt8).toNat Q, Rst.keyOf (4 : UInt8).toNat Q Fix.gens Fix.gi Fix.D Fix.C) ∧
      ((h m).node 0).mem = none ∧
      KeygenFair (scalarCodecs goldFr) 2 (SysStep (scalarCodecs goldFr) 2 16 Fix.gens Fix.gi Fix.D Fix.C) (fun S => S) h ∧
      Eventually fun i => (h i).finalKey (scalarCodecs goldFr) 2 Fix.C = some (.ok ek) := by
  have hC := scalarCodecs_lawful goldFr
  have hg : (4 : UInt8).toNat ≤ Fix.gi.length := by decide +kernel
  obtain ⟨S, h1, h2, h3, h4⟩ := Rst.crashing_history hC 2 (by omega) 16 4 Fix.count Fix.gens Fix.gi hg Fix.D Fix.C P Q
  obtain ⟨h, m, a1, a2, a3, a4, -⟩ := C113_keygen_fair_history hC 2 (by omega) 16 4 Fix.count Fix.gens Fix.gi hg Fix.D Fix.C S h1
  obtain ⟨ek, e⟩ := C113_keygen_finishes hC 2 (by omega) 16 4 Fix.count Fix.gens Fix.gi hg Fix.D Fix.C h a1 a2 a4
  exact ⟨h, m, ek, a1, a2, by rw [a3]; exact h2, by rw [a3]; exact h3, a4, e⟩

/-- Non-vacuity, for everything together: a fair history in which key holder 0 crashes as above and user 0 then votes; the
destination gets something in the end. -/
example (P Q : Party Fix.E) :
    let A : Public Fix.E := ⟨scalarCodecs goldFr, 2, 2, 16, Fix.gens, Fix.gi, Fix.D, Fix.C, Fix.ekd⟩
    ∃ (h : ℕ → Whole Fix.E) (m : ℕ) (res : Res (List UInt16)), h 0 = Whole.init ∧ History (WholeStep A (· = 1)) h ∧
      (h m).poll.cast = [(0, Fix.m1)] ∧ KeygenFair A.codecs A.holders (WholeStep A (· = 1)) Whole.sys h ∧
      PollFair A.codecs A.holders (WholeStep A (· = 1)) Whole.poll h ∧
      Eventually fun i => (h i).outcome A true Fix.skd 16 = some res := by
  intro A
  have hC : LawfulCodecs A.codecs := scalarCodecs_lawful goldFr
  have hg : (4 : UInt8).toNat ≤ A.g_i.length := by decide +kernel
  obtain ⟨S, h1, h2, h3, h4⟩ := Rst.crashing_history hC 2 (by omega) 16 4 Fix.count Fix.gens Fix.gi hg Fix.D Fix.C P Q
  have hW : WholeRuns A (· = 1) Whole.init ⟨S, Poll.init⟩ := Whl.lift_sys h1
  obtain ⟨V, res, done, a1, a2, -⟩ := C110_no_deadlock (A := A) hC (by decide) (by decide) Fix.count hg Fix.dest_ok
    true 16 (by decide) ⟨S, Poll.init⟩ hW 0 (by decide) (by decide) Fix.m1 rfl
  obtain ⟨h, m, b1, b2, b3, b4, b5⟩ := C113_whole_fair_history (A := A) hC (by decide) (by decide) Fix.count hg V (Whl.trans hW a1)
  obtain ⟨-, e⟩ := C113_whole_finishes (A := A) hC (by decide) (by decide) Fix.count hg Fix.dest_ok true 16 (by decide) h b1 b2 b4 b5
  have hc : (h m).poll.cast = [(0, Fix.m1)] := by rw [b3]; exact a2
  obtain ⟨res, e⟩ := e ⟨m, by rw [hc]; exact List.cons_ne_nil _ _⟩
  exact ⟨h, m, res, b1, b2, hc, b4, b5, e⟩

/-- Non-vacuity, for the poll: user 0 votes, user 1 is dishonest; in a fair history through that state the destination gets
something in the end; and there is one in which nothing is lost after a while and user 0 stays counted. -/
example : (∃ (h : ℕ → Poll) (m : ℕ) (res : Res (List UInt16)), h 0 = Poll.init ∧ History (OpenStep Poll'.cfg (· = 1)) h ∧
      (h m).cast = [(0, Fix.m1)] ∧ PollFair Poll'.cfg.codecs Poll'.cfg.sks.length (OpenStep Poll'.cfg (· = 1)) (fun S => S) h ∧
      Eventually fun i => (h i).outcome Poll'.cfg true Fix.skd 16 = some res) ∧
    ∃ (h : ℕ → Poll) (m : ℕ), h 0 = Poll.init ∧ History (OpenStep Poll'.cfg (· = 1)) h ∧ (h m).cast = [(0, Fix.m1)] ∧
      (Eventually fun i => ¬ LosesTally Poll'.cfg.codecs (h i) (h (i + 1))) ∧
      WeaklyFair (OpenStep Poll'.cfg (· = 1)) (CountsUser Poll'.cfg.codecs 0) h ∧
      Eventually fun i => 0 ∈ countedSoFar Poll'.cfg.codecs (h i) := by
  have hC := scalarCodecs_lawful goldFr
  obtain ⟨hw, hX, hg⟩ := Poll'.facts (K := Poll'.cfg) Fix.dkg_ok
  have hm1 : Fix.m1.length = Fix.dek.X.length := by decide +kernel
  have he1 := encryptDecomposed_ok (listRng Fix.E) Fix.st1 Fix.m1 Fix.dek Fix.gi hw hX hm1 hg
  have r1 := OpenRuns.step (.refl Poll.init) (OpenStep.vote (K := Poll'.cfg) (bad := (· = 1)) 0 ⟨listRng Fix.E, Fix.st1⟩ Fix.m1
    _ _ _ (by decide) (by decide) he1)
  obtain ⟨S, r1, hcast⟩ : ∃ S, OpenRuns Poll'.cfg (· = 1) Poll.init S ∧ S.cast = [(0, Fix.m1)] := ⟨_, r1, rfl⟩
  constructor
  · obtain ⟨h, m, b1, b2, b3, b4⟩ := C113_poll_fair_history (K := Poll'.cfg) hC (by decide) Fix.dkg_ok S r1
    have hc : (h m).cast = [(0, Fix.m1)] := by rw [b3]; exact hcast
    obtain ⟨res, e⟩ := C113_poll_finishes (K := Poll'.cfg) hC (by decide) Fix.dkg_ok Fix.dest_ok true 16 (by decide) h b1 b2 b4
      ⟨m, by rw [hc]; exact List.cons_ne_nil _ _⟩
    exact ⟨h, m, res, b1, b2, hc, b4, e⟩
  · have hv : ((0, Fix.m1) : ℕ × List UInt16) ∈ S.cast := by rw [hcast]; exact List.mem_singleton.mpr rfl
    obtain ⟨bs, w, hb, hw⟩ := Liv.honest_ballot (K := Poll'.cfg) hC (by decide) Fix.dkg_ok r1 hv
    have hI := OPoll.reach_inv (K := Poll'.cfg) hC (by decide) Fix.dkg_ok r1
    obtain ⟨T, t1, -, -, -, t5⟩ := OPoll.count_all (K := Poll'.cfg) hC (by decide) Fix.dkg_ok hI 2
    obtain ⟨x, rest, hx, h0⟩ := t5 0 (by omega) bs w hb hw
    obtain ⟨h, m, k, e0, hh, em, ee⟩ := Liv.through (Liv.open_rtg r1) (Liv.open_rtg t1)
    have hl : Eventually fun i => ¬ LosesTally Poll'.cfg.codecs (h i) (h (i + 1)) :=
      ⟨k, fun i hi hc => hc.1 (by rw [ee i hi, ← ee (i + 1) (by omega)]; exact hc.2)⟩
    have hf : WeaklyFair (OpenStep Poll'.cfg (· = 1)) (CountsUser Poll'.cfg.codecs 0) h :=
      Liv.weak_of_end ee fun ⟨_, _, ha⟩ => ha.1 (by rw [Liv.countedSoFar_of hx]; exact h0)
    exact ⟨h, m, e0, hh, em ▸ hcast, hl, hf, C113_poll_counts (K := Poll'.cfg) hC (by decide) Fix.dkg_ok h e0 hh hl m
      (0, Fix.m1) (em ▸ hv) hf⟩

end Verif
