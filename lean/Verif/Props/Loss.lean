/-
Property C123: distributed key generation when storage is lost.
-/
import Verif.Model.Loss
import Verif.Props.Restart

namespace Verif
open Spec

variable {E : Engine}

namespace Los
open Rst

/-- what holds in all states that careful parties reach; `Q j` is the randomness behind the key published by party `j` -/
structure Inv (C : Codecs E) (N : ℕ) (n8 : UInt8) (gens : EncryptionGens E) (g_i : List E.G1) (D G : E.G1) (S : Sys E)
    (Q : ℕ → Option (Party E)) : Prop where
  draft : ∀ j, Q j = none → S.keys j = none ∧ S.shares j = none ∧ (load C (S.node j).disk = none ∨
    ∃ P, (S.node j).disk = stored C (partySK n8.toNat P) (keyOf n8.toNat P gens g_i D G) ∧
      ((S.node j).mem = none ∨ (S.node j).mem = some (partySK n8.toNat P)))
  made : ∀ j P, Q j = some P → S.keys j = some ((arkPartialKey C).ser (keyOf n8.toNat P gens g_i D G)) ∧
    (load C (S.node j).disk = none ∨ (S.node j).disk = stored C (partySK n8.toNat P) (keyOf n8.toNat P gens g_i D G)) ∧
    ((S.node j).mem = none ∨ (S.node j).mem = some (partySK n8.toNat P))
  shares : ∀ j P bs, Q j = some P → S.shares j = some bs → ∃ ks ek sh, readAll (arkPartialKey C) S.keys N = some ks ∧
    combineEKs G ks = .ok ek ∧ genP1share ek (partySK n8.toNat P) = .ok sh ∧ bs = (arkP1share C).ser sh

section
variable {C : Codecs E} (hC : LawfulCodecs C)
variable {early : Prop} {N : ℕ} {b n8 : UInt8} {gens : EncryptionGens E} {g_i : List E.G1} {D G : E.G1}
  (hn : chunksCount E.fr b = .ok n8) (hg : n8.toNat ≤ g_i.length)

/-- the state in which everybody has got back what it needs -/
def repaired (C : Codecs E) (n8 : UInt8) (gens : EncryptionGens E) (g_i : List E.G1) (D G : E.G1) (S : Sys E)
    (Q : ℕ → Option (Party E)) : Sys E :=
  { S with node := fun j => match Q j with
    | none => ⟨[], none⟩
    | some P => ⟨stored C (partySK n8.toNat P) (keyOf n8.toNat P gens g_i D G), none⟩ }

theorem repaired_inv {S : Sys E} {Q : ℕ → Option (Party E)} (h : Inv C N n8 gens g_i D G S Q) :
    Rst.Inv C N n8 gens g_i D G (repaired C n8 gens g_i D G S Q) Q := by
  refine ⟨fun j hj => ?_, fun j P hj => ?_, fun j P bs hj hs => h.shares j P bs hj hs⟩
  · simp only [repaired, hj]
    exact ⟨rfl, trivial, (h.draft j hj).1, (h.draft j hj).2.1⟩
  · simp only [repaired, hj]
    exact ⟨trivial, .inl trivial, .inr (h.made j P hj).1⟩

theorem init_inv : Inv C N n8 gens g_i D G (Sys.init : Sys E) (fun _ => none) :=
  ⟨fun j _ => ⟨rfl, rfl, .inl rfl⟩, fun j P h => (by cases h), fun j P bs h => (by cases h)⟩

include hC hn hg in
theorem step_inv {S T : Sys E} {Q : ℕ → Option (Party E)} (hI : Inv C N n8 gens g_i D G S Q)
    (h : LossStep early True C N b gens g_i D G S T) :
    (∃ Q', Inv C N n8 gens g_i D G T Q' ∧ ∀ j P, Q j = some P → Q' j = some P) ∧
    (∀ j, S.keys j ≠ none → T.keys j = S.keys j) ∧ (∀ j, T.shares j = none → S.shares j = none) := by
  have hQnone : ∀ j, S.keys j = none → Q j = none := by
    intro j hj
    cases hQ : Q j with
    | none => rfl
    | some P => rw [(hI.made j P hQ).1] at hj; cases hj
  -- a step that touches only the machine of party `j`
  have local_ : ∀ (j : ℕ) (nd : Node E),
      (Q j = none → load C nd.disk = none ∨
        ∃ P, nd.disk = stored C (partySK n8.toNat P) (keyOf n8.toNat P gens g_i D G) ∧
          (nd.mem = none ∨ nd.mem = some (partySK n8.toNat P))) →
      (∀ P, Q j = some P → (load C nd.disk = none ∨
          nd.disk = stored C (partySK n8.toNat P) (keyOf n8.toNat P gens g_i D G)) ∧
        (nd.mem = none ∨ nd.mem = some (partySK n8.toNat P))) →
      (∃ Q', Inv C N n8 gens g_i D G { S with node := Function.update S.node j nd } Q' ∧ ∀ j P, Q j = some P → Q' j = some P) ∧
      (∀ i, S.keys i ≠ none → S.keys i = S.keys i) ∧ (∀ i, S.shares i = none → S.shares i = none) := by
    intro j nd h1 h2
    refine ⟨⟨Q, ⟨?_, ?_, hI.shares⟩, fun _ _ h => h⟩, fun _ _ => rfl, fun _ h => h⟩
    · intro i hi
      by_cases hij : i = j
      · subst hij
        simp only [Function.update_self]
        exact ⟨(hI.draft i hi).1, (hI.draft i hi).2.1, h1 hi⟩
      · simp only [Function.update_of_ne hij]
        exact hI.draft i hi
    · intro i P hi
      by_cases hij : i = j
      · subst hij
        simp only [Function.update_self]
        exact ⟨(hI.made i P hi).1, h2 P hi⟩
      · simp only [Function.update_of_ne hij]
        exact hI.made i P hi
  cases h with
  | lose j bs hbs _ =>
    refine local_ j _ (fun _ => .inl hbs) fun P hP => ⟨.inl hbs, (hI.made j P hP).2.2⟩
  | step T hs hcare =>
    have hcare := hcare trivial
    cases hs with
    | generate j P sk k st' hj hd hk =>
      obtain ⟨rfl, rfl⟩ := gen_inv hC hn hg hk
      refine local_ j _ (fun _ => .inr ⟨P, rfl, .inr rfl⟩) fun P' hP' => ?_
      have := hcare j (by
        dsimp only
        rw [Function.update_self]
        intro he
        dsimp only at he
        rw [← he, load_stored hC] at hd
        cases hd)
      rw [hQnone j this] at hP'
      cases hP'
    | torn j P sk k st' l hj hd hk hl =>
      obtain ⟨rfl, rfl⟩ := gen_inv hC hn hg hk
      have ht := load_torn hC n8 P gens g_i D G l hl
      exact local_ j _ (fun _ => .inl ht) fun P' hP' => ⟨.inl ht, .inl rfl⟩
    | crash j =>
      refine local_ j _ (fun h => ?_) fun P hP => ⟨(hI.made j P hP).2.1, .inl rfl⟩
      rcases (hI.draft j h).2.2 with h | ⟨P, h, -⟩
      · exact .inl h
      · exact .inr ⟨P, h, .inl rfl⟩
    | restart j sk k hj hd =>
      refine local_ j _ (fun h => ?_) fun P hP => ?_
      · rcases (hI.draft j h).2.2 with h | ⟨P, h, -⟩
        · rw [hd] at h; cases h
        · rw [h, load_stored hC] at hd
          cases hd
          exact .inr ⟨P, h, .inr rfl⟩
      · rcases (hI.made j P hP).2.1 with h | h
        · rw [hd] at h; cases h
        · rw [h, load_stored hC] at hd
          cases hd
          exact ⟨.inr h, .inr rfl⟩
    | publish j sk k hj hd =>
      cases hQ : Q j with
      | some P =>
        have hk : k = keyOf n8.toNat P gens g_i D G := by
          rcases (hI.made j P hQ).2.1 with h | h
          · rw [hd] at h; cases h
          · rw [h, load_stored hC] at hd
            cases hd
            rfl
        subst hk
        have he : Function.update S.keys j (some ((arkPartialKey C).ser (keyOf n8.toNat P gens g_i D G))) = S.keys := by
          rw [← (hI.made j P hQ).1, Function.update_eq_self]
        rw [he]
        exact ⟨⟨Q, hI, fun _ _ h => h⟩, fun _ _ => rfl, fun _ h => h⟩
      | none =>
        obtain ⟨e1, e2, e3⟩ := hI.draft j hQ
        obtain ⟨P, hdisk, hmem⟩ := e3.resolve_left (by rw [hd]; exact Option.some_ne_none _)
        rw [hdisk, load_stored hC] at hd
        cases hd
        refine ⟨⟨Function.update Q j (some P), ⟨?_, ?_, ?_⟩, ?_⟩, ?_, fun _ h => h⟩
        · intro i hi
          by_cases hij : i = j
          · subst hij; simp at hi
          · rw [Function.update_of_ne hij] at hi
            simp only [Function.update_of_ne hij]
            exact hI.draft i hi
        · intro i P' hi
          by_cases hij : i = j
          · subst hij
            simp only [Function.update_self, Option.some.injEq] at hi ⊢
            subst hi
            exact ⟨rfl, .inr hdisk, hmem⟩
          · rw [Function.update_of_ne hij] at hi
            simp only [Function.update_of_ne hij]
            exact hI.made i P' hi
        · intro i P' bs hi hs
          by_cases hij : i = j
          · subst hij
            dsimp only at hs
            rw [e2] at hs; cases hs
          · rw [Function.update_of_ne hij] at hi
            obtain ⟨ks, ek, sh, h1, -⟩ := hI.shares i P' bs hi hs
            obtain ⟨x, hx⟩ := readAll_inv _ _ _ _ h1 j hj
            rw [e1] at hx; cases hx
        · intro i P' hi
          by_cases hij : i = j
          · subst hij; rw [hQ] at hi; cases hi
          · rw [Function.update_of_ne hij]; exact hi
        · intro i hi
          by_cases hij : i = j
          · subst hij; exact absurd e1 hi
          · dsimp only; rw [Function.update_of_ne hij]
    | share j sk ks ek sh hj hm hr hc hs =>
      obtain ⟨x, hx⟩ := readAll_inv _ _ _ _ hr j hj
      cases hQ : Q j with
      | none => rw [(hI.draft j hQ).1] at hx; cases hx
      | some P =>
        have hsk : sk = partySK n8.toNat P := by
          rcases (hI.made j P hQ).2.2 with h | h
          · rw [h] at hm; cases hm
          · rw [h] at hm; cases hm; rfl
        subst hsk
        refine ⟨⟨Q, ⟨?_, hI.made, ?_⟩, fun _ _ h => h⟩, fun _ _ => rfl, ?_⟩
        · intro i hi
          by_cases hij : i = j
          · subst hij; rw [hQ] at hi; cases hi
          · simp only [Function.update_of_ne hij]
            exact hI.draft i hi
        · intro i P' bs hi hbs
          by_cases hij : i = j
          · subst hij
            rw [hQ] at hi
            cases hi
            simp only [Function.update_self, Option.some.injEq] at hbs
            exact ⟨ks, ek, sh, hr, hc, hs, hbs.symm⟩
          · simp only [Function.update_of_ne hij] at hbs
            exact hI.shares i P' bs hi hbs
        · intro i hi
          by_cases hij : i = j
          · subst hij
            simp only [Function.update_self] at hi
            cases hi
          · simp only [Function.update_of_ne hij] at hi
            exact hi

include hC hn hg in
theorem runs_inv {S T : Sys E} {Q : ℕ → Option (Party E)} (hI : Inv C N n8 gens g_i D G S Q)
    (h : LossRuns early True C N b gens g_i D G S T) :
    (∃ Q', Inv C N n8 gens g_i D G T Q' ∧ ∀ j P, Q j = some P → Q' j = some P) ∧
    (∀ j, S.keys j ≠ none → T.keys j = S.keys j) ∧ (∀ j, T.shares j = none → S.shares j = none) := by
  induction h with
  | refl => exact ⟨⟨Q, hI, fun _ _ h => h⟩, fun _ _ => rfl, fun _ h => h⟩
  | step _ hs ih =>
    obtain ⟨⟨Q', hI', hQ⟩, hk, hsh⟩ := ih
    obtain ⟨⟨Q'', hI'', hQ'⟩, hk', hsh'⟩ := step_inv hC hn hg hI' hs
    exact ⟨⟨Q'', hI'', fun j P h => hQ' j P (hQ j P h)⟩, fun j h => by rw [hk' j (by rw [hk j h]; exact h), hk j h],
      fun j h => hsh j (hsh' j h)⟩

theorem trans {careful : Prop} {S T U : Sys E} (h1 : LossRuns early careful C N b gens g_i D G S T)
    (h2 : LossRuns early careful C N b gens g_i D G T U) : LossRuns early careful C N b gens g_i D G S U := by
  induction h2 with
  | refl => exact h1
  | step _ hs ih => exact .step ih hs

/-- if storage is lost only before anything is published, nobody is ever tempted not to be careful -/
theorem early_careful {careful : Prop} {S T : Sys E}
    (hS : ∀ j, S.keys j ≠ none → load C (S.node j).disk ≠ none) (h : LossRuns True careful C N b gens g_i D G S T) :
    LossRuns True True C N b gens g_i D G S T ∧ ∀ j, T.keys j ≠ none → load C (T.node j).disk ≠ none := by
  induction h with
  | refl => exact ⟨.refl _, hS⟩
  | @step V U _ hs ih =>
    obtain ⟨ih1, ih2⟩ := ih
    cases hs with
    | lose j bs hbs he =>
      refine ⟨.step ih1 (.lose j bs hbs he), fun i hi => ?_⟩
      dsimp only at hi ⊢
      by_cases hij : i = j
      · subst hij; exact absurd (he trivial) hi
      · rw [Function.update_of_ne hij]; exact ih2 i hi
    | step U hs _ =>
      have hc : ∀ j, (U.node j).disk ≠ (V.node j).disk → V.keys j = none := by
        intro i hi
        by_contra hne
        have hl := ih2 i hne
        cases hs with
        | generate j P sk k st' hj hd hk =>
          dsimp only at hi
          by_cases hij : i = j
          · subst hij; exact hl hd
          · rw [Function.update_of_ne hij] at hi; exact hi rfl
        | torn j P sk k st' l hj hd hk hlen =>
          dsimp only at hi
          by_cases hij : i = j
          · subst hij; exact hl hd
          · rw [Function.update_of_ne hij] at hi; exact hi rfl
        | crash j =>
          dsimp only at hi
          by_cases hij : i = j
          · subst hij; rw [Function.update_self] at hi; exact hi rfl
          · rw [Function.update_of_ne hij] at hi; exact hi rfl
        | restart j sk k hj hd =>
          dsimp only at hi
          by_cases hij : i = j
          · subst hij; rw [Function.update_self] at hi; exact hi rfl
          · rw [Function.update_of_ne hij] at hi; exact hi rfl
        | publish j sk k hj hd => exact hi rfl
        | share j sk ks ek sh hj hm hr hc hs => exact hi rfl
      refine ⟨.step ih1 (.step U hs fun _ => hc), fun i hi => ?_⟩
      by_cases hd : (U.node i).disk = (V.node i).disk
      · rw [hd]
        cases hs with
        | publish j sk k hj hd' =>
          dsimp only at hi
          by_cases hij : i = j
          · subst hij; rw [hd']; exact Option.some_ne_none _
          · rw [Function.update_of_ne hij] at hi; exact ih2 i hi
        | generate j P sk k st' hj hd hk => exact ih2 i hi
        | torn j P sk k st' l hj hd hk hlen => exact ih2 i hi
        | crash j => exact ih2 i hi
        | restart j sk k hj hd => exact ih2 i hi
        | share j sk ks ek sh hj hm hr hc hs => exact ih2 i hi
      · have h1 := hc i hd
        cases hs with
        | publish j sk k hj hd' => exact absurd rfl hd
        | generate j P sk k st' hj hd hk => exact absurd h1 hi
        | torn j P sk k st' l hj hd hk hlen => exact absurd h1 hi
        | crash j => exact absurd h1 hi
        | restart j sk k hj hd => exact absurd h1 hi
        | share j sk ks ek sh hj hm hr hc hs => exact absurd h1 hi

theorem relax {careful : Prop} {S T : Sys E} (h : LossRuns early True C N b gens g_i D G S T) :
    LossRuns early careful C N b gens g_i D G S T := by
  induction h with
  | refl => exact .refl _
  | @step V U _ hs ih =>
    cases hs with
    | step _ hs hc => exact .step ih (.step _ hs fun _ => hc trivial)
    | lose j bs hbs he => exact .step ih (.lose j bs hbs he)

include hC hn hg in
theorem reach {careful : Prop} (hec : early ∨ careful) {S : Sys E} (h : LossRuns early careful C N b gens g_i D G Sys.init S) :
    LossRuns early True C N b gens g_i D G Sys.init S ∧ ∃ Q, Inv C N n8 gens g_i D G S Q := by
  have h' : LossRuns early True C N b gens g_i D G Sys.init S := by
    by_cases he : early
    · have e : early = True := propext ⟨fun _ => trivial, fun _ => he⟩
      subst e
      exact (early_careful (fun j hj => absurd rfl hj) h).1
    · have e : careful = True := propext ⟨fun _ => trivial, fun _ => hec.resolve_left he⟩
      subst e
      exact h
  exact ⟨h', (runs_inv hC hn hg init_inv h').1.imp fun _ h => h.1⟩

theorem final_repaired (S : Sys E) (Q : ℕ → Option (Party E)) :
    (repaired C n8 gens g_i D G S Q).finalKey C N G = S.finalKey C N G := rfl

/-! ### what can still be done -/

theorem same_disk {S : Sys E} {j : ℕ} {m : Option (SecretKeyST E)} (i : ℕ)
    (h : (Function.update S.node j ⟨(S.node j).disk, m⟩ i).disk ≠ (S.node i).disk) : S.keys i = none := by
  exfalso
  apply h
  by_cases hij : i = j
  · subst hij; rw [Function.update_self]
  · rw [Function.update_of_ne hij]

include hC hn hg in
theorem phase1 {careful : Prop} (S : Sys E) : ∀ m ≤ N, ∃ T, LossRuns early careful C N b gens g_i D G S T ∧
    T.keys = S.keys ∧ T.shares = S.shares ∧ (∀ j, S.keys j ≠ none → T.node j = S.node j) ∧
    ∀ j < m, S.keys j = none → load C (T.node j).disk ≠ none := by
  intro m
  induction m with
  | zero => exact fun _ => ⟨S, .refl S, rfl, rfl, fun _ _ => rfl, fun j hj => by omega⟩
  | succ m ih =>
    intro hm
    obtain ⟨T, hT, h1, h2, h3, h4⟩ := ih (by omega)
    by_cases hl : S.keys m = none ∧ load C (T.node m).disk = none
    · refine ⟨_, .step hT (.step _ (.generate m (⟨tape E, fun _ => 0⟩ : Party E) _ _ _ (by omega) hl.2
        (fkeygenPartial_eq _ _ gens g_i D G hn hg)) fun _ i hi => ?_), h1, h2, fun j hj => ?_, fun j hj hk => ?_⟩
      · by_cases hij : i = m
        · subst hij; rw [h1]; exact hl.1
        · dsimp only at hi
          rw [Function.update_of_ne hij] at hi
          exact absurd rfl hi
      · have : j ≠ m := by rintro rfl; exact hj hl.1
        dsimp only
        rw [Function.update_of_ne this]
        exact h3 j hj
      · by_cases hjm : j = m
        · subst hjm
          simp only [Function.update_self]
          have := load_stored hC n8 (⟨tape E, fun _ => 0⟩ : Party E) gens g_i D G
          intro hh
          exact Option.some_ne_none _ (this.symm.trans hh)
        · simp only [Function.update_of_ne hjm]
          exact h4 j (by omega) hk
    · refine ⟨T, hT, h1, h2, h3, fun j hj hk => ?_⟩
      by_cases hjm : j = m
      · subst hjm; exact fun h => hl ⟨hk, h⟩
      · exact h4 j (by omega) hk

theorem phase2 {careful : Prop} (S : Sys E) (h0 : ∀ j < N, S.keys j = none → load C (S.node j).disk ≠ none) :
    ∀ m ≤ N, ∃ T, LossRuns early careful C N b gens g_i D G S T ∧
    T.node = S.node ∧ T.shares = S.shares ∧ (∀ j, S.keys j ≠ none → T.keys j = S.keys j) ∧ ∀ j < m, T.keys j ≠ none := by
  intro m
  induction m with
  | zero => exact fun _ => ⟨S, .refl S, rfl, rfl, fun _ _ => rfl, fun j hj => by omega⟩
  | succ m ih =>
    intro hm
    obtain ⟨T, hT, h1, h2, h3, h4⟩ := ih (by omega)
    by_cases hk : S.keys m = none
    · have hl := h0 m (by omega) hk
      rw [← h1] at hl
      obtain ⟨⟨sk, k⟩, hl⟩ := Option.ne_none_iff_exists'.mp hl
      refine ⟨_, .step hT (.step _ (.publish m sk k (by omega) hl) fun _ i hi => absurd rfl hi), h1, h2, fun j hj => ?_,
        fun j hj => ?_⟩
      · have : j ≠ m := by rintro rfl; exact hj hk
        dsimp only
        rw [Function.update_of_ne this]
        exact h3 j hj
      · by_cases hjm : j = m
        · subst hjm
          simp only [Function.update_self]
          exact Option.some_ne_none _
        · simp only [Function.update_of_ne hjm]
          exact h4 j (by omega)
    · refine ⟨T, hT, h1, h2, h3, fun j hj => ?_⟩
      by_cases hjm : j = m
      · subst hjm; rw [h3 j hk]; exact hk
      · exact h4 j (by omega)

include hC hn hg in
theorem phase3 (S : Sys E) (Q : ℕ → Option (Party E)) (hI : Inv C N n8 gens g_i D G S Q)
    (h0 : ∀ j < N, S.keys j ≠ none)
    (h1 : ∀ j < N, S.shares j = none → load C (S.node j).disk ≠ none ∨ (S.node j).mem ≠ none) :
    ∀ m ≤ N, ∃ T, LossRuns early True C N b gens g_i D G S T ∧ (∀ j < N, T.keys j ≠ none) ∧
      (∀ j < N, T.shares j = none → load C (T.node j).disk ≠ none ∨ (T.node j).mem ≠ none) ∧ ∀ j < m, T.shares j ≠ none := by
  intro m
  induction m with
  | zero => exact fun _ => ⟨S, .refl S, h0, h1, fun j hj => by omega⟩
  | succ m ih =>
    intro hm
    obtain ⟨T, hT, k0, k1, k2⟩ := ih (by omega)
    by_cases hs : T.shares m ≠ none
    · refine ⟨T, hT, k0, k1, fun j hj => ?_⟩
      by_cases hjm : j = m
      · subst hjm; exact hs
      · exact k2 j (by omega)
    rw [not_not] at hs
    -- first the party loads its secrets, if it has to
    have hmem : ∃ T', LossRuns early True C N b gens g_i D G T T' ∧ T'.keys = T.keys ∧ T'.shares = T.shares ∧
        (T'.node m).mem ≠ none ∧ ∀ j ≠ m, T'.node j = T.node j := by
      by_cases hmm : (T.node m).mem ≠ none
      · exact ⟨T, .refl _, rfl, rfl, hmm, fun _ _ => rfl⟩
      · obtain ⟨⟨sk, k⟩, hl⟩ := Option.ne_none_iff_exists'.mp ((k1 m (by omega) hs).resolve_right hmm)
        refine ⟨_, .step (.refl _) (.step _ (.restart m sk k (by omega) hl) fun _ i hi => same_disk i hi), rfl, rfl, ?_, ?_⟩
        · dsimp only
          rw [Function.update_self]
          exact Option.some_ne_none _
        · intro j hj
          dsimp only
          rw [Function.update_of_ne hj]
    obtain ⟨T', hT', e1, e2, e3, e4⟩ := hmem
    obtain ⟨⟨Q', hI', -⟩, -, -⟩ := runs_inv hC hn hg hI (Los.trans hT hT')
    have hr := keys_read hC hn hg (repaired_inv hI') (⟨tape E, fun _ => 0⟩ : Party E)
      (fun j hj => by show T'.keys j ≠ none; rw [e1]; exact k0 j hj)
    obtain ⟨r1, r2⟩ := hr
    have hm2 := ((hI'.made m _ (r1 m (by omega))).2.2).resolve_left e3
    refine ⟨_, .step (Los.trans hT hT') (.step _ (.share m _ _ _ _ (by omega) hm2 r2
      (combine_keys (by omega) n8.toNat fun j => (Q' j).getD (⟨tape E, fun _ => 0⟩ : Party E)) (share_eq _ _ _))
      fun _ i hi => absurd rfl hi), ?_, ?_, ?_⟩
    · intro j hj
      show T'.keys j ≠ none
      rw [e1]; exact k0 j hj
    · intro j hj hsj
      by_cases hjm : j = m
      · subst hjm
        simp only [Function.update_self] at hsj
        cases hsj
      · dsimp only at hsj ⊢
        rw [Function.update_of_ne hjm, e2] at hsj
        rw [e4 j hjm]
        exact k1 j hj hsj
    · intro j hj
      by_cases hjm : j = m
      · subst hjm
        simp only [Function.update_self]
        exact Option.some_ne_none _
      · simp only [Function.update_of_ne hjm, e2]
        exact k2 j (by omega)

include hC hn hg in
/-- a party that has published its key but neither its share nor has its secrets any more stays so -/
theorem gone_step {S T : Sys E} (j : ℕ) (h : S.keys j ≠ none ∧ S.shares j = none ∧ load C (S.node j).disk = none ∧
    (S.node j).mem = none) (hs : LossStep early True C N b gens g_i D G S T) :
    T.keys j ≠ none ∧ T.shares j = none ∧ load C (T.node j).disk = none ∧ (T.node j).mem = none := by
  obtain ⟨h1, h2, h3, h4⟩ := h
  cases hs with
  | lose i bs hbs _ =>
    dsimp only
    by_cases hij : j = i
    · subst hij; rw [Function.update_self]; exact ⟨h1, h2, hbs, h4⟩
    · rw [Function.update_of_ne hij]; exact ⟨h1, h2, h3, h4⟩
  | step T hs hc =>
    have hd : (T.node j).disk = (S.node j).disk := by
      by_contra hne
      exact h1 (hc trivial j hne)
    refine ⟨?_, ?_, by rw [hd]; exact h3, ?_⟩
    · cases hs with
      | publish i sk k hj hd =>
        dsimp only
        by_cases hij : j = i
        · subst hij; rw [Function.update_self]; exact Option.some_ne_none _
        · rw [Function.update_of_ne hij]; exact h1
      | generate => exact h1
      | torn => exact h1
      | crash => exact h1
      | restart => exact h1
      | share => exact h1
    · cases hs with
      | share i sk ks ek sh hj hm hr hc hs =>
        dsimp only
        by_cases hij : j = i
        · subst hij; rw [h4] at hm; cases hm
        · rw [Function.update_of_ne hij]; exact h2
      | generate => exact h2
      | torn => exact h2
      | crash => exact h2
      | restart => exact h2
      | publish => exact h2
    · cases hs with
      | generate i P sk k st' hj hd' hk =>
        dsimp only at hd ⊢
        by_cases hij : j = i
        · subst hij
          obtain ⟨rfl, rfl⟩ := gen_inv hC hn hg hk
          rw [Function.update_self] at hd
          dsimp only at hd
          rw [← hd, load_stored hC] at hd'
          cases hd'
        · rw [Function.update_of_ne hij]; exact h4
      | torn i P sk k st' l hj hd' hk hl =>
        dsimp only
        by_cases hij : j = i
        · subst hij; rw [Function.update_self]
        · rw [Function.update_of_ne hij]; exact h4
      | crash i =>
        dsimp only
        by_cases hij : j = i
        · subst hij; rw [Function.update_self]
        · rw [Function.update_of_ne hij]; exact h4
      | restart i sk k hj hd' =>
        dsimp only
        by_cases hij : j = i
        · subst hij; rw [h3] at hd'; cases hd'
        · rw [Function.update_of_ne hij]; exact h4
      | publish => exact h4
      | share => exact h4

end
end Los
open Los Rst

/-! ### C123 -/

section
variable {C : Codecs E} (hC : LawfulCodecs C) (N : ℕ) (hN : 0 < N) (b n : UInt8)
    (hn : chunksCount E.fr b = .ok n) (gens : EncryptionGens E) (g_i : List E.G1) (hg : n.toNat ≤ g_i.length) (D G : E.G1)
include hC hN hn hg

/-- **C123** (safety) if storage is lost only before anything is published, or parties that have published something never
write new secrets: then in every history, whatever else is lost and whoever crashes, a key that comes out is that of a run
without crashes and losses, and what a party still has of its secrets, in storage or in memory, belongs to that key. -/
theorem C123_safe (early careful : Prop) (hec : early ∨ careful) (S : Sys E)
    (hS : LossRuns early careful C N b gens g_i D G Sys.init S) (res : Res (EncryptionKey E))
    (hf : S.finalKey C N G = some res) :
    ∃ (P : ℕ → Party E) (sks : List (SecretKeyST E)) (ek : EncryptionKey E), res = .ok ek ∧
      dkg ((List.range N).map P) b gens g_i D G = .ok (sks, ek) ∧
      ∀ j < N, ∃ sk, sks[j]? = some sk ∧ (∀ x, load C (S.node j).disk = some x → x.1 = sk) ∧
        ∀ y, (S.node j).mem = some y → y = sk := by
  obtain ⟨-, Q, hI⟩ := reach hC hn hg hec hS
  obtain ⟨h1, h2⟩ := final_inv hf
  obtain ⟨ek, e1, e2⟩ := final_eq hC hn hg hN (repaired_inv hI) (⟨tape E, fun _ => 0⟩ : Party E) h1 h2
  rw [final_repaired, hf] at e1
  cases e1
  refine ⟨_, _, ek, rfl, e2, ?_⟩
  intro j hj
  have hQ := (keys_read hC hn hg (repaired_inv hI) (⟨tape E, fun _ => 0⟩ : Party E) h1).1 j hj
  obtain ⟨-, m1, m2⟩ := hI.made j _ hQ
  refine ⟨_, by rw [List.getElem?_map, List.getElem?_range hj]; rfl, fun x hx => ?_, fun y hy => ?_⟩
  · rcases m1 with h | h
    · rw [h] at hx; cases hx
    · rw [h, load_stored hC] at hx
      cases hx
      rfl
  · rcases m2 with h | h
    · rw [h] at hy; cases hy
    · rw [h] at hy
      cases hy
      rfl

/-- **C123** (agreement) and once somebody has computed the key, everybody computes the same one, whatever is lost afterwards. -/
theorem C123_agreement (early careful : Prop) (hec : early ∨ careful) (S T : Sys E)
    (hS : LossRuns early careful C N b gens g_i D G Sys.init S) (hT : LossRuns early careful C N b gens g_i D G S T)
    (res : Res (EncryptionKey E)) (hf : S.finalKey C N G = some res) : T.finalKey C N G = some res := by
  obtain ⟨hS', Q, hI⟩ := reach hC hn hg hec hS
  have hT' : LossRuns early True C N b gens g_i D G S T := by
    by_cases he : early
    · have e : early = True := propext ⟨fun _ => trivial, fun _ => he⟩
      subst e
      exact (early_careful (early_careful (fun j hj => absurd rfl hj) hS).2 hT).1
    · have e : careful = True := propext ⟨fun _ => trivial, fun _ => hec.resolve_left he⟩
      subst e
      exact hT
  obtain ⟨⟨Q', hI', hQ⟩, hk, hs⟩ := Los.runs_inv hC hn hg hI hT'
  obtain ⟨h1, h2⟩ := final_inv hf
  obtain ⟨ek, e1, e2⟩ := final_eq hC hn hg hN (repaired_inv hI) (⟨tape E, fun _ => 0⟩ : Party E) h1 h2
  obtain ⟨ek', e1', e2'⟩ := final_eq hC hn hg hN (repaired_inv hI') (⟨tape E, fun _ => 0⟩ : Party E)
    (fun j hj => by show T.keys j ≠ none; rw [hk j (h1 j hj)]; exact h1 j hj) (fun j hj h => h2 j hj (hs j h))
  have hQQ : ((List.range N).map fun j => (Q' j).getD (⟨tape E, fun _ => 0⟩ : Party E)) =
      (List.range N).map fun j => (Q j).getD (⟨tape E, fun _ => 0⟩ : Party E) := by
    apply List.map_congr_left
    intro j hj
    have := (keys_read hC hn hg (repaired_inv hI) (⟨tape E, fun _ => 0⟩ : Party E) h1).1 j (List.mem_range.mp hj)
    rw [hQ j _ this]
    rfl
  rw [hQQ, e2] at e2'
  obtain rfl := (Prod.mk.inj (Res.ok.inj e2')).2
  rw [final_repaired, hf] at e1
  cases e1
  exact e1'

/-- **C123** (exactly when key generation can still end) with careful parties, key generation can still end exactly as long as
every party that has published its partial key, but not its share, has its secrets in its storage or at least in memory. -/
theorem C123_can_end_iff (early : Prop) (S : Sys E) (hS : LossRuns early True C N b gens g_i D G Sys.init S) :
    (∃ T ek, LossRuns early True C N b gens g_i D G S T ∧ T.finalKey C N G = some (.ok ek)) ↔
      ∀ j < N, S.keys j ≠ none → S.shares j = none → load C (S.node j).disk ≠ none ∨ (S.node j).mem ≠ none := by
  obtain ⟨-, Q, hI⟩ := reach hC hn hg (.inr trivial) hS
  constructor
  · rintro ⟨T, ek, hT, hf⟩ j hj hk hs
    by_contra hno
    push Not at hno
    have hgone : T.keys j ≠ none ∧ T.shares j = none ∧ load C (T.node j).disk = none ∧ (T.node j).mem = none := by
      clear hf
      induction hT with
      | refl => exact ⟨hk, hs, hno⟩
      | step _ hst ih => exact gone_step hC hn hg j ih hst
    exact (final_inv hf).2 j hj hgone.2.1
  · intro h
    obtain ⟨T1, r1, a1, a2, a3, a4⟩ := phase1 hC hn hg (early := early) (careful := True) (N := N) (b := b) (gens := gens)
      (g_i := g_i) (D := D) (G := G) S N le_rfl
    obtain ⟨T2, r2, b1, b2, b3, b4⟩ := Los.phase2 (early := early) (careful := True) (b := b) (gens := gens) (g_i := g_i) (D := D)
      (G := G) T1 (fun j hj hk => a4 j hj (by rw [← a1]; exact hk)) N le_rfl
    obtain ⟨⟨Q2, hI2, -⟩, -, -⟩ := Los.runs_inv hC hn hg hI (Los.trans r1 r2)
    obtain ⟨T3, r3, c1, -, c3⟩ := Los.phase3 hC hn hg (early := early) T2 Q2 hI2 b4 (fun j hj hs => by
      rw [b1]
      by_cases hk : S.keys j = none
      · exact .inl (a4 j hj hk)
      · rw [a3 j hk]
        rw [b2, a2] at hs
        exact h j hj hk hs) N le_rfl
    obtain ⟨⟨Q3, hI3, -⟩, -, -⟩ := Los.runs_inv hC hn hg hI2 r3
    obtain ⟨ek, e1, -⟩ := final_eq hC hn hg hN (repaired_inv hI3) (⟨tape E, fun _ => 0⟩ : Party E) c1 c3
    exact ⟨T3, ek, Los.trans (Los.trans r1 r2) r3, e1⟩

/-- **C123** (early losses never block) in particular, if storage is lost only before anything is published, key generation
can always still end, careful or not. -/
theorem C123_early_no_deadlock (careful : Prop) (S : Sys E) (hS : LossRuns True careful C N b gens g_i D G Sys.init S) :
    ∃ T ek, LossRuns True careful C N b gens g_i D G S T ∧ T.finalKey C N G = some (.ok ek) := by
  obtain ⟨h1, h2⟩ := early_careful (fun j hj => absurd rfl hj) hS
  obtain ⟨T, ek, h3, h4⟩ := (C123_can_end_iff hC N hN b n hn gens g_i hg D G True S h1).mpr fun j _ hk _ => .inl (h2 j hk)
  exact ⟨T, ek, relax h3, h4⟩

/-- **C123** (carelessness is fatal) but if a party that has lost its storage after the key came out starts over — generates
new secrets, stores and publishes them —, what comes out from then on is the key of a delivery in which its partial key is new
and everybody's shares are old: whatever its randomness `P'` was, every honest encryption (with nonzero randomness) under
that key is rejected by the commitment check, unless by chance the shares add up all the same. -/
theorem C123_carelessness (early : Prop) (hH : gens.H ≠ 0) (hD : D ≠ 0) (S : Sys E)
    (hS : LossRuns early True C N b gens g_i D G Sys.init S) (ek : EncryptionKey E) (hf : S.finalKey C N G = some (.ok ek)) :
    ∃ (P : ℕ → Party E) (sks : List (SecretKeyST E)), dkg ((List.range N).map P) b gens g_i D G = .ok (sks, ek) ∧
      ∀ j < N, ∀ P' : Party E, ∃ T ek', LossRuns False False C N b gens g_i D G S T ∧ T.finalKey C N G = some (.ok ek') ∧
        dkgAsDelivered ((List.range N).map (Function.update P j P'))
          ((List.range N).map fun i => (P i, (List.range N).map P)) b gens g_i D G = .ok ek' ∧
        ∀ (R : RngCore E) (st : R.σ) (chunks : List UInt16), chunks.length = n.toNat →
          ∃ ct r st', encryptDecomposedMessage R st chunks ek' g_i = .ok ((flat ct, r), st') ∧
            ct.verifyCommitment ek'.prepare gens.prepare =
              if r = 0 ∨ shareGap n.toNat ((List.range N).map (Function.update P j P'))
                ((List.range N).map fun i => (P i, (List.range N).map P)) = 0 then .ok () else .err .invalidCommitment := by
  obtain ⟨-, Q, hI⟩ := reach hC hn hg (.inr trivial) hS
  obtain ⟨h1, h2⟩ := final_inv hf
  obtain ⟨ek0, e1, e2⟩ := final_eq hC hn hg hN (repaired_inv hI) (⟨tape E, fun _ => 0⟩ : Party E) h1 h2
  rw [final_repaired, hf] at e1
  cases e1
  obtain ⟨hQ, hks⟩ := keys_read hC hn hg (repaired_inv hI) (⟨tape E, fun _ => 0⟩ : Party E) h1
  have hsh := shares_read hC hn hg hN (repaired_inv hI) (⟨tape E, fun _ => 0⟩ : Party E) h1 h2
  have hkeys : ∀ j < N, S.keys j = some ((arkPartialKey C).ser (keyOf n.toNat ((Q j).getD (⟨tape E, fun _ => 0⟩ : Party E)) gens
      g_i D G)) := fun j hj => (hI.made j _ (hQ j hj)).1
  obtain ⟨P, hP⟩ : ∃ P : ℕ → Party E, (fun j => (Q j).getD (⟨tape E, fun _ => 0⟩ : Party E)) = P := ⟨_, rfl⟩
  refine ⟨P, (List.range N).map fun j => partySK n.toNat (P j), by subst hP; exact e2, ?_⟩
  have hkeys' : ∀ j < N, S.keys j = some ((arkPartialKey C).ser (keyOf n.toNat (P j) gens g_i D G)) := by
    subst hP; exact hkeys
  have hsh' : readAll (arkP1share C) S.shares N = some ((List.range N).map fun j =>
      shareOf n.toNat ((List.range N).map P) gens g_i D G (P j)) := by
    subst hP; exact hsh
  intro j hj P'
  obtain ⟨T, hT1, hT2, hT3⟩ : ∃ T : Sys E, LossRuns False False C N b gens g_i D G S T ∧
      T.keys = Function.update S.keys j (some ((arkPartialKey C).ser (keyOf n.toNat P' gens g_i D G))) ∧
      T.shares = S.shares := by
    have s1 : LossRuns False False C N b gens g_i D G S _ := .step (.refl S) (.lose j [] rfl False.elim)
    have s2 := LossRuns.step s1 (.step _ (.generate j P' (partySK n.toNat P') (keyOf n.toNat P' gens g_i D G) _ hj
      (by dsimp only; rw [Function.update_self]; rfl) (fkeygenPartial_eq P'.1 P'.2 gens g_i D G hn hg)) False.elim)
    have s3 := LossRuns.step s2 (.step _ (.publish j (partySK n.toNat P') (keyOf n.toNat P' gens g_i D G) hj
      (by dsimp only; rw [Function.update_self]; exact load_stored hC n P' gens g_i D G)) False.elim)
    exact ⟨_, s3, rfl, rfl⟩
  have hne : (List.range N).map (Function.update P j P') ≠ [] := by
    simp only [ne_eq, List.map_eq_nil_iff, List.range_eq_nil]; omega
  have hne' : (List.range N).map P ≠ [] := by
    simp only [ne_eq, List.map_eq_nil_iff, List.range_eq_nil]; omega
  have hne'' : ((List.range N).map fun i => (P i, (List.range N).map P)) ≠ [] := by
    simp only [ne_eq, List.map_eq_nil_iff, List.range_eq_nil]; omega
  have hv : ∀ x ∈ ((List.range N).map fun i => (P i, (List.range N).map P)), x.2 ≠ [] := by
    intro x hx
    obtain ⟨i, -, rfl⟩ := List.mem_map.mp hx
    exact hne'
  obtain ⟨ek', sks', ek0', d1, -, -, d2⟩ := C105_any_delivery b n hn gens hH g_i hg D G hD _ _ hne hne'' hv
  refine ⟨T, ek', hT1, ?_, d1, fun R st chunks hc => ?_⟩
  · unfold Sys.finalKey
    have hr : readAll (arkPartialKey C) T.keys N =
        some ((List.range N).map fun i => keyOf n.toNat (Function.update P j P' i) gens g_i D G) := by
      refine readAll_some _ _ _ _ fun i hi => ?_
      have h3 := (C52_encryption_keys hC).2.1 _ (key_fits n (Function.update P j P' i) gens g_i D G) []
      rw [List.append_nil] at h3
      refine ⟨_, _, ?_, h3⟩
      rw [hT2]
      by_cases hij : i = j
      · subst hij; rw [Function.update_self, Function.update_self]
      · rw [Function.update_of_ne hij, Function.update_of_ne hij]; exact hkeys' i hi
    rw [hr, hT3, hsh']
    refine congrArg some ?_
    rw [← d1]
    unfold dkgAsDelivered combineDelivered
    rw [mapRes_ok (g := fun P : Party E => keyOf n.toNat P gens g_i D G)]
    · rw [Res.ok_bind, List.map_map]
      dsimp only [Function.comp_def]
      rw [mapRes_ok (g := fun x : Party E × List (Party E) => shareOf n.toNat ((List.range N).map P) gens g_i D G x.1)]
      · simp only [Res.ok_bind, List.map_map, Function.comp_def]
      · intro x hx
        obtain ⟨i, -, rfl⟩ := List.mem_map.mp hx
        dsimp only
        rw [mapRes_ok (g := fun P : Party E => keyOf n.toNat P gens g_i D G), Res.ok_bind, List.map_map]
        · dsimp only [Function.comp_def]
          rw [combine_keys hN n.toNat P, Res.ok_bind, Dvd.own_eq (P i) gens g_i D G hn hg, Res.ok_bind]
          exact Rst.share_eq _ _ _
        · intro P _
          rw [Dvd.own_eq P gens g_i D G hn hg]
          rfl
    · intro P _
      rw [Dvd.own_eq P gens g_i D G hn hg]
      rfl
  · obtain ⟨ct, ct0, r, st', c1, -, -, -, c2⟩ := d2 R st chunks hc
    exact ⟨ct, r, st', c1, c2⟩

end

/-! ### concrete cases -/

/-- The history of the examples: party 0 of `N` stores and publishes its partial key and then loses its storage; with `crash`,
its memory as well. -/
theorem Los.losing_history {C : Codecs E} (hC : LawfulCodecs C) (N : ℕ) (hN : 0 < N) (b n : UInt8)
    (hn : chunksCount E.fr b = .ok n) (gens : EncryptionGens E) (g_i : List E.G1) (hg : n.toNat ≤ g_i.length) (D G : E.G1)
    (P : Party E) : ∃ S, LossRuns False True C N b gens g_i D G Sys.init S ∧ S.keys 0 ≠ none ∧ (S.node 0).disk = [] ∧
      (S.node 0).mem = some (partySK n.toNat P) ∧ (∀ j, S.shares j = none) ∧ ∀ j ≠ 0, S.keys j = none := by
  have s1 := LossRuns.step (LossRuns.refl (early := False) (careful := True) (C := C) (N := N) (b := b) (gens := gens)
    (g_i := g_i) (delta_g := D) (gamma_g := G) (Sys.init : Sys E)) (.step _ (.generate 0 P (partySK n.toNat P)
    (keyOf n.toNat P gens g_i D G) _ hN rfl (fkeygenPartial_eq P.1 P.2 gens g_i D G hn hg)) fun _ _ _ => rfl)
  have s2 := LossRuns.step s1 (.step _ (.publish 0 (partySK n.toNat P) (keyOf n.toNat P gens g_i D G) hN
      (by dsimp only; rw [Function.update_self]; exact load_stored hC n P gens g_i D G)) fun _ _ h => absurd rfl h)
  have s3 := LossRuns.step s2 (.lose 0 [] rfl False.elim)
  refine ⟨_, s3, ?_, ?_, ?_, fun _ => rfl, fun j hj => ?_⟩
  · dsimp only; rw [Function.update_self]; exact Option.some_ne_none _
  · dsimp only; rw [Function.update_self]
  · dsimp only; rw [Function.update_self, Function.update_self]
  · dsimp only; rw [Function.update_of_ne hj]; rfl

/-- Non-vacuity: party 0 of two has published its partial key and lost its storage, but not its memory.  Key generation can
still end.  If it crashes now, it cannot. -/
example (P : Party Fix.E) : ∃ S T ek, LossRuns False True (scalarCodecs goldFr) 2 16 Fix.gens Fix.gi Fix.D Fix.C Sys.init S ∧
    (S.node 0).disk = [] ∧ LossRuns False True (scalarCodecs goldFr) 2 16 Fix.gens Fix.gi Fix.D Fix.C S T ∧
    T.finalKey (scalarCodecs goldFr) 2 Fix.C = some (.ok ek) ∧
    ∃ U, LossRuns False True (scalarCodecs goldFr) 2 16 Fix.gens Fix.gi Fix.D Fix.C S U ∧
      ¬ ∃ V ek, LossRuns False True (scalarCodecs goldFr) 2 16 Fix.gens Fix.gi Fix.D Fix.C U V ∧
        V.finalKey (scalarCodecs goldFr) 2 Fix.C = some (.ok ek) := by
  have hC := scalarCodecs_lawful goldFr
  have hg : (4 : UInt8).toNat ≤ Fix.gi.length := by decide +kernel
  obtain ⟨S, h1, h2, h3, h4, h5, h6⟩ := Los.losing_history hC 2 (by omega) 16 4 Fix.count Fix.gens Fix.gi hg Fix.D Fix.C P
  obtain ⟨T, ek, h7, h8⟩ := (C123_can_end_iff hC 2 (by omega) 16 4 Fix.count Fix.gens Fix.gi hg Fix.D Fix.C False S h1).mpr
    fun j _ hk _ => by
      by_cases hj : j = 0
      · subst hj; exact .inr (by rw [h4]; exact Option.some_ne_none _)
      · exact absurd (h6 j hj) hk
  have hU := LossRuns.step (LossRuns.refl (early := False) (careful := True) (C := scalarCodecs goldFr) (N := 2) (b := 16)
    (gens := Fix.gens) (g_i := Fix.gi) (delta_g := Fix.D) (gamma_g := Fix.C) S)
    (.step _ (.crash 0) fun _ i hi => Los.same_disk i hi)
  refine ⟨S, T, ek, h1, h3, h7, h8, _, hU, fun hex => ?_⟩
  have := (C123_can_end_iff hC 2 (by omega) 16 4 Fix.count Fix.gens Fix.gi hg Fix.D Fix.C False _ (Los.trans h1 hU)).mp hex 0
    (by omega) h2 (h5 0)
  dsimp only at this
  rw [Function.update_self] at this
  dsimp only at this
  rw [h3] at this
  exact this.elim (fun h => h rfl) fun h => h rfl

/-- Non-vacuity: there is a history at the end of which a key has come out; if then a party loses its storage and starts over
with some other randomness, the key changes to one that is of no use. -/
example (P' : Party Fix.E) : ∃ (S : Sys Fix.E) (ek : EncryptionKey Fix.E) (P : ℕ → Party Fix.E) (T : Sys Fix.E)
    (ek' : EncryptionKey Fix.E), S.finalKey (scalarCodecs goldFr) 2 Fix.C = some (.ok ek) ∧
    LossRuns False False (scalarCodecs goldFr) 2 16 Fix.gens Fix.gi Fix.D Fix.C S T ∧
    T.finalKey (scalarCodecs goldFr) 2 Fix.C = some (.ok ek') ∧
    dkgAsDelivered ((List.range 2).map (Function.update P 0 P')) ((List.range 2).map fun i => (P i, (List.range 2).map P)) 16
      Fix.gens Fix.gi Fix.D Fix.C = .ok ek' := by
  have hC := scalarCodecs_lawful goldFr
  have hg : (4 : UInt8).toNat ≤ Fix.gi.length := by decide +kernel
  obtain ⟨S, ek, h1, h2⟩ := C123_early_no_deadlock hC 2 (by omega) 16 4 Fix.count Fix.gens Fix.gi hg Fix.D Fix.C True Sys.init
    (.refl _)
  obtain ⟨P, sks, h3, h4⟩ := C123_carelessness hC 2 (by omega) 16 4 Fix.count Fix.gens Fix.gi hg Fix.D Fix.C True
    Fix.gens_ne.2 (by exact (by decide +kernel : Fix.D ≠ 0)) S h1 ek h2
  obtain ⟨T, ek', h5, h6, h7, -⟩ := h4 0 (by omega) P'
  exact ⟨S, ek, P, T, ek', h2, h5, h6, h7⟩

/-- and the shares do not add up, except with negligible probability: here party 0 of two starts over as "party 2". -/
example : {g : Fin (3 * (2 * (4 : UInt8).toNat + 1)) → Fix.E.Fr | ∃ ek,
    dkgAsDelivered ([2, 1].map (partyAt Fix.E g (2 * (4 : UInt8).toNat + 1)))
      ([(0, [0, 1]), (1, [0, 1])].map fun S => (partyAt Fix.E g (2 * (4 : UInt8).toNat + 1) S.1,
        S.2.map (partyAt Fix.E g (2 * (4 : UInt8).toNat + 1)))) 16 Fix.gens Fix.gi Fix.D Fix.C = .ok ek ∧
      SomeEncryptionPasses ek Fix.gens Fix.gi}.ncard ≤ 2 * Fix.E.fr.p ^ (3 * (2 * (4 : UInt8).toNat + 1) - 1) :=
  C105_faults_noticed (E := Fix.E) 16 4 Fix.count (by decide) Fix.gens Fix.gens_ne.2 Fix.gi (by decide +kernel) Fix.D Fix.C
    (by exact (by decide +kernel : Fix.D ≠ 0)) 3 [2, 1] [(0, [0, 1]), (1, [0, 1])] (by decide) (by decide) (by decide)
    (by exact (by decide +kernel : 2 < goldR)) (by exact (by decide +kernel : 2 < goldR)) (by
      intro S hS
      have : S.2.length = 2 := by
        rcases List.mem_cons.mp hS with rfl | hS
        · rfl
        · rw [List.mem_singleton.mp hS]
          rfl
      rw [this]
      exact (by decide +kernel : 2 < goldR)) (by
      rintro ⟨h, -⟩
      exact absurd (h.mem_iff (a := 2)) (by decide))

end Verif
