/-
Property C107: distributed key generation by parties that crash and restart.
-/
import Verif.Model.Restart
import Verif.Props.Delivered
import Verif.Props.Serde

namespace Verif
open Spec

variable {E : Engine}

namespace Rst

theorem fits {α : Type} {n8 : UInt8} {l : List α} (h : l.length ≤ n8.toNat + 1) : Fits l := by
  have := n8.toNat_lt
  unfold Fits
  omega

/-- the partial key party `P` gets -/
abbrev keyOf (n : ℕ) (P : Party E) (gens : EncryptionGens E) (g_i : List E.G1) (D G : E.G1) : FEncryptionKeyPartial E :=
  partialKey n (partyS P) (partyT n P) (fun i => g_i.getD i 0) D G gens.H

theorem sk_fits (n8 : UInt8) (P : Party E) : Fits (partySK n8.toNat P).s ∧ Fits (partySK n8.toNat P).t :=
  ⟨fits (n8 := n8) (by simp [partySK]), fits (n8 := n8) (by simp [partySK])⟩

theorem key_fits (n8 : UInt8) (P : Party E) (gens : EncryptionGens E) (g_i : List E.G1) (D G : E.G1) :
    Fits (keyOf n8.toNat P gens g_i D G).X ∧ Fits (keyOf n8.toNat P gens g_i D G).Y ∧
      Fits (keyOf n8.toNat P gens g_i D G).Z :=
  ⟨fits (n8 := n8) (by simp [partialKey]), fits (n8 := n8) (by simp [partialKey]), fits (n8 := n8) (by simp [partialKey])⟩

variable {C : Codecs E} (hC : LawfulCodecs C)
include hC

theorem load_stored (n8 : UInt8) (P : Party E) (gens : EncryptionGens E) (g_i : List E.G1) (D G : E.G1) :
    load C (stored C (partySK n8.toNat P) (keyOf n8.toNat P gens g_i D G)) =
      some (partySK n8.toNat P, keyOf n8.toNat P gens g_i D G) := by
  unfold load stored
  rw [C52_secret_keys.2.1 _ (sk_fits n8 P)]
  have h := (C52_encryption_keys hC).2.1 _ (key_fits n8 P gens g_i D G) []
  rw [List.append_nil] at h
  simp [h]

theorem load_torn (n8 : UInt8) (P : Party E) (gens : EncryptionGens E) (g_i : List E.G1) (D G : E.G1) (l : ℕ)
    (hl : l < (stored C (partySK n8.toNat P) (keyOf n8.toNat P gens g_i D G)).length) :
    load C ((stored C (partySK n8.toNat P) (keyOf n8.toNat P gens g_i D G)).take l) = none := by
  have hs := C52_secret_keys (E := E)
  have hk := (C52_encryption_keys hC).2
  unfold load stored at *
  by_cases h : l < (arkSecretKeyST.ser (partySK n8.toNat P)).length
  · rw [List.take_append_of_le_length (by omega), hs.2.2.1 _ (sk_fits n8 P) l h]
    rfl
  · rw [List.take_append, List.take_of_length_le (by omega), hs.2.1 _ (sk_fits n8 P)]
    have := hk.2.1 _ (key_fits n8 P gens g_i D G) (l - (arkSecretKeyST.ser (partySK n8.toNat P)).length)
      (by rw [List.length_append] at hl; omega)
    simp [this]

omit hC

theorem mapM_some {α β : Type*} (f : α → Option β) (g : α → β) (l : List α) (h : ∀ a ∈ l, f a = some (g a)) :
    l.mapM f = some (l.map g) := by
  induction l with
  | nil => rfl
  | cons a l ih =>
    rw [List.mapM_cons, h a (by simp), ih fun x hx => h x (List.mem_cons_of_mem _ hx)]
    rfl

theorem mapM_inv {α β : Type*} (f : α → Option β) (l : List α) (ys : List β) (h : l.mapM f = some ys) :
    ∀ a ∈ l, ∃ y, f a = some y := by
  induction l generalizing ys with
  | nil => intro a ha; cases ha
  | cons x l ih =>
    rw [List.mapM_cons] at h
    cases hx : f x with
    | none => rw [hx] at h; cases h
    | some y =>
      rw [hx] at h
      cases hl : l.mapM f with
      | none => rw [hl] at h; cases h
      | some zs =>
        intro a ha
        rcases List.mem_cons.mp ha with rfl | ha
        · exact ⟨y, hx⟩
        · exact ih zs hl a ha

theorem readAll_some {α : Type} (c : Ark α) (board : ℕ → Option (List UInt8)) (N : ℕ) (x : ℕ → α)
    (h : ∀ j < N, ∃ bs rest, board j = some bs ∧ c.de bs = some (x j, rest)) :
    readAll c board N = some ((List.range N).map x) := by
  unfold readAll
  apply mapM_some
  intro j hj
  obtain ⟨bs, rest, h1, h2⟩ := h j (List.mem_range.mp hj)
  simp [h1, h2]

theorem readAll_inv {α : Type} (c : Ark α) (board : ℕ → Option (List UInt8)) (N : ℕ) (xs : List α)
    (h : readAll c board N = some xs) : ∀ j < N, ∃ bs, board j = some bs := by
  intro j hj
  obtain ⟨y, hy⟩ := mapM_inv _ _ _ h j (List.mem_range.mpr hj)
  cases hb : board j with
  | none => simp [hb] at hy
  | some bs => exact ⟨bs, rfl⟩

theorem readAll_congr {α : Type} (c : Ark α) (board board' : ℕ → Option (List UInt8)) (N : ℕ)
    (h : ∀ j < N, board j = board' j) : readAll c board N = readAll c board' N := by
  unfold readAll
  have : ∀ l : List ℕ, (∀ j ∈ l, j < N) → l.mapM (fun j => do
      let bs ← board j
      let (x, _) ← c.de bs
      return x) = l.mapM (fun j => do
      let bs ← board' j
      let (x, _) ← c.de bs
      return x) := by
    intro l hl
    induction l with
    | nil => rfl
    | cons a l ih =>
      rw [List.mapM_cons, List.mapM_cons, ih fun j hj => hl j (List.mem_cons_of_mem _ hj), h a (hl a (by simp))]
  exact this _ fun j hj => List.mem_range.mp hj

/-- what holds in all reachable states; `Q j` is the randomness with which party `j` generated the keys it stored -/
structure Inv (C : Codecs E) (N : ℕ) (n8 : UInt8) (gens : EncryptionGens E) (g_i : List E.G1) (D G : E.G1) (S : Sys E)
    (Q : ℕ → Option (Party E)) : Prop where
  nothing : ∀ j, Q j = none → load C (S.node j).disk = none ∧ (S.node j).mem = none ∧ S.keys j = none ∧ S.shares j = none
  made : ∀ j P, Q j = some P → (S.node j).disk = stored C (partySK n8.toNat P) (keyOf n8.toNat P gens g_i D G) ∧
    ((S.node j).mem = none ∨ (S.node j).mem = some (partySK n8.toNat P)) ∧
    (S.keys j = none ∨ S.keys j = some ((arkPartialKey C).ser (keyOf n8.toNat P gens g_i D G)))
  shares : ∀ j P bs, Q j = some P → S.shares j = some bs → ∃ ks ek sh, readAll (arkPartialKey C) S.keys N = some ks ∧
    combineEKs G ks = .ok ek ∧ genP1share ek (partySK n8.toNat P) = .ok sh ∧ bs = (arkP1share C).ser sh

section
variable {N : ℕ} {b n8 : UInt8} {gens : EncryptionGens E} {g_i : List E.G1} {D G : E.G1}
  (hn : chunksCount E.fr b = .ok n8) (hg : n8.toNat ≤ g_i.length)
include hC hn hg

theorem gen_inv {P : Party E} {sk k st'} (h : fkeygenPartial P.1 P.2 b gens g_i D G = .ok ((sk, k), st')) :
    sk = partySK n8.toNat P ∧ k = keyOf n8.toNat P gens g_i D G := by
  rw [fkeygenPartial_eq P.1 P.2 gens g_i D G hn hg] at h
  cases h
  exact ⟨rfl, rfl⟩

theorem step_inv {S T : Sys E} {Q : ℕ → Option (Party E)} (hI : Inv C N n8 gens g_i D G S Q)
    (h : SysStep C N b gens g_i D G S T) :
    (∃ Q', Inv C N n8 gens g_i D G T Q' ∧ ∀ j P, Q j = some P → Q' j = some P) ∧
    (∀ j, S.keys j ≠ none → T.keys j = S.keys j) ∧ (∀ j, T.shares j = none → S.shares j = none) := by
  have hnone : ∀ j, load C (S.node j).disk = none → Q j = none := by
    intro j hj
    cases hQ : Q j with
    | none => rfl
    | some P =>
      rw [(hI.made j P hQ).1, load_stored hC] at hj
      cases hj
  have hsome : ∀ j sk k, load C (S.node j).disk = some (sk, k) → ∃ P, Q j = some P ∧ sk = partySK n8.toNat P ∧
      k = keyOf n8.toNat P gens g_i D G := by
    intro j sk k hj
    cases hQ : Q j with
    | none =>
      rw [(hI.nothing j hQ).1] at hj
      cases hj
    | some P =>
      rw [(hI.made j P hQ).1, load_stored hC] at hj
      cases hj
      exact ⟨P, rfl, rfl, rfl⟩
  cases h with
  | generate j P sk k st' hj hd hk =>
    obtain ⟨rfl, rfl⟩ := gen_inv hC hn hg hk
    have hQj := hnone j hd
    refine ⟨⟨Function.update Q j (some P), ⟨?_, ?_, ?_⟩, ?_⟩, fun _ _ => rfl, fun _ h => h⟩
    · intro i hi
      by_cases h : i = j
      · subst h; simp at hi
      · rw [Function.update_of_ne h] at hi
        simp only [Function.update_of_ne h]
        exact hI.nothing i hi
    · intro i P' hi
      by_cases h : i = j
      · subst h
        simp only [Function.update_self, Option.some.injEq] at hi ⊢
        subst hi
        exact ⟨rfl, .inr rfl, .inl (hI.nothing i hQj).2.2.1⟩
      · rw [Function.update_of_ne h] at hi
        simp only [Function.update_of_ne h]
        exact hI.made i P' hi
    · intro i P' bs hi hs
      by_cases h : i = j
      · subst h
        simp only at hs
        rw [(hI.nothing i hQj).2.2.2] at hs
        cases hs
      · rw [Function.update_of_ne h] at hi
        exact hI.shares i P' bs hi hs
    · intro i P' hi
      by_cases h : i = j
      · subst h; rw [hQj] at hi; cases hi
      · rw [Function.update_of_ne h]; exact hi
  | torn j P sk k st' l hj hd hk hl =>
    obtain ⟨rfl, rfl⟩ := gen_inv hC hn hg hk
    have hQj := hnone j hd
    refine ⟨⟨Q, ⟨?_, ?_, hI.shares⟩, fun _ _ h => h⟩, fun _ _ => rfl, fun _ h => h⟩
    · intro i hi
      by_cases h : i = j
      · subst h
        simp only [Function.update_self]
        exact ⟨load_torn hC n8 P gens g_i D G l hl, trivial, (hI.nothing i hi).2.2⟩
      · simp only [Function.update_of_ne h]
        exact hI.nothing i hi
    · intro i P' hi
      by_cases h : i = j
      · subst h; rw [hQj] at hi; cases hi
      · simp only [Function.update_of_ne h]
        exact hI.made i P' hi
  | publish j sk k hj hd =>
    obtain ⟨P, hQ, rfl, rfl⟩ := hsome j sk k hd
    have hkeys : ∀ i, S.keys i ≠ none → Function.update S.keys j (some ((arkPartialKey C).ser
        (keyOf n8.toNat P gens g_i D G))) i = S.keys i := by
      intro i hi
      by_cases h : i = j
      · subst h
        rw [Function.update_self]
        rcases (hI.made i P hQ).2.2 with h | h
        · exact absurd h hi
        · exact h.symm
      · rw [Function.update_of_ne h]
    refine ⟨⟨Q, ⟨?_, ?_, ?_⟩, fun _ _ h => h⟩, hkeys, fun _ h => h⟩
    · intro i hi
      by_cases h : i = j
      · subst h; rw [hQ] at hi; cases hi
      · simp only [Function.update_of_ne h]
        exact hI.nothing i hi
    · intro i P' hi
      by_cases h : i = j
      · subst h
        rw [hQ] at hi
        cases hi
        simp only [Function.update_self]
        exact ⟨(hI.made i P hQ).1, (hI.made i P hQ).2.1, .inr trivial⟩
      · simp only [Function.update_of_ne h]
        exact hI.made i P' hi
    · intro i P' bs hi hs
      obtain ⟨ks, ek, sh, h1, h2⟩ := hI.shares i P' bs hi hs
      refine ⟨ks, ek, sh, ?_, h2⟩
      rw [← h1]
      apply readAll_congr
      intro l hl
      obtain ⟨bs', hb⟩ := readAll_inv _ _ _ _ h1 l hl
      exact hkeys l (by rw [hb]; simp)
  | crash j =>
    refine ⟨⟨Q, ⟨?_, ?_, hI.shares⟩, fun _ _ h => h⟩, fun _ _ => rfl, fun _ h => h⟩
    · intro i hi
      by_cases h : i = j
      · subst h
        simp only [Function.update_self]
        exact ⟨(hI.nothing i hi).1, trivial, (hI.nothing i hi).2.2⟩
      · simp only [Function.update_of_ne h]
        exact hI.nothing i hi
    · intro i P' hi
      by_cases h : i = j
      · subst h
        simp only [Function.update_self]
        exact ⟨(hI.made i P' hi).1, .inl trivial, (hI.made i P' hi).2.2⟩
      · simp only [Function.update_of_ne h]
        exact hI.made i P' hi
  | restart j sk k hj hd =>
    obtain ⟨P, hQ, rfl, rfl⟩ := hsome j sk k hd
    refine ⟨⟨Q, ⟨?_, ?_, hI.shares⟩, fun _ _ h => h⟩, fun _ _ => rfl, fun _ h => h⟩
    · intro i hi
      by_cases h : i = j
      · subst h; rw [hQ] at hi; cases hi
      · simp only [Function.update_of_ne h]
        exact hI.nothing i hi
    · intro i P' hi
      by_cases h : i = j
      · subst h
        rw [hQ] at hi
        cases hi
        simp only [Function.update_self]
        exact ⟨(hI.made i P hQ).1, .inr trivial, (hI.made i P hQ).2.2⟩
      · simp only [Function.update_of_ne h]
        exact hI.made i P' hi
  | share j sk ks ek sh hj hm hr hc hs =>
    have hQj : ∃ P, Q j = some P ∧ sk = partySK n8.toNat P := by
      cases hQ : Q j with
      | none =>
        rw [(hI.nothing j hQ).2.1] at hm
        cases hm
      | some P =>
        rcases (hI.made j P hQ).2.1 with h | h
        · rw [h] at hm; cases hm
        · rw [h] at hm; cases hm; exact ⟨P, rfl, rfl⟩
    obtain ⟨P, hQ, rfl⟩ := hQj
    refine ⟨⟨Q, ⟨?_, ?_, ?_⟩, fun _ _ h => h⟩, fun _ _ => rfl, ?_⟩
    · intro i hi
      by_cases h : i = j
      · subst h; rw [hQ] at hi; cases hi
      · simp only [Function.update_of_ne h]
        exact hI.nothing i hi
    · exact hI.made
    · intro i P' bs hi hbs
      by_cases h : i = j
      · subst h
        rw [hQ] at hi
        cases hi
        simp only [Function.update_self, Option.some.injEq] at hbs
        exact ⟨ks, ek, sh, hr, hc, hs, hbs.symm⟩
      · simp only [Function.update_of_ne h] at hbs
        exact hI.shares i P' bs hi hbs
    · intro i hi
      by_cases h : i = j
      · subst h
        simp only [Function.update_self] at hi
        cases hi
      · simp only [Function.update_of_ne h] at hi
        exact hi


omit hC hn hg in
theorem init_inv : Inv C N n8 gens g_i D G (Sys.init : Sys E) (fun _ => none) := by
  refine ⟨fun j _ => ⟨?_, rfl, rfl, rfl⟩, fun j P h => (by cases h), fun j P bs h => (by cases h)⟩
  show load C [] = none
  rfl

theorem runs_inv {S T : Sys E} {Q : ℕ → Option (Party E)} (hI : Inv C N n8 gens g_i D G S Q)
    (h : SysRuns C N b gens g_i D G S T) :
    (∃ Q', Inv C N n8 gens g_i D G T Q' ∧ ∀ j P, Q j = some P → Q' j = some P) ∧
    (∀ j, S.keys j ≠ none → T.keys j = S.keys j) ∧ (∀ j, T.shares j = none → S.shares j = none) := by
  induction h with
  | refl => exact ⟨⟨Q, hI, fun _ _ h => h⟩, fun _ _ => rfl, fun _ h => h⟩
  | step _ hs ih =>
    obtain ⟨⟨Q', hI', hQ⟩, hk, hsh⟩ := ih
    obtain ⟨⟨Q'', hI'', hQ'⟩, hk', hsh'⟩ := step_inv hC hn hg hI' hs
    exact ⟨⟨Q'', hI'', fun j P h => hQ' j P (hQ j P h)⟩, fun j h => by rw [hk' j (by rw [hk j h]; exact h), hk j h],
      fun j h => hsh j (hsh' j h)⟩

theorem reach_inv {S : Sys E} (h : SysRuns C N b gens g_i D G Sys.init S) : ∃ Q, Inv C N n8 gens g_i D G S Q :=
  (runs_inv hC hn hg init_inv h).1.imp fun _ h => h.1

/-- if everybody has published its partial key, what one reads are the keys of the parties' stored randomness -/
theorem keys_read {S : Sys E} {Q : ℕ → Option (Party E)} (hI : Inv C N n8 gens g_i D G S Q) (P0 : Party E)
    (h : ∀ j < N, S.keys j ≠ none) : (∀ j < N, Q j = some ((Q j).getD P0)) ∧
      readAll (arkPartialKey C) S.keys N = some ((List.range N).map fun j => keyOf n8.toNat ((Q j).getD P0) gens g_i D G) := by
  have h1 : ∀ j < N, Q j = some ((Q j).getD P0) := by
    intro j hj
    cases hQ : Q j with
    | none => exact absurd (hI.nothing j hQ).2.2.1 (h j hj)
    | some P => rfl
  refine ⟨h1, readAll_some _ _ _ _ fun j hj => ?_⟩
  rcases (hI.made j _ (h1 j hj)).2.2 with h2 | h2
  · exact absurd h2 (h j hj)
  · have h3 := (C52_encryption_keys hC).2.1 _ (key_fits n8 ((Q j).getD P0) gens g_i D G) []
    rw [List.append_nil] at h3
    exact ⟨_, _, h2, h3⟩

/-- the key the parties' partial keys combine to -/
abbrev combined (n : ℕ) (ps : List (Party E)) (gens : EncryptionGens E) (g_i : List E.G1) (D G : E.G1) :
    FEncryptionKeyPartial E :=
  { X_0 := D
    X := tab n fun i => sumS ps i • D
    Y := tab n fun i => sumT n ps (i + 1) • g_i.getD i 0
    Z := tab (n + 1) fun i => sumT n ps i • gens.H
    P_2 := (1 + ∑ i ∈ Finset.range n, sumS ps i) • G }

/-- the share party `P` computes -/
abbrev shareOf (n : ℕ) (ps : List (Party E)) (gens : EncryptionGens E) (g_i : List E.G1) (D G : E.G1) (P : Party E) :
    P1share E :=
  ⟨(partySK n P).t.getD 0 0 • D + ∑ j ∈ Finset.range (combined n ps gens g_i D G).X.length,
    (partySK n P).t.getD (j + 1) 0 • (combined n ps gens g_i D G).X.getD j 0⟩

omit hC hn hg in
theorem share_eq (n : ℕ) (ps : List (Party E)) (P : Party E) :
    genP1share (combined n ps gens g_i D G) (partySK n P) = .ok (shareOf n ps gens g_i D G P) :=
  genP1share_eq (by simp [partySK])

omit hC hn hg in
theorem combine_keys (hN : 0 < N) (n : ℕ) (P : ℕ → Party E) :
    combineEKs G ((List.range N).map fun j => keyOf n (P j) gens g_i D G) =
      .ok (combined n ((List.range N).map P) gens g_i D G) := by
  have h := combine_honest ((List.range N).map P) (by simp; omega) n (fun i => g_i.getD i 0) D G gens.H
  rw [List.map_map] at h
  exact h

/-- and if everybody has published its share as well, what one reads are the shares of a run without crashes -/
theorem shares_read (hN : 0 < N) {S : Sys E} {Q : ℕ → Option (Party E)} (hI : Inv C N n8 gens g_i D G S Q) (P0 : Party E)
    (h : ∀ j < N, S.keys j ≠ none) (h' : ∀ j < N, S.shares j ≠ none) :
    readAll (arkP1share C) S.shares N = some ((List.range N).map fun j =>
      shareOf n8.toNat ((List.range N).map fun j => (Q j).getD P0) gens g_i D G ((Q j).getD P0)) := by
  obtain ⟨h1, h2⟩ := keys_read hC hn hg hI P0 h
  refine readAll_some _ _ _ _ fun j hj => ?_
  obtain ⟨bs, hb⟩ := Option.ne_none_iff_exists'.mp (h' j hj)
  obtain ⟨ks, ek, sh, e1, e2, e3, e4⟩ := hI.shares j _ bs (h1 j hj) hb
  rw [h2] at e1
  cases e1
  rw [combine_keys hN n8.toNat fun j => (Q j).getD P0] at e2
  cases e2
  rw [share_eq] at e3
  cases e3
  have h3 := (C52_shares_decryption_keys_ciphertexts hC).1.1
    (shareOf n8.toNat ((List.range N).map fun j => (Q j).getD P0) gens g_i D G ((Q j).getD P0)) trivial []
  rw [List.append_nil] at h3
  exact ⟨_, _, hb.trans (congrArg some e4), h3⟩

omit hC hn hg in
theorem final_inv {S : Sys E} {res} (h : S.finalKey C N G = some res) :
    (∀ j < N, S.keys j ≠ none) ∧ (∀ j < N, S.shares j ≠ none) := by
  unfold Sys.finalKey at h
  cases h1 : readAll (arkPartialKey C) S.keys N with
  | none => rw [h1] at h; cases h
  | some ks =>
    cases h2 : readAll (arkP1share C) S.shares N with
    | none => rw [h1, h2] at h; cases h
    | some shs =>
      constructor
      · intro j hj hh
        obtain ⟨bs, hb⟩ := readAll_inv _ _ _ _ h1 j hj
        rw [hb] at hh; cases hh
      · intro j hj hh
        obtain ⟨bs, hb⟩ := readAll_inv _ _ _ _ h2 j hj
        rw [hb] at hh; cases hh

/-- the key computed once everything is published -/
theorem final_eq (hN : 0 < N) {S : Sys E} {Q : ℕ → Option (Party E)} (hI : Inv C N n8 gens g_i D G S Q) (P0 : Party E)
    (h : ∀ j < N, S.keys j ≠ none) (h' : ∀ j < N, S.shares j ≠ none) :
    ∃ ek, S.finalKey C N G = some (.ok ek) ∧ dkg ((List.range N).map fun j => (Q j).getD P0) b gens g_i D G =
      .ok ((List.range N).map fun j => partySK n8.toNat ((Q j).getD P0), ek) := by
  unfold Sys.finalKey
  rw [(keys_read hC hn hg hI P0 h).2, shares_read hC hn hg hN hI P0 h h']
  have gen : ∀ P : ℕ → Party E, ∃ ek,
      ((do
        let ek ← combineEKs G ((List.range N).map fun j => keyOf n8.toNat (P j) gens g_i D G)
        let p1 ← combineP1share ((List.range N).map fun j =>
          shareOf n8.toNat ((List.range N).map P) gens g_i D G (P j))
        return keygenFinal ek p1 : Res (EncryptionKey E))) = .ok ek ∧
      dkg ((List.range N).map P) b gens g_i D G = .ok ((List.range N).map fun j => partySK n8.toNat (P j), ek) := by
    intro P
    refine ⟨keygenFinal (combined n8.toNat ((List.range N).map P) gens g_i D G)
      ⟨(((List.range N).map fun j => shareOf n8.toNat ((List.range N).map P) gens g_i D G (P j)).map (·.P_1)).sum⟩, ?_, ?_⟩
    rotate_left
    · unfold dkg
      rw [dkgRound1_eq _ gens g_i D G hn hg, Res.ok_bind]
      simp only [List.map_map, Function.comp_def]
      rw [combine_keys hN n8.toNat P, Res.ok_bind,
        mapRes_ok (g := fun sk : SecretKeyST E => (⟨sk.t.getD 0 0 • D +
          ∑ j ∈ Finset.range (combined n8.toNat ((List.range N).map P) gens g_i D G).X.length,
            sk.t.getD (j + 1) 0 • (combined n8.toNat ((List.range N).map P) gens g_i D G).X.getD j 0⟩ : P1share E))]
      · rw [Res.ok_bind, List.map_map, combineP1share_eq (by simp; omega), Res.ok_bind]
        simp only [List.map_map, Function.comp_def]
        rfl
      · intro sk hsk
        obtain ⟨j, _, rfl⟩ := List.mem_map.mp hsk
        exact share_eq n8.toNat _ (P j)
    · rw [combine_keys hN n8.toNat P, Res.ok_bind, combineP1share_eq (by simp; omega), Res.ok_bind]
      rfl
  obtain ⟨ek, h1, h2⟩ := gen fun j => (Q j).getD P0
  exact ⟨ek, congrArg some h1, h2⟩

/-! ### progress -/

omit hC hn hg in
theorem trans {S T U : Sys E} (h1 : SysRuns C N b gens g_i D G S T) (h2 : SysRuns C N b gens g_i D G T U) :
    SysRuns C N b gens g_i D G S U := by
  induction h2 with
  | refl => exact h1
  | step _ hs ih => exact .step ih hs

/-- everybody who has nothing stored can still generate its keys -/
theorem phase1 (S : Sys E) : ∀ m ≤ N, ∃ T, SysRuns C N b gens g_i D G S T ∧ ∀ j < m, load C (T.node j).disk ≠ none := by
  intro m
  induction m with
  | zero => exact fun _ => ⟨S, .refl S, fun j hj => by omega⟩
  | succ m ih =>
    intro hm
    obtain ⟨T, hT, h⟩ := ih (by omega)
    by_cases hl : load C (T.node m).disk = none
    · refine ⟨_, .step hT (.generate m (⟨tape E, fun _ => 0⟩ : Party E) _ _ _ (by omega) hl
        (fkeygenPartial_eq _ _ gens g_i D G hn hg)), ?_⟩
      intro j hj
      by_cases hjm : j = m
      · subst hjm
        simp only [Function.update_self]
        have := load_stored hC n8 (⟨tape E, fun _ => 0⟩ : Party E) gens g_i D G
        intro hh
        exact Option.some_ne_none _ (this.symm.trans hh)
      · simp only [Function.update_of_ne hjm]
        exact h j (by omega)
    · exact ⟨T, hT, fun j hj => by
        by_cases hjm : j = m
        · subst hjm; exact hl
        · exact h j (by omega)⟩

omit hC hn hg in
/-- everybody who has its keys stored can publish its partial key -/
theorem phase2 (S : Sys E) (h0 : ∀ j < N, load C (S.node j).disk ≠ none) : ∀ m ≤ N, ∃ T, SysRuns C N b gens g_i D G S T ∧
    (∀ j < N, load C (T.node j).disk ≠ none) ∧ ∀ j < m, T.keys j ≠ none := by
  intro m
  induction m with
  | zero => exact fun _ => ⟨S, .refl S, h0, fun j hj => by omega⟩
  | succ m ih =>
    intro hm
    obtain ⟨T, hT, h1, h2⟩ := ih (by omega)
    obtain ⟨⟨sk, k⟩, hl⟩ := Option.ne_none_iff_exists'.mp (h1 m (by omega))
    refine ⟨_, .step hT (.publish m sk k (by omega) hl), h1, ?_⟩
    intro j hj
    by_cases hjm : j = m
    · subst hjm
      simp only [Function.update_self]
      exact Option.some_ne_none _
    · simp only [Function.update_of_ne hjm]
      exact h2 j (by omega)

/-- and everybody can then load its secrets again and publish its share -/
theorem phase3 (S : Sys E) (Q : ℕ → Option (Party E)) (hI : Inv C N n8 gens g_i D G S Q)
    (h0 : ∀ j < N, S.keys j ≠ none) : ∀ m ≤ N, ∃ T, SysRuns C N b gens g_i D G S T ∧
    (∀ j < N, T.keys j ≠ none) ∧ ∀ j < m, T.shares j ≠ none := by
  intro m
  induction m with
  | zero => exact fun _ => ⟨S, .refl S, h0, fun j hj => by omega⟩
  | succ m ih =>
    intro hm
    obtain ⟨T, hT, h1, h2⟩ := ih (by omega)
    obtain ⟨⟨Q', hI', -⟩, -, -⟩ := runs_inv hC hn hg hI hT
    obtain ⟨e1, e2⟩ := keys_read hC hn hg hI' (⟨tape E, fun _ => 0⟩ : Party E) h1
    have e3 := (hI'.made m _ (e1 m (by omega))).1
    have e4 := load_stored hC n8 ((Q' m).getD (⟨tape E, fun _ => 0⟩ : Party E)) gens g_i D G
    rw [← e3] at e4
    have s1 := SysStep.restart (b := b) (gens := gens) (g_i := g_i) (delta_g := D) (gamma_g := G) m _ _
      (show m < N by omega) e4
    have hmem : (Function.update T.node m ⟨(T.node m).disk,
        some (partySK n8.toNat ((Q' m).getD (⟨tape E, fun _ => 0⟩ : Party E)))⟩ m).mem =
        some (partySK n8.toNat ((Q' m).getD (⟨tape E, fun _ => 0⟩ : Party E))) := by
      rw [Function.update_self]
    refine ⟨_, .step (.step hT s1) (.share m _ _ _ _ (by omega) hmem e2
      (combine_keys (by omega) n8.toNat fun j => (Q' j).getD (⟨tape E, fun _ => 0⟩ : Party E)) (share_eq _ _ _)), h1, ?_⟩
    intro j hj
    by_cases hjm : j = m
    · subst hjm
      simp only [Function.update_self]
      exact Option.some_ne_none _
    · simp only [Function.update_of_ne hjm]
      exact h2 j (by omega)

end
end Rst
open Rst

/-- **C107** (every history): whatever the parties have done, in whatever order, and wherever they crashed, as soon as
something is published by everybody the key anybody computes is that of a run without crashes — in which every party has
the secret key that is in its storage. -/
theorem C107_every_history {C : Codecs E} (hC : LawfulCodecs C) (N : ℕ) (hN : 0 < N) (b n : UInt8)
    (hn : chunksCount E.fr b = .ok n) (gens : EncryptionGens E) (g_i : List E.G1) (hg : n.toNat ≤ g_i.length) (D G : E.G1)
    (S : Sys E) (hS : SysRuns C N b gens g_i D G Sys.init S) (res : Res (EncryptionKey E))
    (hf : S.finalKey C N G = some res) :
    ∃ (P : ℕ → Party E) (sks : List (SecretKeyST E)) (ek : EncryptionKey E), res = .ok ek ∧
      dkg ((List.range N).map P) b gens g_i D G = .ok (sks, ek) ∧
      ∀ j < N, ∃ sk k, sks[j]? = some sk ∧ load C (S.node j).disk = some (sk, k) := by
  obtain ⟨Q, hI⟩ := reach_inv hC hn hg hS
  obtain ⟨h1, h2⟩ := final_inv hf
  obtain ⟨ek, e1, e2⟩ := final_eq hC hn hg hN hI (⟨tape E, fun _ => 0⟩ : Party E) h1 h2
  rw [hf] at e1
  cases e1
  refine ⟨_, _, ek, rfl, e2, ?_⟩
  intro j hj
  have hQ := (keys_read hC hn hg hI (⟨tape E, fun _ => 0⟩ : Party E) h1).1 j hj
  refine ⟨_, keyOf n.toNat ((Q j).getD (⟨tape E, fun _ => 0⟩ : Party E)) gens g_i D G, by
    rw [List.getElem?_map, List.getElem?_range hj]; rfl, ?_⟩
  exact (congrArg (load C) (hI.made j _ hQ).1).trans (load_stored hC n _ gens g_i D G)

/-- **C107** (agreement): once somebody has computed the key, everybody computes the same one, whatever happens
afterwards. -/
theorem C107_agreement {C : Codecs E} (hC : LawfulCodecs C) (N : ℕ) (hN : 0 < N) (b n : UInt8)
    (hn : chunksCount E.fr b = .ok n) (gens : EncryptionGens E) (g_i : List E.G1) (hg : n.toNat ≤ g_i.length) (D G : E.G1)
    (S T : Sys E) (hS : SysRuns C N b gens g_i D G Sys.init S) (hT : SysRuns C N b gens g_i D G S T)
    (res : Res (EncryptionKey E)) (hf : S.finalKey C N G = some res) : T.finalKey C N G = some res := by
  obtain ⟨Q, hI⟩ := reach_inv hC hn hg hS
  obtain ⟨⟨Q', hI', hQ⟩, hk, hs⟩ := runs_inv hC hn hg hI hT
  obtain ⟨h1, h2⟩ := final_inv hf
  obtain ⟨ek, e1, e2⟩ := final_eq hC hn hg hN hI (⟨tape E, fun _ => 0⟩ : Party E) h1 h2
  obtain ⟨ek', e1', e2'⟩ := final_eq hC hn hg hN hI' (⟨tape E, fun _ => 0⟩ : Party E)
    (fun j hj => by rw [hk j (h1 j hj)]; exact h1 j hj) (fun j hj h => h2 j hj (hs j h))
  have hQQ : ((List.range N).map fun j => (Q' j).getD (⟨tape E, fun _ => 0⟩ : Party E)) =
      (List.range N).map fun j => (Q j).getD (⟨tape E, fun _ => 0⟩ : Party E) := by
    apply List.map_congr_left
    intro j hj
    have := (keys_read hC hn hg hI (⟨tape E, fun _ => 0⟩ : Party E) h1).1 j (List.mem_range.mp hj)
    rw [hQ j _ this]
    rfl
  rw [hQQ, e2] at e2'
  obtain rfl := (Prod.mk.inj (Res.ok.inj e2')).2
  rw [hf] at e1
  cases e1
  exact e1'

/-- **C107** (durability): what a party has once stored completely stays in its storage, and what it has published
stays published. -/
theorem C107_durable {C : Codecs E} (hC : LawfulCodecs C) (N : ℕ) (b n : UInt8)
    (hn : chunksCount E.fr b = .ok n) (gens : EncryptionGens E) (g_i : List E.G1) (hg : n.toNat ≤ g_i.length) (D G : E.G1)
    (S T : Sys E) (hS : SysRuns C N b gens g_i D G Sys.init S) (hT : SysRuns C N b gens g_i D G S T) (j : ℕ) :
    (∀ x, load C (S.node j).disk = some x → load C (T.node j).disk = some x) ∧
    (∀ bs, S.keys j = some bs → T.keys j = some bs) ∧ (∀ bs, S.shares j = some bs → T.shares j = some bs) := by
  obtain ⟨Q, hI⟩ := reach_inv hC hn hg hS
  obtain ⟨⟨Q', hI', hQ⟩, hk, hs⟩ := runs_inv hC hn hg hI hT
  have hkeys : ∀ j bs, S.keys j = some bs → T.keys j = some bs := fun j bs h => by rw [hk j (by rw [h]; simp), h]
  refine ⟨fun x hx => ?_, hkeys j, fun bs hbs => ?_⟩
  · cases hQj : Q j with
    | none => rw [(hI.nothing j hQj).1] at hx; cases hx
    | some P =>
      rw [(hI.made j P hQj).1] at hx
      rw [(hI'.made j P (hQ j P hQj)).1]
      exact hx
  · cases hQj : Q j with
    | none => rw [(hI.nothing j hQj).2.2.2] at hbs; cases hbs
    | some P =>
      obtain ⟨bs', hb'⟩ := Option.ne_none_iff_exists'.mp fun h => by
        have := hs j h; rw [hbs] at this; cases this
      obtain ⟨ks, ek, sh, a1, a2, a3, a4⟩ := hI.shares j P bs hQj hbs
      obtain ⟨ks', ek', sh', b1, b2, b3, b4⟩ := hI'.shares j P bs' (hQ j P hQj) hb'
      have : readAll (arkPartialKey C) T.keys N = readAll (arkPartialKey C) S.keys N := readAll_congr _ _ _ _ fun i hi => by
        obtain ⟨x, hx⟩ := readAll_inv _ _ _ _ a1 i hi
        rw [hx, hkeys i x hx]
      rw [this, a1] at b1
      cases b1
      rw [a2] at b2
      cases b2
      rw [a3] at b3
      cases b3
      rw [hb', b4, a4]

/-- **C107** (no deadlock): from whatever has happened, the parties can still finish. -/
theorem C107_no_deadlock {C : Codecs E} (hC : LawfulCodecs C) (N : ℕ) (hN : 0 < N) (b n : UInt8)
    (hn : chunksCount E.fr b = .ok n) (gens : EncryptionGens E) (g_i : List E.G1) (hg : n.toNat ≤ g_i.length) (D G : E.G1)
    (S : Sys E) (hS : SysRuns C N b gens g_i D G Sys.init S) :
    ∃ T ek, SysRuns C N b gens g_i D G S T ∧ T.finalKey C N G = some (.ok ek) := by
  obtain ⟨Q, hI⟩ := reach_inv hC hn hg hS
  obtain ⟨T1, r1, h1⟩ := phase1 hC hn hg (b := b) (gens := gens) (g_i := g_i) (D := D) (G := G) S N le_rfl
  obtain ⟨T2, r2, -, h2⟩ := phase2 (b := b) (gens := gens) (g_i := g_i) (D := D) (G := G) T1 h1 N le_rfl
  obtain ⟨⟨Q2, hI2, -⟩, -, -⟩ := runs_inv hC hn hg hI (Rst.trans r1 r2)
  obtain ⟨T3, r3, h3, h4⟩ := phase3 hC hn hg T2 Q2 hI2 h2 N le_rfl
  obtain ⟨⟨Q3, hI3, -⟩, -, -⟩ := runs_inv hC hn hg hI2 r3
  obtain ⟨ek, e1, -⟩ := final_eq hC hn hg hN hI3 (⟨tape E, fun _ => 0⟩ : Party E) h3 h4
  exact ⟨T3, ek, Rst.trans (Rst.trans r1 r2) r3, e1⟩

/-! ### concrete cases -/

theorem Rst.crashing_history {C : Codecs E} (hC : LawfulCodecs C) (N : ℕ) (hN : 0 < N) (b n : UInt8)
    (hn : chunksCount E.fr b = .ok n) (gens : EncryptionGens E) (g_i : List E.G1) (hg : n.toNat ≤ g_i.length) (D G : E.G1)
    (P Q : Party E) : ∃ S, SysRuns C N b gens g_i D G Sys.init S ∧
      load C (S.node 0).disk = some (partySK n.toNat Q, Rst.keyOf n.toNat Q gens g_i D G) ∧ (S.node 0).mem = none ∧
      ∀ j, S.shares j = none := by
  have hload := fun X : Party E => Rst.load_stored hC n X gens g_i D G
  have hk := fun X : Party E => fkeygenPartial_eq X.1 X.2 gens g_i D G hn hg
  have hpos : 0 < (stored C (partySK n.toNat P) (Rst.keyOf n.toNat P gens g_i D G)).length := by
    rcases Nat.eq_zero_or_pos (stored C (partySK n.toNat P) (Rst.keyOf n.toNat P gens g_i D G)).length with h | h
    · have := hload P
      rw [List.length_eq_zero_iff.mp h] at this
      cases this
    · exact h
  have s1 := SysStep.torn (C := C) (N := N) (S := (Sys.init : Sys E)) 0 P _ _ _
    ((stored C (partySK n.toNat P) (Rst.keyOf n.toNat P gens g_i D G)).length - 1) hN rfl (hk P)
    (show _ < (stored C (partySK n.toNat P) (Rst.keyOf n.toNat P gens g_i D G)).length by omega)
  have s2 := SysRuns.step (SysRuns.step (SysRuns.refl _) s1) (SysStep.generate 0 Q _ _ _ hN
    (by dsimp only; rw [Function.update_self]; exact Rst.load_torn hC n P gens g_i D G _ (by omega)) (hk Q))
  have s3 := SysRuns.step s2 (SysStep.publish 0 (partySK n.toNat Q) (Rst.keyOf n.toNat Q gens g_i D G) hN
    (by dsimp only; rw [Function.update_self]; exact hload Q))
  have s4 := SysRuns.step s3 (SysStep.crash 0)
  refine ⟨_, s4, ?_, ?_, fun _ => rfl⟩
  · dsimp only
    rw [Function.update_self, Function.update_self]
    exact hload Q
  · dsimp only
    rw [Function.update_self]

/-- Non-vacuity, and a history with crashes: party 0 of two crashes while storing what it generated from `P`, generates again
from `Q`, publishes the key of `Q` and crashes. Nobody has computed a key yet; the parties can still finish, and the key is
that of a run without crashes in which party 0 has the secret key generated from `Q`. -/
example (P Q : Party Fix.E) :
    ∃ S T ek, SysRuns (scalarCodecs goldFr) 2 16 Fix.gens Fix.gi Fix.D Fix.C Sys.init S ∧
      (S.node 0).mem = none ∧ S.finalKey (scalarCodecs goldFr) 2 Fix.C = none ∧
      SysRuns (scalarCodecs goldFr) 2 16 Fix.gens Fix.gi Fix.D Fix.C S T ∧
      T.finalKey (scalarCodecs goldFr) 2 Fix.C = some (.ok ek) ∧
      ∃ (R : ℕ → Party Fix.E) (sks : List (SecretKeyST Fix.E)),
        dkg ((List.range 2).map R) 16 Fix.gens Fix.gi Fix.D Fix.C = .ok (sks, ek) ∧
        sks[0]? = some (partySK (4 : UInt8).toNat Q) := by
  have hC := scalarCodecs_lawful goldFr
  have hg : (4 : UInt8).toNat ≤ Fix.gi.length := by decide +kernel
  obtain ⟨S, h1, h2, h3, h4⟩ := Rst.crashing_history hC 2 (by omega) 16 4 Fix.count Fix.gens Fix.gi hg Fix.D Fix.C P Q
  obtain ⟨T, ek, h5, h6⟩ := C107_no_deadlock hC 2 (by omega) 16 4 Fix.count Fix.gens Fix.gi hg Fix.D Fix.C S h1
  have h7 := (C107_durable hC 2 16 4 Fix.count Fix.gens Fix.gi hg Fix.D Fix.C S T h1 h5 0).1 _ h2
  obtain ⟨R, sks, ek', e1, e2, e3⟩ := C107_every_history hC 2 (by omega) 16 4 Fix.count Fix.gens Fix.gi hg Fix.D Fix.C T
    (Rst.trans h1 h5) _ h6
  cases e1
  obtain ⟨sk, k, e4, e5⟩ := e3 0 (by omega)
  rw [h7] at e5
  cases e5
  refine ⟨S, T, ek, h1, h3, ?_, h5, h6, R, sks, e2, e4⟩
  cases hf : S.finalKey (scalarCodecs goldFr) 2 Fix.C with
  | none => rfl
  | some res => exact absurd (h4 0) ((Rst.final_inv hf).2 0 (by omega))

/-- The order matters: a party that publishes its partial key without having stored its secrets, crashes, generates new
ones (as "party 2") and computes its share from those, is noticed: all encryptions under the resulting key fail
verification, except with negligible probability. -/
example : {g : Fin (3 * (2 * (4 : UInt8).toNat + 1)) → Fix.E.Fr | ∃ ek,
    dkgAsDelivered ([0, 1].map (partyAt Fix.E g (2 * (4 : UInt8).toNat + 1)))
      ([(2, [0, 1]), (1, [0, 1])].map fun S => (partyAt Fix.E g (2 * (4 : UInt8).toNat + 1) S.1,
        S.2.map (partyAt Fix.E g (2 * (4 : UInt8).toNat + 1)))) 16 Fix.gens Fix.gi Fix.D Fix.C = .ok ek ∧
      SomeEncryptionPasses ek Fix.gens Fix.gi}.ncard ≤ 2 * Fix.E.fr.p ^ (3 * (2 * (4 : UInt8).toNat + 1) - 1) :=
  C105_faults_noticed (E := Fix.E) 16 4 Fix.count (by decide) Fix.gens Fix.gens_ne.2 Fix.gi (by decide +kernel) Fix.D Fix.C
    (by exact (by decide +kernel : Fix.D ≠ 0)) 3 [0, 1] [(2, [0, 1]), (1, [0, 1])] (by decide) (by decide) (by decide)
    (by exact (by decide +kernel : 2 < goldR)) (by exact (by decide +kernel : 2 < goldR)) (by
      intro S hS
      have : S.2.length = 2 := by
        rcases List.mem_cons.mp hS with rfl | hS
        · rfl
        · rw [List.mem_singleton.mp hS]
          rfl
      rw [this]
      exact (by decide +kernel : 2 < goldR)) (by
      rintro ⟨h, -⟩
      exact absurd (h.mem_iff (a := 2)) (by decide))

end Verif
