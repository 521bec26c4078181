/-
Property C109: a poll with dishonest users, and crashes.
-/
import Verif.Model.OpenPoll
import Verif.SpecPoll
import Verif.Props.Poll

namespace Verif
open Spec

variable {E : Engine}

namespace OPoll
open Poll' (TallyFits tally_faithful share_faithful facts)

theorem slices_of_length {n : ℕ} {v : List E.G1} (h : v.length = n + 2) :
    slices n v = .ok (v.getD 0 0, tab n fun i => v.getD (i + 1) 0) := by
  cases v with
  | nil => simp at h
  | cons a vs =>
    simp only [List.length_cons] at h
    unfold slices
    dsimp only
    rw [if_neg (by omega)]
    congr 2
    apply List.ext_getElem?
    intro i
    rw [getElem?_tab, List.getElem?_take]
    by_cases hi : i < n
    · rw [if_pos hi, if_pos hi, List.getD_cons_succ, List.getD_eq_getElem?_getD, List.getElem?_eq_getElem (by omega)]
      rfl
    · rw [if_neg hi, if_neg hi]

/-- a vector of length `n + 2` is a ciphertext -/
theorem flat_of_length {n : ℕ} {v : List E.G1} (h : v.length = n + 2) :
    ∃ ct : Ciphertext E, v = flat ct ∧ ct.enc_chunks.length = n := by
  cases v with
  | nil => simp at h
  | cons a vs =>
    simp only [List.length_cons] at h
    have hne : vs ≠ [] := by rintro rfl; simp at h
    refine ⟨⟨a, vs.dropLast, vs.getLast hne⟩, ?_, by simp; omega⟩
    simp [flat, List.dropLast_append_getLast]

theorem flat_get {ct : Ciphertext E} (i : ℕ) (hi : i < ct.enc_chunks.length) :
    (flat ct).getD (i + 1) 0 = ct.enc_chunks.getD i 0 := by
  simp [flat, List.getD_eq_getElem?_getD, List.getElem?_append, hi]

theorem flat_get_zero (ct : Ciphertext E) : (flat ct).getD 0 0 = ct.X_r := rfl

theorem check_flat {K : PollCfg E} {ct : Ciphertext E} (h : ct.enc_chunks.length = K.ek.X.length) :
    checkBallot K (flat ct) = ct.verifyCommitment K.ek.prepare K.gens.prepare := by
  have hl : (flat ct).length = K.ek.X.length + 2 := by simp [flat, h]
  unfold checkBallot
  rw [slices_of_length hl, idx_ok 0 (by omega)]
  simp only [Res.ok_bind]
  have h1 : (tab K.ek.X.length fun i => (flat ct).getD (i + 1) 0) = ct.enc_chunks := by
    rw [eq_tab h 0]
    apply tab_congr
    intro i hi
    rw [flat_get i (by omega)]
  have h2 : (flat ct).getD (K.ek.X.length + 1) 0 = ct.commitment := by
    simp [flat, List.getD_eq_getElem?_getD, ← h]
  rw [h1, h2, flat_get_zero]
  rfl

theorem acceptable_inv {K : PollCfg E} {bs v} (h : Acceptable K bs v) : ∃ ct : Ciphertext E, v = flat ct ∧
    ct.enc_chunks.length = K.ek.X.length ∧ ct.verifyCommitment K.ek.prepare K.gens.prepare = .ok () := by
  obtain ⟨-, h1, h2⟩ := h
  obtain ⟨ct, rfl, h3⟩ := flat_of_length h1
  exact ⟨ct, rfl, h3, by rw [← check_flat h3]; exact h2⟩

theorem trans {K : PollCfg E} {bad} {S T U : Poll} (h : OpenRuns K bad S T) (h' : OpenRuns K bad T U) :
    OpenRuns K bad S U := by
  induction h' with
  | refl => exact h
  | step _ hs ih => exact .step ih hs

/-- at some point this ciphertext was user `j`'s ballot on the board -/
def OnBoard (K : PollCfg E) (S : Poll) (j : ℕ) (ct : Ciphertext E) : Prop :=
  ∃ bs rest, (j, bs) ∈ S.posted ∧ (arkVec K.codecs.g1).de bs = some (flat ct, rest)

/-- what `x` is the tally of -/
def TallyOf (K : PollCfg E) (bad : ℕ → Prop) (S : Poll) (cnt : List (ℕ × Ciphertext E))
    (x : List ℕ × List E.G1) : Prop :=
  cnt ≠ [] ∧ cnt.map (·.1) = x.1 ∧ x.1.Nodup ∧ (∀ p ∈ cnt, p.1 < K.users ∧ p.2.enc_chunks.length = K.ek.X.length ∧
    (p.2.verifyCommitment K.ek.prepare K.gens.prepare = .ok () ∧ OnBoard K S p.1 p.2) ∧
    (¬ bad p.1 → ∃ chunks r, (p.1, chunks) ∈ S.cast ∧ p.2 = cipher K.ek (fun i => K.g_i.getD i 0)
      (fun i => (nums chunks).getD i 0) r)) ∧
  x.2.length = K.ek.X.length + 2 ∧ ∀ i, x.2.getD i 0 = (cnt.map fun p => (flat p.2).getD i 0).sum

theorem TallyOf.mono {K : PollCfg E} {bad S T cnt x} (h : TallyOf K bad S cnt x) (hc : ∀ v ∈ S.cast, v ∈ T.cast)
    (hr : ∀ v ∈ S.posted, v ∈ T.posted) : TallyOf K bad T cnt x := by
  obtain ⟨h1, h2, h3, h4, h5⟩ := h
  refine ⟨h1, h2, h3, fun p hp => ?_, h5⟩
  obtain ⟨a1, a2, ⟨a3, bs, rest, b1, b2⟩, a4⟩ := h4 p hp
  refine ⟨a1, a2, ⟨a3, bs, rest, hr _ b1, b2⟩, fun hb => ?_⟩
  obtain ⟨ch, r, b1, b2⟩ := a4 hb
  exact ⟨ch, r, hc _ b1, b2⟩

/-- what holds in all reachable states -/
structure Inv (K : PollCfg E) (bad : ℕ → Prop) (S : Poll) : Prop where
  posted : ∀ j bs, S.ballots j = some bs → (j, bs) ∈ S.posted
  cast : ∀ v ∈ S.cast, ¬ bad v.1 ∧ S.ballots v.1 ≠ none
  ballots : ∀ j bs, S.ballots j = some bs → j < K.users ∧ (¬ bad j → ∃ chunks r, (j, chunks) ∈ S.cast ∧
    bs = (arkVec K.codecs.g1).ser (flat (cipher K.ek (fun i => K.g_i.getD i 0) (fun i => (nums chunks).getD i 0) r)))
  store : ∀ x rest, (arkTally K.codecs).de S.store = some (x, rest) → S.store = (arkTally K.codecs).ser x ∧
    ∃ cnt, TallyOf K bad S cnt x
  total : ∀ bs, S.total = some bs → ∃ x cnt, bs = (arkTally K.codecs).ser x ∧ TallyOf K bad S cnt x
  shares : ∀ j bs, S.shares j = some bs → ∃ x sk c_0 c sh, ∃ (P : Party E) (st' : P.1.σ),
    (∃ cnt, TallyOf K bad S cnt x) ∧ S.total = some ((arkTally K.codecs).ser x) ∧ K.sks[j]? = some sk ∧
    slices K.ek.X.length x.2 = .ok (c_0, c) ∧
    reEncryptShare P.1 P.2 K.gens c_0 c K.ekd sk = .ok (sh, st') ∧ bs = (arkShare K.codecs).ser sh

section
variable {K : PollCfg E} {bad : ℕ → Prop} (hC : LawfulCodecs K.codecs) (hU : K.users < 2 ^ 64) (hw : WellFormed K.ek)
  (hX : K.ek.X.length < 256) (hg : K.ek.X.length ≤ K.g_i.length)

include hU hX in
theorem tally_fits {S₀ cnt x} (h : TallyOf K bad S₀ cnt x) : TallyFits x := by
  obtain ⟨h1, h2, h3, h4, h5, h7⟩ := h
  have h6 : ∀ j ∈ x.1, j < K.users := by
    intro j hj
    rw [← h2] at hj
    obtain ⟨v, hv, rfl⟩ := List.mem_map.mp hj
    exact (h4 v hv).1
  refine ⟨?_, fun j hj => (h6 j hj).trans hU, by unfold Fits; omega⟩
  have := (List.Nodup.subperm h3 (l₂ := List.range K.users) fun j hj => List.mem_range.mpr (h6 j hj)).length_le
  rw [List.length_range] at this
  exact this.trans_lt hU

include hC hU hX in
theorem tally_de {S₀ cnt x} (h : TallyOf K bad S₀ cnt x) :
    (arkTally K.codecs).de ((arkTally K.codecs).ser x) = some (x, []) := by
  have := (tally_faithful hC).1 x (tally_fits hU hX h) []
  rwa [List.append_nil] at this

theorem init_inv : Inv K bad Poll.init := by
  refine ⟨fun j bs h => (by cases h), fun v hv => (by cases hv), fun j bs h => (by cases h), fun x rest h => ?_, fun bs h => (by cases h),
    fun j bs h => (by cases h)⟩
  exfalso
  have : (arkTally K.codecs).de [] = none := rfl
  exact Option.some_ne_none _ (h.symm.trans this)

include hC hX in
theorem ballot_read {S : Poll} (hI : Inv K bad S) {j bs v} (hb : S.ballots j = some bs)
    (hv : Acceptable K bs v) : ∃ ct : Ciphertext E, v = flat ct ∧ TallyOf K bad S [(j, ct)] ([j], v) := by
  obtain ⟨ct, rfl, h2, h3⟩ := acceptable_inv hv
  refine ⟨ct, rfl, by simp, rfl, by simp, ?_, by simp [flat, h2], by simp⟩
  intro p hp
  rw [List.mem_singleton.mp hp]
  obtain ⟨h4, h5⟩ := hI.ballots j bs hb
  refine ⟨h4, h2, ⟨h3, bs, hv.1.choose, hI.posted j bs hb, hv.1.choose_spec⟩, fun hj => ?_⟩
  obtain ⟨chunks, r, h6, rfl⟩ := h5 hj
  refine ⟨chunks, r, h6, ?_⟩
  obtain ⟨⟨rest, h7⟩, -⟩ := hv
  have := arkVec_roundtrip hC.g1 _ (Poll'.flat_fits hX (fun i => (nums chunks).getD i 0) r) []
  rw [List.append_nil, h7] at this
  exact flat_inj (Prod.mk.inj (Option.some.inj this)).1

include hC hX in
theorem next_inv {S : Poll} (hI : Inv K bad S) {j bs v x} (hb : S.ballots j = some bs)
    (hv : Acceptable K bs v) (hn : nextTally K.codecs S.store j v = some (.ok x)) :
    ∃ cnt, TallyOf K bad S cnt x := by
  obtain ⟨ct, hvc, ht⟩ := ballot_read hC hX hI hb hv
  unfold nextTally at hn
  cases hd : (arkTally K.codecs).de S.store with
  | none =>
    rw [hd] at hn
    cases hn
    exact ⟨_, ht⟩
  | some y =>
    obtain ⟨⟨done, sum⟩, rest'⟩ := y
    rw [hd] at hn
    dsimp only at hn
    obtain ⟨-, cnt, a1, a2, a3, a4, a5, a6⟩ := hI.store _ _ hd
    dsimp only at a2 a3 a5 a6
    obtain ⟨-, -, -, b4, b5, b6⟩ := ht
    dsimp only at b5 b6
    by_cases hj : j ∈ done
    · rw [if_pos hj] at hn
      cases hn
    · rw [if_neg hj, addCts_eq_addInto, addInto_eq (by omega)] at hn
      cases hn
      refine ⟨(j, ct) :: cnt, by simp, by simp [a2], List.nodup_cons.mpr ⟨hj, a3⟩, ?_, by simp [a5], ?_⟩
      · intro p hp
        rcases List.mem_cons.mp hp with rfl | hp
        · exact b4 _ (by simp)
        · exact a4 p hp
      · intro i
        dsimp only
        rw [List.map_cons, List.sum_cons, ← a6, getD_tab]
        by_cases hi : i < sum.length
        · rw [if_pos hi, add_comm, hvc]
        · rw [if_neg hi, ← hvc, List.getD_eq_default _ _ (by omega), List.getD_eq_default _ _ (by omega), add_zero]

/-- what a step preserves -/
def Later (S T : Poll) : Prop :=
  ((∀ v ∈ S.cast, v ∈ T.cast) ∧ ∀ v ∈ S.posted, v ∈ T.posted) ∧ (∀ bs, S.total = some bs → T.total = some bs) ∧
  (∀ j, T.shares j = none → S.shares j = none)

include hC hU hw hX hg in
theorem step_inv {S T : Poll} (hI : Inv K bad S) (h : OpenStep K bad S T) : Inv K bad T ∧ Later S T := by
  have hrun : ∀ v ∈ S.posted, v ∈ T.posted := by
    cases h with
    | vote => exact fun v hv => List.mem_cons_of_mem _ hv
    | post => exact fun v hv => List.mem_cons_of_mem _ hv
    | _ => exact fun v hv => hv
  have hreach : ∀ j bs, T.ballots j = some bs → (j, bs) ∈ T.posted := by
    cases h with
    | vote i P chunks v =>
      intro j bs hb
      dsimp only at hb ⊢
      by_cases h : j = i
      · subst h
        rw [Function.update_self] at hb
        rw [← Option.some.inj hb]
        exact List.mem_cons_self
      · rw [Function.update_of_ne h] at hb
        exact List.mem_cons_of_mem _ (hI.posted j bs hb)
    | post i =>
      intro j bs hb
      dsimp only at hb ⊢
      by_cases h : j = i
      · subst h
        rw [Function.update_self] at hb
        rw [← Option.some.inj hb]
        exact List.mem_cons_self
      · rw [Function.update_of_ne h] at hb
        exact List.mem_cons_of_mem _ (hI.posted j bs hb)
    | _ => exact hI.posted
  have hc : ∀ v ∈ S.cast, v ∈ T.cast := by
    cases h with
    | vote => exact fun v hv => List.mem_cons_of_mem _ hv
    | _ => exact fun v hv => hv
  have hstore : ∀ x rest, (arkTally K.codecs).de S.store = some (x, rest) → S.store = (arkTally K.codecs).ser x ∧
      ∃ cnt, TallyOf K bad T cnt x := by
    intro x rest hx
    obtain ⟨h1, cnt, h2⟩ := hI.store x rest hx
    exact ⟨h1, cnt, h2.mono hc hrun⟩
  have htotal : ∀ bs, S.total = some bs → ∃ x cnt, bs = (arkTally K.codecs).ser x ∧ TallyOf K bad T cnt x := by
    intro bs hbs
    obtain ⟨x, cnt, h1, h2⟩ := hI.total bs hbs
    exact ⟨x, cnt, h1, h2.mono hc hrun⟩
  have hshares : ∀ j bs, S.shares j = some bs → ∃ x sk c_0 c sh, ∃ (P : Party E) (st' : P.1.σ),
      (∃ cnt, TallyOf K bad T cnt x) ∧ S.total = some ((arkTally K.codecs).ser x) ∧ K.sks[j]? = some sk ∧
      slices K.ek.X.length x.2 = .ok (c_0, c) ∧
      reEncryptShare P.1 P.2 K.gens c_0 c K.ekd sk = .ok (sh, st') ∧ bs = (arkShare K.codecs).ser sh := by
    intro i bs hs
    obtain ⟨x, sk, c_0, c, sh, P, st', ⟨cnt, h1⟩, h2⟩ := hI.shares i bs hs
    exact ⟨x, sk, c_0, c, sh, P, st', ⟨cnt, h1.mono hc hrun⟩, h2⟩
  cases h with
  | vote j P chunks v r st' hj hnb he =>
    have hlen : chunks.length = K.ek.X.length := (encryptDecomposed_inv he).2.2.1
    rw [encryptDecomposed_ok P.1 P.2 chunks K.ek K.g_i hw hX hlen hg] at he
    cases he
    refine ⟨⟨hreach, ?_, ?_, hstore, htotal, hshares⟩, ⟨⟨hc, hrun⟩, fun _ h => h, fun _ h => h⟩⟩
    · intro u hu
      by_cases h : u.1 = j
      · dsimp only
        rw [h, Function.update_self]
        exact ⟨hnb, Option.some_ne_none _⟩
      · dsimp only
        rw [Function.update_of_ne h]
        rcases List.mem_cons.mp hu with rfl | hu
        · exact absurd rfl h
        · exact hI.cast u hu
    · intro i bs hb
      by_cases h : i = j
      · subst h
        dsimp only at hb
        rw [Function.update_self] at hb
        cases hb
        exact ⟨hj, fun _ => ⟨chunks, _, List.mem_cons_self, rfl⟩⟩
      · dsimp only at hb
        rw [Function.update_of_ne h] at hb
        obtain ⟨h1, h2⟩ := hI.ballots i bs hb
        refine ⟨h1, fun hn => ?_⟩
        obtain ⟨ch, r, h2, h3⟩ := h2 hn
        exact ⟨ch, r, List.mem_cons_of_mem _ h2, h3⟩
  | post j bs hj hbad =>
    refine ⟨⟨hreach, ?_, ?_, hstore, htotal, hshares⟩, ⟨⟨hc, hrun⟩, fun _ h => h, fun _ h => h⟩⟩
    · intro u hu
      obtain ⟨h1, h2⟩ := hI.cast u hu
      refine ⟨h1, ?_⟩
      dsimp only
      rw [Function.update_of_ne (by rintro rfl; exact h1 hbad)]
      exact h2
    · intro i bs' hb
      by_cases h : i = j
      · subst h
        exact ⟨hj, fun hn => absurd hbad hn⟩
      · dsimp only at hb
        rw [Function.update_of_ne h] at hb
        exact hI.ballots i bs' hb
  | count j bs v x hb hv hn =>
    obtain ⟨cnt, h1⟩ := next_inv hC hX hI hb hv hn
    have h1' := h1.mono hc hrun
    refine ⟨⟨hreach, hI.cast, hI.ballots, ?_, htotal, hshares⟩, ⟨⟨hc, hrun⟩, fun _ h => h, fun _ h => h⟩⟩
    intro y rest' hy
    dsimp only at hy
    rw [tally_de hC hU hX h1] at hy
    cases hy
    exact ⟨rfl, cnt, h1'⟩
  | torn j bs v x l hb hv hn hl =>
    obtain ⟨cnt, h1⟩ := next_inv hC hX hI hb hv hn
    have h1' := h1.mono hc hrun
    refine ⟨⟨hreach, hI.cast, hI.ballots, ?_, htotal, hshares⟩, ⟨⟨hc, hrun⟩, fun _ h => h, fun _ h => h⟩⟩
    intro y rest' hy
    dsimp only at hy
    rw [(tally_faithful hC).2.1 x (tally_fits hU hX h1) l hl] at hy
    cases hy
  | close x rest hn hd =>
    refine ⟨⟨hreach, hI.cast, hI.ballots, hstore, ?_, ?_⟩, ⟨⟨hc, hrun⟩, fun bs h => ?_, fun _ h => h⟩⟩
    · intro bs hbs
      cases hbs
      obtain ⟨h1, cnt, h2⟩ := hstore x rest hd
      exact ⟨x, cnt, h1, h2⟩
    · intro j bs hs
      obtain ⟨x, sk, c_0, c, sh, P, st', -, h1, h2⟩ := hI.shares j bs hs
      rw [hn] at h1
      cases h1
    · rw [hn] at h
      cases h
  | share j sk P bs rest x c_0 c sh st' hsk ht hd hsl hsh =>
    refine ⟨⟨hreach, hI.cast, hI.ballots, hstore, htotal, ?_⟩, ⟨⟨hc, hrun⟩, fun _ h => h, fun i h => ?_⟩⟩
    · intro i bs' hs
      by_cases h : i = j
      · subst h
        dsimp only at hs
        rw [Function.update_self] at hs
        cases hs
        obtain ⟨y, cnt, h1, h2⟩ := hI.total bs ht
        subst h1
        rw [tally_de hC hU hX h2] at hd
        cases hd
        exact ⟨x, sk, c_0, c, sh, P, st', ⟨cnt, h2.mono hc hrun⟩, ht, hsk, hsl, hsh, rfl⟩
      · dsimp only at hs
        rw [Function.update_of_ne h] at hs
        exact hshares i bs' hs
    · dsimp only at h
      by_cases h' : i = j
      · subst h'
        rw [Function.update_self] at h
        cases h
      · rwa [Function.update_of_ne h'] at h

include hC hU hw hX hg in
theorem runs_inv {S T : Poll} (hI : Inv K bad S) (h : OpenRuns K bad S T) : Inv K bad T ∧ Later S T := by
  induction h with
  | refl => exact ⟨hI, ⟨fun _ h => h, fun _ h => h⟩, fun _ h => h, fun _ h => h⟩
  | step _ hs ih =>
    obtain ⟨h1, a1, a2, a3⟩ := ih
    obtain ⟨h2, b1, b2, b3⟩ := step_inv hC hU hw hX hg h1 hs
    exact ⟨h2, ⟨fun v hv => b1.1 v (a1.1 v hv), fun v hv => b1.2 v (a1.2 v hv)⟩, fun bs h => b2 bs (a2 bs h), fun j h => a3 j (b3 j h)⟩

end

/-! ### what the destination gets -/

section
variable {K : PollCfg E} {bad : ℕ → Prop} (hC : LawfulCodecs K.codecs) (hU : K.users < 2 ^ 64)
  {parties : List (Party E)} {b : UInt8} {D G : E.G1}
  (hdkg : dkg parties b K.gens K.g_i D G = .ok (K.sks, K.ek))

include hC hU hdkg in
theorem reach_inv {S : Poll} (h : OpenRuns K bad Poll.init S) : Inv K bad S := by
  obtain ⟨hw, hX, hg⟩ := facts hdkg
  exact (runs_inv hC hU hw hX hg init_inv h).1

/-- what the search gives -/
abbrev result (K : PollCfg E) (b' : UInt8) (M : ℕ → E.G1) : Res (List UInt16) :=
  mapRes (fun i => chunkSearch (UInt16.ofNat (2 ^ b'.toNat - 1)) (K.g_i.getD i 0) (M i)) (List.range K.ek.X.length)

/-- what the counted ciphertexts carry together -/
abbrev contents (K : PollCfg E) (cnt : List (ℕ × Ciphertext E)) (i : ℕ) : E.G1 := (cnt.map fun p => content K.sks p.2 i).sum

theorem contents_eq {S₀ cnt x} (hx : TallyOf K bad S₀ cnt x) {i : ℕ} (hi : i < K.ek.X.length) :
    contents K cnt i = x.2.getD (i + 1) 0 - (K.sks.map fun sk => sk.s.getD i 0).sum • x.2.getD 0 0 := by
  obtain ⟨-, -, -, h4, -, h6⟩ := hx
  rw [h6, h6]
  unfold contents content
  clear h6
  generalize (K.sks.map fun sk => sk.s.getD i 0).sum = s
  induction cnt with
  | nil => simp
  | cons p cnt ih =>
    simp only [List.map_cons, List.sum_cons]
    have e := ih fun q hq => h4 q (List.mem_cons_of_mem _ hq)
    rw [flat_get i (by rw [(h4 p (by simp)).2.1]; exact hi), flat_get_zero, smul_add]
    rw [e]
    abel

include hC hU hdkg in
theorem outcome_eq {Rd : RngCore E} {std std' : Rd.σ} {skd : SecretKey E}
    (hdest : fkeygenDest Rd std K.gens = .ok ((skd, K.ekd), std')) (chk : Bool) (b' : UInt8) (hb' : b'.toNat < 32)
    {S : Poll} (hI : Inv K bad S) {cnt x} (hx : TallyOf K bad S cnt x)
    (ht : S.total = some ((arkTally K.codecs).ser x)) (hs : ∀ j < K.sks.length, S.shares j ≠ none) :
    S.outcome K chk skd b' = some (result K b' (contents K cnt)) := by
  obtain ⟨hw, hX, hg⟩ := facts hdkg
  obtain ⟨n, t, hgn, hsne, hsl, hek⟩ := dkg_inv hdkg
  have hXn : K.ek.X.length = n.toNat := by rw [hek]; simp [encKey]
  have hsx := slices_of_length hx.2.2.2.2.1
  rw [hXn] at hsx
  let F : SecretKeyST E × Party E → List E.G1 × E.G1 := fun q => (tab n.toNat fun i =>
      -(q.1.s.getD i 0 • x.2.getD 0 0) + draw q.2.1 q.2.2 0 • K.ekd.pk, draw q.2.1 q.2.2 0 • K.gens.G)
  -- the shares
  have hex : ∀ j, j < K.sks.length → ∃ q : SecretKeyST E × Party E, K.sks[j]? = some q.1 ∧
      S.shares j = some ((arkShare K.codecs).ser (F q)) := by
    intro j hj
    obtain ⟨bs, hbs⟩ := Option.ne_none_iff_exists'.mp (hs j hj)
    obtain ⟨y, sk, c_0, c, sh, P, st', ⟨cnt', h0⟩, h1, h2, h3, h4, h5⟩ := hI.shares j bs hbs
    have hyx : y = x := by
      rw [ht] at h1
      have e3 := tally_de hC hU hX h0
      rw [← Option.some.inj h1, tally_de hC hU hX hx] at e3
      cases e3
      rfl
    subst hyx
    rw [hXn, hsx] at h3
    cases h3
    have hskl := hsl sk (List.mem_of_getElem? h2)
    rw [reEncryptShare_eq _ _ _ _ _ _ _ (by rw [length_tab]; omega), length_tab] at h4
    refine ⟨(sk, P), h2, hbs.trans (congrArg some (h5.trans ?_))⟩
    rw [← (Prod.mk.inj (Res.ok.inj h4)).1]
  have hpos : 0 < K.sks.length := List.length_pos_iff.mpr hsne
  have : Nonempty (SecretKeyST E × Party E) := ⟨(hex 0 hpos).choose⟩
  choose! q hq1 hq2 using hex
  generalize hrp : (List.range K.sks.length).map q = rp
  have hrp1 : rp.map (·.1) = K.sks := by
    apply List.ext_getElem?
    intro j
    rw [← hrp, List.map_map, List.getElem?_map]
    by_cases hj : j < K.sks.length
    · rw [List.getElem?_range hj, hq1 j hj]
      rfl
    · rw [List.getElem?_eq_none (by simpa using hj), List.getElem?_eq_none (by simpa using hj)]
      rfl
  have hrne : rp ≠ [] := by
    rintro rfl
    exact hsne hrp1.symm
  have hread : readAll (arkShare K.codecs) S.shares K.sks.length = some (rp.map F) := by
    rw [Rst.readAll_some (arkShare K.codecs) S.shares K.sks.length (fun j => F (q j)), ← hrp, List.map_map]
    · rfl
    · intro j hj
      refine ⟨_, [], hq2 j hj, ?_⟩
      have hfit : Fits (F (q j)).1 := by
        show Fits (tab n.toNat _)
        unfold Fits
        rw [length_tab]
        have := n.toNat_lt
        omega
      have := (share_faithful hC).1 (F (q j)) hfit []
      rwa [List.append_nil] at this
  have hul : ∀ u ∈ rp, u.1.s.length = n.toNat := fun u hu => hsl u.1 (by rw [← hrp1]; exact List.mem_map_of_mem hu)
  have hall : reEncryptAll K.gens (x.2.getD 0 0) (tab n.toNat fun i => x.2.getD (i + 1) 0) K.ekd rp = (do
      let (w, gr) ← combineShares (rp.map F)
      combineCtWithW (tab n.toNat fun i => x.2.getD (i + 1) 0) gr w) := by
    unfold reEncryptAll
    rw [mapRes_ok (g := F)]
    · rfl
    · intro u hu
      have := hul u hu
      rw [reEncryptShare_eq _ _ _ _ _ _ _ (by rw [length_tab]; omega), length_tab]
      rfl
  have hre := reEncryptAll_eq K.gens (x.2.getD 0 0) (tab n.toNat fun i => x.2.getD (i + 1) 0) K.ekd rp hrne
    (fun u hu => by rw [length_tab, hul u hu])
  rw [hall] at hre
  have hpk := fkeygenDest_inv hdest
  unfold Poll.outcome
  rw [ht]
  simp only [Option.bind_eq_bind, Option.bind_some, tally_de hC hU hX hx, hread, hXn, hsx, Res.ok_bind]
  generalize hcs : combineShares (rp.map F) = cs at hre ⊢
  cases cs with
  | err e => cases hre
  | panic => cases hre
  | ok wg =>
    obtain ⟨w, gr⟩ := wg
    simp only [Res.ok_bind] at hre ⊢
    rw [hre]
    simp only [Res.ok_bind, slices, length_tab, lt_irrefl, if_false]
    rw [List.take_of_length_le (by simp), decryptAfter_eq chk _ _ skd K.g_i b' hb' (by simpa using hgn)]
    simp only [length_tab, Option.pure_def]
    unfold result
    rw [hXn]
    congr 1
    apply mapRes_congr
    intro i hi
    have hi' := List.mem_range.mp hi
    have hsum : sSum rp i = (K.sks.map fun sk => sk.s.getD i 0).sum := by
      unfold sSum
      rw [← hrp1, List.map_map]
      rfl
    rw [getD_tab, if_pos hi', getD_tab, if_pos hi', hpk, contents_eq hx (by omega), hsum]
    congr 1
    simp only [smul_smul]
    rw [mul_comm skd.rho]
    abel

include hC hU hdkg in
theorem outcome_inv {skd : SecretKey E} {chk : Bool} {b' : UInt8} {S : Poll} (hI : Inv K bad S) {res}
    (h : S.outcome K chk skd b' = some res) : ∃ cnt x, TallyOf K bad S cnt x ∧
      S.total = some ((arkTally K.codecs).ser x) ∧ S.counted K = some (cnt.map (·.1)) ∧
      ∀ j < K.sks.length, S.shares j ≠ none := by
  obtain ⟨hw, hX, hg⟩ := facts hdkg
  cases ht : S.total with
  | none => rw [Poll.outcome, ht] at h; cases h
  | some bs =>
    obtain ⟨x, cnt, rfl, h1⟩ := hI.total bs ht
    refine ⟨cnt, x, h1, rfl, ?_, ?_⟩
    · rw [Poll.counted, ht]
      simp only [Option.bind_eq_bind, Option.bind_some, tally_de hC hU hX h1, h1.2.1]
      rfl
    · rw [Poll.outcome, ht] at h
      simp only [Option.bind_eq_bind, Option.bind_some, tally_de hC hU hX h1] at h
      cases hr : readAll (arkShare K.codecs) S.shares K.sks.length with
      | none => rw [hr] at h; cases h
      | some xs =>
        intro j hj
        obtain ⟨bs, hbs⟩ := Rst.readAll_inv _ _ _ _ hr j hj
        rw [hbs]
        exact Option.some_ne_none _

include hC hU hdkg in
/-- the aggregator can count all acceptable ballots of the first `k` users -/
theorem count_all {S : Poll} (hI : Inv K bad S) (k : ℕ) : ∃ T, OpenRuns K bad S T ∧ T.ballots = S.ballots ∧
    T.total = S.total ∧ (T.cast = S.cast ∧ T.posted = S.posted) ∧
    ∀ j < k, ∀ bs v, S.ballots j = some bs → Acceptable K bs v →
      ∃ x rest, (arkTally K.codecs).de T.store = some (x, rest) ∧ j ∈ x.1 := by
  obtain ⟨hw, hX, hg⟩ := facts hdkg
  induction k with
  | zero => exact ⟨S, .refl S, rfl, rfl, ⟨rfl, rfl⟩, fun j hj => absurd hj (Nat.not_lt_zero j)⟩
  | succ k ih =>
    obtain ⟨T, hT, e1, e2, e3, h⟩ := ih
    obtain ⟨hIT, -⟩ := runs_inv hC hU hw hX hg hI hT
    by_cases hk : ∃ bs v, S.ballots k = some bs ∧ Acceptable K bs v
    · obtain ⟨bs, v, hb, hv⟩ := hk
      rw [← e1] at hb
      obtain ⟨ct, hvc, htc⟩ := ballot_read hC hX hIT hb hv
      cases hd : (arkTally K.codecs).de T.store with
      | none =>
        have hn : nextTally K.codecs T.store k v = some (.ok ([k], v)) := by rw [nextTally, hd]
        obtain ⟨cnt, h1⟩ := next_inv hC hX hIT hb hv hn
        refine ⟨_, .step hT (.count k bs v _ hb hv hn), e1, e2, e3, fun j hj bs' v' hb' hv' => ?_⟩
        refine ⟨_, _, tally_de hC hU hX h1, ?_⟩
        by_cases hjk : j = k
        · simp [hjk]
        · obtain ⟨x, rest, hx, -⟩ := h j (by omega) bs' v' hb' hv'
          rw [hd] at hx
          cases hx
      | some y =>
        obtain ⟨⟨done, sum⟩, rest'⟩ := y
        by_cases hk : k ∈ done
        · refine ⟨T, hT, e1, e2, e3, fun j hj bs' v' hb' hv' => ?_⟩
          by_cases hjk : j = k
          · exact ⟨_, _, hd, by simpa [hjk] using hk⟩
          · exact h j (by omega) bs' v' hb' hv'
        · obtain ⟨-, cnt, a1, a2, a3, a4, a5, a6⟩ := hIT.store _ _ hd
          obtain ⟨-, -, -, -, b5, -⟩ := htc
          obtain ⟨z, hn⟩ : ∃ z, nextTally K.codecs T.store k v = some (.ok (k :: done, z)) := by
            rw [nextTally, hd]
            dsimp only
            dsimp only at a5 b5
            rw [if_neg hk, addCts_eq_addInto, addInto_eq (by omega)]
            exact ⟨_, rfl⟩
          obtain ⟨cnt, h1⟩ := next_inv hC hX hIT hb hv hn
          refine ⟨_, .step hT (.count k bs v _ hb hv hn), e1, e2, e3, fun j hj bs' v' hb' hv' => ?_⟩
          refine ⟨_, _, tally_de hC hU hX h1, ?_⟩
          by_cases hjk : j = k
          · simp [hjk]
          · obtain ⟨x, rest, hx, hm⟩ := h j (by omega) bs' v' hb' hv'
            rw [hd] at hx
            cases hx
            exact List.mem_cons_of_mem _ hm
    · refine ⟨T, hT, e1, e2, e3, fun j hj bs v hb hv => ?_⟩
      have : j ≠ k := by rintro rfl; exact hk ⟨bs, v, hb, hv⟩
      exact h j (by omega) bs v hb hv

include hC hU hdkg in
/-- the first `k` key holders can publish their shares -/
theorem share_all {S : Poll} (P : Party E) {S₀ cnt x} (hx : TallyOf K bad S₀ cnt x)
    (ht : S.total = some ((arkTally K.codecs).ser x)) (k : ℕ) (hk : k ≤ K.sks.length) :
    ∃ T, OpenRuns K bad S T ∧ T.total = S.total ∧ (T.cast = S.cast ∧ T.posted = S.posted) ∧ T.ballots = S.ballots ∧
      ∀ j < k, T.shares j ≠ none := by
  obtain ⟨hw, hX, hg⟩ := facts hdkg
  obtain ⟨n, t, hgn, hsne, hsl, hek⟩ := dkg_inv hdkg
  have hXn : K.ek.X.length = n.toNat := by rw [hek]; simp [encKey]
  have hsx := slices_of_length hx.2.2.2.2.1
  induction k with
  | zero => exact ⟨S, .refl S, rfl, ⟨rfl, rfl⟩, rfl, fun j hj => absurd hj (Nat.not_lt_zero j)⟩
  | succ k ih =>
    obtain ⟨T, hT, e1, e2, e3, h⟩ := ih (by omega)
    have hget : K.sks[k]? = some K.sks[k] := List.getElem?_eq_getElem _
    have hsk := hsl _ (List.mem_of_getElem? hget)
    have hsh := reEncryptShare_eq P.1 P.2 K.gens (x.2.getD 0 0)
      (tab K.ek.X.length fun i => x.2.getD (i + 1) 0) K.ekd K.sks[k] (by rw [length_tab]; omega)
    refine ⟨_, .step hT (.share k _ P _ [] x _ _ _ _ hget (e1.trans ht) (tally_de hC hU hX hx) hsx hsh), e1, e2, e3, ?_⟩
    intro j hj
    dsimp only
    by_cases hjk : j = k
    · rw [hjk, Function.update_self]
      exact Option.some_ne_none _
    · rw [Function.update_of_ne hjk]
      exact h j (by omega)

include hC hdkg in
/-- the ballots of honest users are acceptable -/
theorem honest_acceptable {S : Poll} (hI : Inv K bad S) {j bs} (hj : ¬ bad j) (hb : S.ballots j = some bs) :
    ∃ v, Acceptable K bs v := by
  obtain ⟨hw, hX, hg⟩ := facts hdkg
  obtain ⟨-, h⟩ := hI.ballots j bs hb
  obtain ⟨chunks, r, -, rfl⟩ := h hj
  have h1 := arkVec_roundtrip hC.g1 _ (Poll'.flat_fits hX (fun i => (nums chunks).getD i 0) r) []
  rw [List.append_nil] at h1
  have hl : (cipher K.ek (fun i => K.g_i.getD i 0) (fun i => (nums chunks).getD i 0) r).enc_chunks.length =
      K.ek.X.length := by simp [cipher]
  refine ⟨_, ⟨_, h1⟩, ?_, ?_⟩
  · rw [flat, List.length_cons, List.length_append, hl]
    rfl
  rw [check_flat hl]
  obtain ⟨n, t, hgn, hsne, hsl, hek⟩ := dkg_inv hdkg
  rw [hek]
  exact cipher_verifies n _ t _ D G K.gens _ _

end

/-- from the characterisation of the result to numbers -/
theorem sum_of {K : PollCfg E} (hg : K.ek.X.length ≤ K.g_i.length) (hgi : ∀ g ∈ K.g_i, g ≠ 0) {b' : UInt8}
    {cnt : List (ℕ × Ciphertext E)} {res : Res (List UInt16)}
    (h6 : ∀ ds, res = .ok ds ↔ ds.length = K.ek.X.length ∧ ∀ i < K.ek.X.length,
        IsLeastLog (K.g_i.getD i 0) (cnt.map fun p => content K.sks p.2 i).sum (searchBound b'.toNat)
          ((nums ds).getD i 0)) (m : ℕ × Ciphertext E → ℕ → ℕ)
    (hm : ∀ p ∈ cnt, ∀ i < K.ek.X.length, content K.sks p.2 i = m p i • K.g_i.getD i 0)
    (hle : ∀ i < K.ek.X.length, (cnt.map fun p => m p i).sum ≤ searchBound b'.toNat ∧
      (cnt.map fun p => m p i).sum < E.fr.p) :
    ∃ ds, res = .ok ds ∧ ds.length = K.ek.X.length ∧
      ∀ i < K.ek.X.length, (nums ds).getD i 0 = (cnt.map fun p => m p i).sum := by
  have hsum : ∀ i < K.ek.X.length, (cnt.map fun p => content K.sks p.2 i).sum =
      (cnt.map fun p => m p i).sum • K.g_i.getD i 0 := by
    intro i hi
    have : ∀ l : List (ℕ × Ciphertext E), (∀ p ∈ l, p ∈ cnt) → (l.map fun p => content K.sks p.2 i).sum =
        (l.map fun p => m p i).sum • K.g_i.getD i 0 := by
      intro l hl
      induction l with
      | nil => simp
      | cons p l ih =>
        simp only [List.map_cons, List.sum_cons, add_smul]
        rw [ih fun q hq => hl q (List.mem_cons_of_mem _ hq), hm p (hl p (by simp)) i hi]
    exact this cnt fun p hp => hp
  refine ⟨tab K.ek.X.length fun i => UInt16.ofNat (cnt.map fun p => m p i).sum, ?_, by simp, ?_⟩
  · rw [h6]
    refine ⟨by simp, fun i hi => ?_⟩
    obtain ⟨a1, a2⟩ := hle i hi
    have h2 := searchBound_lt b'.toNat
    rw [hsum i hi, nums, map_tab, getD_tab, if_pos hi]
    have e : (UInt16.ofNat (cnt.map fun p => m p i).sum).toNat = (cnt.map fun p => m p i).sum := by
      simp only [UInt16.toNat_ofNat']
      generalize (cnt.map fun p => m p i).sum = y at *
      omega
    rw [e]
    exact isLeastLog_nsmul (E := E) (getD_mem_ne hgi (by omega)) a2 a1
  · intro i hi
    obtain ⟨a1, a2⟩ := hle i hi
    have h2 := searchBound_lt b'.toNat
    rw [nums, map_tab, getD_tab, if_pos hi]
    simp only [UInt16.toNat_ofNat']
    generalize (cnt.map fun p => m p i).sum = y at *
    omega

end OPoll

/-! ### C109 -/

section
variable {K : PollCfg E} {bad : ℕ → Prop} (hC : LawfulCodecs K.codecs) (hU : K.users < 2 ^ 64)
  {parties : List (Party E)} {b : UInt8} {D G : E.G1} (hdkg : dkg parties b K.gens K.g_i D G = .ok (K.sks, K.ek))
  {Rd : RngCore E} {std std' : Rd.σ} {skd : SecretKey E}
  (hdest : fkeygenDest Rd std K.gens = .ok ((skd, K.ekd), std'))
include hC hU hdkg hdest

/-- **C109** whatever dishonest users put on the board, and whatever everybody does, in whatever order and however often the
aggregator crashes: if the destination gets anything, then there is one ciphertext for each user published as
counted: it was that user's ballot on the board at some point and passes `verify_commitment`, and for an honest user it is the
encryption of a vote it has cast; and the destination gets the numbers that
these ciphertexts carry together, or the error for sums out of its search range: it never aborts. -/
theorem C109_every_history (chk : Bool) (b' : UInt8) (hb' : b'.toNat < 32)
    (S : Poll) (hS : OpenRuns K bad Poll.init S) (res : Res (List UInt16)) (hout : S.outcome K chk skd b' = some res) :
    ∃ cnt : List (ℕ × Ciphertext E), cnt ≠ [] ∧ (cnt.map (·.1)).Nodup ∧ S.counted K = some (cnt.map (·.1)) ∧
      (∀ p ∈ cnt, p.2.verifyCommitment K.ek.prepare K.gens.prepare = .ok () ∧
        ∃ bs rest, (p.1, bs) ∈ S.posted ∧ (arkVec K.codecs.g1).de bs = some (flat p.2, rest)) ∧
      (∀ p ∈ cnt, ¬ bad p.1 → ∃ chunks, (p.1, chunks) ∈ S.cast ∧
        ∀ i < K.ek.X.length, content K.sks p.2 i = (nums chunks).getD i 0 • K.g_i.getD i 0) ∧
      (∀ ds, res = .ok ds ↔ ds.length = K.ek.X.length ∧ ∀ i < K.ek.X.length,
        IsLeastLog (K.g_i.getD i 0) (cnt.map fun p => content K.sks p.2 i).sum (searchBound b'.toNat)
          ((nums ds).getD i 0)) ∧
      (∀ e, res = .err e ↔ e = .couldNotFindDiscreteLog ∧ ∃ i < K.ek.X.length,
        NoLog (K.g_i.getD i 0) (cnt.map fun p => content K.sks p.2 i).sum (searchBound b'.toNat)) ∧
      res ≠ .panic := by
  have hI := OPoll.reach_inv hC hU hdkg hS
  obtain ⟨hw, hX, hg⟩ := Poll'.facts hdkg
  obtain ⟨cnt, x, hx, ht, hcnt, hs⟩ := OPoll.outcome_inv hC hU hdkg hI hout
  refine ⟨cnt, hx.1, by rw [hx.2.1]; exact hx.2.2.1, hcnt, fun p hp => (hx.2.2.2.1 p hp).2.2.1, ?_, ?_⟩
  · intro p hp hb
    obtain ⟨chunks, r, h1, h2⟩ := (hx.2.2.2.1 p hp).2.2.2 hb
    refine ⟨chunks, h1, fun i hi => ?_⟩
    obtain ⟨n, t, hgn, hsne, hsl, hek⟩ := dkg_inv hdkg
    rw [h2, content]
    rw [hek] at hi ⊢
    simp only [encKey, length_tab] at hi
    simp only [cipher, encKey, length_tab, getD_tab, if_pos hi, smul_smul]
    rw [mul_comm r]
    abel
  · rw [OPoll.outcome_eq hC hU hdkg hdest chk b' hb' hI hx ht hs] at hout
    have hres := Option.some.inj hout
    have hall := (C36_decrypt_after_cases chk 0 (tab K.ek.X.length fun i => OPoll.contents K cnt i) skd K.g_i b').2.1
      (by simpa using hg) hb'
    rw [decryptAfter_eq chk _ _ skd K.g_i b' hb' (by simpa using hg), length_tab] at hall
    have he : mapRes (fun i => chunkSearch (UInt16.ofNat (2 ^ b'.toNat - 1)) (K.g_i.getD i 0)
        ((tab K.ek.X.length fun i => OPoll.contents K cnt i).getD i 0 - skd.rho • (0 : E.G1)))
        (List.range K.ek.X.length) = res := by
      rw [← hres]
      apply mapRes_congr
      intro i hi
      rw [getD_tab, if_pos (List.mem_range.mp hi), smul_zero, sub_zero]
    rw [he] at hall
    have hv : ∀ i < K.ek.X.length, (tab K.ek.X.length fun i => OPoll.contents K cnt i).getD i 0 - skd.rho • (0 : E.G1) =
        OPoll.contents K cnt i := by
      intro i hi
      rw [getD_tab, if_pos hi, smul_zero, sub_zero]
    refine ⟨fun ds => (hall.1 ds).trans ?_, fun e => (hall.2.1 e).trans ?_, hall.2.2⟩
    · refine and_congr_right fun _ => forall_congr' fun i => forall_congr' fun hi => ?_
      rw [hv i hi]
    · refine and_congr_right fun _ => exists_congr fun i => and_congr_right fun hi => ?_
      rw [hv i hi]

/-- **C109** (in numbers) if every counted ciphertext carries numbers `m j i` (as the encryptions of honest users do, and as
those of dishonest users do who had to prove it, C61), and their sums are within the search range, the destination gets
exactly these sums. -/
theorem C109_sums (hgi : ∀ g ∈ K.g_i, g ≠ 0) (chk : Bool) (b' : UInt8) (hb' : b'.toNat < 32)
    (S : Poll) (hS : OpenRuns K bad Poll.init S) (res : Res (List UInt16)) (hout : S.outcome K chk skd b' = some res) :
    ∃ cnt : List (ℕ × Ciphertext E), (cnt.map (·.1)).Nodup ∧ S.counted K = some (cnt.map (·.1)) ∧
      (∀ p ∈ cnt, ∃ bs rest, (p.1, bs) ∈ S.posted ∧ (arkVec K.codecs.g1).de bs = some (flat p.2, rest)) ∧
      (∀ p ∈ cnt, ¬ bad p.1 → ∃ chunks, (p.1, chunks) ∈ S.cast ∧
        ∀ i < K.ek.X.length, content K.sks p.2 i = (nums chunks).getD i 0 • K.g_i.getD i 0) ∧
      ∀ m : ℕ → ℕ → ℕ, (∀ p ∈ cnt, ∀ i < K.ek.X.length, content K.sks p.2 i = m p.1 i • K.g_i.getD i 0) →
        (∀ i < K.ek.X.length, (cnt.map fun p => m p.1 i).sum ≤ searchBound b'.toNat ∧
          (cnt.map fun p => m p.1 i).sum < E.fr.p) →
        ∃ ds, res = .ok ds ∧ ds.length = K.ek.X.length ∧
          ∀ i < K.ek.X.length, (nums ds).getD i 0 = (cnt.map fun p => m p.1 i).sum := by
  obtain ⟨hw, hX, hg⟩ := Poll'.facts hdkg
  obtain ⟨cnt, -, h2, h3, h4, h5, h6, -, -⟩ := C109_every_history hC hU hdkg hdest chk b' hb' S hS res hout
  refine ⟨cnt, h2, h3, fun p hp => (h4 p hp).2, h5, fun m hm hle => ?_⟩
  exact OPoll.sum_of hg hgi h6 (fun p => m p.1) hm hle

/-- **C109** (agreement) once the destination gets something, whatever happens afterwards, it gets the same, and the same
users are counted. -/
theorem C109_agreement (chk : Bool) (b' : UInt8) (hb' : b'.toNat < 32) (S T : Poll) (hS : OpenRuns K bad Poll.init S)
    (hT : OpenRuns K bad S T) (res : Res (List UInt16)) (hout : S.outcome K chk skd b' = some res) :
    T.outcome K chk skd b' = some res ∧ T.counted K = S.counted K := by
  have hI := OPoll.reach_inv hC hU hdkg hS
  obtain ⟨hw, hX, hg⟩ := Poll'.facts hdkg
  obtain ⟨hIT, h1, h2, h3⟩ := OPoll.runs_inv hC hU hw hX hg hI hT
  obtain ⟨cnt, x, hx, ht, hcnt, hs⟩ := OPoll.outcome_inv hC hU hdkg hI hout
  rw [OPoll.outcome_eq hC hU hdkg hdest chk b' hb' hI hx ht hs] at hout
  refine ⟨(OPoll.outcome_eq hC hU hdkg hdest chk b' hb' hIT (hx.mono h1.1 h1.2) (h2 _ ht)
    (fun j hj h => hs j hj (h3 j h))).trans hout, ?_⟩
  unfold Poll.counted
  rw [ht, h2 _ ht]

/-- **C109** (nobody can block the poll) from every reachable state in which some acceptable ballot is on the board, or a
tally has been published, there are steps, none of them by a user, after which the destination gets something; and, as long as
no tally has been published, after which every honest user who has voted, and every other user with an acceptable ballot on
the board, is counted. -/
theorem C109_no_deadlock (chk : Bool) (b' : UInt8) (hb' : b'.toNat < 32) (S : Poll) (hS : OpenRuns K bad Poll.init S)
    (h : S.total ≠ none ∨ S.cast ≠ [] ∨ ∃ j bs v, S.ballots j = some bs ∧ Acceptable K bs v) :
    ∃ T res done, OpenRuns K bad S T ∧ (T.cast = S.cast ∧ T.posted = S.posted) ∧ T.ballots = S.ballots ∧ T.outcome K chk skd b' = some res ∧
      T.counted K = some done ∧ (S.total = none → (∀ v ∈ S.cast, v.1 ∈ done) ∧
        ∀ j bs v, S.ballots j = some bs → Acceptable K bs v → j ∈ done) := by
  have hI := OPoll.reach_inv hC hU hdkg hS
  obtain ⟨hw, hX, hg⟩ := Poll'.facts hdkg
  have key : ∀ (T : Poll) cnt x, OpenRuns K bad S T → (T.cast = S.cast ∧ T.posted = S.posted) → T.ballots = S.ballots →
      OPoll.TallyOf K bad T cnt x → T.total = some ((arkTally K.codecs).ser x) →
      ∃ U res, OpenRuns K bad S U ∧ (U.cast = S.cast ∧ U.posted = S.posted) ∧ U.ballots = S.ballots ∧ U.outcome K chk skd b' = some res ∧
        U.counted K = some x.1 := by
    intro T cnt x hT hc hb hx ht
    obtain ⟨U, hU1, hU2, hU4, hU5, hU3⟩ := OPoll.share_all hC hU hdkg ⟨Rd, std⟩ hx ht _ le_rfl
    obtain ⟨hIT', -⟩ := OPoll.runs_inv hC hU hw hX hg hI hT
    obtain ⟨hIU, ⟨-, hpU⟩, -⟩ := OPoll.runs_inv hC hU hw hX hg hIT' hU1
    refine ⟨U, _, OPoll.trans hT hU1, ⟨hU4.1.trans hc.1, hU4.2.trans hc.2⟩, hU5.trans hb,
      OPoll.outcome_eq hC hU hdkg hdest chk b' hb' hIU (hx.mono (by simp [hU4.1]) hpU) (hU2.trans ht) hU3, ?_⟩
    rw [Poll.counted, hU2, ht]
    simp only [Option.bind_eq_bind, Option.bind_some, OPoll.tally_de hC hU hX hx]
    rfl
  cases ht : S.total with
  | some bs =>
    obtain ⟨x, cnt, rfl, h1⟩ := hI.total bs ht
    obtain ⟨U, res, a1, a0, a4, a2, a3⟩ := key S cnt x (.refl S) ⟨rfl, rfl⟩ rfl h1 ht
    exact ⟨U, res, _, a1, a0, a4, a2, a3, fun h => by cases h⟩
  | none =>
    obtain ⟨T, hT, e1, e2, e3, hall⟩ := OPoll.count_all hC hU hdkg hI K.users
    obtain ⟨hIT, -⟩ := OPoll.runs_inv hC hU hw hX hg hI hT
    have hhon : ∀ v ∈ S.cast, ∃ bs w, S.ballots v.1 = some bs ∧ Acceptable K bs w := by
      intro v hv
      obtain ⟨hnb, hn⟩ := hI.cast v hv
      obtain ⟨bs, hbs⟩ := Option.ne_none_iff_exists'.mp hn
      obtain ⟨w, hw⟩ := OPoll.honest_acceptable hC hdkg hI hnb hbs
      exact ⟨bs, w, hbs, hw⟩
    have hex : ∃ j bs v, S.ballots j = some bs ∧ Acceptable K bs v := by
      rcases h with h | h | h
      · exact absurd ht h
      · obtain ⟨v, hv⟩ := List.exists_mem_of_ne_nil _ h
        exact ⟨_, hhon v hv⟩
      · exact h
    obtain ⟨j, bs, v, hb, hv⟩ := hex
    obtain ⟨x, rest, hx, -⟩ := hall j (hI.ballots _ _ hb).1 bs v hb hv
    obtain ⟨hst, cnt, h1⟩ := hIT.store x rest hx
    have hcl : OpenStep K bad T _ := .close x rest (e2.trans ht) hx
    obtain ⟨U, res, a1, a0, a4, a2, a3⟩ := key _ cnt x (.step hT hcl) e3 e1
      (h1.mono (fun _ h => h) fun _ h => h) (congrArg some hst)
    have hm : ∀ j bs v, S.ballots j = some bs → Acceptable K bs v → j ∈ x.1 := by
      intro j bs v hb hv
      obtain ⟨y, rest', hy, hm⟩ := hall j (hI.ballots _ _ hb).1 bs v hb hv
      rw [hx] at hy
      cases hy
      exact hm
    refine ⟨U, res, _, a1, a0, a4, a2, a3, fun _ => ⟨fun v hv => ?_, hm⟩⟩
    obtain ⟨bs, w, h2, h3⟩ := hhon v hv
    exact hm _ bs w h2 h3

end

/-- **C109** (the length has to be checked) the check of the commitment alone does not suffice: with one more element at its
end an encryption still passes it, but if it is counted first, adding any ballot of the right length aborts. -/
theorem C109_length_check_needed {K : PollCfg E} {parties : List (Party E)} {b : UInt8} {D G : E.G1}
    (hdkg : dkg parties b K.gens K.g_i D G = .ok (K.sks, K.ek)) (R : RngCore E) (st st' : R.σ) (chunks : List UInt16)
    (v : List E.G1) (r : E.Fr) (henc : encryptDecomposedMessage R st chunks K.ek K.g_i = .ok ((v, r), st')) (x : E.G1) :
    checkBallot K (v ++ [x]) = .ok () ∧
      ∀ v' : List E.G1, v'.length = K.ek.X.length + 2 → addCts (v ++ [x]) v' = .panic := by
  obtain ⟨hw, hX, hg⟩ := Poll'.facts hdkg
  have hlen : chunks.length = K.ek.X.length := (encryptDecomposed_inv henc).2.2.1
  rw [encryptDecomposed_ok R st chunks K.ek K.g_i hw hX hlen hg] at henc
  cases henc
  generalize hct : cipher K.ek (fun i => K.g_i.getD i 0) (fun i => (nums chunks).getD i 0) (draw R st 0) = ct
  have hl : ct.enc_chunks.length = K.ek.X.length := by rw [← hct]; simp [cipher]
  constructor
  · have h1 : checkBallot K (flat ct ++ [x]) = checkBallot K (flat ct) := by
      unfold checkBallot
      have e1 : slices K.ek.X.length (flat ct ++ [x]) = slices K.ek.X.length (flat ct) := by
        unfold slices flat
        simp only [List.cons_append, List.length_append, List.append_assoc, hl, List.length_cons, List.length_nil]
        rw [if_neg (by omega), if_neg (by omega), ← hl, List.take_left', List.take_left'] <;> rfl
      have e2 : idx (flat ct ++ [x]) (K.ek.X.length + 1) = idx (flat ct) (K.ek.X.length + 1) := by
        rw [idx_ok 0 (by simp [flat, hl]), idx_ok 0 (by simp [flat, hl])]
        congr 1
        rw [List.getD_eq_getElem?_getD, List.getD_eq_getElem?_getD, List.getElem?_append_left (by simp [flat, hl])]
      rw [e1, e2]
    rw [h1, OPoll.check_flat hl, ← hct]
    obtain ⟨n, t, hgn, hsne, hsl, hek⟩ := dkg_inv hdkg
    rw [hek]
    exact cipher_verifies n _ t _ D G K.gens _ _
  · intro v' hv'
    exact addInto_panic (by simp [flat, hl, hv'])

/-- Non-vacuity: user 1 is dishonest and puts something unreadable on the board; user 0's vote is counted, and the destination
gets it. -/
example : ∃ S : Poll, OpenRuns Poll'.cfg (· = 1) Poll.init S ∧ S.ballots 1 = some [7, 7, 7] ∧
    S.counted Poll'.cfg = some [0] ∧ S.outcome Poll'.cfg true Fix.skd 16 = some (.ok Fix.m1) := by
  have hC := scalarCodecs_lawful goldFr
  obtain ⟨hw, hX, hg⟩ := Poll'.facts (K := Poll'.cfg) Fix.dkg_ok
  have hm1 : Fix.m1.length = Fix.dek.X.length := by decide +kernel
  have he1 := encryptDecomposed_ok (listRng Fix.E) Fix.st1 Fix.m1 Fix.dek Fix.gi hw hX hm1 hg
  have r1 := OpenRuns.step (.refl Poll.init) (OpenStep.vote (K := Poll'.cfg) (bad := (· = 1)) 0 ⟨listRng Fix.E, Fix.st1⟩ Fix.m1
    _ _ _ (by decide) (by decide) he1)
  have r2 := OpenRuns.step r1 (OpenStep.post 1 [7, 7, 7] (by decide) rfl)
  obtain ⟨S2, r2, hcast, htot, hst, hb1, hb0⟩ : ∃ S2, OpenRuns Poll'.cfg (· = 1) Poll.init S2 ∧ S2.cast = [(0, Fix.m1)] ∧
    S2.total = none ∧ S2.store = [] ∧ S2.ballots 1 = some [7, 7, 7] ∧ S2.ballots 0 ≠ none :=
    ⟨_, r2, rfl, rfl, rfl, rfl, Option.some_ne_none _⟩
  obtain ⟨bs0, hb0⟩ := Option.ne_none_iff_exists'.mp hb0
  have hI2 := OPoll.reach_inv (K := Poll'.cfg) hC (by decide) Fix.dkg_ok r2
  obtain ⟨v0, hv0⟩ := OPoll.honest_acceptable (K := Poll'.cfg) hC Fix.dkg_ok hI2 (j := 0) (by decide) hb0
  have hn0 : nextTally Poll'.cfg.codecs S2.store 0 v0 = some (.ok ([0], v0)) := by
    rw [nextTally, hst]
    rfl
  have s3 := OpenStep.count (K := Poll'.cfg) (bad := (· = 1)) 0 bs0 v0 _ hb0 hv0 hn0
  obtain ⟨ct, hct, htc⟩ := OPoll.ballot_read (K := Poll'.cfg) hC hX hI2 hb0 hv0
  have hd := OPoll.tally_de (K := Poll'.cfg) hC (by decide) hX htc
  have r4 := OpenRuns.step (OpenRuns.step r2 s3) (OpenStep.close _ _ htot hd)
  obtain ⟨S4, r4, hcast4, htot4, hb4⟩ : ∃ S4, OpenRuns Poll'.cfg (· = 1) Poll.init S4 ∧ S4.cast = [(0, Fix.m1)] ∧
    S4.total = some ((arkTally Poll'.cfg.codecs).ser ([0], v0)) ∧ S4.ballots 1 = some [7, 7, 7] := ⟨_, r4, hcast, rfl, hb1⟩
  obtain ⟨T, res, done, a1, a2, a3, a4, a5, -⟩ := C109_no_deadlock (K := Poll'.cfg) hC (by decide) Fix.dkg_ok Fix.dest_ok true
    16 (by decide) S4 r4 (Or.inl (by rw [htot4]; exact Option.some_ne_none _))
  have hI4 := OPoll.reach_inv (K := Poll'.cfg) hC (by decide) Fix.dkg_ok r4
  obtain ⟨-, -, hT, -⟩ := OPoll.runs_inv (K := Poll'.cfg) hC (by decide) hw hX hg hI4 a1
  have hc0 : T.counted Poll'.cfg = some [0] := by
    rw [Poll.counted, hT _ htot4]
    simp only [Option.bind_eq_bind, Option.bind_some, hd]
    rfl
  refine ⟨T, OPoll.trans r4 a1, a3 ▸ hb4, hc0, ?_⟩
  obtain ⟨cnt, -, b1, -, b2, b3⟩ := C109_sums (K := Poll'.cfg) hC (by decide) Fix.dkg_ok Fix.dest_ok Fix.gi_ne true 16 (by decide) T
    (OPoll.trans r4 a1) res a4
  rw [hc0] at b1
  have hX4 : Poll'.cfg.ek.X.length = 4 := by decide +kernel
  have hl : cnt.length = 1 := by simpa using congrArg List.length (Option.some.inj b1).symm
  obtain ⟨⟨j, ct'⟩, rfl⟩ := List.length_eq_one_iff.mp hl
  · have e := Option.some.inj b1
    have hj : j = 0 := by simpa using e.symm
    subst hj
    obtain ⟨ch, c1, c2⟩ := b2 (0, ct') (by simp) (by simp)
    rw [a2.1, hcast4] at c1
    have hch : ch = Fix.m1 := by simpa using c1
    subst hch
    obtain ⟨ds, d1, d2, d3⟩ := b3 (fun _ i => (nums Fix.m1).getD i 0) (fun p hp i hi => by
      rw [List.mem_singleton.mp hp]
      exact c2 i hi) (by
        rw [hX4]
        simp only [List.map_cons, List.map_nil, List.sum_cons, List.sum_nil]
        decide +kernel)
    rw [hX4] at d2 d3
    suffices hds : ds = Fix.m1 by rw [a4, d1, hds]
    have hl1 : Fix.m1.length = 4 := rfl
    have hinj : Function.Injective nums := List.map_injective_iff.mpr fun (x y : UInt16) h => UInt16.toNat_inj.mp h
    apply hinj
    apply List.ext_getElem (by simp [nums, d2, hl1])
    intro i h1 h2
    have h3 : i < 4 := by simpa [nums, d2] using h1
    have := d3 i h3
    simp only [List.map_cons, List.map_nil, List.sum_cons, List.sum_nil, add_zero] at this
    rwa [List.getD_eq_getElem _ _ h1, List.getD_eq_getElem _ _ h2] at this

/-- Non-vacuity: an encryption of `Fix` with one more element passes the check, and adding to it aborts. -/
example : checkBallot Poll'.cfg (flat Fix.dct1 ++ [(show Fix.E.G1 from (5 : Fix.F))]) = .ok () ∧
    addCts (flat Fix.dct1 ++ [(show Fix.E.G1 from (5 : Fix.F))]) (flat Fix.dct1) = .panic := by
  obtain ⟨h1, h2⟩ := C109_length_check_needed (K := Poll'.cfg) Fix.dkg_ok (listRng Fix.E) Fix.st1 _ Fix.m1 _ _ Fix.denc1
    (5 : Fix.F)
  exact ⟨h1, h2 _ (by decide +kernel)⟩

end Verif
