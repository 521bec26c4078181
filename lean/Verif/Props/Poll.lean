/-
Property C108: aggregation and re-encryption by users, an aggregator and key holders that crash.
-/
import Verif.Model.Poll
import Verif.Props.Restart
import Verif.Props.Window

namespace Verif
open Spec

variable {E : Engine}

namespace Poll'

/-- tallies that fit their encoding -/
def TallyFits (x : List ℕ × List E.G1) : Prop := Fits x.1 ∧ (∀ j ∈ x.1, j < 2 ^ 64) ∧ Fits x.2

theorem tally_faithful {C : Codecs E} (hC : LawfulCodecs C) : Faithful (arkTally C) TallyFits := by
  have v1 := arkVec_roundtrip hC.g1
  have l1 := arkVec_local hC.g1Local
  have l2 : PrefixLocal (arkVec arkUsize).de := arkVec_local (c := arkUsize) arkU64De_local
  refine faithful_of ?_ (by unfold arkTally; local_tac)
  rintro ⟨d, s⟩ ⟨h1, h2, h3⟩ rest
  have h4 := fun rest => arkVec_roundtrip_mem (c := arkUsize) d (fun x hx rest => arkU64_roundtrip (h2 x hx) rest) h1 rest
  simp only [arkTally, List.append_assoc, h4, v1 _ h3, Option.bind_eq_bind, Option.bind_some]
  rfl

theorem share_faithful {C : Codecs E} (hC : LawfulCodecs C) : Faithful (arkShare C) (fun x => Fits x.1) := by
  have v1 := arkVec_roundtrip hC.g1
  have l1 := arkVec_local hC.g1Local
  have l0 := hC.g1Local
  refine faithful_of ?_ (by unfold arkShare; local_tac)
  rintro ⟨w, g⟩ h1 rest
  simp only [arkShare, List.append_assoc, hC.g1, v1 _ h1, Option.bind_eq_bind, Option.bind_some]
  rfl

/-- the numbers a list of votes adds up to -/
abbrev sums (votes : List (ℕ × List UInt16)) (i : ℕ) : ℕ := (votes.map fun v => (nums v.2).getD i 0).sum

/-- `x` is the tally of these votes -/
def TallyOf (K : PollCfg E) (votes : List (ℕ × List UInt16)) (x : List ℕ × List E.G1) : Prop :=
  votes ≠ [] ∧ votes.map (·.1) = x.1 ∧ x.1.Nodup ∧ (∀ v ∈ votes, v.1 < K.users) ∧
    ∃ r, x.2 = flat (cipher K.ek (fun i => K.g_i.getD i 0) (sums votes) r)

/-- what holds in all reachable states -/
structure Inv (K : PollCfg E) (S : Poll) : Prop where
  cast : ∀ v ∈ S.cast, S.ballots v.1 ≠ none
  ballots : ∀ j bs, S.ballots j = some bs → j < K.users ∧ ∃ chunks r, (j, chunks) ∈ S.cast ∧
    bs = (arkVec K.codecs.g1).ser (flat (cipher K.ek (fun i => K.g_i.getD i 0) (fun i => (nums chunks).getD i 0) r))
  store : ∀ x rest, (arkTally K.codecs).de S.store = some (x, rest) → S.store = (arkTally K.codecs).ser x ∧
    ∃ votes, TallyOf K votes x ∧ ∀ v ∈ votes, v ∈ S.cast
  total : ∀ bs, S.total = some bs → ∃ x votes, bs = (arkTally K.codecs).ser x ∧ TallyOf K votes x ∧ ∀ v ∈ votes, v ∈ S.cast
  shares : ∀ j bs, S.shares j = some bs → ∃ x sk c_0 c sh, ∃ (P : Party E) (st' : P.1.σ),
    (∃ votes, TallyOf K votes x) ∧ S.total = some ((arkTally K.codecs).ser x) ∧ K.sks[j]? = some sk ∧ slices K.ek.X.length x.2 = .ok (c_0, c) ∧
    reEncryptShare P.1 P.2 K.gens c_0 c K.ekd sk = .ok (sh, st') ∧ bs = (arkShare K.codecs).ser sh

theorem slices_flat (ek : EncryptionKey E) (g : ℕ → E.G1) (M : ℕ → ℕ) (r : E.Fr) :
    slices ek.X.length (flat (cipher ek g M r)) = .ok ((cipher ek g M r).X_r, (cipher ek g M r).enc_chunks) := by
  have hl : (cipher ek g M r).enc_chunks.length = ek.X.length := by simp [cipher]
  unfold slices flat
  dsimp only
  rw [if_neg (by simp [hl]), ← hl, List.take_left']
  rfl

section
variable {K : PollCfg E} (hC : LawfulCodecs K.codecs) (hU : K.users < 2 ^ 64) (hw : WellFormed K.ek)
  (hX : K.ek.X.length < 256) (hg : K.ek.X.length ≤ K.g_i.length)

include hX in
theorem flat_fits (M : ℕ → ℕ) (r : E.Fr) : Fits (flat (cipher K.ek (fun i => K.g_i.getD i 0) M r)) := by
  unfold Fits
  simp [flat, cipher]
  omega

include hU hX in
theorem tally_fits {votes x} (h : TallyOf K votes x) : TallyFits x := by
  obtain ⟨h1, h2, h3, h4, r, h5⟩ := h
  have h6 : ∀ j ∈ x.1, j < K.users := by
    intro j hj
    rw [← h2] at hj
    obtain ⟨v, hv, rfl⟩ := List.mem_map.mp hj
    exact h4 v hv
  refine ⟨?_, fun j hj => (h6 j hj).trans hU, by rw [h5]; exact flat_fits hX _ _⟩
  have := (List.Nodup.subperm h3 (l₂ := List.range K.users) fun j hj => List.mem_range.mpr (h6 j hj)).length_le
  rw [List.length_range] at this
  exact this.trans_lt hU

include hC hU hX in
theorem tally_de {votes x} (h : TallyOf K votes x) :
    (arkTally K.codecs).de ((arkTally K.codecs).ser x) = some (x, []) := by
  have := (tally_faithful hC).1 x (tally_fits hU hX h) []
  rwa [List.append_nil] at this

theorem init_inv : Inv K Poll.init := by
  refine ⟨fun v hv => (by cases hv), fun j bs h => (by cases h), fun x rest h => ?_, fun bs h => (by cases h),
    fun j bs h => (by cases h)⟩
  exfalso
  have : (arkTally K.codecs).de [] = none := rfl
  exact Option.some_ne_none _ (h.symm.trans this)

include hC hX in
theorem ballot_read {S : Poll} (hI : Inv K S) {j bs v rest} (hb : S.ballots j = some bs)
    (hv : (arkVec K.codecs.g1).de bs = some (v, rest)) : j < K.users ∧ ∃ chunks r, (j, chunks) ∈ S.cast ∧
      v = flat (cipher K.ek (fun i => K.g_i.getD i 0) (fun i => (nums chunks).getD i 0) r) := by
  obtain ⟨h1, chunks, r, h2, rfl⟩ := hI.ballots j bs hb
  have := arkVec_roundtrip hC.g1 _ (flat_fits hX (fun i => (nums chunks).getD i 0) r) []
  rw [List.append_nil, hv] at this
  cases this
  exact ⟨h1, chunks, r, h2, rfl⟩

include hC hX in
theorem next_inv {S : Poll} (hI : Inv K S) {j bs v rest x} (hb : S.ballots j = some bs)
    (hv : (arkVec K.codecs.g1).de bs = some (v, rest)) (hn : nextTally K.codecs S.store j v = some (.ok x)) :
    ∃ votes, TallyOf K votes x ∧ ∀ v ∈ votes, v ∈ S.cast := by
  obtain ⟨h1, chunks, r, h2, rfl⟩ := ballot_read hC hX hI hb hv
  unfold nextTally at hn
  cases hd : (arkTally K.codecs).de S.store with
  | none =>
    rw [hd] at hn
    cases hn
    refine ⟨[(j, chunks)], ⟨by simp, rfl, by simp, by simpa using h1, r, ?_⟩, by simpa using h2⟩
    show flat (cipher _ _ _ _) = flat (cipher _ _ _ _)
    congr 2
  | some y =>
    obtain ⟨⟨done, sum⟩, rest'⟩ := y
    rw [hd] at hn
    dsimp only at hn
    obtain ⟨-, votes, ⟨a1, a2, a3, a4, r', a5⟩, a6⟩ := hI.store _ _ hd
    dsimp only at a2 a3 a5
    by_cases hj : j ∈ done
    · rw [if_pos hj] at hn
      cases hn
    · rw [if_neg hj, a5, addCts_cipher] at hn
      cases hn
      refine ⟨(j, chunks) :: votes, ⟨by simp, by simp [a2], List.nodup_cons.mpr ⟨hj, a3⟩, ?_, r' + r, ?_⟩, ?_⟩
      · intro u hu
        rcases List.mem_cons.mp hu with rfl | hu
        · exact h1
        · exact a4 u hu
      · dsimp only
        congr 2
        funext i
        simp [sums, add_comm]
      · intro u hu
        rcases List.mem_cons.mp hu with rfl | hu
        · exact h2
        · exact a6 u hu

/-- what a step preserves -/
def Later (S T : Poll) : Prop :=
  (∀ v ∈ S.cast, v ∈ T.cast) ∧ (∀ bs, S.total = some bs → T.total = some bs) ∧
  (∀ j, T.shares j = none → S.shares j = none)

include hC hU hw hX hg in
theorem step_inv {S T : Poll} (hI : Inv K S) (h : PollStep K S T) : Inv K T ∧ Later S T := by
  cases h with
  | vote j P chunks v r st' hj he =>
    have hlen : chunks.length = K.ek.X.length := (encryptDecomposed_inv he).2.2.1
    rw [encryptDecomposed_ok P.1 P.2 chunks K.ek K.g_i hw hX hlen hg] at he
    cases he
    refine ⟨⟨?_, ?_, ?_, ?_, hI.shares⟩, ⟨fun v hv => List.mem_cons_of_mem _ hv, fun _ h => h, fun _ h => h⟩⟩
    · intro u hu
      by_cases h : u.1 = j
      · dsimp only
        rw [h, Function.update_self]
        exact Option.some_ne_none _
      · dsimp only
        rw [Function.update_of_ne h]
        rcases List.mem_cons.mp hu with rfl | hu
        · exact absurd rfl h
        · exact hI.cast u hu
    · intro i bs hb
      by_cases h : i = j
      · subst h
        dsimp only at hb
        rw [Function.update_self] at hb
        cases hb
        exact ⟨hj, chunks, _, List.mem_cons_self, rfl⟩
      · dsimp only at hb
        rw [Function.update_of_ne h] at hb
        obtain ⟨h1, ch, r, h2, h3⟩ := hI.ballots i bs hb
        exact ⟨h1, ch, r, List.mem_cons_of_mem _ h2, h3⟩
    · intro x rest hx
      obtain ⟨h1, votes, h2, h3⟩ := hI.store x rest hx
      exact ⟨h1, votes, h2, fun v hv => List.mem_cons_of_mem _ (h3 v hv)⟩
    · intro bs hbs
      obtain ⟨x, votes, h1, h2, h3⟩ := hI.total bs hbs
      exact ⟨x, votes, h1, h2, fun v hv => List.mem_cons_of_mem _ (h3 v hv)⟩
  | count j bs rest v x hb hv hn =>
    obtain ⟨votes, h1, h2⟩ := next_inv hC hX hI hb hv hn
    refine ⟨⟨hI.cast, hI.ballots, ?_, hI.total, hI.shares⟩, ⟨fun _ h => h, fun _ h => h, fun _ h => h⟩⟩
    intro y rest' hy
    dsimp only at hy
    rw [tally_de hC hU hX h1] at hy
    cases hy
    exact ⟨rfl, votes, h1, h2⟩
  | torn j bs rest v x l hb hv hn hl =>
    obtain ⟨votes, h1, h2⟩ := next_inv hC hX hI hb hv hn
    refine ⟨⟨hI.cast, hI.ballots, ?_, hI.total, hI.shares⟩, ⟨fun _ h => h, fun _ h => h, fun _ h => h⟩⟩
    intro y rest' hy
    dsimp only at hy
    rw [(tally_faithful hC).2.1 x (tally_fits hU hX h1) l hl] at hy
    cases hy
  | close x rest hn hd =>
    refine ⟨⟨hI.cast, hI.ballots, hI.store, ?_, ?_⟩, ⟨fun _ h => h, fun bs h => ?_, fun _ h => h⟩⟩
    · intro bs hbs
      cases hbs
      obtain ⟨h1, votes, h2, h3⟩ := hI.store x rest hd
      exact ⟨x, votes, h1, h2, h3⟩
    · intro j bs hs
      obtain ⟨x, sk, c_0, c, sh, P, st', -, h1, h2⟩ := hI.shares j bs hs
      rw [hn] at h1
      cases h1
    · rw [hn] at h
      cases h
  | share j sk P bs rest x c_0 c sh st' hsk ht hd hsl hsh =>
    refine ⟨⟨hI.cast, hI.ballots, hI.store, hI.total, ?_⟩, ⟨fun _ h => h, fun _ h => h, fun i h => ?_⟩⟩
    · intro i bs' hs
      by_cases h : i = j
      · subst h
        dsimp only at hs
        rw [Function.update_self] at hs
        cases hs
        obtain ⟨y, votes, h1, h2, h3⟩ := hI.total bs ht
        subst h1
        rw [tally_de hC hU hX h2] at hd
        cases hd
        exact ⟨x, sk, c_0, c, sh, P, st', ⟨votes, h2⟩, ht, hsk, hsl, hsh, rfl⟩
      · dsimp only at hs
        rw [Function.update_of_ne h] at hs
        exact hI.shares i bs' hs
    · dsimp only at h
      by_cases h' : i = j
      · subst h'
        rw [Function.update_self] at h
        cases h
      · rwa [Function.update_of_ne h'] at h

include hC hU hw hX hg in
theorem runs_inv {S T : Poll} (hI : Inv K S) (h : PollRuns K S T) : Inv K T ∧ Later S T := by
  induction h with
  | refl => exact ⟨hI, fun _ h => h, fun _ h => h, fun _ h => h⟩
  | step _ hs ih =>
    obtain ⟨h1, a1, a2, a3⟩ := ih
    obtain ⟨h2, b1, b2, b3⟩ := step_inv hC hU hw hX hg h1 hs
    exact ⟨h2, fun v hv => b1 v (a1 v hv), fun bs h => b2 bs (a2 bs h), fun j h => a3 j (b3 j h)⟩

include hC hX in
/-- a ballot on the board can be read -/
theorem ballot_de {S : Poll} (hI : Inv K S) {j bs} (hb : S.ballots j = some bs) :
    ∃ v, (arkVec K.codecs.g1).de bs = some (v, []) := by
  obtain ⟨h1, chunks, r, h2, rfl⟩ := hI.ballots j bs hb
  have := arkVec_roundtrip hC.g1 _ (flat_fits hX (fun i => (nums chunks).getD i 0) r) []
  rw [List.append_nil] at this
  exact ⟨_, this⟩

end

/-! ### what the destination gets -/

section
variable {K : PollCfg E} (hC : LawfulCodecs K.codecs) (hU : K.users < 2 ^ 64)
  {parties : List (Party E)} {b : UInt8} {D G : E.G1}
  (hdkg : dkg parties b K.gens K.g_i D G = .ok (K.sks, K.ek))

include hdkg in
theorem facts : WellFormed K.ek ∧ K.ek.X.length < 256 ∧ K.ek.X.length ≤ K.g_i.length := by
  obtain ⟨n, t, hg, -, -, hek⟩ := dkg_inv hdkg
  rw [hek]
  have : (encKey n.toNat (fun i => (K.sks.map fun sk => sk.s.getD i 0).sum) t (fun i => K.g_i.getD i 0) D G K.gens.H).X.length
      = n.toNat := by simp [encKey]
  exact ⟨encKey_wf _ _ _ _ _ _ _, by rw [this]; exact n.toNat_lt, by rw [this]; exact hg⟩

include hC hU hdkg in
theorem reach_inv {S : Poll} (h : PollRuns K Poll.init S) : Inv K S := by
  obtain ⟨hw, hX, hg⟩ := facts hdkg
  exact (runs_inv hC hU hw hX hg init_inv h).1

/-- what the search for the sums gives -/
abbrev result (K : PollCfg E) (b' : UInt8) (M : ℕ → ℕ) : Res (List UInt16) :=
  mapRes (fun i => chunkSearch (UInt16.ofNat (2 ^ b'.toNat - 1)) (K.g_i.getD i 0) (M i • K.g_i.getD i 0))
    (List.range K.ek.X.length)

include hC hU hdkg in
theorem outcome_eq {Rd : RngCore E} {std std' : Rd.σ} {skd : SecretKey E}
    (hdest : fkeygenDest Rd std K.gens = .ok ((skd, K.ekd), std')) (chk : Bool) (b' : UInt8) (hb' : b'.toNat < 32)
    {S : Poll} (hI : Inv K S) {votes x} (hx : TallyOf K votes x) (ht : S.total = some ((arkTally K.codecs).ser x))
    (hs : ∀ j < K.sks.length, S.shares j ≠ none) : S.outcome K chk skd b' = some (result K b' (sums votes)) := by
  obtain ⟨hw, hX, hg⟩ := facts hdkg
  obtain ⟨n, t, hgn, hsne, hsl, hek⟩ := dkg_inv hdkg
  have hXn : K.ek.X.length = n.toNat := by rw [hek]; simp [encKey]
  obtain ⟨-, -, -, -, r, hr⟩ := id hx
  have hsx := slices_flat K.ek (fun i => K.g_i.getD i 0) (sums votes) r
  rw [← hr] at hsx
  generalize hct : cipher K.ek (fun i => K.g_i.getD i 0) (sums votes) r = ct at hsx
  have hclen : ct.enc_chunks.length = n.toNat := by rw [← hct, ← hXn]; simp [cipher]
  let F : SecretKeyST E × Party E → List E.G1 × E.G1 := fun q => (tab n.toNat fun i =>
      -(q.1.s.getD i 0 • ct.X_r) + draw q.2.1 q.2.2 0 • K.ekd.pk, draw q.2.1 q.2.2 0 • K.gens.G)
  -- the shares
  have hex : ∀ j, j < K.sks.length → ∃ q : SecretKeyST E × Party E, K.sks[j]? = some q.1 ∧
      S.shares j = some ((arkShare K.codecs).ser (F q)) := by
    intro j hj
    obtain ⟨bs, hbs⟩ := Option.ne_none_iff_exists'.mp (hs j hj)
    obtain ⟨y, sk, c_0, c, sh, P, st', ⟨votes', h0⟩, h1, h2, h3, h4, h5⟩ := hI.shares j bs hbs
    have hyx : y = x := by
      rw [ht] at h1
      have e3 := tally_de hC hU hX h0
      rw [← Option.some.inj h1, tally_de hC hU hX hx] at e3
      cases e3
      rfl
    subst hyx
    rw [hsx] at h3
    cases h3
    have hskl := hsl sk (List.mem_of_getElem? h2)
    rw [reEncryptShare_eq _ _ _ _ _ _ _ (by omega), hclen] at h4
    refine ⟨(sk, P), h2, hbs.trans (congrArg some (h5.trans ?_))⟩
    rw [← (Prod.mk.inj (Res.ok.inj h4)).1]
  have hpos : 0 < K.sks.length := List.length_pos_iff.mpr hsne
  haveI : Nonempty (SecretKeyST E × Party E) := ⟨(hex 0 hpos).choose⟩
  choose! q hq1 hq2 using hex
  generalize hrp : (List.range K.sks.length).map q = rp
  have hrp1 : rp.map (·.1) = K.sks := by
    apply List.ext_getElem?
    intro j
    rw [← hrp, List.map_map, List.getElem?_map]
    by_cases hj : j < K.sks.length
    · rw [List.getElem?_range hj, hq1 j hj]
      rfl
    · rw [List.getElem?_eq_none (by simpa using hj), List.getElem?_eq_none (by simpa using hj)]
      rfl
  have hrne : rp ≠ [] := by
    rintro rfl
    exact hsne hrp1.symm
  have hread : readAll (arkShare K.codecs) S.shares K.sks.length = some (rp.map F) := by
    rw [Rst.readAll_some (arkShare K.codecs) S.shares K.sks.length (fun j => F (q j)), ← hrp, List.map_map]
    · rfl
    · intro j hj
      refine ⟨_, [], hq2 j hj, ?_⟩
      have hfit : Fits (F (q j)).1 := by
        show Fits (tab n.toNat _)
        unfold Fits
        rw [length_tab]
        have := n.toNat_lt
        omega
      have := (share_faithful hC).1 (F (q j)) hfit []
      rwa [List.append_nil] at this
  have hall : reEncryptAll K.gens ct.X_r ct.enc_chunks K.ekd rp = (do
      let (w, gr) ← combineShares (rp.map F)
      combineCtWithW ct.enc_chunks gr w) := by
    unfold reEncryptAll
    rw [mapRes_ok (g := F)]
    · rfl
    · intro u hu
      have hul : u.1.s.length = n.toNat := hsl u.1 (by rw [← hrp1]; exact List.mem_map_of_mem hu)
      rw [reEncryptShare_eq _ _ _ _ _ _ _ (by omega), hclen]
      rfl
  have hre := reEncrypt_cipher n t K.g_i D G K.gens K.sks [] hsl rp hrne (by simp [hrp1]) K.ekd (sums votes) r ct
    (by rw [← hct, ← hek])
  rw [hall] at hre
  have hpk := fkeygenDest_inv hdest
  unfold Poll.outcome
  rw [ht]
  simp only [Option.bind_eq_bind, Option.bind_some, tally_de hC hU hX hx, hread, hsx, Res.ok_bind]
  generalize hcs : combineShares (rp.map F) = cs at hre ⊢
  cases cs with
  | err e => cases hre
  | panic => cases hre
  | ok wg =>
    obtain ⟨w, gr⟩ := wg
    simp only [Res.ok_bind] at hre ⊢
    rw [hre, hXn]
    simp only [Res.ok_bind, slices, length_tab, lt_irrefl, if_false]
    rw [List.take_of_length_le (by simp), decryptAfter_eq chk _ _ skd K.g_i b' hb' (by simpa using hgn)]
    simp only [length_tab, Option.pure_def]
    unfold result
    rw [hXn]
    congr 1
    apply mapRes_congr
    intro i hi
    have hi' := List.mem_range.mp hi
    rw [getD_tab, if_pos hi', hpk]
    congr 1
    simp only [List.map_nil, List.sum_nil, mul_zero, zero_smul, add_zero, smul_smul]
    rw [mul_comm skd.rho]
    abel

include hC hU hdkg in
theorem outcome_inv {skd : SecretKey E} {chk : Bool} {b' : UInt8} {S : Poll} (hI : Inv K S) {res}
    (h : S.outcome K chk skd b' = some res) : ∃ votes x, TallyOf K votes x ∧ (∀ v ∈ votes, v ∈ S.cast) ∧
      S.total = some ((arkTally K.codecs).ser x) ∧ S.counted K = some (votes.map (·.1)) ∧
      ∀ j < K.sks.length, S.shares j ≠ none := by
  obtain ⟨hw, hX, hg⟩ := facts hdkg
  cases ht : S.total with
  | none => rw [Poll.outcome, ht] at h; cases h
  | some bs =>
    obtain ⟨x, votes, rfl, h1, h2⟩ := hI.total bs ht
    refine ⟨votes, x, h1, h2, rfl, ?_, ?_⟩
    · rw [Poll.counted, ht]
      simp only [Option.bind_eq_bind, Option.bind_some, tally_de hC hU hX h1, h1.2.1]
      rfl
    · rw [Poll.outcome, ht] at h
      simp only [Option.bind_eq_bind, Option.bind_some, tally_de hC hU hX h1] at h
      cases hr : readAll (arkShare K.codecs) S.shares K.sks.length with
      | none => rw [hr] at h; cases h
      | some xs =>
        intro j hj
        obtain ⟨bs, hbs⟩ := Rst.readAll_inv _ _ _ _ hr j hj
        rw [hbs]
        exact Option.some_ne_none _

theorem trans {S T U : Poll} (h : PollRuns K S T) (h' : PollRuns K T U) : PollRuns K S U := by
  induction h' with
  | refl => exact h
  | step _ hs ih => exact .step ih hs

include hC hU hdkg in
/-- the aggregator can count all the ballots of the first `k` users -/
theorem count_all {S : Poll} (hI : Inv K S) (k : ℕ) : ∃ T, PollRuns K S T ∧ T.ballots = S.ballots ∧ T.total = S.total ∧
    T.cast = S.cast ∧
    ∀ j < k, S.ballots j ≠ none → ∃ x rest, (arkTally K.codecs).de T.store = some (x, rest) ∧ j ∈ x.1 := by
  obtain ⟨hw, hX, hg⟩ := facts hdkg
  induction k with
  | zero => exact ⟨S, .refl S, rfl, rfl, rfl, fun j hj => absurd hj (Nat.not_lt_zero j)⟩
  | succ k ih =>
    obtain ⟨T, hT, e1, e2, e3, h⟩ := ih
    obtain ⟨hIT, -⟩ := runs_inv hC hU hw hX hg hI hT
    cases hb : S.ballots k with
    | none =>
      refine ⟨T, hT, e1, e2, e3, fun j hj hn => ?_⟩
      have : j ≠ k := by rintro rfl; exact hn hb
      exact h j (by omega) hn
    | some bs =>
      rw [← e1] at hb
      obtain ⟨v, hv⟩ := ballot_de hC hX hIT hb
      obtain ⟨-, chunks, r, -, hvr⟩ := ballot_read hC hX hIT hb hv
      cases hd : (arkTally K.codecs).de T.store with
      | none =>
        have hn : nextTally K.codecs T.store k v = some (.ok ([k], v)) := by rw [nextTally, hd]
        obtain ⟨votes, h1, -⟩ := next_inv hC hX hIT hb hv hn
        refine ⟨_, .step hT (.count k bs [] v _ hb hv hn), e1, e2, e3, fun j hj hnn => ?_⟩
        refine ⟨_, _, tally_de hC hU hX h1, ?_⟩
        by_cases hjk : j = k
        · simp [hjk]
        · obtain ⟨x, rest, hx, -⟩ := h j (by omega) hnn
          rw [hd] at hx
          cases hx
      | some y =>
        obtain ⟨⟨done, sum⟩, rest'⟩ := y
        by_cases hk : k ∈ done
        · refine ⟨T, hT, e1, e2, e3, fun j hj hnn => ?_⟩
          by_cases hjk : j = k
          · exact ⟨_, _, hd, by simpa [hjk] using hk⟩
          · exact h j (by omega) hnn
        · obtain ⟨-, votes, ⟨a1, a2, a3, a4, r', a5⟩, a6⟩ := hIT.store _ _ hd
          obtain ⟨z, hn⟩ : ∃ z, nextTally K.codecs T.store k v = some (.ok (k :: done, z)) := by
            rw [nextTally, hd]
            dsimp only
            dsimp only at a5
            rw [if_neg hk, hvr, a5, addCts_cipher]
            exact ⟨_, rfl⟩
          obtain ⟨votes, h1, -⟩ := next_inv hC hX hIT hb hv hn
          refine ⟨_, .step hT (.count k bs [] v _ hb hv hn), e1, e2, e3, fun j hj hnn => ?_⟩
          refine ⟨_, _, tally_de hC hU hX h1, ?_⟩
          by_cases hjk : j = k
          · simp [hjk]
          · obtain ⟨x, rest, hx, hm⟩ := h j (by omega) hnn
            rw [hd] at hx
            cases hx
            exact List.mem_cons_of_mem _ hm

include hC hU hdkg in
/-- the first `k` key holders can publish their shares -/
theorem share_all {S : Poll} (hI : Inv K S) (P : Party E) {votes x} (hx : TallyOf K votes x)
    (ht : S.total = some ((arkTally K.codecs).ser x)) (k : ℕ) (hk : k ≤ K.sks.length) :
    ∃ T, PollRuns K S T ∧ T.total = S.total ∧ T.cast = S.cast ∧ ∀ j < k, T.shares j ≠ none := by
  obtain ⟨hw, hX, hg⟩ := facts hdkg
  obtain ⟨n, t, hgn, hsne, hsl, hek⟩ := dkg_inv hdkg
  have hXn : K.ek.X.length = n.toNat := by rw [hek]; simp [encKey]
  obtain ⟨-, -, -, -, r, hr⟩ := id hx
  have hsx := slices_flat K.ek (fun i => K.g_i.getD i 0) (sums votes) r
  rw [← hr] at hsx
  have hclen : (cipher K.ek (fun i => K.g_i.getD i 0) (sums votes) r).enc_chunks.length = n.toNat := by
    rw [← hXn]; simp [cipher]
  induction k with
  | zero => exact ⟨S, .refl S, rfl, rfl, fun j hj => absurd hj (Nat.not_lt_zero j)⟩
  | succ k ih =>
    obtain ⟨T, hT, e1, e2, h⟩ := ih (by omega)
    have hget : K.sks[k]? = some K.sks[k] := List.getElem?_eq_getElem _
    have hsk := hsl _ (List.mem_of_getElem? hget)
    have hsh := reEncryptShare_eq P.1 P.2 K.gens (cipher K.ek (fun i => K.g_i.getD i 0) (sums votes) r).X_r
      (cipher K.ek (fun i => K.g_i.getD i 0) (sums votes) r).enc_chunks K.ekd K.sks[k] (by omega)
    refine ⟨_, .step hT (.share k _ P _ [] x _ _ _ _ hget (e1.trans ht) (tally_de hC hU hX hx) hsx hsh), e1, e2, ?_⟩
    intro j hj
    dsimp only
    by_cases hjk : j = k
    · rw [hjk, Function.update_self]
      exact Option.some_ne_none _
    · rw [Function.update_of_ne hjk]
      exact h j (by omega)

end
end Poll'

/-! ### C108 -/

section
variable {K : PollCfg E} (hC : LawfulCodecs K.codecs) (hU : K.users < 2 ^ 64)
  {parties : List (Party E)} {b : UInt8} {D G : E.G1} (hdkg : dkg parties b K.gens K.g_i D G = .ok (K.sks, K.ek))
  {Rd : RngCore E} {std std' : Rd.σ} {skd : SecretKey E}
  (hdest : fkeygenDest Rd std K.gens = .ok ((skd, K.ekd), std'))
include hC hU hdkg hdest

/-- **C108** whatever users, aggregator and key holders have done, in whatever order, with whatever randomness and however
often they have crashed: if the destination gets anything, then it gets the sums of votes that have been cast, one vote of
each of the users who are published as counted (or, if one of the sums is beyond its search range, the error for it). -/
theorem C108_every_history (hgi : ∀ g ∈ K.g_i, g ≠ 0) (chk : Bool) (b' : UInt8) (hb' : b'.toNat < 32)
    (S : Poll) (hS : PollRuns K Poll.init S) (res : Res (List UInt16)) (hout : S.outcome K chk skd b' = some res) :
    ∃ votes : List (ℕ × List UInt16), votes ≠ [] ∧ (votes.map (·.1)).Nodup ∧ (∀ v ∈ votes, v ∈ S.cast) ∧
      S.counted K = some (votes.map (·.1)) ∧
      ((∀ i < K.ek.X.length, (votes.map fun v => (nums v.2).getD i 0).sum < E.fr.p) →
        ((∀ i < K.ek.X.length, (votes.map fun v => (nums v.2).getD i 0).sum ≤ searchBound b'.toNat) →
          ∃ ds, res = .ok ds ∧ ds.length = K.ek.X.length ∧
            ∀ i < K.ek.X.length, (nums ds).getD i 0 = (votes.map fun v => (nums v.2).getD i 0).sum) ∧
        (∀ i < K.ek.X.length, searchBound b'.toNat < (votes.map fun v => (nums v.2).getD i 0).sum →
          res = .err .couldNotFindDiscreteLog)) := by
  have hI := Poll'.reach_inv hC hU hdkg hS
  obtain ⟨hw, hX, hg⟩ := Poll'.facts hdkg
  obtain ⟨votes, x, hx, hc, ht, hcnt, hs⟩ := Poll'.outcome_inv hC hU hdkg hI hout
  refine ⟨votes, hx.1, by rw [hx.2.1]; exact hx.2.2.1, hc, hcnt, fun hp => ?_⟩
  rw [Poll'.outcome_eq hC hU hdkg hdest chk b' hb' hI hx ht hs] at hout
  have hres := Option.some.inj hout
  have hdv := decryptAfter_values chk K.ek.X.length 0
    (tab K.ek.X.length fun i => Poll'.sums votes i • K.g_i.getD i 0) skd K.g_i b' hb' (by simp) hg
    (fun i hi => getD_mem_ne hgi (by omega)) (Poll'.sums votes) hp
    (by intro i hi; rw [getD_tab, if_pos hi, smul_zero, sub_zero])
  rw [decryptAfter_eq chk _ _ skd K.g_i b' hb' (by simpa using hg), length_tab] at hdv
  have he : mapRes (fun i => chunkSearch (UInt16.ofNat (2 ^ b'.toNat - 1)) (K.g_i.getD i 0)
      ((tab K.ek.X.length fun i => Poll'.sums votes i • K.g_i.getD i 0).getD i 0 - skd.rho • (0 : E.G1)))
      (List.range K.ek.X.length) = res := by
    rw [← hres]
    apply mapRes_congr
    intro i hi
    rw [getD_tab, if_pos (List.mem_range.mp hi), smul_zero, sub_zero]
  rw [he] at hdv
  refine ⟨fun hle => ⟨_, hdv.1 hle, by simp, ?_⟩, hdv.2⟩
  intro i hi
  rw [nums, map_tab, getD_tab, if_pos hi]
  have h1 : Poll'.sums votes i ≤ _ := hle i hi
  have h2 := searchBound_lt b'.toNat
  simp only [UInt16.toNat_ofNat']
  show _ = Poll'.sums votes i
  omega

/-- **C108** (agreement) once the destination gets something, whatever happens afterwards, it gets the same, and the same
users are counted. -/
theorem C108_agreement (chk : Bool) (b' : UInt8) (hb' : b'.toNat < 32) (S T : Poll) (hS : PollRuns K Poll.init S)
    (hT : PollRuns K S T) (res : Res (List UInt16)) (hout : S.outcome K chk skd b' = some res) :
    T.outcome K chk skd b' = some res ∧ T.counted K = S.counted K := by
  have hI := Poll'.reach_inv hC hU hdkg hS
  obtain ⟨hw, hX, hg⟩ := Poll'.facts hdkg
  obtain ⟨hIT, -, h2, h3⟩ := Poll'.runs_inv hC hU hw hX hg hI hT
  obtain ⟨votes, x, hx, hc, ht, hcnt, hs⟩ := Poll'.outcome_inv hC hU hdkg hI hout
  rw [Poll'.outcome_eq hC hU hdkg hdest chk b' hb' hI hx ht hs] at hout
  refine ⟨(Poll'.outcome_eq hC hU hdkg hdest chk b' hb' hIT hx (h2 _ ht)
    (fun j hj h => hs j hj (h3 j h))).trans hout, ?_⟩
  unfold Poll.counted
  rw [ht, h2 _ ht]

/-- **C108** (no deadlock) from every reachable state in which some vote has been cast, there are steps, none of
them a vote, after which the destination gets something; and, as long as no tally has been published, after which every user
who has voted is counted. -/
theorem C108_no_deadlock (chk : Bool) (b' : UInt8) (hb' : b'.toNat < 32) (S : Poll) (hS : PollRuns K Poll.init S)
    (hcast : S.cast ≠ []) :
    ∃ T res done, PollRuns K S T ∧ T.cast = S.cast ∧ T.outcome K chk skd b' = some res ∧ T.counted K = some done ∧
      (S.total = none → ∀ v ∈ S.cast, v.1 ∈ done) := by
  have hI := Poll'.reach_inv hC hU hdkg hS
  obtain ⟨hw, hX, hg⟩ := Poll'.facts hdkg
  have key : ∀ (T : Poll) votes x, PollRuns K S T → T.cast = S.cast → Poll'.TallyOf K votes x →
      T.total = some ((arkTally K.codecs).ser x) → ∃ U res, PollRuns K S U ∧ U.cast = S.cast ∧ U.outcome K chk skd b' = some res ∧
        U.counted K = some x.1 := by
    intro T votes x hT hc hx ht
    obtain ⟨hIT, -⟩ := Poll'.runs_inv hC hU hw hX hg hI hT
    obtain ⟨U, hU1, hU2, hU4, hU3⟩ := Poll'.share_all hC hU hdkg hIT ⟨Rd, std⟩ hx ht _ le_rfl
    obtain ⟨hIU, -⟩ := Poll'.runs_inv hC hU hw hX hg hIT hU1
    refine ⟨U, _, Poll'.trans hT hU1, hU4.trans hc, Poll'.outcome_eq hC hU hdkg hdest chk b' hb' hIU hx (hU2.trans ht) hU3, ?_⟩
    rw [Poll.counted, hU2, ht]
    simp only [Option.bind_eq_bind, Option.bind_some, Poll'.tally_de hC hU hX hx]
    rfl
  cases ht : S.total with
  | some bs =>
    obtain ⟨x, votes, rfl, h1, h2⟩ := hI.total bs ht
    obtain ⟨U, res, a1, a0, a2, a3⟩ := key S votes x (.refl S) rfl h1 ht
    exact ⟨U, res, _, a1, a0, a2, a3, fun h => by cases h⟩
  | none =>
    obtain ⟨T, hT, e1, e2, e3, h⟩ := Poll'.count_all hC hU hdkg hI K.users
    obtain ⟨hIT, -⟩ := Poll'.runs_inv hC hU hw hX hg hI hT
    have hlt : ∀ v ∈ S.cast, v.1 < K.users ∧ S.ballots v.1 ≠ none := by
      intro v hv
      have hn := hI.cast v hv
      obtain ⟨bs, hbs⟩ := Option.ne_none_iff_exists'.mp hn
      exact ⟨(hI.ballots _ _ hbs).1, hn⟩
    obtain ⟨v0, hv0⟩ := List.exists_mem_of_ne_nil _ hcast
    obtain ⟨x, rest, hx, -⟩ := h v0.1 (hlt v0 hv0).1 (hlt v0 hv0).2
    obtain ⟨hst, votes, h1, -⟩ := hIT.store x rest hx
    obtain ⟨U, res, a1, a0, a2, a3⟩ := key _ votes x (.step hT (.close x rest (e2.trans ht) hx)) e3 h1 (congrArg some hst)
    refine ⟨U, res, _, a1, a0, a2, a3, fun _ v hv => ?_⟩
    obtain ⟨y, rest', hy, hm⟩ := h v.1 (hlt v hv).1 (hlt v hv).2
    rw [hx] at hy
    cases hy
    exact hm

end
/-! ### a history with a crash -/

namespace Poll'

/-- the two-party key and the destination of `Fix`, two users -/
abbrev cfg : PollCfg Fix.E := ⟨scalarCodecs goldFr, 2, Fix.dek, Fix.gi, Fix.gens, Fix.ekd, [Fix.skA, Fix.skB]⟩

/-- Two users have voted, the aggregator has counted user 0 and has then crashed while storing the tally of both, so that
nothing of it is left. -/
theorem crashing_history : ∃ S : Poll, PollRuns cfg Poll.init S ∧ S.cast = [(1, Fix.m2), (0, Fix.m1)] ∧
    S.total = none ∧ (arkTally cfg.codecs).de S.store = none := by
  have hC := scalarCodecs_lawful goldFr
  obtain ⟨hw, hX, hg⟩ := facts (K := cfg) Fix.dkg_ok
  have hm1 : Fix.m1.length = Fix.dek.X.length := by decide +kernel
  have hm2 : Fix.m2.length = Fix.dek.X.length := by decide +kernel
  have hv1 := encryptDecomposed_ok (listRng Fix.E) Fix.st1 Fix.m1 Fix.dek Fix.gi hw hX hm1 hg
  have hv2 := encryptDecomposed_ok (listRng Fix.E) Fix.st1 Fix.m2 Fix.dek Fix.gi hw hX hm2 hg
  have r1 := PollRuns.step (.refl Poll.init) (PollStep.vote (K := cfg) 0 ⟨listRng Fix.E, Fix.st1⟩ Fix.m1 _ _ _
    (by decide) hv1)
  have r2 := PollRuns.step r1 (PollStep.vote (K := cfg) 1 ⟨listRng Fix.E, Fix.st1⟩ Fix.m2 _ _ _ (by decide) hv2)
  obtain ⟨S2, r2, hcast, htot, hst⟩ : ∃ S2, PollRuns cfg Poll.init S2 ∧ S2.cast = [(1, Fix.m2), (0, Fix.m1)] ∧
    S2.total = none ∧ (arkTally cfg.codecs).de S2.store = none := ⟨_, r2, rfl, rfl, rfl⟩
  obtain ⟨hI2, -⟩ := runs_inv hC (by decide) hw hX hg init_inv r2
  obtain ⟨bs0, hb0⟩ := Option.ne_none_iff_exists'.mp (hI2.cast (0, Fix.m1) (by simp [hcast]))
  obtain ⟨bs1, hb1⟩ := Option.ne_none_iff_exists'.mp (hI2.cast (1, Fix.m2) (by simp [hcast]))
  obtain ⟨v0, hv0⟩ := ballot_de hC hX hI2 hb0
  obtain ⟨v1, hv1⟩ := ballot_de hC hX hI2 hb1
  have hn0 : nextTally cfg.codecs S2.store 0 v0 = some (.ok ([0], v0)) := by rw [nextTally, hst]
  have s3 := PollStep.count (K := cfg) 0 bs0 [] v0 _ hb0 hv0 hn0
  have r3 := PollRuns.step r2 s3
  obtain ⟨hI3, -⟩ := step_inv hC (by decide) hw hX hg hI2 s3
  obtain ⟨votes, ht0, -⟩ := next_inv hC hX hI2 hb0 hv0 hn0
  have hd3 := tally_de (K := cfg) hC (by decide) hX ht0
  obtain ⟨-, ch0, r0, -, e0⟩ := ballot_read hC hX hI2 hb0 hv0
  obtain ⟨-, ch1, r1', -, e1⟩ := ballot_read hC hX hI2 hb1 hv1
  obtain ⟨z, hn1⟩ : ∃ z, nextTally cfg.codecs ((arkTally cfg.codecs).ser ([0], v0)) 1 v1 = some (.ok ([1, 0], z)) := by
    rw [nextTally, hd3]
    dsimp only
    rw [if_neg (by decide), e0, e1, addCts_cipher]
    exact ⟨_, rfl⟩
  have hpos : 0 < ((arkTally cfg.codecs).ser (([1, 0], z) : List ℕ × List Fix.E.G1)).length := by
    simp [arkTally, arkVec, bytesLE]
  exact ⟨_, .step r3 (.torn 1 bs1 [] v1 _ 0 hb1 hv1 hn1 hpos), hcast, htot, rfl⟩

end Poll'

/-- Non-vacuity: after that history there are steps, none of them a vote, after which the destination gets the sums of the
two users' votes. -/
example : ∃ S T : Poll, PollRuns Poll'.cfg Poll.init S ∧ S.total = none ∧ (arkTally Poll'.cfg.codecs).de S.store = none ∧
    PollRuns Poll'.cfg S T ∧ ∃ done, T.counted Poll'.cfg = some done ∧ done.Perm [0, 1] ∧
    T.outcome Poll'.cfg true Fix.skd 16 = some (.ok [11, 22, 3300, 4]) := by
  have hC := scalarCodecs_lawful goldFr
  obtain ⟨S, h1, h2, h3, h4⟩ := Poll'.crashing_history
  obtain ⟨T, res, done, a1, a2, a3, a4, a5⟩ := C108_no_deadlock (K := Poll'.cfg) hC (by decide) Fix.dkg_ok Fix.dest_ok true 16
    (by decide) S h1 (by simp [h2])
  obtain ⟨votes, b1, b2, b3, b4, b5⟩ := C108_every_history (K := Poll'.cfg) hC (by decide) Fix.dkg_ok Fix.dest_ok Fix.gi_ne
    true 16 (by decide) T (Poll'.trans h1 a1) res a3
  rw [a4] at b4
  cases b4
  have hm := a5 h3
  rw [a2, h2] at b3
  have hsub : votes.Perm [(1, Fix.m2), (0, Fix.m1)] := by
    refine (List.perm_ext_iff_of_nodup (List.Nodup.of_map _ b2) (by decide)).mpr fun v => ⟨b3 v, fun hv => ?_⟩
    rw [h2] at hm
    obtain ⟨u, hu, e⟩ := List.mem_map.mp (hm v hv)
    have hu' := b3 u hu
    have : u = v := by
      simp only [List.mem_cons, List.not_mem_nil, or_false] at hu' hv
      rcases hu' with rfl | rfl <;> rcases hv with rfl | rfl <;> simp_all
    exact this ▸ hu
  have hsum : ∀ i, (votes.map fun v => (nums v.2).getD i 0).sum = (nums Fix.m2).getD i 0 + (nums Fix.m1).getD i 0 := by
    intro i
    rw [(hsub.map fun v => (nums v.2).getD i 0).sum_eq]
    simp
  simp only [hsum] at b5
  have hX : Poll'.cfg.ek.X.length = 4 := by decide +kernel
  obtain ⟨ds, c1, c2, c3⟩ := (b5 (by rw [hX]; decide +kernel)).1 (by rw [hX]; decide +kernel)
  refine ⟨S, T, h1, h3, h4, a1, _, a4, (hsub.map _).trans (List.Perm.swap _ _ _), ?_⟩
  rw [a3, c1]
  congr 2
  rw [hX] at c2 c3
  match ds, c2 with
  | [p, q, r, s], _ =>
    have e0 := c3 0 (by omega)
    have e1 := c3 1 (by omega)
    have e2 := c3 2 (by omega)
    have e3 := c3 3 (by omega)
    simp only [nums, Fix.m1, Fix.m2, List.map_cons, List.map_nil, List.getD_cons_zero, List.getD_cons_succ] at e0 e1 e2 e3
    rw [← UInt16.toNat_inj.mp (show p.toNat = (11 : UInt16).toNat from e0), ← UInt16.toNat_inj.mp (show q.toNat = (22 : UInt16).toNat from e1),
      ← UInt16.toNat_inj.mp (show r.toNat = (3300 : UInt16).toNat from e2), ← UInt16.toNat_inj.mp (show s.toNat = (4 : UInt16).toNat from e3)]

end Verif
