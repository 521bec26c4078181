/-
Property C110: everything in one transition system.
-/
import Verif.Model.Whole
import Verif.Props.OpenPoll

namespace Verif
open Spec

variable {E : Engine}

namespace Whl

theorem trans {A : Public E} {bad} {W V U : Whole E} (h : WholeRuns A bad W V) (h' : WholeRuns A bad V U) :
    WholeRuns A bad W U := by
  induction h' with
  | refl => exact h
  | step _ hs ih => exact .step ih hs

/-- the runs of key generation -/
abbrev SR (A : Public E) (S T : Sys E) : Prop := SysRuns A.codecs A.holders A.b A.gens A.g_i A.delta_g A.gamma_g S T

theorem lift_sys {A : Public E} {bad} {P : Poll} {S T : Sys E} (h : SR A S T) : WholeRuns A bad ⟨S, P⟩ ⟨T, P⟩ := by
  induction h with
  | refl => exact .refl _
  | step _ hs ih => exact .step ih (.keygen _ hs)

theorem cfg_congr {A : Public E} {S : Sys E} {P Q : Poll} : Whole.cfg A ⟨S, P⟩ = Whole.cfg A ⟨S, Q⟩ := rfl

theorem lift_poll {A : Public E} {bad} {S : Sys E} {K : PollCfg E} (hK : ∀ P, Whole.cfg A ⟨S, P⟩ = some K) {P Q : Poll}
    (h : OpenRuns K bad P Q) : WholeRuns A bad ⟨S, P⟩ ⟨S, Q⟩ := by
  induction h with
  | refl => exact .refl _
  | step _ hs ih => exact .step ih (.poll K _ (hK _) hs)

section
variable {A : Public E} {bad : ℕ → Prop} (hC : LawfulCodecs A.codecs) (hN : 0 < A.holders) {n : UInt8}
  (hn : chunksCount E.fr A.b = .ok n) (hg : n.toNat ≤ A.g_i.length)
include hC hN hn hg

/-- as soon as the key can be computed, the configuration is there -/
theorem cfg_of_final {S : Sys E} (hS : SR A Sys.init S) {res} (hf : S.finalKey A.codecs A.holders A.gamma_g = some res)
    (P : Poll) : ∃ (R : ℕ → Party E) (sks : List (SecretKeyST E)) (ek : EncryptionKey E), res = .ok ek ∧
      dkg ((List.range A.holders).map R) A.b A.gens A.g_i A.delta_g A.gamma_g = .ok (sks, ek) ∧
      (∀ j < A.holders, ∃ sk k, sks[j]? = some sk ∧ load A.codecs (S.node j).disk = some (sk, k)) ∧
      Whole.cfg A ⟨S, P⟩ = some ⟨A.codecs, A.users, ek, A.g_i, A.gens, A.ekd, sks⟩ := by
  obtain ⟨R, sks, ek, rfl, h1, h2⟩ := C107_every_history hC A.holders hN A.b n hn A.gens A.g_i hg A.delta_g A.gamma_g S hS res hf
  refine ⟨R, sks, ek, rfl, h1, h2, ?_⟩
  have hlen : sks.length = A.holders := by
    rw [dkg_eq _ (by simp; omega) A.gens A.g_i A.delta_g A.gamma_g hn hg] at h1
    rw [← (Prod.mk.inj (Res.ok.inj h1)).1]
    simp
  unfold Whole.cfg
  dsimp only
  rw [hf]
  dsimp only
  have hm : ((List.range A.holders).mapM fun j => do
      let (sk, _) ← load A.codecs (S.node j).disk
      return sk) = some sks := by
    rw [Rst.mapM_some _ (fun j => sks.getD j ⟨[], []⟩)]
    · congr 1
      apply List.ext_getElem (by simp [hlen])
      intro i h1 h2
      simp [List.getElem?_eq_getElem h2]
    · intro j hj
      obtain ⟨sk, k, e1, e2⟩ := h2 j (List.mem_range.mp hj)
      rw [e2, List.getD_eq_getElem?_getD, e1]
      rfl
  rw [hm]
  rfl

/-- what a configuration is -/
theorem cfg_inv {W : Whole E} (hS : SR A Sys.init W.sys) {K} (hK : W.cfg A = some K) : ∃ (R : ℕ → Party E) (sks : List (SecretKeyST E)) (ek : EncryptionKey E),
    W.sys.finalKey A.codecs A.holders A.gamma_g = some (.ok ek) ∧
    K = ⟨A.codecs, A.users, ek, A.g_i, A.gens, A.ekd, sks⟩ ∧
    dkg ((List.range A.holders).map R) A.b A.gens A.g_i A.delta_g A.gamma_g = .ok (sks, ek) ∧
    (∀ j < A.holders, ∃ sk k, sks[j]? = some sk ∧ load A.codecs (W.sys.node j).disk = some (sk, k)) := by
  cases hf : W.sys.finalKey A.codecs A.holders A.gamma_g with
  | none => unfold Whole.cfg at hK; rw [hf] at hK; cases hK
  | some res =>
    obtain ⟨R, sks, ek, rfl, h1, h2, h3⟩ := cfg_of_final hC hN hn hg hS hf W.poll
    have h3' : W.cfg A = some ⟨A.codecs, A.users, ek, A.g_i, A.gens, A.ekd, sks⟩ := h3
    rw [hK] at h3'
    exact ⟨R, sks, ek, rfl, Option.some.inj h3', h1, h2⟩

/-- it stays -/
theorem cfg_later {S T : Sys E} (hS : SR A Sys.init S) (hT : SR A S T) {P Q : Poll} {K} (hK : Whole.cfg A ⟨S, P⟩ = some K) :
    Whole.cfg A ⟨T, Q⟩ = some K := by
  obtain ⟨R, sks, ek, hf, rfl, h1, h2⟩ := cfg_inv hC hN hn hg hS hK
  have hf' := C107_agreement hC A.holders hN A.b n hn A.gens A.g_i hg A.delta_g A.gamma_g S T hS hT _ hf
  obtain ⟨R', sks', ek', e, h1', h2', h3'⟩ := cfg_of_final hC hN hn hg (Rst.trans hS hT) hf' Q
  cases e
  rw [h3']
  have hl : ∀ {R : ℕ → Party E} {sks}, dkg ((List.range A.holders).map R) A.b A.gens A.g_i A.delta_g A.gamma_g = .ok (sks, ek) →
      sks.length = A.holders := by
    intro R sks h1
    rw [dkg_eq _ (by simp; omega) A.gens A.g_i A.delta_g A.gamma_g hn hg] at h1
    rw [← (Prod.mk.inj (Res.ok.inj h1)).1]
    simp
  have : sks' = sks := by
    apply List.ext_getElem?
    intro j
    by_cases hj : j < A.holders
    · obtain ⟨sk, k, a1, a2⟩ := h2 j hj
      obtain ⟨sk', k', b1, b2⟩ := h2' j hj
      have := (C107_durable hC A.holders A.b n hn A.gens A.g_i hg A.delta_g A.gamma_g S T hS hT j).1 _ a2
      rw [b2] at this
      cases this
      rw [a1, b1]
    · rw [List.getElem?_eq_none (by rw [hl h1']; omega), List.getElem?_eq_none (by rw [hl h1]; omega)]
  rw [this]

/-- what holds in all states: key generation is a run of key generation, and the poll one of the poll with the key -/
theorem runs_split {W V : Whole E} (hW : SR A Sys.init W.sys) (h : WholeRuns A bad W V) :
    SR A W.sys V.sys ∧ (V.poll = W.poll ∨ ∃ K, V.cfg A = some K ∧ OpenRuns K bad W.poll V.poll) := by
  induction h with
  | refl => exact ⟨.refl _, .inl rfl⟩
  | @step V U _ hs ih =>
    obtain ⟨h1, h2⟩ := ih
    cases hs with
    | keygen S hs =>
      refine ⟨.step h1 hs, ?_⟩
      rcases h2 with h2 | ⟨K, hK, h2⟩
      · exact .inl h2
      · exact .inr ⟨K, cfg_later hC hN hn hg (Rst.trans hW h1) (.step (.refl _) hs) hK, h2⟩
    | poll K S hK hs =>
      refine ⟨h1, .inr ⟨K, hK, ?_⟩⟩
      rcases h2 with h2 | ⟨K', hK', h2⟩
      · have : OpenRuns K bad V.poll S := .step (.refl _) hs
        rwa [h2] at this
      · rw [hK] at hK'
        cases hK'
        exact .step h2 hs

theorem reach {W : Whole E} (h : WholeRuns A bad Whole.init W) : SR A Sys.init W.sys ∧
    ∀ K, W.cfg A = some K → OpenRuns K bad Poll.init W.poll := by
  obtain ⟨h1, h2⟩ := runs_split hC hN hn hg (.refl _) h
  refine ⟨h1, fun K hK => ?_⟩
  rcases h2 with h2 | ⟨K', hK', h2⟩
  · rw [h2]
    exact .refl _
  · rw [hK] at hK'
    cases hK'
    exact h2

end
end Whl

/-! ### C110 -/

section
variable {A : Public E} {bad : ℕ → Prop} (hC : LawfulCodecs A.codecs) (hN : 0 < A.holders) (hU : A.users < 2 ^ 64) {n : UInt8}
  (hn : chunksCount E.fr A.b = .ok n) (hg : n.toNat ≤ A.g_i.length)
  {Rd : RngCore E} {std std' : Rd.σ} {skd : SecretKey E}
  (hdest : fkeygenDest Rd std A.gens = .ok ((skd, A.ekd), std'))
include hC hN hU hn hg hdest

/-- **C110** everything together: key generation by key holders that crash, and a poll with dishonest users and an aggregator
that crashes.  If the destination gets anything, then the key is that of a run of key generation without crashes, in which
everybody has the secret key that is in its storage; there is one ciphertext for each user published as counted, which that
user has put on the board and which passes `verify_commitment`, for an honest user an encryption of a vote it has cast; and the
destination gets the numbers that these carry together, or the error for sums out of its search range. -/
theorem C110_every_history (chk : Bool) (b' : UInt8) (hb' : b'.toNat < 32) (W : Whole E)
    (hW : WholeRuns A bad Whole.init W) (res : Res (List UInt16)) (hout : W.outcome A chk skd b' = some res) :
    ∃ (R : ℕ → Party E) (sks : List (SecretKeyST E)) (ek : EncryptionKey E) (cnt : List (ℕ × Ciphertext E)),
      W.sys.finalKey A.codecs A.holders A.gamma_g = some (.ok ek) ∧
      dkg ((List.range A.holders).map R) A.b A.gens A.g_i A.delta_g A.gamma_g = .ok (sks, ek) ∧
      (∀ j < A.holders, ∃ sk k, sks[j]? = some sk ∧ load A.codecs (W.sys.node j).disk = some (sk, k)) ∧
      cnt ≠ [] ∧ (cnt.map (·.1)).Nodup ∧ W.counted A = some (cnt.map (·.1)) ∧
      (∀ p ∈ cnt, p.2.verifyCommitment ek.prepare A.gens.prepare = .ok () ∧
        ∃ bs rest, (p.1, bs) ∈ W.poll.posted ∧ (arkVec A.codecs.g1).de bs = some (flat p.2, rest)) ∧
      (∀ p ∈ cnt, ¬ bad p.1 → ∃ chunks, (p.1, chunks) ∈ W.poll.cast ∧
        ∀ i < n.toNat, content sks p.2 i = (nums chunks).getD i 0 • A.g_i.getD i 0) ∧
      (∀ ds, res = .ok ds ↔ ds.length = n.toNat ∧ ∀ i < n.toNat,
        IsLeastLog (A.g_i.getD i 0) (cnt.map fun p => content sks p.2 i).sum (searchBound b'.toNat) ((nums ds).getD i 0)) ∧
      (∀ e, res = .err e ↔ e = .couldNotFindDiscreteLog ∧ ∃ i < n.toNat,
        NoLog (A.g_i.getD i 0) (cnt.map fun p => content sks p.2 i).sum (searchBound b'.toNat)) ∧
      res ≠ .panic := by
  obtain ⟨h1, h2⟩ := Whl.reach hC hN hn hg hW
  cases hK : W.cfg A with
  | none => rw [Whole.outcome, hK] at hout; cases hout
  | some K =>
    rw [Whole.outcome, hK] at hout
    obtain ⟨R, sks, ek, a1, rfl, a2, a3⟩ := Whl.cfg_inv hC hN hn hg h1 hK
    obtain ⟨cnt, b1, b2, b3, b4⟩ := C109_every_history (K := ⟨A.codecs, A.users, ek, A.g_i, A.gens, A.ekd, sks⟩) hC hU a2 hdest
      chk b' hb' W.poll (h2 _ hK) res hout
    have hX : ek.X.length = n.toNat := by
      rw [dkg_eq _ (by simp; omega) A.gens A.g_i A.delta_g A.gamma_g hn hg] at a2
      rw [← (Prod.mk.inj (Res.ok.inj a2)).2]
      simp [encKey]
    dsimp only at b4
    rw [hX] at b4
    exact ⟨R, sks, ek, cnt, a1, a2, a3, b1, b2, by rw [Whole.counted, hK]; exact b3, b4⟩

/-- **C110** (in numbers) if every counted ciphertext carries numbers `m j i`, as those of honest users do, and their sums are
within the search range, the destination gets exactly these sums. -/
theorem C110_sums (hgi : ∀ g ∈ A.g_i, g ≠ 0) (chk : Bool) (b' : UInt8) (hb' : b'.toNat < 32) (W : Whole E)
    (hW : WholeRuns A bad Whole.init W) (res : Res (List UInt16)) (hout : W.outcome A chk skd b' = some res) :
    ∃ (sks : List (SecretKeyST E)) (cnt : List (ℕ × Ciphertext E)),
      (∀ j < A.holders, ∃ sk k, sks[j]? = some sk ∧ load A.codecs (W.sys.node j).disk = some (sk, k)) ∧
      (cnt.map (·.1)).Nodup ∧ W.counted A = some (cnt.map (·.1)) ∧
      (∀ p ∈ cnt, ∃ bs rest, (p.1, bs) ∈ W.poll.posted ∧ (arkVec A.codecs.g1).de bs = some (flat p.2, rest)) ∧
      (∀ p ∈ cnt, ¬ bad p.1 → ∃ chunks, (p.1, chunks) ∈ W.poll.cast ∧
        ∀ i < n.toNat, content sks p.2 i = (nums chunks).getD i 0 • A.g_i.getD i 0) ∧
      ∀ m : ℕ → ℕ → ℕ, (∀ p ∈ cnt, ∀ i < n.toNat, content sks p.2 i = m p.1 i • A.g_i.getD i 0) →
        (∀ i < n.toNat, (cnt.map fun p => m p.1 i).sum ≤ searchBound b'.toNat ∧
          (cnt.map fun p => m p.1 i).sum < E.fr.p) →
        ∃ ds, res = .ok ds ∧ ds.length = n.toNat ∧
          ∀ i < n.toNat, (nums ds).getD i 0 = (cnt.map fun p => m p.1 i).sum := by
  obtain ⟨h1, h2⟩ := Whl.reach hC hN hn hg hW
  cases hK : W.cfg A with
  | none => rw [Whole.outcome, hK] at hout; cases hout
  | some K =>
    rw [Whole.outcome, hK] at hout
    obtain ⟨R, sks, ek, a1, rfl, a2, a3⟩ := Whl.cfg_inv hC hN hn hg h1 hK
    obtain ⟨cnt, b1, b2, b4⟩ := C109_sums (K := ⟨A.codecs, A.users, ek, A.g_i, A.gens, A.ekd, sks⟩) hC hU a2 hdest hgi
      chk b' hb' W.poll (h2 _ hK) res hout
    have hX : ek.X.length = n.toNat := by
      rw [dkg_eq _ (by simp; omega) A.gens A.g_i A.delta_g A.gamma_g hn hg] at a2
      rw [← (Prod.mk.inj (Res.ok.inj a2)).2]
      simp [encKey]
    dsimp only at b4
    rw [hX] at b4
    exact ⟨sks, cnt, a3, b1, by rw [Whole.counted, hK]; exact b2, b4⟩

/-- **C110** (agreement) once the destination gets something, whatever happens afterwards, it gets the same, and the same
users are counted. -/
theorem C110_agreement (chk : Bool) (b' : UInt8) (hb' : b'.toNat < 32) (W V : Whole E) (hW : WholeRuns A bad Whole.init W)
    (hV : WholeRuns A bad W V) (res : Res (List UInt16)) (hout : W.outcome A chk skd b' = some res) :
    V.outcome A chk skd b' = some res ∧ V.counted A = W.counted A := by
  obtain ⟨h1, h2⟩ := Whl.reach hC hN hn hg hW
  obtain ⟨h3, h4⟩ := Whl.runs_split hC hN hn hg h1 hV
  cases hK : W.cfg A with
  | none => rw [Whole.outcome, hK] at hout; cases hout
  | some K =>
    rw [Whole.outcome, hK] at hout
    have hK' : V.cfg A = some K := Whl.cfg_later hC hN hn hg h1 h3 (P := W.poll) (Q := V.poll) hK
    have hr : OpenRuns K bad W.poll V.poll := by
      rcases h4 with h4 | ⟨K', hK'', h4⟩
      · rw [h4]
        exact .refl _
      · rw [hK'] at hK''
        cases hK''
        exact h4
    obtain ⟨R, sks, ek, a1, rfl, a2, a3⟩ := Whl.cfg_inv hC hN hn hg h1 hK
    obtain ⟨c1, c2⟩ := C109_agreement (K := ⟨A.codecs, A.users, ek, A.g_i, A.gens, A.ekd, sks⟩) hC hU a2 hdest
      chk b' hb' W.poll V.poll (h2 _ hK) hr res hout
    refine ⟨by rw [Whole.outcome, hK']; exact c1, ?_⟩
    rw [Whole.counted, Whole.counted, hK, hK']
    exact c2

/-- **C110** (nobody can block it) from every reachable state, whatever has been lost in crashes and whatever dishonest users
have put on the board: the key holders can finish key generation if they have not; any honest user can then still cast any
vote; and after that the destination can get something, such that every honest user who has voted is counted if the tally had
not been published before. -/
theorem C110_no_deadlock (chk : Bool) (b' : UInt8) (hb' : b'.toNat < 32) (W : Whole E) (hW : WholeRuns A bad Whole.init W)
    (j : ℕ) (hj : j < A.users) (hjb : ¬ bad j) (chunks : List UInt16) (hch : chunks.length = n.toNat) :
    ∃ V res done, WholeRuns A bad W V ∧ V.poll.cast = (j, chunks) :: W.poll.cast ∧ V.outcome A chk skd b' = some res ∧
      V.counted A = some done ∧ (W.poll.total = none → ∀ v ∈ V.poll.cast, v.1 ∈ done) := by
  obtain ⟨h1, -⟩ := Whl.reach hC hN hn hg hW
  obtain ⟨S, ek, h2, hf⟩ := C107_no_deadlock hC A.holders hN A.b n hn A.gens A.g_i hg A.delta_g A.gamma_g W.sys h1
  have hW1 : WholeRuns A bad W ⟨S, W.poll⟩ := Whl.lift_sys h2
  obtain ⟨h3, h4⟩ := Whl.reach hC hN hn hg (Whl.trans hW hW1)
  obtain ⟨R, sks, ek', e, a2, a3, hK⟩ := Whl.cfg_of_final hC hN hn hg h3 hf W.poll
  cases e
  generalize hKK : (⟨A.codecs, A.users, ek, A.g_i, A.gens, A.ekd, sks⟩ : PollCfg E) = K at hK
  have hdkg : dkg ((List.range A.holders).map R) A.b K.gens K.g_i A.delta_g A.gamma_g = .ok (K.sks, K.ek) := by
    rw [← hKK]; exact a2
  have hC' : LawfulCodecs K.codecs := by rw [← hKK]; exact hC
  have hU' : K.users < 2 ^ 64 := by rw [← hKK]; exact hU
  have hdest' : fkeygenDest Rd std K.gens = .ok ((skd, K.ekd), std') := by rw [← hKK]; exact hdest
  have hX : K.ek.X.length = n.toNat := by
    rw [← hKK]
    rw [dkg_eq _ (by simp; omega) A.gens A.g_i A.delta_g A.gamma_g hn hg] at a2
    rw [← (Prod.mk.inj (Res.ok.inj a2)).2]
    simp [encKey]
  obtain ⟨hw, hX256, hgl⟩ := Poll'.facts hdkg
  have hpoll := h4 K hK
  have hv := encryptDecomposed_ok Rd std chunks K.ek K.g_i hw hX256 (by rw [hX, hch]) hgl
  have hstep : OpenStep K bad W.poll _ := .vote j ⟨Rd, std⟩ chunks _ _ _ (by rw [← hKK]; exact hj) hjb hv
  obtain ⟨P1, hP1, hP2, hP3⟩ : ∃ P1, OpenRuns K bad W.poll P1 ∧ P1.cast = (j, chunks) :: W.poll.cast ∧
    P1.total = W.poll.total := ⟨_, .step (.refl _) hstep, rfl, rfl⟩
  obtain ⟨T, res, done, c1, ⟨c2, -⟩, -, c4, c5, c6⟩ := C109_no_deadlock (K := K) hC' hU' hdkg hdest' chk b' hb' P1
    (OPoll.trans hpoll hP1) (.inr (.inl (by rw [hP2]; simp)))
  have hKs : ∀ P, Whole.cfg A ⟨S, P⟩ = some K := fun P => hK
  refine ⟨⟨S, T⟩, res, done, Whl.trans hW1 (Whl.lift_poll hKs (OPoll.trans hP1 c1)), c2.trans hP2, ?_, ?_, fun h v hv => ?_⟩
  · rw [Whole.outcome, hKs]
    exact c4
  · rw [Whole.counted, hKs]
    exact c5
  · have hv' : v ∈ T.cast := hv
    rw [c2] at hv'
    exact (c6 (hP3.trans h)).1 v hv'

end

/-- Non-vacuity: two key holders, of whom one crashes while storing its secrets and again after publishing its partial key,
and two users, of whom user 0 votes: the destination gets its vote. -/
example (P Q : Party Fix.E) :
    let A : Public Fix.E := ⟨scalarCodecs goldFr, 2, 2, 16, Fix.gens, Fix.gi, Fix.D, Fix.C, Fix.ekd⟩
    ∃ W V : Whole Fix.E, WholeRuns A (fun _ => False) Whole.init W ∧ (W.sys.node 0).mem = none ∧ W.cfg A = none ∧
      WholeRuns A (fun _ => False) W V ∧ V.counted A = some [0] ∧ V.outcome A true Fix.skd 16 = some (.ok Fix.m1) := by
  intro A
  have hC : LawfulCodecs A.codecs := scalarCodecs_lawful goldFr
  have hg : (4 : UInt8).toNat ≤ A.g_i.length := by decide +kernel
  obtain ⟨S, h1, h2, h3, h4⟩ := Rst.crashing_history hC 2 (by omega) 16 4 Fix.count Fix.gens Fix.gi hg Fix.D Fix.C P Q
  have hW : WholeRuns A (fun _ => False) Whole.init ⟨S, Poll.init⟩ := Whl.lift_sys h1
  obtain ⟨V, res, done, a1, a2, a3, a4, a5⟩ := C110_no_deadlock (A := A) hC (by decide) (by decide) Fix.count hg Fix.dest_ok
    true 16 (by decide) ⟨S, Poll.init⟩ hW 0 (by decide) (by simp) Fix.m1 rfl
  obtain ⟨sks, cnt, -, b1, b2, -, b3, b4⟩ := C110_sums (A := A) hC (by decide) (by decide) Fix.count hg Fix.dest_ok Fix.gi_ne
    true 16 (by decide) V (Whl.trans hW a1) res a3
  have hc : V.poll.cast = [(0, Fix.m1)] := a2
  have h0 : 0 ∈ done := a5 rfl (0, Fix.m1) (by rw [hc]; simp)
  rw [a4] at b2
  have hm : ∀ p ∈ cnt, p.1 = 0 ∧ ∀ i < (4 : UInt8).toNat, content sks p.2 i = (nums Fix.m1).getD i 0 • A.g_i.getD i 0 := by
    intro p hp
    obtain ⟨ch, c1, c2⟩ := b3 p hp (by simp)
    rw [hc, List.mem_singleton] at c1
    obtain ⟨e1, rfl⟩ := Prod.mk.inj c1
    exact ⟨e1, c2⟩
  have hd : cnt.map (·.1) = [0] := by
    have hsub : ∀ x ∈ cnt.map (·.1), x = 0 := by
      intro x hx
      obtain ⟨p, hp, rfl⟩ := List.mem_map.mp hx
      exact (hm p hp).1
    rw [Option.some.inj b2] at h0
    clear b2 b3 b4 hm
    generalize cnt.map (·.1) = done at *
    match done, b1, hsub, h0 with
    | [x], _, hs, _ => rw [hs x (by simp)]
    | x :: y :: l, hb, hs, _ =>
      rw [hs x (by simp), hs y (by simp)] at hb
      simp at hb
  have hl : cnt.length = 1 := by simpa using congrArg List.length hd
  refine ⟨⟨S, Poll.init⟩, V, hW, h3, ?_, a1, by rw [a4, b2, hd], ?_⟩
  · cases hK : Whole.cfg A ⟨S, Poll.init⟩ with
    | none => rfl
    | some K =>
      obtain ⟨-, -, ek, hf, -⟩ := Whl.cfg_inv hC (by decide) Fix.count hg h1 hK
      exact absurd (h4 0) ((Rst.final_inv hf).2 0 (by decide))
  obtain ⟨p, rfl⟩ := List.length_eq_one_iff.mp hl
  obtain ⟨ds, d1, d2, d3⟩ := b4 (fun _ i => (nums Fix.m1).getD i 0) (fun p hp => (hm p hp).2) (by
    simp only [List.map_cons, List.map_nil, List.sum_cons, List.sum_nil]
    decide +kernel)
  suffices hds : ds = Fix.m1 by rw [a3, d1, hds]
  have hl1 : Fix.m1.length = 4 := rfl
  have h4' : (4 : UInt8).toNat = 4 := rfl
  rw [h4'] at d2 d3
  have hinj : Function.Injective nums := List.map_injective_iff.mpr fun (x y : UInt16) h => UInt16.toNat_inj.mp h
  apply hinj
  apply List.ext_getElem (by simp [nums, d2, hl1])
  intro i h1 h2
  have h3 : i < 4 := by simpa [nums, d2] using h1
  have := d3 i h3
  simp only [List.map_cons, List.map_nil, List.sum_cons, List.sum_nil, add_zero] at this
  rwa [List.getD_eq_getElem _ _ h1, List.getD_eq_getElem _ _ h2] at this

end Verif
