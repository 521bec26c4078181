/-
Property C115: liveness of the poll in which users prove what their ballots contain.
-/
import Verif.Props.ProvedPoll
import Verif.Props.Liveness

namespace Verif
open Spec

variable {E : Engine}

namespace PLiv
variable {K : ProvedCfg E} {bad : ℕ → Prop}

theorem runs {h : ℕ → Poll} (hh : History (ProvedStep K bad) h) {i k : ℕ} (hik : i ≤ k) :
    ProvedRuns K bad (h i) (h k) := by
  induction k, hik using Nat.le_induction with
  | base => exact .refl _
  | succ m _ ih =>
    rcases hh m with hs | hs
    · exact .step ih hs
    · rw [hs]; exact ih

theorem rtg {S T : Poll} (hr : ProvedRuns K bad S T) : Relation.ReflTransGen (ProvedStep K bad) S T := by
  induction hr with
  | refl => exact .refl
  | step _ hs ih => exact .tail ih hs

/-- an action about what the aggregator and the key holders store and publish -/
def Blind (act : Poll → Poll → Prop) : Prop :=
  (∀ S T S' T' : Poll, S.store = S'.store → S.total = S'.total → S.shares = S'.shares → T.store = T'.store →
    T.total = T'.total → T.shares = T'.shares → act S T → act S' T') ∧
  ∀ S T : Poll, S.store = T.store → S.total = T.total → S.shares = T.shares → ¬ act S T

theorem blind_starts (C : Codecs E) : Blind (StartsTally C) :=
  ⟨fun S T S' T' h1 _ _ h4 _ _ h => by unfold StartsTally at h ⊢; rwa [← h1, ← h4],
    fun S T h1 _ _ h => h.2 (h1 ▸ h.1)⟩

theorem blind_counts (C : Codecs E) (j : ℕ) : Blind (CountsUser C j) :=
  ⟨fun S T S' T' h1 _ _ h4 _ _ h => by unfold CountsUser countedSoFar at h ⊢; rwa [← h1, ← h4],
    fun S T h1 _ _ h => by unfold CountsUser countedSoFar at h; rw [h1] at h; exact h.1 h.2⟩

theorem blind_closes : Blind Closes :=
  ⟨fun S T S' T' _ h2 _ _ h5 _ h => by unfold Closes at h ⊢; rwa [← h2, ← h5], fun S T _ h2 _ h => h.2 (h2 ▸ h.1)⟩

theorem blind_shares (j : ℕ) : Blind (SharesTally j) :=
  ⟨fun S T S' T' _ _ h3 _ _ h6 h => by unfold SharesTally at h ⊢; rwa [← h3, ← h6], fun S T _ _ h3 h => h.2 (h3 ▸ h.1)⟩

theorem enabled_back (hC : LawfulCodecs K.codecs) (hX : K.ek.X.length < 256) {act : Poll → Poll → Prop} (ha : Blind act)
    {S : Poll} (h : Enabled (OpenStep K.toPollCfg bad) act (PPoll.shadow K S)) : Enabled (ProvedStep K bad) act S := by
  obtain ⟨U, hs, hact⟩ := h
  have hp : U.posted.length = S.posted.length := by
    cases hs with
    | vote => exact absurd hact (ha.2 _ _ rfl rfl rfl)
    | post => exact absurd hact (ha.2 _ _ rfl rfl rfl)
    | _ => simp [PPoll.shadow]
  obtain ⟨T, t1, rfl, -⟩ := PPoll.step_back hC hX hs hp
  exact ⟨T, t1, ha.1 (PPoll.shadow K S) (PPoll.shadow K T) S T rfl rfl rfl rfl rfl rfl hact⟩

theorem weak_sim (hC : LawfulCodecs K.codecs) (hX : K.ek.X.length < 256) {act : Poll → Poll → Prop} (ha : Blind act)
    {h : ℕ → Poll} (hf : WeaklyFair (ProvedStep K bad) act h) :
    WeaklyFair (OpenStep K.toPollCfg bad) act fun i => PPoll.shadow K (h i) := by
  intro i hi
  obtain ⟨k, hk, hact⟩ := hf i fun k hk => enabled_back hC hX ha (hi k hk)
  exact ⟨k, hk, ha.1 (h k) (h (k + 1)) (PPoll.shadow K (h k)) (PPoll.shadow K (h (k + 1))) rfl rfl rfl rfl rfl rfl hact⟩

theorem strong_sim (hC : LawfulCodecs K.codecs) (hX : K.ek.X.length < 256) {act : Poll → Poll → Prop} (ha : Blind act)
    {h : ℕ → Poll} (hf : StronglyFair (ProvedStep K bad) act h) :
    StronglyFair (OpenStep K.toPollCfg bad) act fun i => PPoll.shadow K (h i) := by
  intro i hi
  obtain ⟨k, hk, hact⟩ := hf i fun k hk => by
    obtain ⟨l, hl, he⟩ := hi k hk
    exact ⟨l, hl, enabled_back hC hX ha he⟩
  exact ⟨k, hk, ha.1 (h k) (h (k + 1)) (PPoll.shadow K (h k)) (PPoll.shadow K (h (k + 1))) rfl rfl rfl rfl rfl rfl hact⟩

section
variable (hC : LawfulCodecs K.codecs) (hb : Supported K.bits)
  (hal : 64 * E.fr.limbs < E.fr.modBits + K.bits.toNat ∧ chunksNeeded E.fr K.bits.toNat ≤ 255)
  {c0 : BitsizeCheckCircuit E.fr} (hc0 : BitsizeCheckCircuit.new (K := E.fr) K.bits none none true = .ok c0)
  {R : RngCore E} {fuel : ℕ} {st st' : R.σ}
  (hsrs : generateSrs K.fft R fuel st c0.generateConstraints K.gens = .ok (K.pk, st'))
  (hg : getGsForEncryption K.pk.pk.vk = .ok K.g_i) {parties : List (Party E)}
  (hdkg : dkg parties K.bits K.gens K.g_i K.pk.pk.delta_g1 K.pk.gamma_g1 = .ok (K.sks, K.ek))
include hC hb hal hc0 hsrs hg hdkg

theorem enabled_sim {act : Poll → Poll → Prop} (ha : Blind act) {S : Poll} (h : Enabled (ProvedStep K bad) act S) :
    Enabled (OpenStep K.toPollCfg bad) act (PPoll.shadow K S) := by
  obtain ⟨T, hs, hact⟩ := h
  exact ⟨PPoll.shadow K T, PPoll.step_sim hC hb hal hc0 hsrs hg hdkg hs, ha.1 S T (PPoll.shadow K S) (PPoll.shadow K T) rfl rfl rfl rfl rfl rfl hact⟩

theorem history_sim {h : ℕ → Poll} (hh : History (ProvedStep K bad) h) :
    History (OpenStep K.toPollCfg bad) fun i => PPoll.shadow K (h i) := by
  intro i
  rcases hh i with hs | hs
  · exact .inl (PPoll.step_sim hC hb hal hc0 hsrs hg hdkg hs)
  · exact .inr (congrArg (PPoll.shadow K) hs)

/-- a state from which nothing more is to be done -/
theorem poll_end (hU : K.users < 2 ^ 64) (S : Poll) (hS : ProvedRuns K bad Poll.init S) :
    ∃ T, ProvedRuns K bad S T ∧ ¬ Enabled (ProvedStep K bad) (StartsTally K.codecs) T ∧
      ¬ Enabled (ProvedStep K bad) Closes T ∧ ∀ j < K.sks.length, ¬ Enabled (ProvedStep K bad) (SharesTally j) T := by
  obtain ⟨-, hX, -⟩ := Poll'.facts hdkg
  obtain ⟨U, h1, hp, h2, h3, h4⟩ := Liv.poll_end' (K := K.toPollCfg) hC hU hdkg _
    (PPoll.runs_sim hC hb hal hc0 hsrs hg hdkg hS)
  obtain ⟨T, t1, rfl, -⟩ := PPoll.runs_back hC hX rfl h1 (by rw [hp]; simp [PPoll.shadow])
  exact ⟨T, t1, fun he => h2 (enabled_sim hC hb hal hc0 hsrs hg hdkg (blind_starts _) he),
    fun he => h3 (enabled_sim hC hb hal hc0 hsrs hg hdkg blind_closes he),
    fun j hj he => h4 j hj (enabled_sim hC hb hal hc0 hsrs hg hdkg (blind_shares j) he)⟩

end
end PLiv

section
variable {K : ProvedCfg E} {bad : ℕ → Prop} (hC : LawfulCodecs K.codecs) (hU : K.users < 2 ^ 64) (hb : Supported K.bits)
  (hal : 64 * E.fr.limbs < E.fr.modBits + K.bits.toNat ∧ chunksNeeded E.fr K.bits.toNat ≤ 255)
  {c0 : BitsizeCheckCircuit E.fr} (hc0 : BitsizeCheckCircuit.new (K := E.fr) K.bits none none true = .ok c0)
  {R : RngCore E} {fuel : ℕ} {st st' : R.σ}
  (hsrs : generateSrs K.fft R fuel st c0.generateConstraints K.gens = .ok (K.pk, st'))
  (hg : getGsForEncryption K.pk.pk.vk = .ok K.g_i) {parties : List (Party E)}
  (hdkg : dkg parties K.bits K.gens K.g_i K.pk.pk.delta_g1 K.pk.gamma_g1 = .ok (K.sks, K.ek))
include hC hU hb hal hc0 hsrs hg hdkg

/-- **C115** the poll with proofs finishes under every fair schedule: if some honest user votes and the aggregator and the key
holders in the end do what they can do, the destination eventually gets an outcome, and always the same from then on, whatever
dishonest users post and however often the aggregator loses its tally. -/
theorem C115_finishes {Rd : RngCore E} {std std' : Rd.σ} {skd : SecretKey E}
    (hdest : fkeygenDest Rd std K.gens = .ok ((skd, K.ekd), std')) (chk : Bool) (b' : UInt8) (hb' : b'.toNat < 32)
    (h : ℕ → Poll) (h0 : h 0 = Poll.init) (hh : History (ProvedStep K bad) h)
    (hf : PollFair K.codecs K.sks.length (ProvedStep K bad) (fun S => S) h) (hv : ∃ i, (h i).cast ≠ []) :
    ∃ res, Eventually fun i => (h i).outcome K.toPollCfg chk skd b' = some res :=
  C113_poll_finishes (K := K.toPollCfg) hC hU hdkg hdest chk b' hb' (fun i => PPoll.shadow K (h i))
    (by rw [h0]; rfl) (PLiv.history_sim hC hb hal hc0 hsrs hg hdkg hh)
    ⟨PLiv.weak_sim hC (Poll'.facts hdkg).2.1 (PLiv.blind_starts _) hf.starts,
      PLiv.strong_sim hC (Poll'.facts hdkg).2.1 PLiv.blind_closes hf.closes,
      fun j hj => PLiv.weak_sim hC (Poll'.facts hdkg).2.1 (PLiv.blind_shares j) (hf.shares j hj)⟩ hv

/-- **C115** weak fairness is enough if the aggregator loses its tally only finitely often. -/
theorem C115_finishes_if_crashes_stop {Rd : RngCore E} {std std' : Rd.σ} {skd : SecretKey E}
    (hdest : fkeygenDest Rd std K.gens = .ok ((skd, K.ekd), std')) (chk : Bool) (b' : UInt8) (hb' : b'.toNat < 32)
    (h : ℕ → Poll) (h0 : h 0 = Poll.init) (hh : History (ProvedStep K bad) h)
    (hst : WeaklyFair (ProvedStep K bad) (StartsTally K.codecs) h) (hcl : WeaklyFair (ProvedStep K bad) Closes h)
    (hsh : ∀ j < K.sks.length, WeaklyFair (ProvedStep K bad) (SharesTally j) h)
    (hl : Eventually fun i => ¬ LosesTally K.codecs (h i) (h (i + 1))) (hv : ∃ i, (h i).cast ≠ []) :
    ∃ res, Eventually fun i => (h i).outcome K.toPollCfg chk skd b' = some res :=
  C113_poll_finishes_if_crashes_stop (K := K.toPollCfg) hC hU hdkg hdest chk b' hb' (fun i => PPoll.shadow K (h i))
    (by rw [h0]; rfl) (PLiv.history_sim hC hb hal hc0 hsrs hg hdkg hh)
    (PLiv.weak_sim hC (Poll'.facts hdkg).2.1 (PLiv.blind_starts _) hst)
    (PLiv.weak_sim hC (Poll'.facts hdkg).2.1 PLiv.blind_closes hcl)
    (fun j hj => PLiv.weak_sim hC (Poll'.facts hdkg).2.1 (PLiv.blind_shares j) (hsh j hj)) hl hv

/-- **C115** every honest user who votes is eventually counted in the stored tally, if the tally is lost only finitely often and
the aggregator in the end counts this user if it can. -/
theorem C115_counts (h : ℕ → Poll) (h0 : h 0 = Poll.init) (hh : History (ProvedStep K bad) h)
    (hl : Eventually fun i => ¬ LosesTally K.codecs (h i) (h (i + 1))) (m : ℕ) (v : ℕ × List UInt16) (hv : v ∈ (h m).cast)
    (hf : WeaklyFair (ProvedStep K bad) (CountsUser K.codecs v.1) h) :
    Eventually fun i => v.1 ∈ countedSoFar K.codecs (h i) :=
  C113_poll_counts (K := K.toPollCfg) hC hU hdkg (fun i => PPoll.shadow K (h i))
    (by rw [h0]; rfl) (PLiv.history_sim hC hb hal hc0 hsrs hg hdkg hh) hl m v hv
    (PLiv.weak_sim hC (Poll'.facts hdkg).2.1 (PLiv.blind_counts _ _) hf)

/-- **C115** a fair history leads through every reachable state. -/
theorem C115_fair_history (S : Poll) (hS : ProvedRuns K bad Poll.init S) :
    ∃ (h : ℕ → Poll) (m : ℕ), h 0 = Poll.init ∧ History (ProvedStep K bad) h ∧ h m = S ∧
      PollFair K.codecs K.sks.length (ProvedStep K bad) (fun S => S) h := by
  obtain ⟨T, t1, h2, h3, h4⟩ := PLiv.poll_end hC hb hal hc0 hsrs hg hdkg hU S hS
  obtain ⟨h, m, k, e0, hh, em, ee⟩ := Liv.through (PLiv.rtg hS) (PLiv.rtg t1)
  exact ⟨h, m, e0, hh, em, Liv.weak_of_end ee h2, Liv.strong_of_end ee h3, fun j hj => Liv.weak_of_end ee (h4 j hj)⟩

end

/-- Non-vacuity: the conditions can be met together. User 1 puts something unreadable on the board, user 0 submits a message with
a proof; a fair history leads through this, and in it the destination finally has an outcome. -/
example : ∃ (K : ProvedCfg Fix.E) (h : ℕ → Poll) (res : Res (List UInt16)), h 0 = Poll.init ∧
    History (ProvedStep K (· = 1)) h ∧ PollFair K.codecs K.sks.length (ProvedStep K (· = 1)) (fun S => S) h ∧
    (∃ i, (h i).cast ≠ [] ∧ (h i).ballots 1 = some [7, 7, 7]) ∧
    Eventually fun i => (h i).outcome K.toPollCfg true Fix.skd 16 = some res := by
  have hC := scalarCodecs_lawful goldFr
  obtain ⟨c0, pk, ek0, g_i, st1, -, hc0, hsrs, hg, hgi, hgl, -⟩ := Fix.run8
  have hb : Supported 8 := .inr (.inl rfl)
  obtain ⟨sks, ek, hdkg⟩ : ∃ sks ek, dkg [⟨listRng Fix.E, Fix.st⟩, ⟨listRng Fix.E, Fix.st1⟩] 8 Fix.gens g_i pk.pk.delta_g1
      pk.gamma_g1 = .ok (sks, ek) := by
    exact ⟨_, _, dkg_eq _ (by simp) Fix.gens g_i _ _ Fix.count8 hgl⟩
  have hXn : ek.X.length = 8 := by
    obtain ⟨n, s, t, hn, hgn, hek⟩ := fromSetup_inv (Or.inr ⟨_, sks, hdkg⟩ :
      FromSetup ek 8 Fix.gens g_i pk.pk.delta_g1 pk.gamma_g1)
    rw [Fix.count8] at hn
    cases hn
    rw [hek]
    simp [encKey, Fix.eight]
  obtain ⟨K, hK⟩ : ∃ K : ProvedCfg Fix.E, K = { codecs := scalarCodecs goldFr, users := 2, ek := ek, g_i := g_i,
                                                gens := Fix.gens, ekd := Fix.ekd, sks := sks, pk := pk, fft := goldFft,
                                                chk := true, bits := 8 } := ⟨_, rfl⟩
  have hU : K.users < 2 ^ 64 := by rw [hK]; show 2 < 2 ^ 64; decide
  have hC' : LawfulCodecs K.codecs := by rw [hK]; exact hC
  have hb' : Supported K.bits := by rw [hK]; exact hb
  have hal' : 64 * Fix.E.fr.limbs < Fix.E.fr.modBits + K.bits.toNat ∧ chunksNeeded Fix.E.fr K.bits.toNat ≤ 255 := by
    rw [hK]; exact Fix.aligned8
  have hc0' : BitsizeCheckCircuit.new (K := Fix.E.fr) K.bits none none true = .ok c0 := by rw [hK]; exact hc0
  have hsrs' : generateSrs K.fft (listRng Fix.E) 1 Fix.stFull8 c0.generateConstraints K.gens = .ok (K.pk, st1) := by
    rw [hK]; exact hsrs
  have hg' : getGsForEncryption K.pk.pk.vk = .ok K.g_i := by rw [hK]; exact hg
  have hdkg' : dkg [⟨listRng Fix.E, Fix.st⟩, ⟨listRng Fix.E, Fix.st1⟩] K.bits K.gens K.g_i K.pk.pk.delta_g1 K.pk.gamma_g1 =
      .ok (K.sks, K.ek) := by rw [hK]; exact hdkg
  have hdest : fkeygenDest (listRng Fix.E) Fix.st3 K.gens = .ok ((Fix.skd, K.ekd), ([], [], [])) := by
    rw [hK]; exact Fix.dest_ok
  have hgi' : ∀ g ∈ K.g_i, g ≠ 0 := by rw [hK]; exact hgi
  have hX' : K.ek.X.length = 8 := by rw [hK]; exact hXn
  have hu2 : K.users = 2 := by rw [hK]
  obtain ⟨ds, hds, hdl, hdb, -⟩ := decompose_spec (K := Fix.E.fr) (show Fix.E.Fr from (258 : Fix.F)) hb
  have hb8 : K.bits = 8 := by rw [hK]
  obtain ⟨ct, r, proof, st2, henc, -, -⟩ := C46_encrypt_with_proof K.fft _ _ _ _ K.bits hb' hal' c0 K.gens K.pk hc0' hsrs'
    K.g_i hg' K.ek (Or.inr ⟨_, K.sks, hdkg'⟩) K.chk (listRng Fix.E) Fix.st1 (show Fix.E.Fr from (258 : Fix.F))
  have r1 := ProvedRuns.step (.refl Poll.init) (ProvedStep.vote (K := K) (bad := (· = 1)) 0 ⟨listRng Fix.E, Fix.st1⟩ _ ds
    ct r proof st2 (by omega) (by decide) (by rw [hb8]; exact hds) henc)
  have r2 := ProvedRuns.step r1 (ProvedStep.post 1 [7, 7, 7] (by omega) rfl)
  obtain ⟨S2, r3, hcast, hpost, hb1⟩ : ∃ S2, ProvedRuns K (· = 1) Poll.init S2 ∧ S2.cast = [(0, ds)] ∧
    S2.posted = [(1, [7, 7, 7]), (0, (arkSubmission K.codecs).ser (ct, proof))] ∧ S2.ballots 1 = some [7, 7, 7] :=
    ⟨_, r2, rfl, rfl, rfl⟩
  obtain ⟨h, m, e0, hh, em, hf⟩ := C115_fair_history hC' hU hb' hal' hc0' hsrs' hg' hdkg' S2 r3
  obtain ⟨res, hres⟩ := C115_finishes hC' hU hb' hal' hc0' hsrs' hg' hdkg' hdest true 16 (by decide) h e0 hh hf
    ⟨m, by rw [em, hcast]; simp⟩
  exact ⟨K, h, res, e0, hh, hf, ⟨m, by rw [em, hcast]; simp, by rw [em]; exact hb1⟩, hres⟩

end Verif
