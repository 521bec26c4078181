/-
Property C116: everything in one transition system, with proofs.
-/
import Verif.Model.WholeProved
import Verif.Props.ProvedLive

namespace Verif
open Spec

variable {E : Engine}

namespace Ful

theorem trans {A : ProvedPublic E} {bad} {W V U : Whole E} (h : FullRuns A bad W V) (h' : FullRuns A bad V U) :
    FullRuns A bad W U := by
  induction h' with
  | refl => exact h
  | step _ hs ih => exact .step ih hs

theorem lift_sys {A : ProvedPublic E} {bad} {P : Poll} {S T : Sys E} (h : Whl.SR A.toPublic S T) :
    FullRuns A bad ⟨S, P⟩ ⟨T, P⟩ := by
  induction h with
  | refl => exact .refl _
  | step _ hs ih => exact .step ih (.keygen _ hs)

theorem lift_poll {A : ProvedPublic E} {bad} {S : Sys E} {K : ProvedCfg E} (hK : ∀ P, Whole.provedCfg A ⟨S, P⟩ = some K)
    {P Q : Poll} (h : ProvedRuns K bad P Q) : FullRuns A bad ⟨S, P⟩ ⟨S, Q⟩ := by
  induction h with
  | refl => exact .refl _
  | step _ hs ih => exact .step ih (.poll K _ (hK _) hs)

/-- the configuration with proofs -/
abbrev with_ (A : ProvedPublic E) (K : PollCfg E) : ProvedCfg E :=
  { toPollCfg := K, pk := A.pk, fft := A.fft, chk := A.chk, bits := A.b }

theorem cfg_iff {A : ProvedPublic E} {W : Whole E} {K} :
    W.provedCfg A = some K ↔ ∃ K0, W.cfg A.toPublic = some K0 ∧ K = with_ A K0 := by
  unfold Whole.provedCfg
  cases W.cfg A.toPublic with
  | none => simp
  | some K0 =>
    simp only [Option.map_some, Option.some.injEq, exists_eq_left', with_]
    exact eq_comm

section
variable {A : ProvedPublic E} {bad : ℕ → Prop} (hC : LawfulCodecs A.codecs) (hN : 0 < A.holders) {n : UInt8}
  (hn : chunksCount E.fr A.b = .ok n) (hgl : n.toNat ≤ A.g_i.length)
include hC hN hn hgl

theorem cfg_later {S T : Sys E} (hS : Whl.SR A.toPublic Sys.init S) (hT : Whl.SR A.toPublic S T) {P Q : Poll} {K}
    (hK : Whole.provedCfg A ⟨S, P⟩ = some K) : Whole.provedCfg A ⟨T, Q⟩ = some K := by
  obtain ⟨K0, h1, h2⟩ := cfg_iff.mp hK
  exact cfg_iff.mpr ⟨K0, Whl.cfg_later hC hN hn hgl hS hT h1, h2⟩

theorem runs_split {W V : Whole E} (hW : Whl.SR A.toPublic Sys.init W.sys) (h : FullRuns A bad W V) :
    Whl.SR A.toPublic W.sys V.sys ∧ (V.poll = W.poll ∨ ∃ K, V.provedCfg A = some K ∧ ProvedRuns K bad W.poll V.poll) := by
  induction h with
  | refl => exact ⟨.refl _, .inl rfl⟩
  | @step V U _ hs ih =>
    obtain ⟨h1, h2⟩ := ih
    cases hs with
    | keygen S hs =>
      refine ⟨.step h1 hs, ?_⟩
      rcases h2 with h2 | ⟨K, hK, h2⟩
      · exact .inl h2
      · exact .inr ⟨K, cfg_later hC hN hn hgl (Rst.trans hW h1) (.step (.refl _) hs) hK, h2⟩
    | poll K S hK hs =>
      refine ⟨h1, .inr ⟨K, hK, ?_⟩⟩
      rcases h2 with h2 | ⟨K', hK', h2⟩
      · have : ProvedRuns K bad V.poll S := .step (.refl _) hs
        rwa [h2] at this
      · rw [hK] at hK'
        cases hK'
        exact .step h2 hs

theorem reach {W : Whole E} (h : FullRuns A bad Whole.init W) : Whl.SR A.toPublic Sys.init W.sys ∧
    ∀ K, W.provedCfg A = some K → ProvedRuns K bad Poll.init W.poll := by
  obtain ⟨h1, h2⟩ := runs_split hC hN hn hgl (.refl _) h
  refine ⟨h1, fun K hK => ?_⟩
  rcases h2 with h2 | ⟨K', hK', h2⟩
  · rw [h2]
    exact .refl _
  · rw [hK] at hK'
    cases hK'
    exact h2

end

section
variable {A : ProvedPublic E} {bad : ℕ → Prop}

theorem runs {h : ℕ → Whole E} (hh : History (FullStep A bad) h) {i k : ℕ} (hik : i ≤ k) :
    FullRuns A bad (h i) (h k) := by
  induction k, hik using Nat.le_induction with
  | base => exact .refl _
  | succ m _ ih =>
    rcases hh m with hs | hs
    · exact .step ih hs
    · rw [hs]; exact ih

theorem rtg {S T : Whole E} (hr : FullRuns A bad S T) : Relation.ReflTransGen (FullStep A bad) S T := by
  induction hr with
  | refl => exact .refl
  | step _ hs ih => exact .tail ih hs

theorem sys_history {h : ℕ → Whole E} (hh : History (FullStep A bad) h) :
    History (SysStep A.codecs A.holders A.b A.gens A.g_i A.delta_g A.gamma_g) fun i => (h i).sys := by
  intro i
  dsimp only
  rcases hh i with hs | hs
  · generalize h (i + 1) = T at hs ⊢
    cases hs with
    | keygen S hs => exact .inl hs
    | poll => exact .inr rfl
  · rw [hs]; exact .inr rfl

theorem enabled_sys {act : Sys E → Sys E → Prop} {W : Whole E}
    (he : Enabled (SysStep A.codecs A.holders A.b A.gens A.g_i A.delta_g A.gamma_g) act W.sys) :
    Enabled (FullStep A bad) (fun S T => act S.sys T.sys) W := by
  obtain ⟨T, h1, h2⟩ := he
  exact ⟨_, .keygen T h1, h2⟩

theorem sys_fair {h : ℕ → Whole E} (hf : KeygenFair A.codecs A.holders (FullStep A bad) Whole.sys h) :
    KeygenFair A.codecs A.holders (SysStep A.codecs A.holders A.b A.gens A.g_i A.delta_g A.gamma_g) id
      fun i => (h i).sys :=
  ⟨fun j hj i hi => hf.stores j hj i fun k hk => enabled_sys (hi k hk),
    fun j hj i hi => hf.publishes j hj i fun k hk => enabled_sys (hi k hk),
    fun j hj i hi => hf.loads j hj i fun k hk => enabled_sys (hi k hk),
    fun j hj i hi => hf.shares j hj i fun k hk => (hi k hk).imp fun _ h => ⟨h.1, enabled_sys h.2⟩⟩

theorem enabled_poll {act : Poll → Poll → Prop} {W : Whole E} {K} (hK : W.provedCfg A = some K)
    (he : Enabled (ProvedStep K bad) act W.poll) : Enabled (FullStep A bad) (fun S T => act S.poll T.poll) W := by
  obtain ⟨T, h1, h2⟩ := he
  exact ⟨_, .poll K T hK h1, h2⟩

theorem poll_fair {h : ℕ → Whole E} {holders : ℕ} (hf : PollFair A.codecs holders (FullStep A bad) Whole.poll h) {K} {n : ℕ}
    (hK : ∀ i ≥ n, (h i).provedCfg A = some K) :
    PollFair A.codecs holders (ProvedStep K bad) id fun i => (h (n + i)).poll := by
  refine ⟨fun i hi => ?_, fun i hi => ?_, fun j hj i hi => ?_⟩
  · obtain ⟨k, hk, ha⟩ := hf.starts (n + i) fun k hk => by
      have := hi (k - n) (by omega)
      rw [Nat.add_sub_cancel' (by omega)] at this
      exact enabled_poll (hK k (by omega)) this
    refine ⟨k - n, by omega, ?_⟩
    rw [← Nat.add_assoc, Nat.add_sub_cancel' (by omega)]
    exact ha
  · obtain ⟨k, hk, ha⟩ := hf.closes (n + i) fun k hk => by
      obtain ⟨l, hl, he⟩ := hi (k - n) (by omega)
      exact ⟨n + l, by omega, enabled_poll (hK _ (by omega)) he⟩
    refine ⟨k - n, by omega, ?_⟩
    rw [← Nat.add_assoc, Nat.add_sub_cancel' (by omega)]
    exact ha
  · obtain ⟨k, hk, ha⟩ := hf.shares j hj (n + i) fun k hk => by
      have := hi (k - n) (by omega)
      rw [Nat.add_sub_cancel' (by omega)] at this
      exact enabled_poll (hK k (by omega)) this
    refine ⟨k - n, by omega, ?_⟩
    rw [← Nat.add_assoc, Nat.add_sub_cancel' (by omega)]
    exact ha

theorem poll_history {h : ℕ → Whole E} (hh : History (FullStep A bad) h) {K} {n : ℕ}
    (hK : ∀ i ≥ n, (h i).provedCfg A = some K) : History (ProvedStep K bad) fun i => (h (n + i)).poll := by
  intro i
  dsimp only
  rw [← Nat.add_assoc]
  have hk := hK (n + i) (by omega)
  rcases hh (n + i) with hs | hs
  · generalize h (n + i + 1) = T at hs ⊢
    cases hs with
    | keygen => exact .inr rfl
    | poll K' S hK' hs =>
      rw [hk] at hK'
      cases hK'
      exact .inl hs
  · rw [hs]; exact .inr rfl

end
end Ful

section
variable {A : ProvedPublic E} {bad : ℕ → Prop} (hC : LawfulCodecs A.codecs) (hN : 0 < A.holders) (hU : A.users < 2 ^ 64)
  (hb : Supported A.b) {n : UInt8} (hn : chunksCount E.fr A.b = .ok n) (hgl : n.toNat ≤ A.g_i.length)
  (hal : 64 * E.fr.limbs < E.fr.modBits + A.b.toNat ∧ chunksNeeded E.fr A.b.toNat ≤ 255)
  {c0 : BitsizeCheckCircuit E.fr} (hc0 : BitsizeCheckCircuit.new (K := E.fr) A.b none none true = .ok c0)
  {R : RngCore E} {fuel : ℕ} {st st' : R.σ}
  (hsrs : generateSrs A.fft R fuel st c0.generateConstraints A.gens = .ok (A.pk, st'))
  (hg : getGsForEncryption A.pk.pk.vk = .ok A.g_i) (hD : A.delta_g = A.pk.pk.delta_g1) (hG : A.gamma_g = A.pk.gamma_g1)
  {Rd : RngCore E} {std std' : Rd.σ} {skd : SecretKey E}
  (hdest : fkeygenDest Rd std A.gens = .ok ((skd, A.ekd), std'))
include hC hN hU hb hn hgl hal hc0 hsrs hg hD hG hdest

/-- **C116** everything together, with proofs: key generation by key holders that crash, and a poll with dishonest users and an
aggregator that crashes.  If the destination gets anything, then the key is that of a run of key generation without crashes, in
which everybody has the secret key that is in its storage; there is one ciphertext for each user published as counted, which
that user has put on the board with a proof and which `verify_commitment_and_proof` accepts, for an honest user an encryption
of a vote it has cast; and the destination gets the numbers that these carry together, or the error for sums out of its search
range. -/
theorem C116_every_history (chk : Bool) (b' : UInt8) (hb' : b'.toNat < 32) (W : Whole E)
    (hW : FullRuns A bad Whole.init W) (res : Res (List UInt16)) (hout : W.outcome A.toPublic chk skd b' = some res) :
    ∃ (P : ℕ → Party E) (sks : List (SecretKeyST E)) (ek : EncryptionKey E) (cnt : List (ℕ × Ciphertext E)),
      W.sys.finalKey A.codecs A.holders A.gamma_g = some (.ok ek) ∧
      dkg ((List.range A.holders).map P) A.b A.gens A.g_i A.delta_g A.gamma_g = .ok (sks, ek) ∧
      (∀ j < A.holders, ∃ sk k, sks[j]? = some sk ∧ load A.codecs (W.sys.node j).disk = some (sk, k)) ∧
      cnt ≠ [] ∧ (cnt.map (·.1)).Nodup ∧ (∀ p ∈ cnt, p.1 < A.users) ∧ W.counted A.toPublic = some (cnt.map (·.1)) ∧
      (∀ p ∈ cnt, ∃ bs rest proof, (p.1, bs) ∈ W.poll.posted ∧
        (arkSubmission A.codecs).de bs = some ((p.2, proof), rest) ∧ Accepted A.gens A.pk ek p.2 proof) ∧
      (∀ p ∈ cnt, ¬ bad p.1 → ∃ chunks, (p.1, chunks) ∈ W.poll.cast ∧
        ∀ i < n.toNat, content sks p.2 i = (nums chunks).getD i 0 • A.g_i.getD i 0) ∧
      (∀ ds, res = .ok ds ↔ ds.length = n.toNat ∧ ∀ i < n.toNat,
        IsLeastLog (A.g_i.getD i 0) (cnt.map fun p => content sks p.2 i).sum (searchBound b'.toNat) ((nums ds).getD i 0)) ∧
      (∀ e, res = .err e ↔ e = .couldNotFindDiscreteLog ∧ ∃ i < n.toNat,
        NoLog (A.g_i.getD i 0) (cnt.map fun p => content sks p.2 i).sum (searchBound b'.toNat)) ∧
      res ≠ .panic := by
  obtain ⟨h1, h2⟩ := Ful.reach hC hN hn hgl hW
  cases hK : W.cfg A.toPublic with
  | none => rw [Whole.outcome, hK] at hout; cases hout
  | some K =>
    rw [Whole.outcome, hK] at hout
    obtain ⟨P, sks, ek, a1, rfl, a2, a3⟩ := Whl.cfg_inv hC hN hn hgl h1 hK
    have a2' := a2
    rw [hD, hG] at a2'
    obtain ⟨cnt, b1, b2, bu, b3, b4⟩ := C114_every_history
      (K := Ful.with_ A ⟨A.codecs, A.users, ek, A.g_i, A.gens, A.ekd, sks⟩) hC hU hb hal hc0 hsrs hg a2' hdest
      chk b' hb' W.poll (h2 _ (Ful.cfg_iff.mpr ⟨_, hK, rfl⟩)) res hout
    have hX : ek.X.length = n.toNat := by
      rw [dkg_eq _ (by simp; omega) A.gens A.g_i A.delta_g A.gamma_g hn hgl] at a2
      rw [← (Prod.mk.inj (Res.ok.inj a2)).2]
      simp [encKey]
    dsimp only at b4 bu
    rw [hX] at b4
    exact ⟨P, sks, ek, cnt, a1, a2, a3, b1, b2, bu, by rw [Whole.counted, hK]; exact b3, b4⟩

/-- **C116** (in numbers) if every counted ciphertext carries numbers `m j i`, as those of honest users do, and their sums are
within the search range, the destination gets exactly these sums. -/
theorem C116_sums (hgi : ∀ g ∈ A.g_i, g ≠ 0) (chk : Bool) (b' : UInt8) (hb' : b'.toNat < 32) (W : Whole E)
    (hW : FullRuns A bad Whole.init W) (res : Res (List UInt16)) (hout : W.outcome A.toPublic chk skd b' = some res) :
    ∃ (sks : List (SecretKeyST E)) (cnt : List (ℕ × Ciphertext E)),
      (∀ j < A.holders, ∃ sk k, sks[j]? = some sk ∧ load A.codecs (W.sys.node j).disk = some (sk, k)) ∧
      cnt ≠ [] ∧ (cnt.map (·.1)).Nodup ∧ W.counted A.toPublic = some (cnt.map (·.1)) ∧
      (∀ p ∈ cnt, ∃ bs rest proof, (p.1, bs) ∈ W.poll.posted ∧
        (arkSubmission A.codecs).de bs = some ((p.2, proof), rest)) ∧
      (∀ p ∈ cnt, ¬ bad p.1 → ∃ chunks, (p.1, chunks) ∈ W.poll.cast ∧
        ∀ i < n.toNat, content sks p.2 i = (nums chunks).getD i 0 • A.g_i.getD i 0) ∧
      ∀ m : ℕ → ℕ → ℕ, (∀ p ∈ cnt, ∀ i < n.toNat, content sks p.2 i = m p.1 i • A.g_i.getD i 0) →
        (∀ i < n.toNat, (cnt.map fun p => m p.1 i).sum ≤ searchBound b'.toNat ∧
          (cnt.map fun p => m p.1 i).sum < E.fr.p) →
        ∃ ds, res = .ok ds ∧ ds.length = n.toNat ∧
          ∀ i < n.toNat, (nums ds).getD i 0 = (cnt.map fun p => m p.1 i).sum := by
  obtain ⟨P, sks, ek, cnt, -, a2, a3, a4, a5, -, a6, a7, a8, a9, -⟩ := C116_every_history hC hN hU hb hn hgl hal hc0 hsrs hg hD hG
    hdest chk b' hb' W hW res hout
  refine ⟨sks, cnt, a3, a4, a5, a6, fun p hp => ?_, a8, fun m hm hle => ?_⟩
  · obtain ⟨bs, rest, proof, c1, c2, -⟩ := a7 p hp
    exact ⟨bs, rest, proof, c1, c2⟩
  have hX : ek.X.length = n.toNat := by
    rw [dkg_eq _ (by simp; omega) A.gens A.g_i A.delta_g A.gamma_g hn hgl] at a2
    rw [← (Prod.mk.inj (Res.ok.inj a2)).2]
    simp [encKey]
  rw [← hX] at a9 hm hle hgl ⊢
  exact OPoll.sum_of (K := ⟨A.codecs, A.users, ek, A.g_i, A.gens, A.ekd, sks⟩) hgl hgi a9 (fun p i => m p.1 i) hm hle

/-- **C116** (agreement) once the destination gets something, whatever happens afterwards, it gets the same, and the same
users are counted. -/
theorem C116_agreement (chk : Bool) (b' : UInt8) (hb' : b'.toNat < 32) (W V : Whole E) (hW : FullRuns A bad Whole.init W)
    (hV : FullRuns A bad W V) (res : Res (List UInt16)) (hout : W.outcome A.toPublic chk skd b' = some res) :
    V.outcome A.toPublic chk skd b' = some res ∧ V.counted A.toPublic = W.counted A.toPublic := by
  obtain ⟨h1, h2⟩ := Ful.reach hC hN hn hgl hW
  obtain ⟨h3, h4⟩ := Ful.runs_split hC hN hn hgl h1 hV
  cases hK : W.cfg A.toPublic with
  | none => rw [Whole.outcome, hK] at hout; cases hout
  | some K =>
    rw [Whole.outcome, hK] at hout
    have hK' : V.cfg A.toPublic = some K := Whl.cfg_later hC hN hn hgl h1 h3 (P := W.poll) (Q := V.poll) hK
    have hr : ProvedRuns (Ful.with_ A K) bad W.poll V.poll := by
      rcases h4 with h4 | ⟨K', hK'', h4⟩
      · rw [h4]
        exact .refl _
      · obtain ⟨K0, e1, rfl⟩ := Ful.cfg_iff.mp hK''
        rw [hK'] at e1
        cases e1
        exact h4
    obtain ⟨P, sks, ek, a1, rfl, a2, a3⟩ := Whl.cfg_inv hC hN hn hgl h1 hK
    have a2' := a2
    rw [hD, hG] at a2'
    obtain ⟨c1, c2⟩ := C114_agreement (K := Ful.with_ A ⟨A.codecs, A.users, ek, A.g_i, A.gens, A.ekd, sks⟩) hC hU hb hal hc0
      hsrs hg a2' hdest chk b' hb' W.poll V.poll (h2 _ (Ful.cfg_iff.mpr ⟨_, hK, rfl⟩)) hr res hout
    refine ⟨by rw [Whole.outcome, hK']; exact c1, ?_⟩
    rw [Whole.counted, Whole.counted, hK, hK']
    exact c2

/-- **C116** (nobody can block it) from every reachable state, whatever has been lost in crashes and whatever dishonest users
have put on the board: the key holders can finish key generation if they have not; any honest user can then still submit any
message with a proof, from any randomness; and after that the destination can get something, such that every honest user who
has voted is counted if the tally had not been published before. -/
theorem C116_no_deadlock (chk : Bool) (b' : UInt8) (hb' : b'.toNat < 32) (W : Whole E) (hW : FullRuns A bad Whole.init W)
    (j : ℕ) (hj : j < A.users) (hjb : ¬ bad j) (m : E.Fr) (Q : Party E) :
    ∃ V res done chunks, FullRuns A bad W V ∧ decompose (K := E.fr) m A.b = .ok chunks ∧
      V.poll.cast = (j, chunks) :: W.poll.cast ∧ V.outcome A.toPublic chk skd b' = some res ∧
      V.counted A.toPublic = some done ∧ (W.poll.total = none → ∀ v ∈ V.poll.cast, v.1 ∈ done) := by
  obtain ⟨h1, -⟩ := Ful.reach hC hN hn hgl hW
  obtain ⟨S, ek, h2, hf⟩ := C107_no_deadlock hC A.holders hN A.b n hn A.gens A.g_i hgl A.delta_g A.gamma_g W.sys h1
  have hW1 : FullRuns A bad W ⟨S, W.poll⟩ := Ful.lift_sys h2
  obtain ⟨h3, h4⟩ := Ful.reach hC hN hn hgl (Ful.trans hW hW1)
  obtain ⟨P, sks, ek', e, a2, a3, hK0⟩ := Whl.cfg_of_final hC hN hn hgl h3 hf W.poll
  cases e
  rw [hD, hG] at a2
  have hK : ∀ P, Whole.provedCfg A ⟨S, P⟩ = some (Ful.with_ A ⟨A.codecs, A.users, ek, A.g_i, A.gens, A.ekd, sks⟩) := fun P =>
    Ful.cfg_iff.mpr ⟨_, hK0, rfl⟩
  obtain ⟨ds, hds, -⟩ := decompose_spec (K := E.fr) m hb
  obtain ⟨ct, r, proof, st2, henc, -, -⟩ := C46_encrypt_with_proof A.fft _ _ _ _ A.b hb hal c0 A.gens A.pk hc0 hsrs
    A.g_i hg ek (Or.inr ⟨_, sks, a2⟩) A.chk Q.1 Q.2 m
  have hstep : ProvedStep (Ful.with_ A ⟨A.codecs, A.users, ek, A.g_i, A.gens, A.ekd, sks⟩) bad W.poll _ :=
    .vote j Q m ds ct r proof st2 hj hjb hds henc
  obtain ⟨P1, hP1, hP2, hP3⟩ : ∃ P1, ProvedRuns (Ful.with_ A ⟨A.codecs, A.users, ek, A.g_i, A.gens, A.ekd, sks⟩) bad W.poll P1 ∧
    P1.cast = (j, ds) :: W.poll.cast ∧ P1.total = W.poll.total := ⟨_, .step (.refl _) hstep, rfl, rfl⟩
  obtain ⟨T, res, done, c1, ⟨c2, -⟩, c4, c5, c6⟩ := C114_no_deadlock
    (K := Ful.with_ A ⟨A.codecs, A.users, ek, A.g_i, A.gens, A.ekd, sks⟩) hC hU hb hal hc0 hsrs hg a2 hdest chk b' hb' P1
    (PPoll.trans (h4 _ (hK _)) hP1) (.inr (.inl (by rw [hP2]; simp)))
  refine ⟨⟨S, T⟩, res, done, ds, Ful.trans hW1 (Ful.lift_poll hK (PPoll.trans hP1 c1)), hds, c2.trans hP2, ?_, ?_, fun h v hv => ?_⟩
  · have hK0' : Whole.cfg A.toPublic ⟨S, T⟩ = some ⟨A.codecs, A.users, ek, A.g_i, A.gens, A.ekd, sks⟩ := hK0
    rw [Whole.outcome, hK0']
    exact c4
  · have hK0' : Whole.cfg A.toPublic ⟨S, T⟩ = some ⟨A.codecs, A.users, ek, A.g_i, A.gens, A.ekd, sks⟩ := hK0
    rw [Whole.counted, hK0']
    exact c5
  · have hv' : v ∈ T.cast := hv
    rw [c2] at hv'
    exact (c6 (hP3.trans h)).1 v hv'

/-- **C116** (liveness) in every history in which the key holders and the aggregator in the end do what they can do: the key is
computed, and stays the same; and if an honest user votes, the destination gets something, and it stays the same — whatever
dishonest users put on the board and however often the key holders and the aggregator crash. -/
theorem C116_finishes (chk : Bool) (b' : UInt8) (hb' : b'.toNat < 32)
    (h : ℕ → Whole E) (h0 : h 0 = Whole.init) (hh : History (FullStep A bad) h)
    (hk : KeygenFair A.codecs A.holders (FullStep A bad) Whole.sys h)
    (hp : PollFair A.codecs A.holders (FullStep A bad) Whole.poll h) :
    (∃ ek, Eventually fun i => (h i).sys.finalKey A.codecs A.holders A.gamma_g = some (.ok ek)) ∧
    ((∃ i, (h i).poll.cast ≠ []) → ∃ res, Eventually fun i => (h i).outcome A.toPublic chk skd b' = some res) := by
  have hr := fun i => h0 ▸ Ful.runs hh (Nat.zero_le i)
  have hre := fun i => Ful.reach hC hN hn hgl (hr i)
  obtain ⟨ek, m, hek⟩ := Liv.keygen_leads hC hN hn hgl (fun i => (hre i).1) (Ful.sys_history hh) (Ful.sys_fair hk)
  refine ⟨⟨ek, m, hek⟩, fun ⟨q, hq⟩ => ?_⟩
  obtain ⟨P, sks, ek', e, a2, -, hK⟩ := Whl.cfg_of_final hC hN hn hgl (hre m).1 (hek m le_rfl) (h m).poll
  cases e
  have hsl : sks.length = A.holders := by
    rw [dkg_eq _ (by simp; omega) A.gens A.g_i A.delta_g A.gamma_g hn hgl] at a2
    rw [← (Prod.mk.inj (Res.ok.inj a2)).1]
    simp
  rw [hD, hG] at a2
  have hKs : ∀ i ≥ m, (h i).cfg A.toPublic = some ⟨A.codecs, A.users, ek, A.g_i, A.gens, A.ekd, sks⟩ := fun i hi =>
    Whl.cfg_later hC hN hn hgl (hre m).1 (Liv.sys_runs (Ful.sys_history hh) hi) (P := (h m).poll) (Q := (h i).poll) hK
  obtain ⟨K, hKK⟩ : ∃ K, K = Ful.with_ A ⟨A.codecs, A.users, ek, A.g_i, A.gens, A.ekd, sks⟩ := ⟨_, rfl⟩
  have hKp : ∀ i ≥ m, (h i).provedCfg A = some K := fun i hi => Ful.cfg_iff.mpr ⟨_, hKs i hi, hKK⟩
  have hph := Ful.poll_history hh hKp
  have hpf := Ful.poll_fair hp hKp
  rw [← hsl] at hpf
  have hcast : (h (m + q)).poll.cast ≠ [] := by
    obtain ⟨-, h4⟩ := Ful.runs_split hC hN hn hgl (hre q).1 (Ful.runs hh (show q ≤ m + q by omega))
    rcases h4 with h4 | ⟨K', hK', h4⟩
    · rw [h4]; exact hq
    · have hmem : ∀ {S T : Poll}, ProvedRuns K' bad S T → S.cast ≠ [] → T.cast ≠ [] := by
        intro S T hST hS
        induction hST with
        | refl => exact hS
        | step _ hs ih =>
          cases hs with
          | vote => exact List.cons_ne_nil _ _
          | _ => exact ih
      exact hmem h4 hq
  have hrr : ∀ i, ProvedRuns K bad Poll.init (h (m + i)).poll := fun i => (hre (m + i)).2 _ (hKp _ (by omega))
  subst hKK
  have hX := (Poll'.facts (K := ⟨A.codecs, A.users, ek, A.g_i, A.gens, A.ekd, sks⟩) a2).2.1
  obtain ⟨res, l, hl⟩ := Liv.poll_leads (K := ⟨A.codecs, A.users, ek, A.g_i, A.gens, A.ekd, sks⟩) (bad := bad) hC hU a2 hdest
    chk b' hb' (h := fun i => PPoll.shadow (Ful.with_ A ⟨A.codecs, A.users, ek, A.g_i, A.gens, A.ekd, sks⟩) (h (m + i)).poll)
    (fun i => PPoll.runs_sim (K := Ful.with_ A ⟨A.codecs, A.users, ek, A.g_i, A.gens, A.ekd, sks⟩)
      hC hb hal hc0 hsrs hg a2 (hrr i))
    (PLiv.history_sim (K := Ful.with_ A ⟨A.codecs, A.users, ek, A.g_i, A.gens, A.ekd, sks⟩) hC hb hal hc0 hsrs hg a2 hph)
    ⟨PLiv.weak_sim (K := Ful.with_ A ⟨A.codecs, A.users, ek, A.g_i, A.gens, A.ekd, sks⟩) hC hX (PLiv.blind_starts _) hpf.starts,
      PLiv.strong_sim (K := Ful.with_ A ⟨A.codecs, A.users, ek, A.g_i, A.gens, A.ekd, sks⟩) hC hX PLiv.blind_closes hpf.closes,
      fun j hj => PLiv.weak_sim (K := Ful.with_ A ⟨A.codecs, A.users, ek, A.g_i, A.gens, A.ekd, sks⟩) hC hX
        (PLiv.blind_shares j) (hpf.shares j hj)⟩ (n := q) hcast
  refine ⟨res, m + l, fun i hi => ?_⟩
  have e := hl (i - m) (by omega)
  rw [Nat.add_sub_cancel' (by omega)] at e
  show (do
    let K ← (h i).cfg A.toPublic
    (h i).poll.outcome K chk skd b') = some res
  rw [hKs i (by omega)]
  exact e

omit hdest in
/-- **C116** (fair histories exist) through every reachable state. -/
theorem C116_fair_history (W : Whole E) (hW : FullRuns A bad Whole.init W) :
    ∃ (h : ℕ → Whole E) (m : ℕ), h 0 = Whole.init ∧ History (FullStep A bad) h ∧ h m = W ∧
      KeygenFair A.codecs A.holders (FullStep A bad) Whole.sys h ∧
      PollFair A.codecs A.holders (FullStep A bad) Whole.poll h := by
  have hre := Ful.reach hC hN hn hgl hW
  obtain ⟨S, s1, s2⟩ := Liv.sys_end hC hN hn hgl W.sys hre.1
  have hW1 : FullRuns A bad W ⟨S, W.poll⟩ := Ful.lift_sys s1
  have hre1 := Ful.reach hC hN hn hgl (Ful.trans hW hW1)
  obtain ⟨Q, hI⟩ := Rst.reach_inv hC hn hgl hre1.1
  obtain ⟨ek, hf, -⟩ := Rst.final_eq hC hn hgl hN hI (⟨tape E, fun _ => 0⟩ : Party E) (fun j hj => (s2 j hj).2.1)
    (fun j hj => (s2 j hj).2.2.2)
  obtain ⟨P, sks, ek', e, a2, -, hK⟩ := Whl.cfg_of_final hC hN hn hgl hre1.1 hf W.poll
  cases e
  have hsl : sks.length = A.holders := by
    rw [dkg_eq _ (by simp; omega) A.gens A.g_i A.delta_g A.gamma_g hn hgl] at a2
    rw [← (Prod.mk.inj (Res.ok.inj a2)).1]
    simp
  rw [hD, hG] at a2
  have hKs : ∀ P, Whole.provedCfg A ⟨S, P⟩ = some (Ful.with_ A ⟨A.codecs, A.users, ek, A.g_i, A.gens, A.ekd, sks⟩) := fun P =>
    Ful.cfg_iff.mpr ⟨_, hK, rfl⟩
  have hrun := hre1.2 _ (hKs _)
  obtain ⟨T, t1, t2, t3, t4⟩ := PLiv.poll_end (K := Ful.with_ A ⟨A.codecs, A.users, ek, A.g_i, A.gens, A.ekd, sks⟩) (bad := bad)
    hC hb hal hc0 hsrs hg a2 hU W.poll hrun
  obtain ⟨h, m, k, e0, hh, em, ee⟩ := Liv.through (Ful.rtg hW) (Ful.rtg (Ful.trans hW1 (Ful.lift_poll hKs t1)))
  have down : ∀ {act : Poll → Poll → Prop}, (∀ S, ¬ act S S) →
      ¬ Enabled (ProvedStep (Ful.with_ A ⟨A.codecs, A.users, ek, A.g_i, A.gens, A.ekd, sks⟩) bad) act T →
      ¬ Enabled (FullStep A bad) (fun S T => act S.poll T.poll) ⟨S, T⟩ := by
    rintro act hirr hno ⟨V, hs, ha⟩
    cases hs with
    | keygen => exact hirr _ ha
    | poll K' U hK' hs =>
      rw [hKs] at hK'
      cases hK'
      exact hno ⟨U, hs, ha⟩
  refine ⟨h, m, e0, hh, em, ⟨fun j hj => ?_, fun j hj => ?_, fun j hj => ?_, fun j hj => ?_⟩, ?_, ?_, fun j hj => ?_⟩
  · exact Liv.weak_of_end ee fun ⟨_, _, ha⟩ => (s2 j hj).1 ha.1
  · exact Liv.weak_of_end ee fun ⟨_, _, ha⟩ => (s2 j hj).2.1 ha.1
  · exact Liv.weak_of_end ee fun ⟨_, _, ha⟩ => (s2 j hj).2.2.1 ha.1
  · exact Liv.strong_of_end ee fun ⟨_, _, ha⟩ => (s2 j hj).2.2.2 ha.1
  · exact Liv.weak_of_end ee (down (fun S hS => hS.2 hS.1) t2)
  · exact Liv.strong_of_end ee (down (fun S hS => hS.2 hS.1) t3)
  · exact Liv.weak_of_end ee (down (fun S hS => hS.2 hS.1) (t4 j (hj.trans_eq hsl.symm)))

end
/-- Non-vacuity: two key holders, of whom one crashes while storing its secrets and again after publishing its partial key, and
two users, of whom user 0 then submits a message with a proof: the destination can get the chunks of this message; and in a fair
history through these states it finally does. -/
example (P Q : Party Fix.E) : ∃ (A : ProvedPublic Fix.E) (W V : Whole Fix.E) (ds : List UInt16) (h : ℕ → Whole Fix.E),
    A.holders = 2 ∧ FullRuns A (fun _ => False) Whole.init W ∧ (W.sys.node 0).mem = none ∧ FullRuns A (fun _ => False) W V ∧
    decompose (K := Fix.E.fr) (show Fix.E.Fr from (258 : Fix.F)) 8 = .ok ds ∧ V.counted A.toPublic = some [0] ∧
    V.outcome A.toPublic true Fix.skd 16 = some (.ok ds) ∧ h 0 = Whole.init ∧ History (FullStep A fun _ => False) h ∧
    KeygenFair A.codecs A.holders (FullStep A fun _ => False) Whole.sys h ∧
    PollFair A.codecs A.holders (FullStep A fun _ => False) Whole.poll h ∧
    Eventually fun i => (h i).outcome A.toPublic true Fix.skd 16 = some (.ok ds) := by
  have hC := scalarCodecs_lawful goldFr
  obtain ⟨c0, pk, ek0, g_i, st1, -, hc0, hsrs, hg, hgi, hgl, -⟩ := Fix.run8
  have hb : Supported 8 := .inr (.inl rfl)
  obtain ⟨S, h1, h2, h3, h4⟩ := Rst.crashing_history hC 2 (by omega) 8 8 Fix.count8 Fix.gens g_i hgl pk.pk.delta_g1 pk.gamma_g1 P Q
  obtain ⟨A, hA⟩ : ∃ A : ProvedPublic Fix.E, A = { codecs := scalarCodecs goldFr, holders := 2, users := 2, b := 8,
                                                   gens := Fix.gens, g_i := g_i, delta_g := pk.pk.delta_g1,
                                                   gamma_g := pk.gamma_g1, ekd := Fix.ekd, pk := pk, fft := goldFft,
                                                   chk := true } := ⟨_, rfl⟩
  have hC' : LawfulCodecs A.codecs := by rw [hA]; exact hC
  have hN : 0 < A.holders := by rw [hA]; show 0 < 2; decide
  have hU : A.users < 2 ^ 64 := by rw [hA]; show 2 < 2 ^ 64; decide
  have hb' : Supported A.b := by rw [hA]; exact hb
  have hn : chunksCount Fix.E.fr A.b = .ok 8 := by rw [hA]; exact Fix.count8
  have hgl' : (8 : UInt8).toNat ≤ A.g_i.length := by rw [hA]; exact hgl
  have hal : 64 * Fix.E.fr.limbs < Fix.E.fr.modBits + A.b.toNat ∧ chunksNeeded Fix.E.fr A.b.toNat ≤ 255 := by
    rw [hA]; exact Fix.aligned8
  have hc0' : BitsizeCheckCircuit.new (K := Fix.E.fr) A.b none none true = .ok c0 := by rw [hA]; exact hc0
  have hsrs' : generateSrs A.fft (listRng Fix.E) 1 Fix.stFull8 c0.generateConstraints A.gens = .ok (A.pk, st1) := by
    rw [hA]; exact hsrs
  have hg' : getGsForEncryption A.pk.pk.vk = .ok A.g_i := by rw [hA]; exact hg
  have hD : A.delta_g = A.pk.pk.delta_g1 := by rw [hA]
  have hG : A.gamma_g = A.pk.gamma_g1 := by rw [hA]
  have hdest : fkeygenDest (listRng Fix.E) Fix.st3 A.gens = .ok ((Fix.skd, A.ekd), ([], [], [])) := by
    rw [hA]; exact Fix.dest_ok
  have hgi' : ∀ g ∈ A.g_i, g ≠ 0 := by rw [hA]; exact hgi
  have hS : Whl.SR A.toPublic Sys.init S := by rw [hA]; exact h1
  have hu : 0 < A.users := by rw [hA]; show 0 < 2; decide
  have hb8 : A.b = 8 := by rw [hA]
  have h2' : A.holders = 2 := by rw [hA]
  clear hA
  have hW : FullRuns A (fun _ => False) Whole.init ⟨S, Poll.init⟩ := Ful.lift_sys hS
  obtain ⟨V, res, done, ds, a1, a2, a3, a4, a5, a6⟩ := C116_no_deadlock hC' hN hU hb' hn hgl' hal hc0' hsrs' hg' hD hG hdest
    true 16 (by decide) ⟨S, Poll.init⟩ hW 0 hu (by simp) (show Fix.E.Fr from (258 : Fix.F)) ⟨listRng Fix.E, Fix.st1⟩
  obtain ⟨sks, cnt, -, b0, b1, b2, -, b3, b4⟩ := C116_sums hC' hN hU hb' hn hgl' hal hc0' hsrs' hg' hD hG hdest hgi'
    true 16 (by decide) V (Ful.trans hW a1) res a4
  have hc : V.poll.cast = [(0, ds)] := a3
  have hm : ∀ p ∈ cnt, p.1 = 0 ∧ ∀ i < (8 : UInt8).toNat, content sks p.2 i = (nums ds).getD i 0 • A.g_i.getD i 0 := by
    intro p hp
    obtain ⟨ch, c1, c2⟩ := b3 p hp (by simp)
    rw [hc, List.mem_singleton] at c1
    obtain ⟨e1, rfl⟩ := Prod.mk.inj c1
    exact ⟨e1, c2⟩
  obtain ⟨p, rfl⟩ : ∃ p, cnt = [p] := by
    rcases cnt with _ | ⟨p, _ | ⟨p', l⟩⟩
    · exact absurd rfl b0
    · exact ⟨p, rfl⟩
    · have e1 := (hm p (by simp)).1
      have e2 := (hm p' (by simp)).1
      simp [e1, e2] at b1
  rw [hb8] at a2
  obtain ⟨ds', hds, hdl, hdb, -⟩ := decompose_spec (K := Fix.E.fr) (show Fix.E.Fr from (258 : Fix.F)) hb
  rw [a2] at hds
  cases hds
  obtain ⟨out, o1, o2, o3⟩ := b4 (fun _ i => (nums ds).getD i 0) (fun q hq => (hm q hq).2) (fun i _ => by
      have h1 := Agg.nums_le (b := 8) hdb i
      have h2 : (8 : UInt8).toNat = 8 := rfl
      rw [h2] at h1
      simp only [List.map_cons, List.map_nil, List.sum_cons, List.sum_nil, add_zero]
      refine ⟨h1.trans (by decide), h1.trans_lt (by decide +kernel)⟩)
  have hl8 : ds.length = 8 := by
    have := (decomp_len_eq_iff Fix.E.fr 8 8 hb Fix.count8).mpr Fix.aligned8
    rw [hdl, this, Fix.eight]
  have hout : out = ds := by
    have hinj : Function.Injective nums := List.map_injective_iff.mpr fun (x y : UInt16) h => UInt16.toNat_inj.mp h
    have h8 : (8 : UInt8).toNat = 8 := rfl
    rw [h8] at o2 o3
    apply hinj
    apply List.ext_getElem (by simp [nums, o2, hl8])
    intro i h1 h2
    have h3 : i < 8 := by simpa [nums, o2] using h1
    have := o3 i h3
    simp only [List.map_cons, List.map_nil, List.sum_cons, List.sum_nil, add_zero] at this
    rwa [List.getD_eq_getElem _ _ h1, List.getD_eq_getElem _ _ h2] at this
  rw [o1, hout] at a4
  obtain ⟨h, m, e0, hh, em, hk, hp⟩ := C116_fair_history hC' hN hU hb' hn hgl' hal hc0' hsrs' hg' hD hG V (Ful.trans hW a1)
  refine ⟨A, ⟨S, Poll.init⟩, V, ds, h, h2', hW, h3, a1, a2, ?_, a4, e0, hh, hk, hp, m, fun i hi => ?_⟩
  · rw [b2]
    simp [(hm p (by simp)).1]
  · exact (C116_agreement hC' hN hU hb' hn hgl' hal hc0' hsrs' hg' hD hG hdest true 16 (by decide) V (h i) (Ful.trans hW a1)
      (em ▸ Ful.runs hh hi) _ a4).1

end Verif
