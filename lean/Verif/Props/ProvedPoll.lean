/-
Property C114: a poll in which users prove what their ballots contain.
-/
import Verif.SpecProved
import Verif.Props.OpenPoll
import Verif.Props.MaliciousAggregation

namespace Verif
open Spec

variable {E : Engine}

namespace PPoll
open Poll' (facts)

theorem submission_faithful {C : Codecs E} (hC : LawfulCodecs C) :
    Faithful (arkSubmission C) (fun x => Fits x.1.enc_chunks) := by
  have v1 := arkVec_roundtrip hC.g1
  have l1 := arkVec_local hC.g1Local
  have l0 := hC.g1Local
  have l2 := hC.g2Local
  have l3 : PrefixLocal (arkCiphertext C).de := by unfold arkCiphertext; local_tac
  have l4 : PrefixLocal (arkProof C).de := by unfold arkProof; local_tac
  refine faithful_of ?_ (by unfold arkSubmission; local_tac)
  rintro ⟨ct, proof⟩ h1 rest
  simp only [arkSubmission, arkCiphertext, arkProof, List.append_assoc, hC.g1, hC.g2, v1 _ h1, Option.bind_eq_bind,
    Option.bind_some, Option.pure_def]

theorem provable_unique {K : ProvedCfg E} {bs ct proof ct' proof'} (h : Provable K bs ct proof)
    (h' : Provable K bs ct' proof') : ct = ct' ∧ proof = proof' := by
  obtain ⟨⟨r, h1⟩, -⟩ := h
  obtain ⟨⟨r', h2⟩, -⟩ := h'
  rw [h1] at h2
  simp only [Option.some.injEq, Prod.mk.injEq] at h2
  exact h2.1

open Classical in
/-- what the open poll sees of these bytes: the ciphertext if they are accepted -/
noncomputable def img (K : ProvedCfg E) (bs : List UInt8) : List UInt8 :=
  if h : ∃ s : Ciphertext E × Proof E, Provable K bs s.1 s.2 then (arkVec K.codecs.g1).ser (flat h.choose.1) else []

/-- what the open poll sees of a state -/
noncomputable def shadow (K : ProvedCfg E) (S : Poll) : Poll :=
  { S with posted := S.posted.map fun p => (p.1, img K p.2), ballots := fun j => (S.ballots j).map (img K) }

theorem img_of {K : ProvedCfg E} {bs ct proof} (h : Provable K bs ct proof) :
    img K bs = (arkVec K.codecs.g1).ser (flat ct) := by
  have hex : ∃ s : Ciphertext E × Proof E, Provable K bs s.1 s.2 := ⟨(ct, proof), h⟩
  unfold img
  rw [dif_pos hex, (provable_unique hex.choose_spec h).1]

theorem provable_length {K : ProvedCfg E} (hX : K.ek.X.length < 256) {bs ct proof} (h : Provable K bs ct proof) :
    ct.enc_chunks.length = K.ek.X.length := by
  have h2 := h.2
  unfold Ciphertext.verifyCommitmentAndProof at h2
  obtain ⟨⟨⟩, h3, -⟩ := Res.bind_eq_ok.mp h2
  unfold Ciphertext.verifyCommitment verifyCiphertextCommitment at h3
  obtain ⟨cnt, h4, h5⟩ := Res.bind_eq_ok.mp h3
  have h6 : cnt.toNat = K.ek.X.length := by
    unfold PreparedEncryptionKey.supportedChunksCount encKeyChunks at h4
    split at h4
    · cases h4
    · split at h4
      · cases h4
      · cases h4
        have : K.ek.prepare.X.length = K.ek.X.length := by simp [EncryptionKey.prepare]
        rw [this]
        simp
        omega
  rw [← h6]
  by_contra hc
  rw [if_pos hc] at h5
  cases h5

section
variable {K : ProvedCfg E} (hC : LawfulCodecs K.codecs) (hX : K.ek.X.length < 256)
include hC hX

theorem flat_read {ct : Ciphertext E} (h : ct.enc_chunks.length = K.ek.X.length) :
    (arkVec K.codecs.g1).de ((arkVec K.codecs.g1).ser (flat ct)) = some (flat ct, []) := by
  have := arkVec_roundtrip hC.g1 (flat ct) (by simp [flat, h]; omega) []
  rwa [List.append_nil] at this

theorem de_img {bs v rest} (h : (arkVec K.codecs.g1).de (img K bs) = some (v, rest)) :
    ∃ ct proof, Provable K bs ct proof ∧ v = flat ct := by
  by_cases hex : ∃ s : Ciphertext E × Proof E, Provable K bs s.1 s.2
  · obtain ⟨⟨ct, proof⟩, hp⟩ := hex
    rw [img_of hp, flat_read hC hX (provable_length hX hp)] at h
    simp only [Option.some.injEq, Prod.mk.injEq] at h
    exact ⟨ct, proof, hp, h.1.symm⟩
  · unfold img at h
    rw [dif_neg hex] at h
    simp [arkVec, arkU64De, readExact] at h

theorem acceptable_img {bs ct proof} (h : Provable K bs ct proof) : Acceptable K.toPollCfg (img K bs) (flat ct) := by
  refine ⟨⟨[], by rw [img_of h]; exact flat_read hC hX (provable_length hX h)⟩, by simp [flat, provable_length hX h], ?_⟩
  rw [OPoll.check_flat (provable_length hX h)]
  have h2 := h.2
  unfold Ciphertext.verifyCommitmentAndProof at h2
  obtain ⟨⟨⟩, h3, -⟩ := Res.bind_eq_ok.mp h2
  exact h3

theorem of_acceptable {bs v} (h : Acceptable K.toPollCfg (img K bs) v) : ∃ ct proof, Provable K bs ct proof ∧ v = flat ct := by
  obtain ⟨⟨rest, h1⟩, -⟩ := h
  exact de_img hC hX h1

end

theorem posted_users {K : ProvedCfg E} {bad : ℕ → Prop} {S T : Poll} (h : ProvedRuns K bad S T)
    (h0 : ∀ p ∈ S.posted, p.1 < K.users) : ∀ p ∈ T.posted, p.1 < K.users := by
  induction h with
  | refl => exact h0
  | step _ hs ih =>
    cases hs with
    | vote j P m chunks ct r proof st' h1 h2 h3 h4 =>
      intro p hp
      rcases List.mem_cons.mp hp with rfl | hp
      · exact h1
      · exact ih p hp
    | post j bs h1 h2 =>
      intro p hp
      rcases List.mem_cons.mp hp with rfl | hp
      · exact h1
      · exact ih p hp
    | count => exact ih
    | torn => exact ih
    | close => exact ih
    | share => exact ih

theorem trans {K : ProvedCfg E} {bad} {S T U : Poll} (h : ProvedRuns K bad S T) (h' : ProvedRuns K bad T U) :
    ProvedRuns K bad S U := by
  induction h' with
  | refl => exact h
  | step _ hs ih => exact .step ih hs

theorem shadow_update (K : ProvedCfg E) (S : Poll) (j : ℕ) (bs : List UInt8) :
    (fun i => (Function.update S.ballots j (some bs) i).map (img K)) =
      Function.update (shadow K S).ballots j (some (img K bs)) := by
  funext i
  by_cases h : i = j
  · subst h
    rw [Function.update_self, Function.update_self]
    rfl
  · rw [Function.update_of_ne h, Function.update_of_ne h]
    rfl

section
variable {K : ProvedCfg E} {bad : ℕ → Prop} (hC : LawfulCodecs K.codecs) (hb : Supported K.bits)
  (hal : 64 * E.fr.limbs < E.fr.modBits + K.bits.toNat ∧ chunksNeeded E.fr K.bits.toNat ≤ 255)
  {c0 : BitsizeCheckCircuit E.fr} (hc0 : BitsizeCheckCircuit.new (K := E.fr) K.bits none none true = .ok c0)
  {R : RngCore E} {fuel : ℕ} {st st' : R.σ}
  (hsrs : generateSrs K.fft R fuel st c0.generateConstraints K.gens = .ok (K.pk, st'))
  (hg : getGsForEncryption K.pk.pk.vk = .ok K.g_i) {parties : List (Party E)}
  (hdkg : dkg parties K.bits K.gens K.g_i K.pk.pk.delta_g1 K.pk.gamma_g1 = .ok (K.sks, K.ek))
include hC hb hal hc0 hsrs hg hdkg

/-- what an honest user puts on the board is accepted, and is an encryption of its chunks -/
theorem honest_provable {P : Party E} {m : E.Fr} {chunks : List UInt16} {ct : Ciphertext E} {r : E.Fr} {proof : Proof E}
    {st' : P.1.σ} (hd : decompose (K := E.fr) m K.bits = .ok chunks)
    (henc : encryptWithProof K.fft K.chk P.1 P.2 m K.ek K.pk K.bits = .ok ((ct, r, proof), st')) :
    Provable K ((arkSubmission K.codecs).ser (ct, proof)) ct proof ∧ (∀ x ∈ chunks, x.toNat < 2 ^ K.bits.toNat) ∧
      ∃ ρ : ℕ → E.Fr, encryptDecomposedMessage (tape E) ρ chunks K.ek K.g_i = .ok ((flat ct, ρ 0), after (tape E) ρ 1) := by
  obtain ⟨hw, hX, hgl⟩ := facts hdkg
  obtain ⟨n, s, t, hn, hgn, hek⟩ := fromSetup_inv (Or.inr ⟨_, K.sks, hdkg⟩ :
    FromSetup K.ek K.bits K.gens K.g_i K.pk.pk.delta_g1 K.pk.gamma_g1)
  have hXn : K.ek.X.length = n.toNat := by rw [hek]; simp [encKey]
  obtain ⟨ct1, r1, proof1, st2, h1, h2, h3⟩ := C46_encrypt_with_proof K.fft R fuel st _ K.bits hb hal c0 K.gens K.pk hc0 hsrs
    K.g_i hg K.ek (Or.inr ⟨_, K.sks, hdkg⟩) K.chk P.1 P.2 m
  rw [henc] at h1
  simp only [Res.ok.injEq, Prod.mk.injEq] at h1
  obtain ⟨⟨rfl, rfl, rfl⟩, rfl⟩ := h1
  obtain ⟨ds, hds, hdl, hdb, -⟩ := decompose_spec (K := E.fr) m hb
  rw [hd] at hds
  cases hds
  have hl2 := (decomp_len_eq_iff E.fr K.bits n hb hn).mpr hal
  have hlen : chunks.length = K.ek.X.length := by omega
  have h := encrypt_ok P.1 P.2 m K.ek K.g_i K.bits hd hw hX hlen hgl
  rw [h2] at h
  simp only [Res.ok.injEq, Prod.mk.injEq] at h
  obtain ⟨⟨hct, hr⟩, -⟩ := h
  have hcl : ct.enc_chunks.length = K.ek.X.length := by rw [hct]; simp [cipher]
  refine ⟨⟨⟨[], ?_⟩, h3⟩, hdb, fun _ => draw P.1 P.2 0, ?_⟩
  · have := (submission_faithful hC).1 (ct, proof) (by show Fits ct.enc_chunks; unfold Fits; omega) []
    rwa [List.append_nil] at this
  · rw [encryptDecomposed_ok (tape E) (fun _ => draw P.1 P.2 0) chunks K.ek K.g_i hw hX hlen hgl, draw_tape, ← hct]

theorem step_sim {S T : Poll} (h : ProvedStep K bad S T) : OpenStep K.toPollCfg bad (shadow K S) (shadow K T) := by
  obtain ⟨hw, hX, hgl⟩ := facts hdkg
  cases h with
  | vote j P m chunks ct r proof st' h1 h2 h3 h4 =>
    obtain ⟨hp, -, ρ, he⟩ := honest_provable hC hb hal hc0 hsrs hg hdkg h3 h4
    have := OpenStep.vote (K := K.toPollCfg) (bad := bad) (S := shadow K S) j ⟨tape E, ρ⟩ chunks (flat ct) _ _ h1 h2 he
    rw [← img_of hp, ← shadow_update] at this
    exact this
  | post j bs h1 h2 =>
    have := OpenStep.post (K := K.toPollCfg) (bad := bad) (S := shadow K S) j (img K bs) h1 h2
    rw [← shadow_update] at this
    exact this
  | count j bs ct proof x h1 h2 h3 =>
    exact OpenStep.count (K := K.toPollCfg) (bad := bad) (S := shadow K S) j (img K bs) (flat ct) x
      (by show (S.ballots j).map (img K) = _; rw [h1]; rfl) (acceptable_img hC hX h2) h3
  | torn j bs ct proof x l h1 h2 h3 h4 =>
    exact OpenStep.torn (K := K.toPollCfg) (bad := bad) (S := shadow K S) j (img K bs) (flat ct) x l
      (by show (S.ballots j).map (img K) = _; rw [h1]; rfl) (acceptable_img hC hX h2) h3 h4
  | close x rest h1 h2 => exact OpenStep.close (K := K.toPollCfg) (bad := bad) (S := shadow K S) x rest h1 h2
  | share j sk P bs rest x c_0 c sh st' h1 h2 h3 h4 h5 =>
    exact OpenStep.share (K := K.toPollCfg) (bad := bad) (S := shadow K S) j sk P bs rest x c_0 c sh st' h1 h2 h3 h4 h5

/-- every history is one of the open poll -/
theorem runs_sim {S T : Poll} (h : ProvedRuns K bad S T) : OpenRuns K.toPollCfg bad (shadow K S) (shadow K T) := by
  induction h with
  | refl => exact .refl _
  | step _ hs ih => exact .step ih (step_sim hC hb hal hc0 hsrs hg hdkg hs)

end

/-- steps of the open poll that are not by users are steps of this poll -/
theorem step_back {K : ProvedCfg E} {bad : ℕ → Prop} (hC : LawfulCodecs K.codecs) (hX : K.ek.X.length < 256) {S : Poll}
    {U : Poll} (h : OpenStep K.toPollCfg bad (shadow K S) U) (hp : U.posted.length = S.posted.length) :
    ∃ T, ProvedStep K bad S T ∧ U = shadow K T ∧ T.posted = S.posted ∧ T.cast = S.cast ∧ T.ballots = S.ballots := by
  have hb : ∀ j bs, (shadow K S).ballots j = some bs → ∃ bs', S.ballots j = some bs' ∧ bs = img K bs' := by
    intro j bs h
    have : (S.ballots j).map (img K) = some bs := h
    obtain ⟨bs', h1, h2⟩ := Option.map_eq_some_iff.mp this
    exact ⟨bs', h1, h2.symm⟩
  cases h with
  | vote => simp [shadow] at hp
  | post => simp [shadow] at hp
  | count j bs v x h1 h2 h3 =>
    obtain ⟨bs', hb1, rfl⟩ := hb j bs h1
    obtain ⟨ct, proof, hpr, rfl⟩ := of_acceptable hC hX h2
    exact ⟨_, .count j bs' ct proof x hb1 hpr h3, rfl, rfl, rfl, rfl⟩
  | torn j bs v x l h1 h2 h3 h4 =>
    obtain ⟨bs', hb1, rfl⟩ := hb j bs h1
    obtain ⟨ct, proof, hpr, rfl⟩ := of_acceptable hC hX h2
    exact ⟨_, .torn j bs' ct proof x l hb1 hpr h3 h4, rfl, rfl, rfl, rfl⟩
  | close x rest h1 h2 => exact ⟨_, .close x rest h1 h2, rfl, rfl, rfl, rfl⟩
  | share j sk P bs rest x c_0 c sh st' h1 h2 h3 h4 h5 =>
    exact ⟨_, .share j sk P bs rest x c_0 c sh st' h1 h2 h3 h4 h5, rfl, rfl, rfl, rfl⟩

theorem posted_mono {K : PollCfg E} {bad : ℕ → Prop} {S T : Poll} (h : OpenStep K bad S T) :
    S.posted.length ≤ T.posted.length := by
  cases h <;> simp

theorem posted_mono_runs {K : PollCfg E} {bad : ℕ → Prop} {S T : Poll} (h : OpenRuns K bad S T) :
    S.posted.length ≤ T.posted.length := by
  induction h with
  | refl => exact le_rfl
  | step _ hs ih => exact ih.trans (posted_mono hs)

theorem runs_back {K : ProvedCfg E} {bad : ℕ → Prop} (hC : LawfulCodecs K.codecs) (hX : K.ek.X.length < 256) {S U' U : Poll}
    (hU' : U' = shadow K S)
    (h : OpenRuns K.toPollCfg bad U' U) (hp : U.posted.length = S.posted.length) :
    ∃ T, ProvedRuns K bad S T ∧ U = shadow K T ∧ T.posted = S.posted ∧ T.cast = S.cast ∧ T.ballots = S.ballots := by
  induction h with
  | refl => exact ⟨S, .refl S, hU', rfl, rfl, rfl⟩
  | @step A B hr hs ih =>
    subst hU'
    have h1 := posted_mono_runs hr
    have h2 := posted_mono hs
    have h3 : (shadow K S).posted.length = S.posted.length := by simp [shadow]
    obtain ⟨T, t1, rfl, t3, t4, t5⟩ := ih (by omega)
    obtain ⟨T', u1, u2, u3, u4, u5⟩ := step_back hC hX hs (by rw [hp, t3])
    exact ⟨T', .step t1 u1, u2, u3.trans t3, u4.trans t4, u5.trans t5⟩

end PPoll

/-! ### C114 -/

section
variable {K : ProvedCfg E} {bad : ℕ → Prop} (hC : LawfulCodecs K.codecs) (hU : K.users < 2 ^ 64) (hb : Supported K.bits)
  (hal : 64 * E.fr.limbs < E.fr.modBits + K.bits.toNat ∧ chunksNeeded E.fr K.bits.toNat ≤ 255)
  {c0 : BitsizeCheckCircuit E.fr} (hc0 : BitsizeCheckCircuit.new (K := E.fr) K.bits none none true = .ok c0)
  {R : RngCore E} {fuel : ℕ} {st st' : R.σ}
  (hsrs : generateSrs K.fft R fuel st c0.generateConstraints K.gens = .ok (K.pk, st'))
  (hg : getGsForEncryption K.pk.pk.vk = .ok K.g_i) {parties : List (Party E)}
  (hdkg : dkg parties K.bits K.gens K.g_i K.pk.pk.delta_g1 K.pk.gamma_g1 = .ok (K.sks, K.ek))
  {Rd : RngCore E} {std std' : Rd.σ} {skd : SecretKey E}
  (hdest : fkeygenDest Rd std K.gens = .ok ((skd, K.ekd), std'))
include hC hU hb hal hc0 hsrs hg hdkg hdest

/-- **C114** whatever dishonest users put on the board, and whatever everybody does, in whatever order and however often the
aggregator crashes: if the destination gets anything, then there is one ciphertext for each user published as counted: it was
that user's submission on the board at some point, with a proof that `verify_commitment_and_proof` accepts, and for an honest
user it is the encryption of a vote it has cast; and the destination gets the numbers that these ciphertexts carry together, or
the error for sums out of its search range: it never aborts. -/
theorem C114_every_history (chk : Bool) (b' : UInt8) (hb' : b'.toNat < 32)
    (S : Poll) (hS : ProvedRuns K bad Poll.init S) (res : Res (List UInt16))
    (hout : S.outcome K.toPollCfg chk skd b' = some res) :
    ∃ cnt : List (ℕ × Ciphertext E), cnt ≠ [] ∧ (cnt.map (·.1)).Nodup ∧ (∀ p ∈ cnt, p.1 < K.users) ∧
      S.counted K.toPollCfg = some (cnt.map (·.1)) ∧
      (∀ p ∈ cnt, ∃ bs rest proof, (p.1, bs) ∈ S.posted ∧ (arkSubmission K.codecs).de bs = some ((p.2, proof), rest) ∧
        Accepted K.gens K.pk K.ek p.2 proof) ∧
      (∀ p ∈ cnt, ¬ bad p.1 → ∃ chunks, (p.1, chunks) ∈ S.cast ∧
        ∀ i < K.ek.X.length, content K.sks p.2 i = (nums chunks).getD i 0 • K.g_i.getD i 0) ∧
      (∀ ds, res = .ok ds ↔ ds.length = K.ek.X.length ∧ ∀ i < K.ek.X.length,
        IsLeastLog (K.g_i.getD i 0) (cnt.map fun p => content K.sks p.2 i).sum (searchBound b'.toNat)
          ((nums ds).getD i 0)) ∧
      (∀ e, res = .err e ↔ e = .couldNotFindDiscreteLog ∧ ∃ i < K.ek.X.length,
        NoLog (K.g_i.getD i 0) (cnt.map fun p => content K.sks p.2 i).sum (searchBound b'.toNat)) ∧
      res ≠ .panic := by
  obtain ⟨hw, hX, hgl⟩ := Poll'.facts hdkg
  have hsim := PPoll.runs_sim hC hb hal hc0 hsrs hg hdkg hS
  obtain ⟨cnt, h1, h2, h3, h4, h5, h6, h7, h8⟩ := C109_every_history (K := K.toPollCfg) hC hU hdkg hdest chk b' hb' _ hsim res
    hout
  have hpost : ∀ p ∈ cnt, ∃ bs rest proof, (p.1, bs) ∈ S.posted ∧
      (arkSubmission K.codecs).de bs = some ((p.2, proof), rest) ∧ Accepted K.gens K.pk K.ek p.2 proof := by
    intro p hp
    obtain ⟨-, bs, rest, ha, hd⟩ := h4 p hp
    obtain ⟨⟨j, bs'⟩, hq, he⟩ := List.mem_map.mp ha
    simp only [Prod.mk.injEq] at he
    obtain ⟨rfl, rfl⟩ := he
    obtain ⟨ct, proof, ⟨⟨r, k1⟩, k2⟩, k3⟩ := PPoll.de_img hC hX hd
    obtain rfl := flat_inj k3
    exact ⟨bs', r, proof, hq, k1, k2⟩
  refine ⟨cnt, h1, h2, fun p hp => ?_, h3, hpost, h5, h6, h7, h8⟩
  obtain ⟨bs, rest, proof, ha, -⟩ := hpost p hp
  exact PPoll.posted_users hS (by simp [Poll.init]) _ ha

/-- **C114** (agreement) once the destination gets something, whatever happens afterwards, it gets the same, and the same
users are counted. -/
theorem C114_agreement (chk : Bool) (b' : UInt8) (hb' : b'.toNat < 32) (S T : Poll) (hS : ProvedRuns K bad Poll.init S)
    (hT : ProvedRuns K bad S T) (res : Res (List UInt16)) (hout : S.outcome K.toPollCfg chk skd b' = some res) :
    T.outcome K.toPollCfg chk skd b' = some res ∧ T.counted K.toPollCfg = S.counted K.toPollCfg :=
  C109_agreement (K := K.toPollCfg) hC hU hdkg hdest chk b' hb' _ _ (PPoll.runs_sim hC hb hal hc0 hsrs hg hdkg hS)
    (PPoll.runs_sim hC hb hal hc0 hsrs hg hdkg hT) res hout

/-- **C114** (nobody can block the poll) from every reachable state in which an honest user has voted, some acceptable
submission is on the board, or a tally has been published, there are steps, none of them by a user, after which the
destination gets something; and, as long as no tally has been published, after which every honest user who has voted, and every
other user with an acceptable submission on the board, is counted. -/
theorem C114_no_deadlock (chk : Bool) (b' : UInt8) (hb' : b'.toNat < 32) (S : Poll) (hS : ProvedRuns K bad Poll.init S)
    (h : S.total ≠ none ∨ S.cast ≠ [] ∨ ∃ j bs ct proof, S.ballots j = some bs ∧ Provable K bs ct proof) :
    ∃ T res done, ProvedRuns K bad S T ∧ (T.cast = S.cast ∧ T.posted = S.posted ∧ T.ballots = S.ballots) ∧
      T.outcome K.toPollCfg chk skd b' = some res ∧ T.counted K.toPollCfg = some done ∧
      (S.total = none → (∀ v ∈ S.cast, v.1 ∈ done) ∧
        ∀ j bs ct proof, S.ballots j = some bs → Provable K bs ct proof → j ∈ done) := by
  obtain ⟨hw, hX, hgl⟩ := Poll'.facts hdkg
  have hbal : ∀ {j bs}, S.ballots j = some bs → (PPoll.shadow K S).ballots j = some (PPoll.img K bs) := by
    intro j bs h
    show (S.ballots j).map _ = _
    rw [h]
    rfl
  obtain ⟨U, res, done, u1, u2, u3, u4, u5, u6⟩ := C109_no_deadlock (K := K.toPollCfg) hC hU hdkg hdest chk b' hb' _
    (PPoll.runs_sim hC hb hal hc0 hsrs hg hdkg hS) (by
      rcases h with h | h | ⟨j, bs, ct, proof, h1, h2⟩
      · exact Or.inl h
      · exact Or.inr (Or.inl h)
      · exact Or.inr (Or.inr ⟨j, _, _, hbal h1, PPoll.acceptable_img hC hX h2⟩))
  obtain ⟨T, t1, rfl, t3, t4, t5⟩ := PPoll.runs_back hC hX rfl u1 (by rw [u2.2]; simp [PPoll.shadow])
  refine ⟨T, res, done, t1, ⟨t4, t3, t5⟩, u4, u5, fun hn => ?_⟩
  obtain ⟨v1, v2⟩ := u6 hn
  exact ⟨v1, fun j bs ct proof h1 h2 => v2 j _ _ (hbal h1) (PPoll.acceptable_img hC hX h2)⟩

end

namespace PPoll

/-- what an encryption carries -/
theorem content_cipher {K : PollCfg E} {parties : List (Party E)} {b : UInt8} {D G : E.G1}
    (hdkg : dkg parties b K.gens K.g_i D G = .ok (K.sks, K.ek)) (v : List UInt16) (r : E.Fr) {i : ℕ} (hi : i < K.ek.X.length) :
    content K.sks (cipher K.ek (fun i => K.g_i.getD i 0) (fun i => (nums v).getD i 0) r) i =
      (nums v).getD i 0 • K.g_i.getD i 0 := by
  obtain ⟨n, t, hgn, hsne, hsl, hek⟩ := dkg_inv hdkg
  rw [content]
  rw [hek] at hi ⊢
  simp only [encKey, length_tab] at hi
  simp only [cipher, encKey, length_tab, getD_tab, if_pos hi, smul_smul]
  rw [mul_comm r]
  abel

theorem told {C : Codecs E} (hC : LawfulCodecs C) {T : FftCfg E.Fr} {chk : Bool} {b n : UInt8} (hb : Supported b)
    (hn : chunksCount E.fr b = .ok n)
    (hal : 64 * E.fr.limbs < E.fr.modBits + b.toNat ∧ chunksNeeded E.fr b.toNat ≤ 255) {gens : EncryptionGens E}
    {parties : List (Party E)} {ms : List E.Fr} {k : ℕ} {c : ℕ → Contribution} {pk : ProvingKey E} {ek : EncryptionKey E}
    {l subs : List (Ciphertext E × Proof E)} (h : Agg.Facts T b n gens parties ms k c pk ek l subs) :
    HonestPoll C T chk b n.toNat gens parties ms k c pk ek l subs := by
  classical
  obtain ⟨c0, g_i, sks, vs, F, f, f1, hc0, hsrs, hg, hdkg, hgi, hvs, hll, hacc, hgood⟩ := h
  refine ⟨hacc, vs, hvs, g_i, sks, hg, hdkg, ?_⟩
  generalize (vs ++ tab k fun i => (c i).value vs) = values at hgood ⊢
  intro Rd std std' skd ekd hdest users bad S hU hS hpl chk' b' res hb' hlt hltp hout
  obtain ⟨n1, s, t, hn1, -, hek⟩ := fromSetup_inv (Or.inr ⟨_, sks, hdkg⟩ :
    FromSetup ek b gens g_i pk.pk.delta_g1 pk.gamma_g1)
  rw [hn] at hn1
  cases hn1
  have hX : ek.X.length = n.toNat := by rw [hek]; simp [encKey]
  have hn256 := n.toNat_lt
  obtain ⟨cnt, h1, h2, hu, h3, h4, -, h6, -, -⟩ := C114_every_history
    (K := { codecs := C, users := users, ek := ek, g_i := g_i, gens := gens, ekd := ekd, sks := sks,
            pk := pk, fft := T, chk := chk, bits := b }) hC hU hb hal hc0 hsrs hg hdkg hdest chk' b' (by omega) S hS res hout
  dsimp only at h6 h4 hu
  have hl : ∀ s ∈ l, Fits s.1.enc_chunks := by
    intro s hs
    obtain ⟨j, hj⟩ := List.mem_iff_getElem?.mp hs
    obtain ⟨-, -, r, hr⟩ := hgood j s.1 s.2 (by rw [List.getElem?_append_left (List.getElem?_eq_some_iff.mp hj).1]; exact hj)
      (hacc s hs)
    unfold Fits
    rw [hr]
    simp only [cipher, length_tab]
    omega
  have hidx : ∀ p ∈ cnt, ∃ s, (¬ bad p.1 → s = p.1) ∧ ∃ ct proof bs rest, (l ++ subs)[s]? = some (ct, proof) ∧
      Accepted gens pk ek ct proof ∧ (p.1, bs) ∈ S.posted ∧ (arkSubmission C).de bs = some ((ct, proof), rest) ∧ ct = p.2 := by
    intro p hp
    obtain ⟨bs, rest, proof, ha, hd, hacc1⟩ := h4 p hp
    by_cases hbad : bad p.1
    · obtain ⟨s, hs⟩ := List.mem_iff_getElem?.mp ((hpl _ ha).2 hbad _ _ hd)
      exact ⟨s, fun h => absurd hbad h, p.2, proof, bs, rest, hs, hacc1, ha, hd, rfl⟩
    · obtain ⟨s, hs, he⟩ := (hpl _ ha).1 hbad
      have hrt := (submission_faithful hC).1 s (hl s (List.mem_of_getElem? hs)) []
      dsimp only at he
      rw [List.append_nil, ← he, hd] at hrt
      simp only [Option.some.injEq, Prod.mk.injEq] at hrt
      obtain ⟨rfl, -⟩ := hrt
      exact ⟨p.1, fun _ => rfl, p.2, proof, bs, rest, by
        rw [List.getElem?_append_left (List.getElem?_eq_some_iff.mp hs).1]; exact hs, hacc1, ha, hd, rfl⟩
  choose! σ hσ using hidx
  have hin : ∀ p ∈ cnt, ∀ i, (nums (values.getD (σ p) [])).getD i 0 ≤ 2 ^ b.toNat - 1 := by
    intro p hp i
    obtain ⟨-, ct, proof, bs, rest, k1, k2, -⟩ := hσ p hp
    exact Agg.nums_le (hgood _ _ _ k1 k2).2.1 i
  have hcl : cnt.length ≤ users := by
    have := (List.Nodup.subperm h2 (l₂ := List.range users) fun j hj => by
      obtain ⟨p, hp, rfl⟩ := List.mem_map.mp hj
      exact List.mem_range.mpr (hu p hp)).length_le
    rwa [List.length_map, List.length_range] at this
  have hsum : ∀ i, (cnt.map fun p => (nums (values.getD (σ p) [])).getD i 0).sum ≤ users * (2 ^ b.toNat - 1) := by
    intro i
    have := List.sum_le_card_nsmul (cnt.map fun p => (nums (values.getD (σ p) [])).getD i 0) (2 ^ b.toNat - 1) (fun x hx => by
      obtain ⟨p, hp, rfl⟩ := List.mem_map.mp hx
      exact hin p hp i)
    rw [List.length_map, smul_eq_mul] at this
    exact this.trans (Nat.mul_le_mul_right _ hcl)
  refine ⟨cnt.map fun p => (p.1, σ p), ?_, ?_, ?_, ?_⟩
  · rw [List.map_map]
    exact h2
  · rw [List.map_map]
    exact h3
  · intro p hp
    obtain ⟨q, hq, rfl⟩ := List.mem_map.mp hp
    obtain ⟨k0, ct, proof, bs, rest, k1, k2, k3, k4, -⟩ := hσ q hq
    exact ⟨k0, ct, proof, bs, rest, k1, k2, k3, k4⟩
  · obtain ⟨ds, d1, d2, d3⟩ := OPoll.sum_of
      (K := { codecs := C, users := users, ek := ek, g_i := g_i, gens := gens, ekd := ekd, sks := sks })
      (Poll'.facts (K := { codecs := C, users := users, ek := ek, g_i := g_i, gens := gens, ekd := ekd, sks := sks }) hdkg).2.2
      hgi h6 (fun p i => (nums (values.getD (σ p) [])).getD i 0)
      (fun p hp i hi => by
        obtain ⟨-, ct, proof, bs, rest, k1, k2, -, -, rfl⟩ := hσ p hp
        obtain ⟨-, -, r, hr⟩ := hgood _ _ _ k1 k2
        rw [hr]
        exact content_cipher (K := { codecs := C, users := users, ek := ek, g_i := g_i, gens := gens, ekd := ekd, sks := sks })
          hdkg _ r hi)
      (fun i _ => by
        have h16 : 2 ^ b'.toNat ≤ 2 ^ 16 := Nat.pow_le_pow_right (by omega) hb'
        have := hsum i
        unfold searchBound
        omega)
    dsimp only at d2 d3
    rw [hX] at d2 d3
    exact ⟨ds, d1, d2, fun i hi => by rw [d3 i hi, List.map_map]; rfl⟩

end PPoll

section
variable (C : Codecs E) (hC : LawfulCodecs C) (T : FftCfg E.Fr) (b n : UInt8) (hb : Supported b)
    (hn : chunksCount E.fr b = .ok n) (hbm : b.toNat ≤ E.fr.modBits)
    (hal : 64 * E.fr.limbs < E.fr.modBits + b.toNat ∧ chunksNeeded E.fr b.toNat ≤ 255)
    (gens : EncryptionGens E) (hG : gens.G ≠ 0) (hH : gens.H ≠ 0) (d : EvalDomain E.Fr)
    (hd : T.newDomain (n.toNat * constraintsPerValue E.fr.modBits b.toNat + (n.toNat + 1)) = some d)
    (others1 others2 : List (Party E)) (F : ℕ) (hF : 0 < F) (e : ℕ)

include hC hb hn hbm hal hG hH hd hF in
/-- **C114** (the sums) The key is generated by any number of parties, all but one of which the adversary controls; it sees
everything published and the ciphertexts and proofs of `q` honest users, asks up to `Q` questions and makes `k` submissions.
What these contribute is fixed in advance: for each there is a vector of chunks below `2^b`, or an honest user whose message
it contains.  Whatever the honest messages are, on all but a `(k (Q + 1) (3 size + 6) + n + size) / p` fraction of the draws,
every poll held under the key delivers, in every history, the sums of the contributions of one submission for each counted
user; the sum is never out of range. -/
theorem C114_sums (chk : Bool) (q k : ℕ) (A : Prover E (ℕ → Strategy E.Fr)) :
    ∃ c : ℕ → Contribution, (∀ i < k, (c i).Valid n.toNat b.toNat q) ∧ ∀ ms : List E.Fr, ms.length = q →
      draws E (5 + e) (1 + 2 * n.toNat + 3 * q) (fun fs h => AggOutcome F T chk b gens others1 others2 ms k A fs h
        (fun pk ek l subs => ¬ HonestPoll C T chk b n.toNat gens (crew others1 others2 h) ms k c pk ek l subs)) ≤
      (k * ((A.questions + 1) * (3 * d.size + 6)) + n.toNat + d.size) * E.fr.p ^ (5 + e + 2 * n.toNat + 3 * q) := by
  obtain ⟨c, hc, h⟩ := Agg.facts_many T b n hb hn hbm hal gens hG hH d hd others1 others2 F hF e chk q k A
  refine ⟨c, hc, fun ms hms => (Tapes.draws_mono fun fs f hf => ?_).trans (h ms hms)⟩
  exact Agg.mono (fun pk ek l subs h1 h2 => h1 (PPoll.told hC hb hn hal h2)) hf

end

section
variable (C : Codecs E) (hC : LawfulCodecs C) (T : FftCfg E.Fr) (hE : OnBls E T) (b n : UInt8) (hb : Supported b)
  (hn : chunksCount E.fr b = .ok n) (gens : EncryptionGens E) (hG : gens.G ≠ 0) (hH : gens.H ≠ 0)
  (others1 others2 : List (Party E)) (F : ℕ) (hF : 0 < F) (e : ℕ)

include hC hE hb hn hG hH hF in
/-- **C114** On BLS12-381 this fails on at most `k (Q + 1) + 1` in `2^237` of the draws. -/
theorem C114_bls_sums (chk : Bool) (q k : ℕ) (A : Prover E (ℕ → Strategy E.Fr)) :
    ∃ c : ℕ → Contribution, (∀ i < k, (c i).Valid n.toNat b.toNat q) ∧ ∀ ms : List E.Fr, ms.length = q →
      2 ^ 237 * draws E (5 + e) (1 + 2 * n.toNat + 3 * q) (fun fs h => AggOutcome F T chk b gens others1 others2 ms k A fs h
        (fun pk ek l subs => ¬ HonestPoll C T chk b n.toNat gens (crew others1 others2 h) ms k c pk ek l subs)) ≤
      (k * (A.questions + 1) + 1) * E.fr.p ^ (5 + e + (1 + 2 * n.toNat + 3 * q)) := by
  obtain ⟨n', d, hn', hd, -, hn64, hs, hs'⟩ := hE.small hb
  obtain rfl : n' = n := by rw [hn] at hn'; cases hn'; rfl
  have h17 : 2 ^ 237 * (4 * 2 ^ 15 + 6 + 64) ≤ blsR := by decide +kernel
  have hp : E.fr.p = blsR := hE.prime
  have hc : 2 ^ 237 * (4 * d.size + 6 + n'.toNat) ≤ E.fr.p :=
    le_trans (Nat.mul_le_mul_left _ (by omega)) (h17.trans (le_of_eq hp.symm))
  have e1 : 5 + e + (1 + 2 * n'.toNat + 3 * q) = (5 + e + 2 * n'.toNat + 3 * q) + 1 := by omega
  have hle : k * ((A.questions + 1) * (3 * d.size + 6)) + n'.toNat + d.size ≤
      (k * (A.questions + 1) + 1) * (4 * d.size + 6 + n'.toNat) := by
    have h1 : k * ((A.questions + 1) * (3 * d.size + 6)) ≤ k * (A.questions + 1) * (4 * d.size + 6 + n'.toNat) := by
      rw [← Nat.mul_assoc]
      exact Nat.mul_le_mul_left _ (by omega)
    rw [Nat.add_mul (k * (A.questions + 1)), Nat.one_mul]
    omega
  obtain ⟨c, hcv, h⟩ := C114_sums C hC T b n' hb hn (hE.bits hb) (hE.aligned hb) gens hG hH d hd others1 others2 F hF e chk q k A
  refine ⟨c, hcv, fun ms hms => ?_⟩
  exact (OnBls.scaleMany hc ((h ms hms).trans (Nat.mul_le_mul_right _ hle))).trans (le_of_eq (by rw [e1]))

end

/-- Every adversary meets the hypotheses: 8-bit chunks on the model's own BLS12-381 domains, two parties of the adversary, two
honest users, three submissions. -/
example (o1 o2 : Party (Engine.scalar blsFr)) (A : Prover (Engine.scalar blsFr) (ℕ → Strategy (Engine.scalar blsFr).Fr)) :=
  C114_bls_sums (E := Engine.scalar blsFr) (scalarCodecs blsFr) (scalarCodecs_lawful blsFr) blsFft C95_instance 8 32
    (.inr (.inl rfl)) chunksCount_bls8 ⟨(1 : ZMod blsFr.p), (2 : ZMod blsFr.p)⟩ (by decide +kernel) (by decide +kernel)
    [o1] [o2] 3 (by decide) 2 true 2 3 A

/-- a poll among 257 users with 8-bit chunks meets the overflow conditions at 16 bits -/
example : (16 : UInt8).toNat ≤ 16 ∧ 257 * (2 ^ (8 : UInt8).toNat - 1) < 2 ^ (16 : UInt8).toNat ∧
    257 * (2 ^ (8 : UInt8).toNat - 1) < blsFr.p := by decide +kernel

/-- Non-vacuity: user 1 is dishonest and puts something unreadable on the board; user 0 submits a message with a proof, is
counted, and the destination gets the chunks of the message. -/
example : ∃ (K : ProvedCfg Fix.E) (S : Poll) (ds : List UInt16), ProvedRuns K (· = 1) Poll.init S ∧
    S.ballots 1 = some [7, 7, 7] ∧ decompose (K := Fix.E.fr) (show Fix.E.Fr from (258 : Fix.F)) 8 = .ok ds ∧
    S.counted K.toPollCfg = some [0] ∧ S.outcome K.toPollCfg true Fix.skd 16 = some (.ok ds) := by
  have hC := scalarCodecs_lawful goldFr
  obtain ⟨c0, pk, ek0, g_i, st1, -, hc0, hsrs, hg, hgi, hgl, -⟩ := Fix.run8
  have hb : Supported 8 := .inr (.inl rfl)
  obtain ⟨sks, ek, hdkg⟩ : ∃ sks ek, dkg [⟨listRng Fix.E, Fix.st⟩, ⟨listRng Fix.E, Fix.st1⟩] 8 Fix.gens g_i pk.pk.delta_g1
      pk.gamma_g1 = .ok (sks, ek) := by
    exact ⟨_, _, dkg_eq _ (by simp) Fix.gens g_i _ _ Fix.count8 hgl⟩
  have hXn : ek.X.length = 8 := by
    obtain ⟨n, s, t, hn, hgn, hek⟩ := fromSetup_inv (Or.inr ⟨_, sks, hdkg⟩ :
      FromSetup ek 8 Fix.gens g_i pk.pk.delta_g1 pk.gamma_g1)
    rw [Fix.count8] at hn
    cases hn
    rw [hek]
    simp [encKey, Fix.eight]
  obtain ⟨K, hK⟩ : ∃ K : ProvedCfg Fix.E, K = { codecs := scalarCodecs goldFr, users := 2, ek := ek, g_i := g_i,
                                                gens := Fix.gens, ekd := Fix.ekd, sks := sks, pk := pk, fft := goldFft,
                                                chk := true, bits := 8 } := ⟨_, rfl⟩
  have hU : K.users < 2 ^ 64 := by rw [hK]; show 2 < 2 ^ 64; decide
  have hC' : LawfulCodecs K.codecs := by rw [hK]; exact hC
  have hb' : Supported K.bits := by rw [hK]; exact hb
  have hal' : 64 * Fix.E.fr.limbs < Fix.E.fr.modBits + K.bits.toNat ∧ chunksNeeded Fix.E.fr K.bits.toNat ≤ 255 := by
    rw [hK]; exact Fix.aligned8
  have hc0' : BitsizeCheckCircuit.new (K := Fix.E.fr) K.bits none none true = .ok c0 := by rw [hK]; exact hc0
  have hsrs' : generateSrs K.fft (listRng Fix.E) 1 Fix.stFull8 c0.generateConstraints K.gens = .ok (K.pk, st1) := by
    rw [hK]; exact hsrs
  have hg' : getGsForEncryption K.pk.pk.vk = .ok K.g_i := by rw [hK]; exact hg
  have hdkg' : dkg [⟨listRng Fix.E, Fix.st⟩, ⟨listRng Fix.E, Fix.st1⟩] K.bits K.gens K.g_i K.pk.pk.delta_g1 K.pk.gamma_g1 =
      .ok (K.sks, K.ek) := by rw [hK]; exact hdkg
  have hdest : fkeygenDest (listRng Fix.E) Fix.st3 K.gens = .ok ((Fix.skd, K.ekd), ([], [], [])) := by
    rw [hK]; exact Fix.dest_ok
  have hgi' : ∀ g ∈ K.g_i, g ≠ 0 := by rw [hK]; exact hgi
  have hX' : K.ek.X.length = 8 := by rw [hK]; exact hXn
  have hu2 : K.users = 2 := by rw [hK]
  obtain ⟨ds, hds, hdl, hdb, -⟩ := decompose_spec (K := Fix.E.fr) (show Fix.E.Fr from (258 : Fix.F)) hb
  have hb8 : K.bits = 8 := by rw [hK]
  obtain ⟨ct, r, proof, st2, henc, -, -⟩ := C46_encrypt_with_proof K.fft _ _ _ _ K.bits hb' hal' c0 K.gens K.pk hc0' hsrs'
    K.g_i hg' K.ek (Or.inr ⟨_, K.sks, hdkg'⟩) K.chk (listRng Fix.E) Fix.st1 (show Fix.E.Fr from (258 : Fix.F))
  have r1 := ProvedRuns.step (.refl Poll.init) (ProvedStep.vote (K := K) (bad := (· = 1)) 0 ⟨listRng Fix.E, Fix.st1⟩ _ ds
    ct r proof st2 (by omega) (by decide) (by rw [hb8]; exact hds) henc)
  have r2 := ProvedRuns.step r1 (ProvedStep.post 1 [7, 7, 7] (by omega) rfl)
  obtain ⟨S2, r3, hcast, hpost, hb1⟩ : ∃ S2, ProvedRuns K (· = 1) Poll.init S2 ∧ S2.cast = [(0, ds)] ∧
    S2.posted = [(1, [7, 7, 7]), (0, (arkSubmission K.codecs).ser (ct, proof))] ∧ S2.ballots 1 = some [7, 7, 7] :=
    ⟨_, r2, rfl, rfl, rfl⟩
  obtain ⟨T, res, done, a1, ⟨a2, a3, a4⟩, a5, a6, -⟩ := C114_no_deadlock hC' hU hb' hal' hc0' hsrs' hg' hdkg' hdest true 16
    (by decide) S2 r3 (Or.inr (Or.inl (by rw [hcast]; simp)))
  obtain ⟨cnt, c1, c2, -, c3, c4, c5, c6, -, -⟩ := C114_every_history hC' hU hb' hal' hc0' hsrs' hg' hdkg' hdest true 16
    (by decide) T (PPoll.trans r3 a1) res a5
  have hjunk : (arkSubmission K.codecs).de [7, 7, 7] = none := by
    rw [hK]
    show (arkSubmission (scalarCodecs goldFr)).de [7, 7, 7] = none
    decide +kernel
  have hz : ∀ p ∈ cnt, p.1 = 0 := by
    intro p hp
    obtain ⟨bs, rest, pr, k1, k2, -⟩ := c4 p hp
    rw [a3, hpost] at k1
    rcases List.mem_cons.mp k1 with k1 | k1
    · simp only [Prod.mk.injEq] at k1
      rw [k1.2, hjunk] at k2
      cases k2
    · exact (Prod.mk.inj (List.mem_singleton.mp k1)).1
  obtain ⟨p, rfl⟩ : ∃ p, cnt = [p] := by
    rcases cnt with _ | ⟨p, _ | ⟨p', l⟩⟩
    · exact absurd rfl c1
    · exact ⟨p, rfl⟩
    · have e1 := hz p (by simp)
      have e2 := hz p' (by simp)
      simp [e1, e2] at c2
  have hp0 := hz p (by simp)
  obtain ⟨ch, k1, k2⟩ := c5 p (by simp) (by rw [hp0]; decide)
  rw [a2, hcast] at k1
  obtain rfl : ch = ds := by simpa using congrArg Prod.snd (List.mem_singleton.mp k1)
  obtain ⟨out, o1, o2, o3⟩ := OPoll.sum_of (Poll'.facts hdkg').2.2 hgi' c6 (fun _ i => (nums ch).getD i 0)
    (fun q hq i hi => by rw [List.mem_singleton.mp hq]; exact k2 i hi) (fun i _ => by
      have h1 := Agg.nums_le (b := 8) hdb i
      have h2 : (8 : UInt8).toNat = 8 := rfl
      rw [h2] at h1
      simp only [List.map_cons, List.map_nil, List.sum_cons, List.sum_nil, add_zero]
      refine ⟨h1.trans (by decide), h1.trans_lt (by decide +kernel)⟩)
  have hl8 : ch.length = 8 := by
    have := (decomp_len_eq_iff Fix.E.fr 8 8 hb Fix.count8).mpr Fix.aligned8
    rw [hdl, this, Fix.eight]
  rw [hX'] at o2 o3
  have hout : out = ch := by
    have hinj : Function.Injective nums := List.map_injective_iff.mpr fun (x y : UInt16) h => UInt16.toNat_inj.mp h
    apply hinj
    apply List.ext_getElem (by simp [nums, o2, hl8])
    intro i h1 h2
    have h3 : i < 8 := by simpa [nums, o2] using h1
    have := o3 i h3
    simp only [List.map_cons, List.map_nil, List.sum_cons, List.sum_nil, add_zero] at this
    rwa [List.getD_eq_getElem _ _ h1, List.getD_eq_getElem _ _ h2] at this
  refine ⟨K, T, ch, PPoll.trans r3 a1, by rw [a4]; exact hb1, hds, ?_, ?_⟩
  · rw [c3, List.map_cons, hp0]
    rfl
  · rw [a5, o1, hout]

end Verif
