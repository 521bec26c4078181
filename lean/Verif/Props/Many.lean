/-
Property C121: many polls under one key.
-/
import Verif.SpecReplay
import Verif.Props.WholeProved
import Verif.Props.CopiedBallots

namespace Verif
open Spec

variable {E : Engine}

namespace Mny

theorem trans {M : ManyPublic E} {bad} {W V U : Many E} (h : ManyRuns M bad W V) (h' : ManyRuns M bad V U) :
    ManyRuns M bad W U := by
  induction h' with
  | refl => exact h
  | step _ hs ih => exact .step ih hs

/-- what concerns poll `i` makes a step, or nothing -/
theorem project_step {M : ManyPublic E} {bad} {W V : Many E} (h : ManyStep M bad W V) (i : ℕ) :
    FullStep (M.forPoll i) (bad i) (W.one i) (V.one i) ∨ V.one i = W.one i := by
  cases h with
  | keygen S hs => exact .inl (.keygen S hs)
  | poll k K S hK hs =>
    by_cases hik : i = k
    · subst hik
      refine .inl ?_
      have := FullStep.poll (A := M.forPoll i) (bad := bad i) (W := W.one i) K S hK hs
      simpa only [Many.one, Function.update_self] using this
    · refine .inr ?_
      simp only [Many.one, Function.update_of_ne hik]

theorem project {M : ManyPublic E} {bad} {W V : Many E} (h : ManyRuns M bad W V) (i : ℕ) :
    FullRuns (M.forPoll i) (bad i) (W.one i) (V.one i) := by
  induction h with
  | refl => exact .refl _
  | step _ hs ih =>
    rcases project_step hs i with h | h
    · exact .step ih h
    · rw [h]; exact ih

/-- what can happen to poll `i` can happen without any step of another poll -/
theorem lift {M : ManyPublic E} {bad} {i : ℕ} {U V : Whole E} (h : FullRuns (M.forPoll i) (bad i) U V) (W : Many E)
    (hW : W.one i = U) : ManyRuns M bad W ⟨V.sys, Function.update W.polls i V.poll⟩ := by
  induction h with
  | refl =>
    subst hW
    simp only [Function.update_eq_self]
    exact .refl _
  | @step V T _ hs ih =>
    cases hs with
    | keygen S hs => exact .step ih (.keygen S hs)
    | poll K S hK hs =>
      have h2 := ManyStep.poll (M := M) (bad := bad) (W := ⟨V.sys, Function.update W.polls i V.poll⟩) i K S
        (by simp only [Many.one, Function.update_self]; exact hK) (by dsimp only; rw [Function.update_self]; exact hs)
      dsimp only at h2
      rw [Function.update_idem] at h2
      exact .step ih h2

theorem sks_len {N : ℕ} {P : ℕ → Party E} {b n : UInt8} {gens : EncryptionGens E} {g_i : List E.G1} {D G : E.G1} {sks ek}
    (hN : 0 < N) (hn : chunksCount E.fr b = .ok n) (hgl : n.toNat ≤ g_i.length)
    (h : dkg ((List.range N).map P) b gens g_i D G = .ok (sks, ek)) : sks.length = N := by
  rw [dkg_eq _ (by simp; omega) gens g_i D G hn hgl] at h
  rw [← (Prod.mk.inj (Res.ok.inj h)).1]
  simp

theorem key_len {N : ℕ} {P : ℕ → Party E} {b n : UInt8} {gens : EncryptionGens E} {g_i : List E.G1} {D G : E.G1} {sks ek}
    (hN : 0 < N) (hn : chunksCount E.fr b = .ok n) (hgl : n.toNat ≤ g_i.length)
    (h : dkg ((List.range N).map P) b gens g_i D G = .ok (sks, ek)) : ek.X.length = n.toNat := by
  rw [dkg_eq _ (by simp; omega) gens g_i D G hn hgl] at h
  rw [← (Prod.mk.inj (Res.ok.inj h)).2]
  simp [encKey]

/-- the key is the same for all polls -/
theorem cfg_swap {M : ManyPublic E} {W : Many E} {i k : ℕ} {K : PollCfg E}
    (h : (W.one k).cfg (M.forPoll k).toPublic = some K) :
    (W.one i).cfg (M.forPoll i).toPublic = some { K with users := M.users i, ekd := M.ekd i } := by
  unfold Whole.cfg at h ⊢
  dsimp only at h ⊢
  generalize W.sys.finalKey M.common.codecs M.common.holders M.common.gamma_g = f at h ⊢
  match f with
  | some (.ok ek) =>
    dsimp only at h ⊢
    generalize ((List.range M.common.holders).mapM fun j => _ : Option (List (SecretKeyST E))) = l at h ⊢
    cases l with
    | none => cases h
    | some sks => cases h; rfl
  | some (.err _) => cases h
  | some .panic => cases h
  | none => cases h

section
variable {M : ManyPublic E} {bad : ℕ → ℕ → Prop}

theorem runs {h : ℕ → Many E} (hh : History (ManyStep M bad) h) {i k : ℕ} (hik : i ≤ k) :
    ManyRuns M bad (h i) (h k) := by
  induction k, hik using Nat.le_induction with
  | base => exact .refl _
  | succ m _ ih =>
    rcases hh m with hs | hs
    · exact .step ih hs
    · rw [hs]; exact ih

theorem rtg {S T : Many E} (hr : ManyRuns M bad S T) : Relation.ReflTransGen (ManyStep M bad) S T := by
  induction hr with
  | refl => exact .refl
  | step _ hs ih => exact .tail ih hs

theorem one_history {h : ℕ → Many E} (hh : History (ManyStep M bad) h) (i : ℕ) :
    History (FullStep (M.forPoll i) (bad i)) fun t => (h t).one i := by
  intro t
  dsimp only
  rcases hh t with hs | hs
  · exact project_step hs i
  · rw [hs]; exact .inr rfl

theorem enabled {i : ℕ} {act : Whole E → Whole E → Prop} {W : Many E}
    (he : Enabled (FullStep (M.forPoll i) (bad i)) act (W.one i)) :
    Enabled (ManyStep M bad) (fun S T => act (S.one i) (T.one i)) W := by
  obtain ⟨T, h1, h2⟩ := he
  cases h1 with
  | keygen S hs => exact ⟨_, .keygen S hs, h2⟩
  | poll K S hK hs =>
    refine ⟨_, .poll i K S hK hs, ?_⟩
    simp only [Many.one, Function.update_self]
    exact h2

theorem keygen_fair {h : ℕ → Many E} {C : Codecs E} {N : ℕ} (hf : KeygenFair C N (ManyStep M bad) Many.sys h) (i : ℕ) :
    KeygenFair C N (FullStep (M.forPoll i) (bad i)) Whole.sys fun t => (h t).one i :=
  ⟨fun j hj t ht => hf.stores j hj t fun k hk => enabled (act := fun S T => Stores C j S.sys T.sys) (ht k hk),
    fun j hj t ht => hf.publishes j hj t fun k hk => enabled (act := fun S T => Publishes j S.sys T.sys) (ht k hk),
    fun j hj t ht => hf.loads j hj t fun k hk => enabled (act := fun S T => Loads j S.sys T.sys) (ht k hk),
    fun j hj t ht => hf.shares j hj t fun k hk => (ht k hk).imp fun _ h =>
      ⟨h.1, enabled (act := fun S T => Shares j S.sys T.sys) h.2⟩⟩

theorem poll_fair {h : ℕ → Many E} {C : Codecs E} {N : ℕ} (i : ℕ)
    (hf : PollFair C N (ManyStep M bad) (fun W => W.polls i) h) :
    PollFair C N (FullStep (M.forPoll i) (bad i)) Whole.poll fun t => (h t).one i :=
  ⟨fun t ht => hf.starts t fun k hk => enabled (act := fun S T => StartsTally C S.poll T.poll) (ht k hk),
    fun t ht => hf.closes t fun k hk => (ht k hk).imp fun _ h =>
      ⟨h.1, enabled (act := fun S T => Closes S.poll T.poll) h.2⟩,
    fun j hj t ht => hf.shares j hj t fun k hk => enabled (act := fun S T => SharesTally j S.poll T.poll) (ht k hk)⟩

end
end Mny

/-! ### C121 -/

section
variable {M : ManyPublic E} {bad : ℕ → ℕ → Prop} (hC : LawfulCodecs M.common.codecs) (hN : 0 < M.common.holders)
  (hU : ∀ i, M.users i < 2 ^ 64)
  (hb : Supported M.common.b) {n : UInt8} (hn : chunksCount E.fr M.common.b = .ok n)
  (hgl : n.toNat ≤ M.common.g_i.length)
  (hal : 64 * E.fr.limbs < E.fr.modBits + M.common.b.toNat ∧ chunksNeeded E.fr M.common.b.toNat ≤ 255)
  {c0 : BitsizeCheckCircuit E.fr} (hc0 : BitsizeCheckCircuit.new (K := E.fr) M.common.b none none true = .ok c0)
  {R : RngCore E} {fuel : ℕ} {st st' : R.σ}
  (hsrs : generateSrs M.common.fft R fuel st c0.generateConstraints M.common.gens = .ok (M.common.pk, st'))
  (hg : getGsForEncryption M.common.pk.pk.vk = .ok M.common.g_i) (hD : M.common.delta_g = M.common.pk.pk.delta_g1)
  (hG : M.common.gamma_g = M.common.pk.gamma_g1)
  {Rd : ℕ → RngCore E} {std std' : ∀ i, (Rd i).σ} {skd : ℕ → SecretKey E}
  (hdest : ∀ i, fkeygenDest (Rd i) (std i) M.common.gens = .ok ((skd i, M.ekd i), std' i))
include hC hN hU hb hn hgl hal hc0 hsrs hg hD hG hdest

/-- **C121** many polls under one key, in any interleaving, each with its own users, dishonest users, destination and aggregator.
If the destination of any poll gets anything, there is one key, that of a run of key generation without crashes, such that in
every poll whose destination gets anything it gets what that poll alone determines: there is one ciphertext for each user
published as counted in that poll, which that user has put on the board of that poll and the verification accepts, for an
honest user an encryption of a vote it has cast in that poll; and the destination gets the numbers that these carry together. -/
theorem C121_every_history (chk : Bool) (b' : UInt8) (hb' : b'.toNat < 32) (W : Many E)
    (hW : ManyRuns M bad Many.init W) (hsome : ∃ i res, W.outcome M i chk (skd i) b' = some res) :
    ∃ (P : ℕ → Party E) (sks : List (SecretKeyST E)) (ek : EncryptionKey E),
      W.sys.finalKey M.common.codecs M.common.holders M.common.gamma_g = some (.ok ek) ∧
      dkg ((List.range M.common.holders).map P) M.common.b M.common.gens M.common.g_i M.common.delta_g M.common.gamma_g =
        .ok (sks, ek) ∧
      (∀ j < M.common.holders, ∃ sk k, sks[j]? = some sk ∧ load M.common.codecs (W.sys.node j).disk = some (sk, k)) ∧
      ∀ i res, W.outcome M i chk (skd i) b' = some res → ∃ cnt : List (ℕ × Ciphertext E),
        cnt ≠ [] ∧ (cnt.map (·.1)).Nodup ∧ (∀ p ∈ cnt, p.1 < M.users i) ∧ W.counted M i = some (cnt.map (·.1)) ∧
        (∀ p ∈ cnt, ∃ bs rest proof, (p.1, bs) ∈ (W.polls i).posted ∧
          (arkSubmission M.common.codecs).de bs = some ((p.2, proof), rest) ∧
          Accepted M.common.gens M.common.pk ek p.2 proof) ∧
        (∀ p ∈ cnt, ¬ bad i p.1 → ∃ chunks, (p.1, chunks) ∈ (W.polls i).cast ∧
          ∀ l < n.toNat, content sks p.2 l = (nums chunks).getD l 0 • M.common.g_i.getD l 0) ∧
        (∀ ds, res = .ok ds ↔ ds.length = n.toNat ∧ ∀ l < n.toNat,
          IsLeastLog (M.common.g_i.getD l 0) (cnt.map fun p => content sks p.2 l).sum (searchBound b'.toNat)
            ((nums ds).getD l 0)) ∧
        (∀ e, res = .err e ↔ e = .couldNotFindDiscreteLog ∧ ∃ l < n.toNat,
          NoLog (M.common.g_i.getD l 0) (cnt.map fun p => content sks p.2 l).sum (searchBound b'.toNat)) ∧
        res ≠ .panic := by
  have key := fun i res h => C116_every_history (A := M.forPoll i) (bad := bad i) hC hN (hU i) hb hn hgl hal hc0 hsrs hg hD hG
    (hdest i) chk b' hb' (W.one i) (Mny.project hW i) res h
  obtain ⟨i0, res0, h0⟩ := hsome
  obtain ⟨P, sks, ek, -, k1, k2, k3, -⟩ := key i0 res0 h0
  refine ⟨P, sks, ek, k1, k2, k3, fun i res h => ?_⟩
  obtain ⟨P', sks', ek', cnt, l1, l2, l3, l4⟩ := key i res h
  have e1 : (some (Res.ok ek) : Option (Res (EncryptionKey E))) = some (.ok ek') := k1.symm.trans l1
  cases e1
  have e2 : sks' = sks := by
    have n1 := Mny.sks_len hN hn hgl k2
    have n2 := Mny.sks_len hN hn hgl l2
    apply List.ext_getElem?
    intro j
    by_cases hj : j < M.common.holders
    · obtain ⟨sk, k, a1, a2⟩ := k3 j hj
      obtain ⟨sk', k', a3, a4⟩ := l3 j hj
      have e : (some (sk, k) : Option (SecretKeyST E × _)) = some (sk', k') := a2.symm.trans a4
      cases e
      rw [a1, a3]
    · rw [List.getElem?_eq_none (by rw [n2]; exact not_lt.mp hj), List.getElem?_eq_none (by rw [n1]; exact not_lt.mp hj)]
  subst e2
  exact ⟨cnt, l4⟩

/-- **C121** (polls do not disturb each other) once the destination of a poll gets something, it gets the same whatever happens
afterwards in any poll, and the same users are counted. -/
theorem C121_agreement (chk : Bool) (b' : UInt8) (hb' : b'.toNat < 32) (W V : Many E) (hW : ManyRuns M bad Many.init W)
    (hV : ManyRuns M bad W V) (i : ℕ) (res : Res (List UInt16)) (hout : W.outcome M i chk (skd i) b' = some res) :
    V.outcome M i chk (skd i) b' = some res ∧ V.counted M i = W.counted M i :=
  C116_agreement (A := M.forPoll i) (bad := bad i) hC hN (hU i) hb hn hgl hal hc0 hsrs hg hD hG (hdest i) chk b' hb' (W.one i)
    (V.one i) (Mny.project hW i) (Mny.project hV i) res hout

/-- **C121** (nobody can block a poll) from every reachable state, any honest user of any poll can still submit any message, and
after that the destination of that poll can get something, without any step in another poll. -/
theorem C121_no_deadlock (chk : Bool) (b' : UInt8) (hb' : b'.toNat < 32) (W : Many E) (hW : ManyRuns M bad Many.init W)
    (i j : ℕ) (hj : j < M.users i) (hjb : ¬ bad i j) (m : E.Fr) (Q : Party E) :
    ∃ V res done chunks, ManyRuns M bad W V ∧ (∀ k ≠ i, V.polls k = W.polls k) ∧
      decompose (K := E.fr) m M.common.b = .ok chunks ∧
      (V.polls i).cast = (j, chunks) :: (W.polls i).cast ∧ V.outcome M i chk (skd i) b' = some res ∧
      V.counted M i = some done ∧ ((W.polls i).total = none → ∀ v ∈ (V.polls i).cast, v.1 ∈ done) := by
  obtain ⟨V, res, done, chunks, h1, h2, h3, h4, h5, h6⟩ := C116_no_deadlock (A := M.forPoll i) (bad := bad i) hC hN (hU i) hb hn
    hgl hal hc0 hsrs hg hD hG (hdest i) chk b' hb' (W.one i) (Mny.project hW i) j hj hjb m Q
  have e : (⟨V.sys, Function.update W.polls i V.poll⟩ : Many E).one i = V := by simp only [Many.one, Function.update_self]
  refine ⟨⟨V.sys, Function.update W.polls i V.poll⟩, res, done, chunks, Mny.lift h1 W rfl, fun k hk => ?_, h2, ?_, ?_, ?_, ?_⟩
  · dsimp only
    rw [Function.update_of_ne hk]
  · dsimp only
    rw [Function.update_self]
    exact h3
  · rw [Many.outcome, e]
    exact h4
  · rw [Many.counted, e]
    exact h5
  · dsimp only
    rw [Function.update_self]
    exact h6

/-- **C121** (liveness) in every history in which the key holders, and in each poll its aggregator and the key holders, in the
end do what they can do: the key is computed, and stays the same; and in every poll in which an honest user votes, the
destination gets something, and it stays the same, whatever happens in other polls. -/
theorem C121_finishes (chk : Bool) (b' : UInt8) (hb' : b'.toNat < 32)
    (h : ℕ → Many E) (h0 : h 0 = Many.init) (hh : History (ManyStep M bad) h)
    (hk : KeygenFair M.common.codecs M.common.holders (ManyStep M bad) Many.sys h)
    (hp : ∀ i, PollFair M.common.codecs M.common.holders (ManyStep M bad) (fun W => W.polls i) h) :
    (∃ ek, Eventually fun t => (h t).sys.finalKey M.common.codecs M.common.holders M.common.gamma_g = some (.ok ek)) ∧
    ∀ i, (∃ t, ((h t).polls i).cast ≠ []) → ∃ res, Eventually fun t => (h t).outcome M i chk (skd i) b' = some res := by
  have key := fun i => C116_finishes (A := M.forPoll i) (bad := bad i) hC hN (hU i) hb hn hgl hal hc0 hsrs hg hD hG (hdest i)
    chk b' hb' (fun t => (h t).one i) (by rw [h0]; rfl) (Mny.one_history hh i) (Mny.keygen_fair hk i) (Mny.poll_fair i (hp i))
  exact ⟨(key 0).1, fun i hi => (key i).2 hi⟩

omit hdest in
/-- **C121** (fair histories exist) through every reachable state, although there are infinitely many polls. -/
theorem C121_fair_history (W : Many E) (hW : ManyRuns M bad Many.init W) :
    ∃ (h : ℕ → Many E) (m : ℕ), h 0 = Many.init ∧ History (ManyStep M bad) h ∧ h m = W ∧
      KeygenFair M.common.codecs M.common.holders (ManyStep M bad) Many.sys h ∧
      ∀ i, PollFair M.common.codecs M.common.holders (ManyStep M bad) (fun W => W.polls i) h := by
  classical
  have hre := fun i => Ful.reach (A := M.forPoll i) (bad := bad i) hC hN hn hgl (Mny.project hW i)
  obtain ⟨S, s1, s2⟩ := Liv.sys_end hC hN hn hgl W.sys (hre 0).1
  have hW1 : ManyRuns M bad W ⟨S, W.polls⟩ := by
    have h : FullRuns (M.forPoll 0) (bad 0) (W.one 0) ⟨S, W.polls 0⟩ := Ful.lift_sys s1
    have := Mny.lift h W rfl
    rwa [Function.update_eq_self] at this
  have hre1 := fun i => Ful.reach (A := M.forPoll i) (bad := bad i) hC hN hn hgl (Mny.project (Mny.trans hW hW1) i)
  obtain ⟨Q, hI⟩ := Rst.reach_inv hC hn hgl (hre1 0).1
  obtain ⟨ek, hf, -⟩ := Rst.final_eq hC hn hgl hN hI (⟨tape E, fun _ => 0⟩ : Party E) (fun j hj => (s2 j hj).2.1)
    (fun j hj => (s2 j hj).2.2.2)
  obtain ⟨P, sks, ek', e, a2, -, hK⟩ := Whl.cfg_of_final (A := (M.forPoll 0).toPublic) hC hN hn hgl (hre1 0).1 hf (W.polls 0)
  cases e
  have hsl := Mny.sks_len hN hn hgl a2
  dsimp only at a2
  rw [hD, hG] at a2
  have hKs : ∀ i P, Whole.provedCfg (M.forPoll i) ⟨S, P⟩ = some (Ful.with_ (M.forPoll i)
      ⟨M.common.codecs, M.users i, ek, M.common.g_i, M.common.gens, M.ekd i, sks⟩) := fun i P =>
    Ful.cfg_iff.mpr ⟨_, Mny.cfg_swap (M := M) (W := ⟨S, fun _ => P⟩) (k := 0) hK, rfl⟩
  have hrun := fun i => (hre1 i).2 _ (hKs i _)
  -- only finitely many polls have begun
  obtain ⟨L, hL⟩ : ∃ L : List ℕ, ∀ i, i ∉ L → W.polls i = Poll.init := by
    clear * - hW
    induction hW with
    | refl => exact ⟨[], fun _ _ => rfl⟩
    | step _ hs ih =>
      obtain ⟨L, hL⟩ := ih
      cases hs with
      | keygen => exact ⟨L, hL⟩
      | poll k K S =>
        refine ⟨k :: L, fun i hi => ?_⟩
        rw [List.mem_cons, not_or] at hi
        dsimp only
        rw [Function.update_of_ne hi.1]
        exact hL i hi.2
  have fin : ∀ L : List ℕ, ∃ V, ManyRuns M bad ⟨S, W.polls⟩ V ∧ V.sys = S ∧ (∀ i, i ∉ L → V.polls i = W.polls i) ∧
      ∀ i ∈ L, ¬ Enabled (ProvedStep (Ful.with_ (M.forPoll i)
          ⟨M.common.codecs, M.users i, ek, M.common.g_i, M.common.gens, M.ekd i, sks⟩) (bad i)) (StartsTally M.common.codecs) (V.polls i) ∧
        ¬ Enabled (ProvedStep (Ful.with_ (M.forPoll i)
          ⟨M.common.codecs, M.users i, ek, M.common.g_i, M.common.gens, M.ekd i, sks⟩) (bad i)) Closes (V.polls i) ∧
        ∀ j < M.common.holders, ¬ Enabled (ProvedStep (Ful.with_ (M.forPoll i)
          ⟨M.common.codecs, M.users i, ek, M.common.g_i, M.common.gens, M.ekd i, sks⟩) (bad i)) (SharesTally j) (V.polls i) := by
    intro L
    induction L with
    | nil => exact ⟨_, .refl _, rfl, fun _ _ => rfl, by simp⟩
    | cons k L ih =>
      obtain ⟨V, v1, v2, v3, v4⟩ := ih
      by_cases hk : k ∈ L
      · refine ⟨V, v1, v2, fun i hi => v3 i fun h => hi (List.mem_cons_of_mem _ h), fun i hi => ?_⟩
        rcases List.mem_cons.mp hi with rfl | hi
        · exact v4 _ hk
        · exact v4 i hi
      · have hrk := hrun k
        obtain ⟨T, t1, t2, t3, t4⟩ := PLiv.poll_end (K := Ful.with_ (M.forPoll k)
          ⟨M.common.codecs, M.users k, ek, M.common.g_i, M.common.gens, M.ekd k, sks⟩) (bad := bad k)
          hC hb hal hc0 hsrs hg a2 (hU k) (W.polls k) hrk
        have hl : FullRuns (M.forPoll k) (bad k) ⟨S, W.polls k⟩ ⟨S, T⟩ := Ful.lift_poll (hKs k) t1
        have := Mny.lift hl V (by simp only [Many.one, v2, v3 k hk])
        refine ⟨⟨S, Function.update V.polls k T⟩, Mny.trans v1 this, rfl, fun i hi => ?_, fun i hi => ?_⟩
        · rw [List.mem_cons, not_or] at hi
          dsimp only
          rw [Function.update_of_ne hi.1]
          exact v3 i hi.2
        · dsimp only
          by_cases hik : i = k
          · subst hik
            rw [Function.update_self]
            exact ⟨t2, t3, fun j hj => t4 j (hj.trans_eq hsl.symm)⟩
          · rw [Function.update_of_ne hik]
            exact v4 i ((List.mem_cons.mp hi).resolve_left hik)
  obtain ⟨V, v1, v2, v3, v4⟩ := fin L
  -- in a poll that has not begun nobody has anything to do
  have idle : ∀ i, ¬ Enabled (ProvedStep (Ful.with_ (M.forPoll i)
          ⟨M.common.codecs, M.users i, ek, M.common.g_i, M.common.gens, M.ekd i, sks⟩) (bad i)) (StartsTally M.common.codecs) Poll.init ∧
        ¬ Enabled (ProvedStep (Ful.with_ (M.forPoll i)
          ⟨M.common.codecs, M.users i, ek, M.common.g_i, M.common.gens, M.ekd i, sks⟩) (bad i)) Closes Poll.init ∧
        ∀ j < M.common.holders, ¬ Enabled (ProvedStep (Ful.with_ (M.forPoll i)
          ⟨M.common.codecs, M.users i, ek, M.common.g_i, M.common.gens, M.ekd i, sks⟩) (bad i)) (SharesTally j) Poll.init := by
    intro i
    have hde : (arkTally M.common.codecs).de [] = none := rfl
    refine ⟨?_, ?_, fun j _ => ?_⟩
    · rintro ⟨T, hs, ha⟩
      cases hs with
      | count _ _ _ _ _ h => cases h
      | torn _ _ _ _ _ _ h => cases h
      | _ => exact ha.2 ha.1
    · rintro ⟨T, hs, ha⟩
      cases hs with
      | close x rest _ h =>
        have h' : (arkTally M.common.codecs).de [] = some (x, rest) := h
        rw [hde] at h'
        cases h'
      | _ => exact ha.2 ha.1
    · rintro ⟨T, hs, ha⟩
      cases hs with
      | share _ _ _ _ _ _ _ _ _ _ _ h => cases h
      | _ => exact ha.2 ha.1
  obtain ⟨h, m, k, e0, hh, em, ee⟩ := Liv.through (Mny.rtg hW) (Mny.rtg (Mny.trans hW1 v1))
  have fin4 : ∀ i, _ ∧ _ ∧ ∀ j < M.common.holders, _ := fun i =>
    if hi : i ∈ L then v4 i hi else by
      have := idle i
      rwa [← hL i hi, ← v3 i hi] at this
  have down : ∀ i {act : Poll → Poll → Prop}, (∀ S, ¬ act S S) →
      ¬ Enabled (ProvedStep (Ful.with_ (M.forPoll i)
          ⟨M.common.codecs, M.users i, ek, M.common.g_i, M.common.gens, M.ekd i, sks⟩) (bad i)) act (V.polls i) →
      ¬ Enabled (ManyStep M bad) (fun S T => act (S.polls i) (T.polls i)) V := by
    rintro i act hirr hno ⟨U, hs, ha⟩
    cases hs with
    | keygen => exact hirr _ ha
    | poll l K' U hK' hs =>
      dsimp only at ha
      by_cases hil : i = l
      · subst hil
        rw [Function.update_self] at ha
        simp only [Many.one, v2] at hK'
        rw [hKs] at hK'
        cases hK'
        exact hno ⟨U, hs, ha⟩
      · rw [Function.update_of_ne hil] at ha
        exact hirr _ ha
  rw [← v2] at s2
  refine ⟨h, m, e0, hh, em, ⟨fun j hj => ?_, fun j hj => ?_, fun j hj => ?_, fun j hj => ?_⟩, fun i => ⟨?_, ?_, fun j hj => ?_⟩⟩
  · exact Liv.weak_of_end ee fun ⟨_, _, ha⟩ => (s2 j hj).1 ha.1
  · exact Liv.weak_of_end ee fun ⟨_, _, ha⟩ => (s2 j hj).2.1 ha.1
  · exact Liv.weak_of_end ee fun ⟨_, _, ha⟩ => (s2 j hj).2.2.1 ha.1
  · exact Liv.strong_of_end ee fun ⟨_, _, ha⟩ => (s2 j hj).2.2.2 ha.1
  · exact Liv.weak_of_end ee (down i (fun S hS => hS.2 hS.1) (fin4 i).1)
  · exact Liv.strong_of_end ee (down i (fun S hS => hS.2 hS.1) (fin4 i).2.1)
  · exact Liv.weak_of_end ee (down i (fun S hS => hS.2 hS.1) ((fin4 i).2.2 j hj))

/-! #### replays -/

omit hU hdest in
/-- what honest users of poll `i` have put on its board is accepted in every poll -/
theorem Mny.replayable {W : Many E} {i k u : ℕ} {bs : List UInt8} {K : PollCfg E} (hW : ManyRuns M bad Many.init W)
    (hK : (W.one k).cfg (M.forPoll k).toPublic = some K) (hp : HonestlyPosted bad W i u bs) :
    ∃ chunks ct proof, (u, chunks) ∈ (W.polls i).cast ∧ (∀ x ∈ chunks, x.toNat < 2 ^ M.common.b.toNat) ∧
      Provable (Ful.with_ (M.forPoll k) K) bs ct proof ∧
      ∀ l < n.toNat, content K.sks ct l = (nums chunks).getD l 0 • M.common.g_i.getD l 0 := by
  have hK' := Mny.cfg_swap (i := i) hK
  obtain ⟨h1, h2⟩ := Ful.reach (A := M.forPoll i) (bad := bad i) hC hN hn hgl (Mny.project hW i)
  obtain ⟨P, sks, ek, a1, rfl, a2, a3⟩ := Whl.cfg_inv (A := (M.forPoll k).toPublic) hC hN hn hgl h1 hK
  have a2' := a2
  dsimp only at a2'
  rw [hD, hG] at a2'
  have hr := h2 _ (Ful.cfg_iff.mpr ⟨_, hK', rfl⟩)
  obtain ⟨i1, i2, -⟩ := Cpy.honest (K := Ful.with_ (M.forPoll i)
    ⟨M.common.codecs, M.users i, ek, M.common.g_i, M.common.gens, M.ekd i, sks⟩) hC hb hal hc0 hsrs hg a2' hr
  obtain ⟨ch, ct, proof, d1, d2, d3⟩ := i2 _ hp.2 hp.1
  have hX := Mny.key_len hN hn hgl a2
  dsimp only at d3
  rw [hX] at d3
  exact ⟨ch, ct, proof, d1, (i1 _ d1).2.2, d2, d3⟩

variable (hgi : ∀ g ∈ M.common.g_i, g ≠ 0) (chk : Bool) (b' : UInt8) (hb' : b'.toNat ≤ 16)
include hgi hb'

/-- **C121** (replays are counted) nothing ties a ballot to a poll: in every history in which all that dishonest users have put on
the board of poll `k` are bytes that honest users have put on the boards of any polls, the destination of poll `k` gets the sums
in which every counted dishonest user counts with a vote that an honest user has cast in some poll. -/
theorem C121_replays_counted (k : ℕ) (hlt : M.users k * (2 ^ M.common.b.toNat - 1) < 2 ^ b'.toNat)
    (hltp : M.users k * (2 ^ M.common.b.toNat - 1) < E.fr.p) (W : Many E) (hW : ManyRuns M bad Many.init W)
    (hcp : OnlyReplays bad k W) (res : Res (List UInt16)) (hout : W.outcome M k chk (skd k) b' = some res) :
    ∃ votes : List (ℕ × List UInt16), W.counted M k = some (votes.map (·.1)) ∧ (votes.map (·.1)).Nodup ∧
      (∀ v ∈ votes, (¬ bad k v.1 → v ∈ (W.polls k).cast) ∧
        (bad k v.1 → ∃ i u bs, HonestlyPosted bad W i u bs ∧ (u, v.2) ∈ (W.polls i).cast ∧ (v.1, bs) ∈ (W.polls k).posted)) ∧
      ∃ ds, res = .ok ds ∧ ds.length = n.toNat ∧
        ∀ l < n.toNat, (nums ds).getD l 0 = (votes.map fun v => (nums v.2).getD l 0).sum := by
  classical
  have hpre := Mny.project hW k
  obtain ⟨h1, h2⟩ := Ful.reach (A := M.forPoll k) (bad := bad k) hC hN hn hgl hpre
  cases hK : (W.one k).cfg (M.forPoll k).toPublic with
  | none => rw [Many.outcome, Whole.outcome, hK] at hout; cases hout
  | some K =>
    have hrep := fun i u bs => Mny.replayable (i := i) (u := u) (bs := bs) hC hN hb hn hgl hal hc0 hsrs hg hD hG hW hK
    rw [Many.outcome, Whole.outcome, hK] at hout
    obtain ⟨P, sks, ek, a1, rfl, a2, a3⟩ := Whl.cfg_inv (A := (M.forPoll k).toPublic) hC hN hn hgl h1 hK
    have a2' := a2
    dsimp only at a2'
    rw [hD, hG] at a2'
    have hX := Mny.key_len hN hn hgl a2
    have hr := h2 _ (Ful.cfg_iff.mpr ⟨_, hK, rfl⟩)
    obtain ⟨i1, -, -⟩ := Cpy.honest (K := Ful.with_ (M.forPoll k)
      ⟨M.common.codecs, M.users k, ek, M.common.g_i, M.common.gens, M.ekd k, sks⟩) hC hb hal hc0 hsrs hg a2' hr
    obtain ⟨cnt, c1, c2, cu, c3, c4, c5, c6, -, -⟩ := C114_every_history (K := Ful.with_ (M.forPoll k)
      ⟨M.common.codecs, M.users k, ek, M.common.g_i, M.common.gens, M.ekd k, sks⟩) hC (hU k) hb hal hc0 hsrs hg a2'
      (hdest k) chk b' (by omega) (W.polls k) hr res hout
    dsimp only at c4 c5 c6 cu
    have key : ∀ p ∈ cnt, ∃ ch : List UInt16, ((¬ bad k p.1 → (p.1, ch) ∈ (W.polls k).cast) ∧
        (bad k p.1 → ∃ i u bs, HonestlyPosted bad W i u bs ∧ (u, ch) ∈ (W.polls i).cast ∧ (p.1, bs) ∈ (W.polls k).posted)) ∧
        (∀ x ∈ ch, x.toNat < 2 ^ M.common.b.toNat) ∧
        ∀ l < ek.X.length, content sks p.2 l = (nums ch).getD l 0 • M.common.g_i.getD l 0 := by
      intro p hp
      by_cases hbp : bad k p.1
      · obtain ⟨bs, rest, proof, k1, k2, k3⟩ := c4 p hp
        obtain ⟨i, u, hh⟩ := hcp _ k1 hbp
        obtain ⟨ch, ct, proof', d1, d2, d3, d4⟩ := hrep i u bs hh
        obtain rfl := (PPoll.provable_unique (K := Ful.with_ (M.forPoll k)
          ⟨M.common.codecs, M.users k, ek, M.common.g_i, M.common.gens, M.ekd k, sks⟩) ⟨⟨rest, k2⟩, k3⟩ d3).1
        rw [hX]
        exact ⟨ch, ⟨fun h => absurd hbp h, fun _ => ⟨i, u, bs, hh, d1, k1⟩⟩, d2, d4⟩
      · obtain ⟨ch, k1, k2⟩ := c5 p hp hbp
        exact ⟨ch, ⟨fun _ => k1, fun h => absurd h hbp⟩, (i1 _ k1).2.2, k2⟩
    choose! f hf using key
    have hcl : cnt.length ≤ M.users k := by
      have := (List.Nodup.subperm c2 (l₂ := List.range (M.users k)) fun j hj => by
        obtain ⟨p, hp, rfl⟩ := List.mem_map.mp hj
        exact List.mem_range.mpr (cu p hp)).length_le
      rwa [List.length_map, List.length_range] at this
    have hsum : ∀ l, (cnt.map fun p => (nums (f p)).getD l 0).sum ≤ M.users k * (2 ^ M.common.b.toNat - 1) := by
      intro l
      have := List.sum_le_card_nsmul (cnt.map fun p => (nums (f p)).getD l 0) (2 ^ M.common.b.toNat - 1) (fun x hx => by
        obtain ⟨p, hp, rfl⟩ := List.mem_map.mp hx
        exact Agg.nums_le (hf p hp).2.1 l)
      rw [List.length_map, smul_eq_mul] at this
      exact this.trans (Nat.mul_le_mul_right _ hcl)
    obtain ⟨ds, d1, d2, d3⟩ := OPoll.sum_of (K := ⟨M.common.codecs, M.users k, ek, M.common.g_i, M.common.gens, M.ekd k, sks⟩)
      (by dsimp only; rw [hX]; exact hgl) hgi c6 (fun p l => (nums (f p)).getD l 0)
      (fun p hp l hl => (hf p hp).2.2 l hl) (fun l _ => by
        have h16 : 2 ^ b'.toNat ≤ 2 ^ 16 := Nat.pow_le_pow_right (by omega) hb'
        have := hsum l
        unfold searchBound
        omega)
    dsimp only at d2 d3
    rw [hX] at d2 d3
    refine ⟨cnt.map fun p => (p.1, f p), ?_, ?_, ?_, ds, d1, d2, fun l hl => ?_⟩
    · rw [List.map_map, Many.counted, Whole.counted, hK]
      exact c3
    · rw [List.map_map]
      exact c2
    · intro v hv'
      obtain ⟨p, hp, rfl⟩ := List.mem_map.mp hv'
      exact (hf p hp).1
    · rw [d3 l hl, List.map_map]
      rfl

/-- **C121** (a replay discloses the ballot) from every reachable state: if an honest user `u` has put a ballot on the board of
poll `i`, a dishonest user of a poll `k` in which nothing has happened yet can put the same bytes on the board of poll `k`; poll
`k` then goes on, without any further step of a user and without any step of another poll, to a state in which its destination
gets exactly the vote of `u`. -/
theorem C121_replay_discloses (i u : ℕ) (bs : List UInt8) (k v : ℕ) (hv : v < M.users k) (hvb : bad k v)
    (hbb : M.common.b.toNat ≤ b'.toNat) (hbp : 2 ^ M.common.b.toNat ≤ E.fr.p) (W : Many E) (hW : ManyRuns M bad Many.init W)
    (hp : HonestlyPosted bad W i u bs) (hk : W.polls k = Poll.init) :
    ∃ V chunks ds, ManyRuns M bad W V ∧ (∀ l ≠ k, V.polls l = W.polls l) ∧ (u, chunks) ∈ (W.polls i).cast ∧
      (V.polls k).posted = [(v, bs)] ∧ (V.polls k).cast = [] ∧ V.counted M k = some [v] ∧
      V.outcome M k chk (skd k) b' = some (.ok ds) ∧ ds.length = n.toNat ∧
      ∀ l < n.toNat, (nums ds).getD l 0 = (nums chunks).getD l 0 := by
  obtain ⟨K, hK⟩ : ∃ K, (W.one k).cfg (M.forPoll k).toPublic = some K := by
    obtain ⟨-, h2⟩ := Ful.runs_split (A := M.forPoll i) (bad := bad i) hC hN hn hgl (.refl _) (Mny.project hW i)
    rcases h2 with h2 | ⟨K, hK, -⟩
    · have h3 : W.polls i = Poll.init := h2
      have := hp.2
      rw [h3] at this
      cases this
    · obtain ⟨K0, hK0, -⟩ := Ful.cfg_iff.mp hK
      exact ⟨_, Mny.cfg_swap (i := k) hK0⟩
  obtain ⟨chunks, ct, proof, d1, d2, d3, d4⟩ := Mny.replayable hC hN hb hn hgl hal hc0 hsrs hg hD hG hW hK hp
  obtain ⟨h1, h2⟩ := Ful.reach (A := M.forPoll k) (bad := bad k) hC hN hn hgl (Mny.project hW k)
  obtain ⟨P, sks, ek, a1, rfl, a2, a3⟩ := Whl.cfg_inv (A := (M.forPoll k).toPublic) hC hN hn hgl h1 hK
  have a2' := a2
  dsimp only at a2'
  rw [hD, hG] at a2'
  have hX := Mny.key_len hN hn hgl a2
  have hKs : ∀ P, Whole.provedCfg (M.forPoll k) ⟨W.sys, P⟩ = some (Ful.with_ (M.forPoll k)
      ⟨M.common.codecs, M.users k, ek, M.common.g_i, M.common.gens, M.ekd k, sks⟩) := fun P => Ful.cfg_iff.mpr ⟨_, hK, rfl⟩
  obtain ⟨S', hS', r1, s1, s2, s3⟩ : ∃ S' : Poll, ProvedRuns (Ful.with_ (M.forPoll k)
      ⟨M.common.codecs, M.users k, ek, M.common.g_i, M.common.gens, M.ekd k, sks⟩) (bad k) Poll.init S' ∧
      S'.cast = [] ∧ S'.posted = [(v, bs)] ∧ S'.ballots v = some bs ∧ S'.total = none :=
    ⟨_, .step (.refl _) (.post v bs hv hvb), rfl, rfl, by dsimp only; rw [Function.update_self], rfl⟩
  obtain ⟨T, res, done, t1, ⟨t2, t3, -⟩, t4, t5, t6⟩ := C114_no_deadlock (K := Ful.with_ (M.forPoll k)
    ⟨M.common.codecs, M.users k, ek, M.common.g_i, M.common.gens, M.ekd k, sks⟩) hC (hU k) hb hal hc0 hsrs hg a2' (hdest k)
    chk b' (by omega) S' hS' (.inr (.inr ⟨v, bs, ct, proof, s2, d3⟩))
  obtain ⟨cnt, c1, c2, cu, c3, c4, c5, c6, -, -⟩ := C114_every_history (K := Ful.with_ (M.forPoll k)
    ⟨M.common.codecs, M.users k, ek, M.common.g_i, M.common.gens, M.ekd k, sks⟩) hC (hU k) hb hal hc0 hsrs hg a2'
    (hdest k) chk b' (by omega) T (PPoll.trans hS' t1) res t4
  dsimp only at c4 c6
  have hall : ∀ p ∈ cnt, p = (v, ct) := by
    intro p hpc
    obtain ⟨bs', rest, proof', k1, k2, k3⟩ := c4 p hpc
    rw [t3, s1, List.mem_singleton] at k1
    obtain ⟨e1, rfl⟩ := Prod.mk.inj k1
    have e2 := (PPoll.provable_unique (K := Ful.with_ (M.forPoll k)
      ⟨M.common.codecs, M.users k, ek, M.common.g_i, M.common.gens, M.ekd k, sks⟩) ⟨⟨rest, k2⟩, k3⟩ d3).1
    exact Prod.ext e1 e2
  obtain rfl : cnt = [(v, ct)] := by
    rcases cnt with _ | ⟨p, _ | ⟨p', l⟩⟩
    · exact absurd rfl c1
    · rw [hall p (by simp)]
    · have e1 := hall p (by simp)
      have e2 := hall p' (by simp)
      simp [e1, e2] at c2
  obtain ⟨ds, e1, e2, e3⟩ := OPoll.sum_of (K := ⟨M.common.codecs, M.users k, ek, M.common.g_i, M.common.gens, M.ekd k, sks⟩)
    (by dsimp only; rw [hX]; exact hgl) hgi c6 (fun _ l => (nums chunks).getD l 0)
    (fun p hpc l hl => by
      rw [hall p hpc]
      rw [hX] at hl
      exact d4 l hl) (fun l _ => by
      have h16 : 2 ^ M.common.b.toNat ≤ 2 ^ 16 := Nat.pow_le_pow_right (by omega) (hbb.trans hb')
      have h17 : 2 ^ M.common.b.toNat ≤ 2 ^ b'.toNat := Nat.pow_le_pow_right (by omega) hbb
      have h18 : 2 ^ b'.toNat ≤ 2 ^ 16 := Nat.pow_le_pow_right (by omega) hb'
      have h0 : 0 < 2 ^ M.common.b.toNat := by positivity
      have := Agg.nums_le d2 l
      simp only [List.map_cons, List.map_nil, List.sum_cons, List.sum_nil, add_zero]
      unfold searchBound
      omega)
  dsimp only at e2 e3
  rw [hX] at e2 e3
  have hrun : FullRuns (M.forPoll k) (bad k) (W.one k) ⟨W.sys, T⟩ := by
    have h : FullRuns (M.forPoll k) (bad k) ⟨W.sys, Poll.init⟩ ⟨W.sys, T⟩ := Ful.lift_poll hKs (PPoll.trans hS' t1)
    rwa [← hk] at h
  have hV := Mny.lift hrun W rfl
  have e : (⟨W.sys, Function.update W.polls k T⟩ : Many E).one k = ⟨W.sys, T⟩ := by
    simp only [Many.one, Function.update_self]
  have hK' : Whole.cfg (M.forPoll k).toPublic ⟨W.sys, T⟩ = some ⟨M.common.codecs, M.users k, ek, M.common.g_i, M.common.gens,
    M.ekd k, sks⟩ := hK
  refine ⟨_, chunks, ds, hV, fun l hl => ?_, d1, ?_, ?_, ?_, ?_, e2, fun l hl => ?_⟩
  · dsimp only
    rw [Function.update_of_ne hl]
  · dsimp only
    rw [Function.update_self, t3, s1]
  · dsimp only
    rw [Function.update_self, t2, r1]
  · rw [Many.counted, e, Whole.counted, hK']
    exact c3
  · rw [Many.outcome, e, Whole.outcome, hK', ← e1]
    exact t4
  · rw [e3 l hl]
    simp

end
/-- Non-vacuity: two key holders and two polls with different destinations; in poll 0 the honest user 0 votes a message, in poll 1
the dishonest user 1 puts the same bytes on the board: both destinations can get the chunks of this message, and in a fair
history through these states they finally do. -/
example (P Q : Party Fix.E) : ∃ (M : ManyPublic Fix.E) (bad : ℕ → ℕ → Prop) (W V : Many Fix.E) (ds : List UInt16)
    (h : ℕ → Many Fix.E),
    M.common.holders = 2 ∧ ManyRuns M bad Many.init W ∧ (W.sys.node 0).mem = none ∧ ManyRuns M bad W V ∧
    ¬ bad 0 0 ∧ bad 1 1 ∧ (V.polls 0).cast = [(0, ds)] ∧ (V.polls 1).cast = [] ∧ OnlyReplays bad 1 V ∧
    V.counted M 0 = some [0] ∧ V.counted M 1 = some [1] ∧
    decompose (K := Fix.E.fr) (show Fix.E.Fr from (258 : Fix.F)) 8 = .ok ds ∧
    V.outcome M 0 true Fix.skd 16 = some (.ok ds) ∧ V.outcome M 1 true Fix.skd 16 = some (.ok ds) ∧
    h 0 = Many.init ∧ History (ManyStep M bad) h ∧
    KeygenFair M.common.codecs M.common.holders (ManyStep M bad) Many.sys h ∧
    (∀ i, PollFair M.common.codecs M.common.holders (ManyStep M bad) (fun W => W.polls i) h) ∧
    ∀ i < 2, Eventually fun t => (h t).outcome M i true Fix.skd 16 = some (.ok ds) := by
  have hC := scalarCodecs_lawful goldFr
  obtain ⟨c0, pk, ek0, g_i, st1, -, hc0, hsrs, hg, hgi, hgl, -⟩ := Fix.run8
  have hb : Supported 8 := .inr (.inl rfl)
  obtain ⟨S, h1, h2, h3, h4⟩ := Rst.crashing_history hC 2 (by omega) 8 8 Fix.count8 Fix.gens g_i hgl pk.pk.delta_g1 pk.gamma_g1 P Q
  obtain ⟨M, hM⟩ : ∃ M : ManyPublic Fix.E, M =
      ⟨⟨⟨scalarCodecs goldFr, 2, 2, 8, Fix.gens, g_i, pk.pk.delta_g1, pk.gamma_g1, Fix.ekd⟩, pk, goldFft, true⟩,
        fun _ => 2, fun _ => Fix.ekd⟩ := ⟨_, rfl⟩
  have hC' : LawfulCodecs M.common.codecs := by rw [hM]; exact hC
  have hN : 0 < M.common.holders := by rw [hM]; show 0 < 2; decide
  have hU : ∀ i, M.users i < 2 ^ 64 := by rw [hM]; intro _; show 2 < 2 ^ 64; decide
  have hb' : Supported M.common.b := by rw [hM]; exact hb
  have hn : chunksCount Fix.E.fr M.common.b = .ok 8 := by rw [hM]; exact Fix.count8
  have hgl' : (8 : UInt8).toNat ≤ M.common.g_i.length := by rw [hM]; exact hgl
  have hal : 64 * Fix.E.fr.limbs < Fix.E.fr.modBits + M.common.b.toNat ∧ chunksNeeded Fix.E.fr M.common.b.toNat ≤ 255 := by
    rw [hM]; exact Fix.aligned8
  have hc0' : BitsizeCheckCircuit.new (K := Fix.E.fr) M.common.b none none true = .ok c0 := by rw [hM]; exact hc0
  have hsrs' : generateSrs M.common.fft (listRng Fix.E) 1 Fix.stFull8 c0.generateConstraints M.common.gens =
      .ok (M.common.pk, st1) := by
    rw [hM]; exact hsrs
  have hg' : getGsForEncryption M.common.pk.pk.vk = .ok M.common.g_i := by rw [hM]; exact hg
  have hD : M.common.delta_g = M.common.pk.pk.delta_g1 := by rw [hM]
  have hG : M.common.gamma_g = M.common.pk.gamma_g1 := by rw [hM]
  have hdest : ∀ i, fkeygenDest (listRng Fix.E) Fix.st3 M.common.gens = .ok ((Fix.skd, M.ekd i), ([], [], [])) := by
    rw [hM]; intro _; exact Fix.dest_ok
  have hgi' : ∀ g ∈ M.common.g_i, g ≠ 0 := by rw [hM]; exact hgi
  have hS : Whl.SR (M.forPoll 0).toPublic Sys.init S := by rw [hM]; exact h1
  have hu : ∀ i, 1 < M.users i := by rw [hM]; intro _; show 1 < 2; decide
  have hb8 : M.common.b = 8 := by rw [hM]
  have h2' : M.common.holders = 2 := by rw [hM]
  clear hM
  obtain ⟨bad, hbad⟩ : ∃ bad : ℕ → ℕ → Prop, bad = fun i j => i = 1 ∧ j = 1 := ⟨_, rfl⟩
  have hb0 : ∀ j, ¬ bad 0 j := by rw [hbad]; simp
  have hb1 : bad 1 1 := by rw [hbad]; simp
  have hW : ManyRuns M bad Many.init ⟨S, fun _ => Poll.init⟩ := by
    have h : FullRuns (M.forPoll 0) (bad 0) (Many.init.one 0) ⟨S, Poll.init⟩ := Ful.lift_sys hS
    have := Mny.lift h Many.init rfl
    have e : Function.update (Many.init (E := Fix.E)).polls 0 Poll.init = fun _ => Poll.init := Function.update_eq_self 0 _
    dsimp only at this
    rwa [e] at this
  obtain ⟨V, res, done, ds, a1, a1', a2, a3, a4, a5, a6⟩ := C121_no_deadlock (skd := fun _ => Fix.skd) hC' hN hU hb' hn hgl' hal hc0'
    hsrs' hg' hD hG hdest true 16 (by decide) ⟨S, fun _ => Poll.init⟩ hW 0 0 (by have := hu 0; omega) (hb0 0)
    (show Fix.E.Fr from (258 : Fix.F)) ⟨listRng Fix.E, Fix.st1⟩
  have hV := Mny.trans hW a1
  have hc : (V.polls 0).cast = [(0, ds)] := a3
  rw [hb8] at a2
  obtain ⟨ds', hds, hdl, hdb, -⟩ := decompose_spec (K := Fix.E.fr) (show Fix.E.Fr from (258 : Fix.F)) hb
  rw [a2] at hds
  cases hds
  have hl8 : ds.length = 8 := by
    have := (decomp_len_eq_iff Fix.E.fr 8 8 hb Fix.count8).mpr Fix.aligned8
    rw [hdl, this, Fix.eight]
  have h8 : (8 : UInt8).toNat = 8 := rfl
  have same : ∀ out : List UInt16, out.length = (8 : UInt8).toNat → (∀ l < (8 : UInt8).toNat, (nums out).getD l 0 = (nums ds).getD l 0) →
      out = ds := by
    intro out o2 o3
    have hinj : Function.Injective nums := List.map_injective_iff.mpr fun (x y : UInt16) h => UInt16.toNat_inj.mp h
    rw [h8] at o2 o3
    apply hinj
    apply List.ext_getElem (by simp [nums, o2, hl8])
    intro i h1 h2
    have h3 : i < 8 := by simpa [nums, o2] using h1
    have := o3 i h3
    rwa [List.getD_eq_getElem _ _ h1, List.getD_eq_getElem _ _ h2] at this
  -- the honest ballot is on the board of poll 0
  have post : ∃ bs, (0, bs) ∈ (V.polls 0).posted := by
    have hr := Ful.reach (A := M.forPoll 0) (bad := bad 0) hC' hN hn hgl' (Mny.project hV 0)
    cases hK : (V.one 0).cfg (M.forPoll 0).toPublic with
    | none => rw [Many.outcome, Whole.outcome, hK] at a4; cases a4
    | some K =>
      have hr2 := hr.2 _ (Ful.cfg_iff.mpr ⟨_, hK, rfl⟩)
      obtain ⟨P', sks, ek, -, rfl, k2, -⟩ := Whl.cfg_inv (A := (M.forPoll 0).toPublic) hC' hN hn hgl' hr.1 hK
      dsimp only at k2
      rw [hD, hG] at k2
      obtain ⟨-, -, i3⟩ := Cpy.honest (K := Ful.with_ (M.forPoll 0)
        ⟨M.common.codecs, M.users 0, ek, M.common.g_i, M.common.gens, M.ekd 0, sks⟩) hC' hb' hal hc0' hsrs' hg' k2 hr2
      exact i3 (0, ds) (by dsimp only; rw [hc]; simp)
  obtain ⟨bs, hbs⟩ := post
  have hp : HonestlyPosted bad V 0 0 bs := ⟨hb0 0, hbs⟩
  obtain ⟨U, chunks, out, u1, u2, u3, u4, u5, u6, u7, u8, u9⟩ := C121_replay_discloses (skd := fun _ => Fix.skd) hC' hN hU hb' hn hgl'
    hal hc0' hsrs' hg' hD hG hdest hgi' true 16 (by decide) 0 0 bs 1 1 (hu 1) hb1 (by rw [hb8]; decide)
    (by rw [hb8]; decide +kernel) V hV hp (a1' 1 (by decide))
  have hU' := Mny.trans hV u1
  have hch : chunks = ds := by
    rw [hc, List.mem_singleton] at u3
    exact (Prod.mk.inj u3).2
  subst hch
  obtain rfl := same out u8 u9
  -- what the destination of poll 0 gets
  have hno : V.counted M 0 = some [0] ∧ res = .ok out := by
    obtain ⟨sks, cnt, -, b0, b1, b2, -, b3, b4⟩ := C116_sums (A := M.forPoll 0) (bad := bad 0) hC' hN (hU 0) hb' hn hgl' hal hc0' hsrs'
      hg' hD hG (hdest 0) hgi' true 16 (by decide) (V.one 0) (Mny.project hV 0) res a4
    have hm : ∀ p ∈ cnt, p.1 = 0 ∧ ∀ i < (8 : UInt8).toNat, content sks p.2 i = (nums out).getD i 0 • M.common.g_i.getD i 0 := by
      intro p hp
      obtain ⟨ch, c1, c2⟩ := b3 p hp (hb0 _)
      dsimp only at c1
      rw [hc, List.mem_singleton] at c1
      obtain ⟨e1, rfl⟩ := Prod.mk.inj c1
      exact ⟨e1, c2⟩
    obtain ⟨p, rfl⟩ : ∃ p, cnt = [p] := by
      rcases cnt with _ | ⟨p, _ | ⟨p', l⟩⟩
      · exact absurd rfl b0
      · exact ⟨p, rfl⟩
      · have e1 := (hm p (by simp)).1
        have e2 := (hm p' (by simp)).1
        simp [e1, e2] at b1
    obtain ⟨o, o1, o2, o3⟩ := b4 (fun _ i => (nums out).getD i 0) (fun q hq => (hm q hq).2) (fun i _ => by
        have h1 := Agg.nums_le (b := 8) hdb i
        rw [h8] at h1
        simp only [List.map_cons, List.map_nil, List.sum_cons, List.sum_nil, add_zero]
        refine ⟨h1.trans (by decide), h1.trans_lt (by decide +kernel)⟩)
    refine ⟨?_, ?_⟩
    · rw [Many.counted, b2]
      simp [(hm p (by simp)).1]
    · rw [o1, same o o2 fun l hl => ?_]
      have := o3 l hl
      simpa only [List.map_cons, List.map_nil, List.sum_cons, List.sum_nil, add_zero] using this
  obtain ⟨q1, rfl⟩ := hno
  obtain ⟨w1, w2⟩ := C121_agreement (skd := fun _ => Fix.skd) hC' hN hU hb' hn hgl' hal hc0' hsrs' hg' hD hG hdest true 16
    (by decide) V U hV u1 0 _ a4
  have e0 := u2 0 (by decide)
  obtain ⟨h, m, e0', hh, em, hk, hpf⟩ := C121_fair_history hC' hN hU hb' hn hgl' hal hc0' hsrs' hg' hD hG U hU'
  refine ⟨M, bad, ⟨S, fun _ => Poll.init⟩, U, out, h, h2', hW, h3, Mny.trans a1 u1, hb0 0, hb1, by rw [e0, hc], u5, ?_, by rw [w2, q1],
    u6, a2, w1, u7, e0', hh, hk, hpf, fun i hi => ⟨m, fun t ht => ?_⟩⟩
  · intro p hp' _
    rw [u4, List.mem_singleton] at hp'
    subst hp'
    exact ⟨0, 0, hb0 0, by rw [e0]; exact hbs⟩
  · have hrun := Mny.runs hh ht
    rw [em] at hrun
    have fin := fun i => C121_agreement (skd := fun _ => Fix.skd) hC' hN hU hb' hn hgl' hal hc0' hsrs' hg' hD hG hdest true 16
      (by decide) U (h t) hU' hrun i (.ok out)
    have h01 : i = 0 ∨ i = 1 := by omega
    rcases h01 with rfl | rfl
    · exact (fin 0 w1).1
    · exact (fin 1 u7).1

end Verif
