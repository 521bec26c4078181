/-
Property C120: how often the tests of the crate fail.
-/
import Verif.SpecFlaky
import Verif.Props.TestPrograms
import Verif.Props.Bls

namespace Verif
open Spec Agm Tst

namespace Flk
variable {E : Engine} (S : TestSource E)

theorem fr_state (f : ℕ → E.Fr) (m : S.M) : S.rng.fr (S.state f m) = (f 0, S.state (fun i => f (i + 1)) m) := rfl

theorem after_eq (f : ℕ → E.Fr) (m : S.M) (k : ℕ) :
    after S.rng.toRngCore (S.state f m) k = S.state (fun i => f (k + i)) m := by
  induction k with
  | zero => simp [after]
  | succ k ih =>
    unfold after at ih ⊢
    rw [Function.iterate_succ_apply', ih, fr_state]
    dsimp only
    congr 1
    funext i
    congr 1
    omega

theorem draw_eq (f : ℕ → E.Fr) (m : S.M) (k : ℕ) : draw S.rng.toRngCore (S.state f m) k = f k := by
  unfold draw
  rw [after_eq, fr_state]
  rfl

theorem sample_eq (d : EvalDomain E.Fr) (F : ℕ) (f : ℕ → E.Fr) (m : S.M) {t : E.Fr} {f' : (tape E).σ}
    (h : sampleOutside (tape E) d F f = .ok (t, f')) :
    sampleOutside S.rng.toRngCore d F (S.state f m) = .ok (t, S.state f' m) := by
  induction F generalizing f with
  | zero => cases h
  | succ F ih =>
    change (if d.vanishing (f 0) = 0 then sampleOutside S.rng.toRngCore d F (S.state (fun i => f (i + 1)) m) else _) = _
    change (if d.vanishing (f 0) = 0 then sampleOutside (tape E) d F (fun i => f (i + 1)) else _) = _ at h
    by_cases hv : d.vanishing (f 0) = 0
    · rw [if_pos hv] at h ⊢
      exact ih _ h
    · rw [if_neg hv] at h ⊢
      cases h
      rfl

theorem params_eq (T : FftCfg E.Fr) (F : ℕ) (f : ℕ → E.Fr) (m : S.M) (C : Synthesizer E.Fr) (a b c d : E.Fr) (g1 : E.G1)
    (g2 : E.G2) {pk : Groth16ProvingKey E} {f' : (tape E).σ}
    (h : generateParametersWithQap T (tape E) F f C a b c d g1 g2 = .ok (pk, f')) :
    generateParametersWithQap T S.rng.toRngCore F (S.state f m) C a b c d g1 g2 = .ok (pk, S.state f' m) := by
  unfold generateParametersWithQap at h ⊢
  obtain ⟨cs, hcs, h3⟩ := Res.bind_eq_ok.mp h
  rw [hcs]
  simp only [Res.ok_bind]
  cases hd : T.newDomain (cs.cons.length + cs.numInst) with
  | none => rw [hd] at h3; cases h3
  | some d =>
    rw [hd] at h3
    dsimp only at h3 ⊢
    obtain ⟨⟨t, s1⟩, h4, h5⟩ := Res.bind_eq_ok.mp h3
    rw [sample_eq S d F _ m h4]
    simp only [Res.ok_bind]
    dsimp only at h5
    split at h5
    · cases h5
    · rename_i hc
      rw [if_neg hc]
      split at h5
      · cases h5
      · rename_i hc2
        rw [if_neg hc2]
        cases h5
        rfl

theorem srs_eq (T : FftCfg E.Fr) (F : ℕ) (f : ℕ → E.Fr) (m : S.M) (C : Synthesizer E.Fr) (gens : EncryptionGens E)
    {pk : ProvingKey E} {f' : (tape E).σ} (h : generateSrs T (tape E) F f C gens = .ok (pk, f')) :
    generateSrs T S.rng.toRngCore F (S.state f m) C gens = .ok (pk, S.state f' m) := by
  unfold generateSrs at h ⊢
  dsimp only at h ⊢
  obtain ⟨⟨pk0, s0⟩, h1, h2⟩ := Res.bind_eq_ok.mp h
  have h3 := params_eq S T F (fun i => f (i + 1 + 1 + 1 + 1)) m C (f 0) (f (0 + 1)) (f (0 + 1 + 1)) (f (0 + 1 + 1 + 1)) gens.G
    gens.H h1
  refine Res.bind_eq_ok.mpr ⟨(pk0, S.state s0 m), h3, ?_⟩
  cases h2
  rfl

theorem u32_state (f : ℕ → E.Fr) (m : S.M) : S.rng.u32 (S.state f m) = ((S.u32 m).1, S.state f (S.u32 m).2) := rfl

theorem g1_state (f : ℕ → E.Fr) (m : S.M) : S.rng.g1 (S.state f m) = ((S.g1 m).1, S.state f (S.g1 m).2) := rfl

theorem g2_state (f : ℕ → E.Fr) (m : S.M) : S.rng.g2 (S.state f m) = ((S.g2 m).1, S.state f (S.g2 m).2) := rfl

theorem msgs_eq (b : UInt8) (k : ℕ) (m : S.M) :
    ∃ l m', ∀ f : ℕ → E.Fr, genMessages S.rng b k (S.state f m) = (l, S.state f m') := by
  induction k generalizing m with
  | zero => exact ⟨[], m, fun _ => rfl⟩
  | succ k ih =>
    obtain ⟨l, m', h⟩ := ih (S.u32 m).2
    refine ⟨(((S.u32 m).1 &&& ((1 <<< b.toUInt32) - 1)).toUInt16) :: l, m', fun f => ?_⟩
    rw [genMessages, u32_state]
    dsimp only
    rw [h f]

theorem gens_eq (m : S.M) (hS : S.NonZero) : ∃ gens m', gens.G ≠ 0 ∧ gens.H ≠ 0 ∧
    ∀ f : ℕ → E.Fr, EncryptionGens.newUsingRng S.rng.toRngCore (S.state f m) = (gens, S.state f m') :=
  ⟨⟨(S.g1 m).1, (S.g2 (S.g1 m).2).1⟩, (S.g2 (S.g1 m).2).2, (hS _).1, (hS _).2, fun _ => rfl⟩

theorem cgens_eq (m : S.M) : ∃ gens m',
    ∀ f : ℕ → E.Fr, ChunkedCommitmentGens.newUsingRng S.rng.toRngCore (S.state f m) = (gens, S.state f m') :=
  ⟨⟨(S.g1 m).1, (S.g1 (S.g1 m).2).1⟩, (S.g1 (S.g1 m).2).2, fun _ => rfl⟩

theorem g1s_eq (k : ℕ) (m : S.M) (hS : S.NonZero) : ∃ l m', l.length = k ∧ (∀ g ∈ l, g ≠ 0) ∧
    ∀ f : ℕ → E.Fr, g1s S.rng.toRngCore k (S.state f m) = (l, S.state f m') := by
  induction k generalizing m with
  | zero => exact ⟨[], m, rfl, by simp, fun _ => rfl⟩
  | succ k ih =>
    obtain ⟨l, m', h1, h2, h3⟩ := ih (S.g1 m).2
    refine ⟨(S.g1 m).1 :: l, m', by simp [h1], ?_, fun f => ?_⟩
    · intro g hg
      rcases List.mem_cons.mp hg with rfl | hg
      · exact (hS m).1
      · exact h2 g hg
    · rw [g1s, g1_state]
      dsimp only
      rw [h3 f]

/-- The keys of `keygen` depend on the scalars only. -/
theorem keygen_eq' (f : ℕ → E.Fr) (m : S.M) (b n : UInt8) (hn : chunksCount E.fr b = .ok n) (gens : EncryptionGens E)
    (g_i : List E.G1) (D C : E.G1) {sk : SecretKey E} {ek : EncryptionKey E} {dk : DecryptionKey E} {f' : (tape E).σ}
    (h : keygen (tape E) f b gens g_i D C = .ok ((sk, ek, dk), f')) :
    ∃ st, keygen S.rng.toRngCore (S.state f m) b gens g_i D C = .ok ((sk, ek, dk), st) := by
  have hg : n.toNat ≤ g_i.length := by
    by_contra hc
    rw [(C07_keygen (tape E) f b n gens g_i D C hn).2 (by omega)] at h
    cases h
  rw [keygen_eq (tape E) f gens g_i D C hn hg] at h
  refine ⟨after S.rng.toRngCore (S.state f m) (2 + 3 * n.toNat), (keygen_eq S.rng.toRngCore (S.state f m) gens g_i D C hn hg).trans ?_⟩
  simp only [draw_eq]
  simp only [draw_tape f] at h
  simp only [Res.ok.injEq, Prod.mk.injEq] at h
  rw [h.1.1, h.1.2.1, h.1.2.2]
/-- The parameters and keys of the test of encryption. -/
theorem encSetup_eq (b n : UInt8) (hn : chunksCount E.fr b = .ok n) (m : S.M) (hS : S.NonZero) :
    ∃ (gens : EncryptionGens E) (g_i : List E.G1), gens.H ≠ 0 ∧ g_i.length = n.toNat ∧ (∀ g ∈ g_i, g ≠ 0) ∧
      ∃ m1, ∀ f : ℕ → E.Fr, testParams S.rng.toRngCore b (S.state f m) =
          .ok ((gens, g_i, mulBigint gens.G (intoBigint (K := E.fr) (f 0)), mulBigint gens.G (intoBigint (K := E.fr) (f 1))),
            S.state (fun i => f (i + 2)) m1) ∧
        ∃ sk ek st, encSetup S.rng.toRngCore b (S.state f m) = .ok ((gens, g_i, sk, ek,
          decKey n.toNat (f 2) (fun i => f (3 + i)) (fun i => f (4 + 2 * n.toNat + i)) gens.H), st) := by
  obtain ⟨gens, m1, hG, hH, hgens⟩ := gens_eq S m hS
  obtain ⟨g_i, m2, hl, hnz, hg⟩ := g1s_eq S n.toNat m1 hS
  have hpar : ∀ f : ℕ → E.Fr, testParams S.rng.toRngCore b (S.state f m) =
      .ok ((gens, g_i, mulBigint gens.G (intoBigint (K := E.fr) (f 0)), mulBigint gens.G (intoBigint (K := E.fr) (f 1))),
        S.state (fun i => f (i + 2)) m2) := by
    intro f
    unfold testParams
    rw [hn, hgens]
    simp only [Res.ok_bind]
    rw [hg]
    rfl
  refine ⟨gens, g_i, hH, hl, hnz, m2, fun f => ⟨hpar f, ?_⟩⟩
  refine ⟨⟨f (0 + 2)⟩, encKey n.toNat (fun i => f (1 + i + 2)) (fun i => f (1 + n.toNat + i + 2)) (fun i => g_i.getD i 0)
    (mulBigint gens.G (intoBigint (K := E.fr) (f 0))) (mulBigint gens.G (intoBigint (K := E.fr) (f 1))) gens.H,
    after S.rng.toRngCore (S.state (fun i => f (i + 2)) m2) (2 + 3 * n.toNat), ?_⟩
  unfold encSetup
  rw [hpar]
  simp only [Res.ok_bind]
  rw [keygen_eq S.rng.toRngCore _ gens g_i _ _ hn hl.ge]
  simp only [draw_eq, unwrap_ok, Res.ok_bind]
  have e1 : (fun i => f (1 + i + 2)) = fun i => f (3 + i) := funext fun i => congrArg f (by omega)
  have e2 : (fun i => f (2 + 2 * n.toNat + i + 2)) = fun i => f (4 + 2 * n.toNat + i) := funext fun i => congrArg f (by omega)
  rw [← e1, ← e2]
  rfl


theorem bound {test : S.rng.σ → Res Unit} {m : S.M} {K : ℕ} {o : Res Unit}
    (Bad : Finset (Fin K → E.Fr)) (h : ∀ x, x ∉ Bad → test (S.state (tapeOf x) m) = o) : misses S test m K o ≤ Bad.card := by
  rw [← Set.ncard_coe_finset]
  refine Set.ncard_le_ncard (fun x hx => ?_) (Set.toFinite _)
  by_contra hc
  exact hx (h x hc)

end Flk

section
variable {E : Engine} (T : FftCfg E.Fr) (b n : UInt8) (hb : Supported b) (hn : chunksCount E.fr b = .ok n)
    (hbm : b.toNat ≤ E.fr.modBits)
    (hal : 64 * E.fr.limbs < E.fr.modBits + b.toNat ∧ chunksNeeded E.fr b.toNat ≤ 255) (d : EvalDomain E.Fr)
    (hd : T.newDomain (n.toNat * constraintsPerValue E.fr.modBits b.toNat + (n.toNat + 1)) = some d)
    (hp : d.size < E.fr.p) (F : ℕ) (hF : 0 < F) (S : TestSource E) (hS : S.NonZero) (K : ℕ) (hK : 7 + 3 * n.toNat ≤ K)
include hb hn hbm hal hd hp hF hS hK

/-- What the tests with a SNARK need of their first scalars, and how many choices of them do not have it. -/
theorem Flk.start (m : S.M) (k : ℕ) : ∃ (gens : EncryptionGens E) (m' : S.M) (msgs : List UInt16) (Bad : Finset (Fin K → E.Fr)),
    Bad.card ≤ (d.size + 2 * n.toNat + 3) * E.fr.p ^ (K - 1) ∧
    ∀ x, x ∉ Bad → ∃ srs f' g_i,
      snarkSetup T F S.rng b k (S.state (tapeOf x) m) = .ok ((gens, n, msgs, srs), S.state f' m') ∧
      getGsForEncryption srs.pk.vk = .ok g_i ∧ (∀ g ∈ g_i, g ≠ 0) ∧
      ∃ sk ek dk st, keygen S.rng.toRngCore (S.state f' m') b gens g_i srs.pk.delta_g1 srs.gamma_g1 = .ok ((sk, ek, dk), st) ∧
        ∀ V ∈ dk.V_2, V ≠ 0 := by
  classical
  obtain ⟨gens, m1, hG, hH, hgens⟩ := Flk.gens_eq S m hS
  obtain ⟨msgs, m2, hmsgs⟩ := Flk.msgs_eq S b (k * n.toNat) m1
  obtain ⟨B1, h1, hset⟩ := Cca.setups T b n hb hn hbm hal gens hH d hd hp K hK
  obtain ⟨B2, h2, hdeg⟩ := Cca.degenerate T b n hb hn hbm hal gens hG hH d hd K hK
  obtain ⟨c0, cs, hc0, -⟩ := setup_shape hn hbm
  refine ⟨gens, m2, msgs, B1 ∪ B2, ?_, fun x hx => ?_⟩
  · refine (Finset.card_union_le _ _).trans ((Nat.add_le_add h1 h2).trans (le_of_eq ?_))
    ring
  · rw [Finset.mem_union, not_or] at hx
    obtain ⟨pk, sk, ek, dk, f', hs⟩ := hset x hx.1
    obtain ⟨hz1, hz2⟩ := hdeg x hx.2 pk sk ek dk f' hs
    have hs' : setupForGroth16 T (tape E) F (tapeOf x) b gens = .ok ((pk, sk, ek, dk), f') := by
      rw [C92_more_candidates T (tape E) 1 F (by omega) (tapeOf x) b gens (by rw [hs]; intro h; cases h), hs]
    unfold setupForGroth16 at hs'
    obtain ⟨c0', e1, e2⟩ := Res.bind_eq_ok.mp hs'
    obtain ⟨⟨pk', f1⟩, e3, e4⟩ := Res.bind_eq_ok.mp e2
    dsimp only at e4
    obtain ⟨g_i, e5, e6⟩ := Res.bind_eq_ok.mp e4
    obtain ⟨⟨⟨sk', ek', dk'⟩, f2⟩, e7, e8⟩ := Res.bind_eq_ok.mp e6
    simp only [Res.pure_eq, Res.ok.injEq, Prod.mk.injEq] at e8
    obtain ⟨⟨rfl, rfl, rfl, rfl⟩, rfl⟩ := e8
    have e3' := Flk.srs_eq S T F (tapeOf x) m2 _ gens e3
    obtain ⟨st, e9⟩ := Flk.keygen_eq' S f1 m2 b n hn gens g_i _ _ e7
    refine ⟨pk', f1, g_i, ?_, e5, ?_, _, _, _, st, e9, hz2⟩
    · unfold snarkSetup
      rw [hgens]
      dsimp only
      rw [hn]
      simp only [Res.ok_bind]
      rw [hmsgs]
      dsimp only
      have hc : BitsizeCheckCircuit.new (K := E.fr) b (some n) none true = .ok c0' := by
        rw [← e1]
        unfold BitsizeCheckCircuit.new
        rw [hn]
      rw [hc]
      simp only [Res.ok_bind]
      rw [e3']
      rfl
    · unfold getGsForEncryption at e5
      split at e5
      · cases e5
      · rename_i hgs
        cases e5
        rw [hgs] at hz1
        exact hz1

end

section
variable {E : Engine} (T : FftCfg E.Fr) (b n : UInt8) (hb : Supported b) (hn : chunksCount E.fr b = .ok n)
    (hbm : b.toNat ≤ E.fr.modBits)
    (hal : 64 * E.fr.limbs < E.fr.modBits + b.toNat ∧ chunksNeeded E.fr b.toNat ≤ 255) (d : EvalDomain E.Fr)
    (hd : T.newDomain (n.toNat * constraintsPerValue E.fr.modBits b.toNat + (n.toNat + 1)) = some d)
    (hp : d.size < E.fr.p) (hp16 : 131070 < E.fr.p) (F : ℕ) (hF : 0 < F) (S : TestSource E) (hS : S.NonZero) (K : ℕ)
    (hK : 7 + 3 * n.toNat ≤ K)
include hb hn hbm hal hd hp hp16 hF hS hK

/-- **C120** The tests with a SNARK fail on at most `(size + 2 n + 3) p^(K-1)` of the `p^K` choices of their first `K` scalars,
whatever messages and generators they draw: the one with one key holder for every supported chunk size, those with two for chunk
sizes of 4 and 8 bits (the last one if there are five chunks). -/
theorem C120_snark_tests (chk : Bool) (m : S.M) :
    misses S (testSnark T F chk S.rng b) m K (.ok ()) ≤ (d.size + 2 * n.toNat + 3) * E.fr.p ^ (K - 1) ∧
    (b ≠ 16 → misses S (testDistributed T F chk S.rng b) m K (.ok ()) ≤ (d.size + 2 * n.toNat + 3) * E.fr.p ^ (K - 1) ∧
      (5 ≤ n.toNat → misses S (testAddition T F chk S.rng b) m K (.ok ()) ≤ (d.size + 2 * n.toNat + 3) * E.fr.p ^ (K - 1))) := by
  have hb16 : b.toNat ≤ 16 := by rcases hb with rfl | rfl | rfl <;> decide
  obtain ⟨gens, m1, msgs, B1, h1, hs1⟩ := Flk.start T b n hb hn hbm hal d hd hp F hF S hS K hK m 1
  obtain ⟨gens2, m2, msgs2, B2, h2, hs2⟩ := Flk.start T b n hb hn hbm hal d hd hp F hF S hS K hK m 2
  refine ⟨(Flk.bound S B1 fun x hx => ?_).trans h1, fun h16 => ⟨(Flk.bound S B1 fun x hx => ?_).trans h1,
    fun h5 => (Flk.bound S B2 fun x hx => ?_).trans h2⟩⟩
  · obtain ⟨srs, f', g_i, e1, e2, e3, sk, ek, dk, st, e4, e5⟩ := hs1 x hx
    obtain ⟨g_i', sk', ek', dk', st', q1, q2, q3⟩ := C119_snark T F chk S.rng b hb16 (by omega) _ _ gens n msgs srs e1
    rw [e2] at q1
    cases q1
    rw [e4] at q2
    cases q2
    exact q3 e3 e5
  · obtain ⟨srs, f', g_i, e1, e2, e3, -⟩ := hs1 x hx
    have hb15 : b.toNat ≤ 15 := by rcases hb with rfl | rfl | rfl <;> first | decide | exact absurd rfl h16
    obtain ⟨g_i', q1, q2⟩ := C119_distributed T F chk S.rng b hb15 (by omega) _ _ gens n msgs srs e1
    rw [e2] at q1
    cases q1
    exact q2 e3
  · obtain ⟨srs, f', g_i, e1, e2, e3, -⟩ := hs2 x hx
    have hb15 : b.toNat ≤ 15 := by rcases hb with rfl | rfl | rfl <;> first | decide | exact absurd rfl h16
    obtain ⟨g_i', q1, q2⟩ := C119_addition T F chk S.rng b hb15 (by omega) _ _ gens2 n h5 msgs2 srs e1
    rw [e2] at q1
    cases q1
    exact q2 e3

/-- **C120** With chunks of 16 bits and overflow checks the tests with two key holders *pass* only on at most that many. -/
theorem C120_sixteen_tests (h16 : b = 16) (m : S.M) :
    misses S (testDistributed T F true S.rng 16) m K .panic ≤ (d.size + 2 * n.toNat + 3) * E.fr.p ^ (K - 1) ∧
    misses S (testAddition T F true S.rng 16) m K .panic ≤ (d.size + 2 * n.toNat + 3) * E.fr.p ^ (K - 1) := by
  subst h16
  obtain ⟨gens, m1, msgs, B1, h1, hs1⟩ := Flk.start T 16 n hb hn hbm hal d hd hp F hF S hS K hK m 1
  obtain ⟨gens2, m2, msgs2, B2, h2, hs2⟩ := Flk.start T 16 n hb hn hbm hal d hd hp F hF S hS K hK m 2
  refine ⟨(Flk.bound S B1 fun x hx => ?_).trans h1, (Flk.bound S B2 fun x hx => ?_).trans h2⟩
  · obtain ⟨srs, f', g_i, e1, e2, e3, -⟩ := hs1 x hx
    obtain ⟨g_i', q1, q2⟩ := C119_distributed_sixteen T F true S.rng (by omega) _ _ gens n msgs srs e1 (.inl rfl)
    rw [e2] at q1
    cases q1
    exact q2 e3
  · obtain ⟨srs, f', g_i, e1, e2, e3, -⟩ := hs2 x hx
    obtain ⟨g_i', q1, q2⟩ := C119_addition_sixteen T F true S.rng hp16 _ _ gens2 n msgs2 srs e1 (.inl rfl)
    rw [e2] at q1
    cases q1
    exact q2 e3

omit hp16 in
/-- **C120** The test of the setup fails on at most `(size + 2) p^(K-1)`. -/
theorem C120_setup_test (m : S.M) :
    misses S (testSetup T F S.rng.toRngCore b) m K (.ok ()) ≤ (d.size + 2) * E.fr.p ^ (K - 1) := by
  obtain ⟨gens, m1, hG, hH, hgens⟩ := Flk.gens_eq S m hS
  obtain ⟨cg, m2, hcg⟩ := Flk.cgens_eq S m1
  obtain ⟨B1, h1, hset⟩ := Cca.setups T b n hb hn hbm hal gens hH d hd hp K hK
  refine (Flk.bound S B1 fun x hx => ?_).trans h1
  obtain ⟨pk, sk, ek, dk, f', hs⟩ := hset x hx
  have hs' : setupForGroth16 T (tape E) F (tapeOf x) b gens = .ok ((pk, sk, ek, dk), f') := by
    rw [C92_more_candidates T (tape E) 1 F (by omega) (tapeOf x) b gens (by rw [hs]; intro h; cases h), hs]
  unfold setupForGroth16 at hs'
  obtain ⟨c0, e1, e2⟩ := Res.bind_eq_ok.mp hs'
  obtain ⟨⟨pk', f1⟩, e3, e4⟩ := Res.bind_eq_ok.mp e2
  refine C119_setup_works T F S.rng.toRngCore b n hn _ c0 e1 (pk', S.state f1 m2) ?_
  rw [hgens]
  dsimp only
  rw [hcg]
  exact Flk.srs_eq S T F (tapeOf x) m2 _ gens e3

end

section
variable {E : Engine} (b n : UInt8) (hb : b.toNat ≤ 16) (hn : chunksCount E.fr b = .ok n) (hp : 65535 < E.fr.p)
    (S : TestSource E) (hS : S.NonZero)
include hb hn hp hS

/-- **C120** The test of encryption without SNARK fails on at most `(n + 1) p^(K-1)` of the choices of its first `K` scalars, the
same test for two key holders never. -/
theorem C120_encryption_tests (chk : Bool) (m : S.M) :
    (∀ K, 4 + 3 * n.toNat ≤ K → misses S (testEncryptDecrypt chk S.rng b) m K (.ok ()) ≤ (n.toNat + 1) * E.fr.p ^ (K - 1)) ∧
    ∀ f, testEncryptDecryptDistributed chk S.rng b (S.state f m) = .ok () := by
  classical
  obtain ⟨msgs, m0, hm⟩ := Flk.msgs_eq S b n.toNat m
  obtain ⟨gens, g_i, hH, hl, hnz, m1, hset⟩ := Flk.encSetup_eq S b n hn m0 hS
  refine ⟨fun K hK => ?_, fun f => ?_⟩
  · let B : ℕ → Finset (Fin K → E.Fr) := fun i => Finset.univ.filter fun x => tapeOf x i = 0
    have hB : ∀ i < K, (B i).card ≤ E.fr.p ^ (K - 1) := fun i hi => by
      have := count_coord (E := E) (K := K) i hi (B i) fun g hg => (Finset.mem_filter.mp hg).2
      rwa [Nat.one_mul] at this
    refine (Flk.bound S (B 2 ∪ (Finset.range n.toNat).biUnion fun i => B (4 + 2 * n.toNat + i)) fun x hx => ?_).trans ?_
    · rw [Finset.mem_union, not_or] at hx
      obtain ⟨hx1, hx2⟩ := hx
      have h2 : tapeOf x 2 ≠ 0 := fun h => hx1 (Finset.mem_filter.mpr ⟨Finset.mem_univ _, h⟩)
      have hv : ∀ i < n.toNat, tapeOf x (4 + 2 * n.toNat + i) ≠ 0 := fun i hi h => hx2
        (Finset.mem_biUnion.mpr ⟨i, Finset.mem_range.mpr hi, Finset.mem_filter.mpr ⟨Finset.mem_univ _, h⟩⟩)
      obtain ⟨gens', g_i', sk, ek, dk, st', q1, q2⟩ := C119_encrypt_decrypt chk S.rng b n hb hn hp (S.state (tapeOf x) m)
      obtain ⟨-, sk', ek', st, e1⟩ := hset (tapeOf x)
      rw [hm] at q1
      dsimp only at q1
      rw [e1] at q1
      simp only [Res.ok.injEq, Prod.mk.injEq] at q1
      obtain ⟨⟨rfl, rfl, -, -, rfl⟩, -⟩ := q1
      refine q2 hnz fun V hV => ?_
      obtain ⟨i, hi, rfl⟩ : ∃ i < n.toNat, (tapeOf x 2 * tapeOf x (4 + 2 * n.toNat + i)) • gens.H = V := by
        simpa [decKey, tab] using hV
      exact smul_ne_zero (mul_ne_zero h2 (hv i hi)) hH
    · refine (Finset.card_union_le _ _).trans ?_
      have h3 : ((Finset.range n.toNat).biUnion fun i => B (4 + 2 * n.toNat + i)).card ≤ n.toNat * E.fr.p ^ (K - 1) :=
        (Finset.card_biUnion_le_card_mul _ _ (E.fr.p ^ (K - 1)) fun i hi =>
          hB _ (by have := Finset.mem_range.mp hi; omega)).trans (by simp)
      have := hB 2 (by omega)
      rw [Nat.add_mul]
      omega
  · obtain ⟨gens', g_i', ek, ekd, skd, sk1, sk2, st', q1, q2⟩ :=
      C119_encrypt_decrypt_distributed chk S.rng b n hb hn hp (S.state f m)
    rw [hm] at q1
    dsimp only at q1
    unfold encSetupDistributed at q1
    rw [(hset f).1] at q1
    simp only [Res.ok_bind] at q1
    obtain ⟨⟨⟨a1, a2, a3⟩, a4⟩, r1, r2⟩ := Res.bind_eq_ok.mp q1
    dsimp only at r2
    obtain ⟨⟨⟨b1, b2⟩, b3⟩, r3, r4⟩ := Res.bind_eq_ok.mp r2
    simp only [Res.pure_eq, Res.ok.injEq, Prod.mk.injEq] at r4
    obtain ⟨⟨rfl, rfl, -⟩, -⟩ := r4
    exact q2 hnz

end

section
variable {E : Engine}

/-- **C120** On BLS12-381: none of the tests fails for its documented chunk sizes, and none of the tests with two key holders
passes with chunks of 16 bits (and overflow checks), on more than one in `2^239` of the choices of its scalars, whatever its
messages and (nonzero) generators are. -/
theorem C120_bls (T : FftCfg E.Fr) (hE : OnBls E T) (b n : UInt8) (hb : Supported b) (hn : chunksCount E.fr b = .ok n) (F : ℕ)
    (hF : 0 < F) (S : TestSource E) (hS : S.NonZero) (K : ℕ) (hK : 7 + 3 * n.toNat ≤ K) (chk : Bool) (m : S.M) :
    2 ^ 239 * misses S (testSnark T F chk S.rng b) m K (.ok ()) ≤ E.fr.p ^ K ∧
    2 ^ 239 * misses S (testSetup T F S.rng.toRngCore b) m K (.ok ()) ≤ E.fr.p ^ K ∧
    2 ^ 239 * misses S (testEncryptDecrypt chk S.rng b) m K (.ok ()) ≤ E.fr.p ^ K ∧
    misses S (testEncryptDecryptDistributed chk S.rng b) m K (.ok ()) = 0 ∧
    (b ≠ 16 → 2 ^ 239 * misses S (testDistributed T F chk S.rng b) m K (.ok ()) ≤ E.fr.p ^ K ∧
      2 ^ 239 * misses S (testAddition T F chk S.rng b) m K (.ok ()) ≤ E.fr.p ^ K) ∧
    (b = 16 → 2 ^ 239 * misses S (testDistributed T F true S.rng b) m K .panic ≤ E.fr.p ^ K ∧
      2 ^ 239 * misses S (testAddition T F true S.rng b) m K .panic ≤ E.fr.p ^ K) := by
  obtain ⟨n', d, hn', hd, hnb, hn64, hs, -⟩ := hE.small hb
  obtain rfl : n' = n := by rw [hn] at hn'; cases hn'; rfl
  have hp : E.fr.p = blsR := hE.prime
  have h15 : 2 ^ 239 * (2 ^ 15 + 2 * 64 + 3) ≤ blsR := by decide +kernel
  have hc : ∀ c, c ≤ 2 ^ 15 + 2 * 64 + 3 → 2 ^ 239 * c ≤ E.fr.p := fun c h =>
    le_trans (Nat.mul_le_mul_left _ h) (h15.trans (le_of_eq hp.symm))
  have hdp : d.size < E.fr.p := lt_of_le_of_lt hs (lt_of_lt_of_le (by decide +kernel : 2 ^ 15 < blsR) (le_of_eq hp.symm))
  have hp16 : 131070 < E.fr.p := lt_of_lt_of_le (by decide +kernel : 131070 < blsR) (le_of_eq hp.symm)
  have hb16 : b.toNat ≤ 16 := by rcases hb with rfl | rfl | rfl <;> decide
  obtain ⟨s1, s2⟩ := C120_snark_tests T b n' hb hn (hE.bits hb) (hE.aligned hb) d hd hdp hp16 F hF S hS K hK chk m
  have s3 := C120_setup_test T b n' hb hn (hE.bits hb) (hE.aligned hb) d hd hdp F hF S hS K hK m
  obtain ⟨s4, s5⟩ := C120_encryption_tests b n' hb16 hn (by omega) S hS chk m
  have hK1 : 1 ≤ K := by omega
  refine ⟨OnBls.scale (hc _ (by omega)) hK1 s1, OnBls.scale (hc _ (by omega)) hK1 s3,
    OnBls.scale (hc _ (by omega)) hK1 (s4 K (by omega)), ?_, fun h16 => ?_, fun h16 => ?_⟩
  · unfold misses
    rw [Set.ncard_eq_zero]
    ext x
    simp [s5]
  · have h5 : 5 ≤ n'.toNat := by
      rcases hb with rfl | rfl | rfl
      · have : (4 : UInt8).toNat = 4 := rfl
        rw [this] at hnb
        omega
      · have : (8 : UInt8).toNat = 8 := rfl
        rw [this] at hnb
        omega
      · exact absurd rfl h16
    exact ⟨OnBls.scale (hc _ (by omega)) hK1 (s2 h16).1, OnBls.scale (hc _ (by omega)) hK1 ((s2 h16).2 h5)⟩
  · have s6 := C120_sixteen_tests T b n' hb hn (hE.bits hb) (hE.aligned hb) d hd hdp hp16 F hF S hS K hK h16 m
    rw [h16]
    exact ⟨OnBls.scale (hc _ (by omega)) hK1 s6.1, OnBls.scale (hc _ (by omega)) hK1 s6.2⟩

end

/-- Points and messages from a counter. -/
def Flk.source : TestSource (Engine.scalar blsFr) where
  M := ℕ
  g1 := fun m => ((1 : ZMod blsFr.p), m + 1)
  g2 := fun m => ((2 : ZMod blsFr.p), m + 1)
  u32 := fun m => (UInt32.ofNat (m * m + 7), m + 1)

theorem Flk.source_nonZero : Flk.source.NonZero := fun _ =>
  ⟨show (1 : ZMod blsFr.p) ≠ 0 by decide +kernel, show (2 : ZMod blsFr.p) ≠ 0 by decide +kernel⟩

/-- The hypotheses are met: with this source the test with a SNARK fails, with chunks of 16 bits, on at most one in `2^239` of the
choices of its first 55 scalars. -/
example : 2 ^ 239 * misses Flk.source (testSnark blsFft 1 true Flk.source.rng 16) (0 : ℕ) 55 (.ok ()) ≤ blsFr.p ^ 55 :=
  (C120_bls (E := Engine.scalar blsFr) blsFft C95_instance 16 16 (.inr (.inr rfl)) chunksCount_bls16 1 (by omega) Flk.source
    Flk.source_nonZero 55 (by decide) true (0 : ℕ)).1

end Verif
