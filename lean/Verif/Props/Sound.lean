/-
Properties C60-C62: soundness of the checks against algebraic adversaries.
-/
import Verif.Lemmas.Honest

namespace Verif
open Spec

section
variable {E : Engine}

/-- shape of the constraint system that `generate_srs` uses -/
theorem setup_shape {b n : UInt8} (hn : chunksCount E.fr b = .ok n) (hbm : b.toNat ≤ E.fr.modBits) :
    ∃ (c0 : BitsizeCheckCircuit E.fr) (cs : CS E.Fr),
      BitsizeCheckCircuit.new (K := E.fr) b none none true = .ok c0 ∧
      c0.generateConstraints (CS.new true) = .ok cs ∧ cs.numInst = n.toNat + 1 ∧
      cs.cons.length = n.toNat * constraintsPerValue E.fr.modBits b.toNat ∧
      ∀ x w : ℕ → E.Fr, Satisfies x w cs.cons → ∀ i < n.toNat, (x (i + 1)).val < 2 ^ b.toNat := by
  obtain ⟨c0, hc0⟩ : ∃ c, BitsizeCheckCircuit.new (K := E.fr) b none none true = .ok c := by
    unfold BitsizeCheckCircuit.new
    simp only [hn, Res.ok_bind]
    exact ⟨_, rfl⟩
  obtain ⟨e1, e2, e3, e4, -⟩ := new_ok hc0
  have hn0 : c0.num_values = n := by
    have := e4 rfl
    rw [hn] at this
    exact (Res.ok.inj this).symm
  have hnum : numValues c0 = n.toNat := by simp [numValues, e2, hn0]
  obtain ⟨cs, hcs, hI, hC, -⟩ := (C44_shape c0 true).1 (Or.inl rfl) (by rw [e1]; exact hbm)
  rw [e3, if_pos rfl, hnum] at hI
  rw [e1, hnum] at hC
  refine ⟨c0, cs, hc0, hcs, hI, hC, ?_⟩
  intro x w hsat i hi
  have := C42_sound c0 true cs hcs x w hsat i (by rw [hnum]; exact hi)
  rw [e1] at this
  unfold checked at this
  rw [if_pos e3] at this
  exact this

/-- the five scalars of `generate_srs`, then anything -/
def srsTape (alpha beta gamma delta tau : E.Fr) : ℕ → E.Fr
  | 0 => alpha
  | 1 => beta
  | 2 => gamma
  | 3 => delta
  | _ => tau

/-- **C60** the range check is sound, against provers that know all secrets of the key pair.  Fix the
key-generation randomness (`R'`, `st1`), and let the prover choose a ciphertext of the SAVER form, with
*arbitrary field elements* `m_i` instead of chunks, and a proof, all by fixed linear combinations of the
published group elements (SRS, encryption key and decryption key).  If `verify_proof` accepts this for
every successful `generate_srs`, all `m_i` are below `2^b`. -/
theorem C60_range_sound (T : FftCfg E.Fr) (b n : UInt8) (hn : chunksCount E.fr b = .ok n)
    (hbm : b.toNat ≤ E.fr.modBits) (c0 : BitsizeCheckCircuit E.fr)
    (hc0 : BitsizeCheckCircuit.new (K := E.fr) b none none true = .ok c0)
    (gens : EncryptionGens E) (hG : gens.G ≠ 0) (hH : gens.H ≠ 0) (d : EvalDomain E.Fr)
    (hd : T.newDomain (n.toNat * constraintsPerValue E.fr.modBits b.toNat + (n.toNat + 1)) = some d)
    (hp : 3 * d.size < E.fr.p) (R' : RngCore E) (st1 : R'.σ)
    (ka kb kc m : ℕ → E.Fr) (r : E.Fr)
    (hacc : ∀ (f : ℕ → E.Fr) pk f' g_i sk ek dk st2,
      generateSrs T (tape E) 1 f c0.generateConstraints gens = .ok (pk, f') →
      getGsForEncryption pk.pk.vk = .ok g_i →
      keygen R' st1 b gens g_i pk.pk.delta_g1 pk.gamma_g1 = .ok ((sk, ek, dk), st2) →
      verifyProof (prepareVerifyingKey pk.pk.vk)
        ⟨comb ka (public1 gens pk ek), comb kb (public2 gens pk ek dk), comb kc (public1 gens pk ek)⟩
        (fieldCipher ek (fun i => g_i.getD i 0) m r) = .ok ()) :
    ∀ i < n.toNat, (m i).val < 2 ^ b.toNat := by
  intro i hi
  obtain ⟨c0', cs, hc0', hcs, hI, hC, hsat⟩ := setup_shape hn hbm
  rw [hc0] at hc0'
  cases hc0'
  have hsz : cs.cons.length + cs.numInst ≤ d.size := by
    rw [hC, hI]; exact T.le_size _ _ hd
  have hp5 : 5 ≤ E.fr.p := by omega
  have key := Agm.witness_of_accepted cs d hsz hp hp5 n.toNat hI
    (fun i => draw R' st1 (1 + i)) (fun i => draw R' st1 (1 + n.toNat + i))
    (fun i => draw R' st1 (2 + 2 * n.toNat + i)) (draw R' st1 0) ka kb kc m r (by
      intro tau alpha beta gamma delta htau hgam hdel
      have hrun := srs_run T (tape E) 1 (by omega) (srsTape alpha beta gamma delta tau) b n hn hbm c0
        hc0 cs hcs gens d hd (by rw [draw_tape]; exact hgam) (by rw [draw_tape]; exact hdel)
        (by rw [draw_tape]; exact htau)
      simp only [draw_tape] at hrun
      have hg := gs_of_srs cs d tau alpha beta gamma delta gens.G gens.H n.toNat hI
      have hkg := keygen_eq R' st1 gens _
        (srsKey cs d tau alpha beta gamma delta gens.G gens.H).pk.delta_g1
        (srsKey cs d tau alpha beta gamma delta gens.G gens.H).gamma_g1 hn
        (show n.toNat ≤ (tab n.toNat fun i => (mixAt cs (d.lagrange tau) alpha beta (.inst (i + 1)) *
          gamma⁻¹) • gens.G).length by simp)
      refine (Agm.verify_iff cs d tau alpha beta gamma delta n.toNat hI gens hG hH
        (fun i => draw R' st1 (1 + i)) (fun i => draw R' st1 (1 + n.toNat + i))
        (fun i => draw R' st1 (2 + 2 * n.toNat + i)) (draw R' st1 0) ka kb kc _ rfl _ hg _ rfl _ _ ?_).mp
        (hacc _ _ _ _ _ _ _ _ hrun hg hkg)
      refine (Agm.componentSum_fieldCipher n.toNat _ _ _ _ _ _ m r).trans ?_
      rw [add_smul, Finset.sum_smul]
      refine congrArg₂ _ ?_ (Finset.sum_congr rfl fun i hi => ?_)
      · simp only [srsKey]
        rw [smul_smul]
      · rw [getD_tab, if_pos (Finset.mem_range.mp hi), smul_smul])
  have := hsat (lookup (1 :: tab n.toNat m)) (lookup (tab cs.numWit kc)) ⟨rfl, key⟩ i hi
  unfold lookup at this
  rw [List.getD_cons_succ, getD_tab, if_pos hi] at this
  exact this

/-- the scalars of `setup_for_groth16` for `n` chunks -/
def setupTape (n : ℕ) (alpha beta gamma delta tau rho : E.Fr) (s t v : ℕ → E.Fr) (i : ℕ) : E.Fr :=
  if i < 5 then srsTape alpha beta gamma delta tau i
  else if i = 5 then rho
  else if i < 6 + n then s (i - 6)
  else if i < 7 + 2 * n then t (i - (6 + n))
  else v (i - (7 + 2 * n))

/-- every successful setup has the closed form, for suitable parameters -/
theorem setup_inv {T : FftCfg E.Fr} {R : RngCore E} {fuel : ℕ} {st st' : R.σ} {b n : UInt8}
    (hn : chunksCount E.fr b = .ok n) {c0 : BitsizeCheckCircuit E.fr}
    (hc0 : BitsizeCheckCircuit.new (K := E.fr) b none none true = .ok c0) {cs : CS E.Fr}
    (hcs : c0.generateConstraints (CS.new true) = .ok cs) {d : EvalDomain E.Fr}
    (hd : T.newDomain (cs.cons.length + cs.numInst) = some d) {gens : EncryptionGens E}
    {pk : ProvingKey E} {sk : SecretKey E} {ek : EncryptionKey E} {dk : DecryptionKey E}
    (h : setupForGroth16 T R fuel st b gens = .ok ((pk, sk, ek, dk), st')) :
    ∃ (tau alpha beta gamma delta : E.Fr) (s t v : ℕ → E.Fr) (g_i : List E.G1),
      d.vanishing tau ≠ 0 ∧ gamma ≠ 0 ∧ delta ≠ 0 ∧
      pk = srsKey cs d tau alpha beta gamma delta gens.G gens.H ∧
      getGsForEncryption pk.pk.vk = .ok g_i ∧ n.toNat ≤ g_i.length ∧
      ek = encKey n.toNat s t (fun i => g_i.getD i 0) pk.pk.delta_g1 pk.gamma_g1 gens.H ∧
      dk = decKey n.toNat sk.rho s v gens.H := by
  unfold setupForGroth16 at h
  obtain ⟨c, hc, h⟩ := Res.bind_eq_ok.mp h
  rw [hc0] at hc
  cases hc
  obtain ⟨⟨pk1, st1⟩, hsrs, h⟩ := Res.bind_eq_ok.mp h
  dsimp only at h
  obtain ⟨g_i, hg, h⟩ := Res.bind_eq_ok.mp h
  obtain ⟨⟨⟨sk1, ek1, dk1⟩, st2⟩, hkg, h⟩ := Res.bind_eq_ok.mp h
  simp only [Res.pure_eq, Res.ok.injEq, Prod.mk.injEq] at h
  obtain ⟨⟨rfl, rfl, rfl, rfl⟩, rfl⟩ := h
  obtain ⟨cs', d', tau, alpha, beta, gamma, delta, hcs', hd', hv, hgam, hdel, hpk⟩ := srs_inv hsrs
  rw [hcs] at hcs'
  cases hcs'
  rw [hd] at hd'
  cases hd'
  obtain ⟨n', hn', hlen⟩ := keygen_ok_inv hkg
  rw [hn] at hn'
  cases hn'
  rw [keygen_eq R st1 gens g_i _ _ hn hlen] at hkg
  simp only [Res.ok.injEq, Prod.mk.injEq] at hkg
  obtain ⟨⟨rfl, rfl, rfl⟩, -⟩ := hkg
  exact ⟨tau, alpha, beta, gamma, delta, _, _, _, g_i, hv, hgam, hdel, hpk, hg, hlen, rfl, rfl⟩

/-- from acceptance on all tapes to the equations for all parameters -/
theorem eqns_of_accepted (T : FftCfg E.Fr) (b n : UInt8) (hn : chunksCount E.fr b = .ok n)
    (hbm : b.toNat ≤ E.fr.modBits) (c0 : BitsizeCheckCircuit E.fr)
    (hc0 : BitsizeCheckCircuit.new (K := E.fr) b none none true = .ok c0) (cs : CS E.Fr)
    (hcs : c0.generateConstraints (CS.new true) = .ok cs) (hI : cs.numInst = n.toNat + 1)
    (gens : EncryptionGens E) (hG : gens.G ≠ 0) (hH : gens.H ≠ 0) (d : EvalDomain E.Fr)
    (hd : T.newDomain (n.toNat * constraintsPerValue E.fr.modBits b.toNat + (n.toNat + 1)) = some d)
    (S : Strategy E.Fr) (tau alpha beta gamma delta rho : E.Fr) (s t v : ℕ → E.Fr)
    (htau : d.vanishing tau ≠ 0) (hgam : gamma ≠ 0) (hdel : delta ≠ 0)
    (hacc : ∀ pk sk ek dk f', setupForGroth16 T (tape E) 1
        (setupTape n.toNat alpha beta gamma delta tau rho s t v) b gens = .ok ((pk, sk, ek, dk), f') →
      (S.cipher (public1 gens pk ek)).verifyCommitmentAndProof
        (S.proof (public1 gens pk ek) (public2 gens pk ek dk)) (prepareVerifyingKey pk.pk.vk)
        ek.prepare gens.prepare = .ok ()) :
    S.len = n.toNat ∧ Agm.CommitEqn cs d n.toNat S tau alpha beta gamma delta s t ∧
      Agm.ProofEqn cs d n.toNat S tau alpha beta gamma delta rho s t v := by
  have hrun := setup_run T (tape E) 1 (by omega)
    (setupTape n.toNat alpha beta gamma delta tau rho s t v) b n hn hbm c0 hc0 cs hcs hI gens d hd
    (by rw [draw_tape]; exact hgam) (by rw [draw_tape]; exact hdel) (by rw [draw_tape]; exact htau)
  simp only [draw_tape] at hrun
  have hg := gs_of_srs cs d tau alpha beta gamma delta gens.G gens.H n.toNat hI
  refine (Agm.accept_iff cs d tau alpha beta gamma delta n.toNat hI n.toNat_lt gens hG hH s t v rho S _ rfl
    _ hg _ ?_ _ ?_).mp (hacc _ _ _ _ _ hrun)
  · refine encKey_congr _ _ _ ?_ ?_ ?_
    · intro i hi
      simp only [setupTape]
      rw [if_neg (by omega), if_neg (by omega), if_pos (by omega), Nat.add_sub_cancel_left]
    · intro i hi
      simp only [setupTape]
      rw [if_neg (by omega), if_neg (by omega), if_neg (by omega), if_pos (by omega),
        Nat.add_sub_cancel_left]
    · intro i hi
      rfl
  · unfold decKey tab
    refine congr (congrArg₂ _ ?_ ?_) ?_
    · rfl
    · refine List.map_congr_left fun i hi => ?_
      have hi := List.mem_range.mp hi
      simp only [setupTape]
      rw [if_neg (by omega), if_neg (by omega), if_pos (by omega), Nat.add_sub_cancel_left,
        if_neg (by omega), if_neg (by omega), if_neg (by omega), if_neg (by omega),
        Nat.add_sub_cancel_left]
    · refine List.map_congr_left fun i hi => ?_
      have hi := List.mem_range.mp hi
      simp only [setupTape]
      rw [if_neg (show ¬ 5 < 5 by omega), if_pos trivial,
        if_neg (by omega), if_neg (by omega), if_neg (by omega), if_neg (by omega),
        Nat.add_sub_cancel_left]

/-- **C61** knowledge soundness of `verify_commitment_and_proof`: let an adversary choose a ciphertext and
a proof by fixed linear combinations of the published group elements (SRS, encryption key, decryption key).
If they are accepted after every successful setup, there are chunks `m_0, ..` below `2^b` and a scalar `r`,
the same for all setups and readable from the adversary's coefficients, such that in every run of the setup
(any random generator) the ciphertext is the SAVER encryption of `m` with randomness `r`. -/
theorem C61_knowledge_sound (T : FftCfg E.Fr) (b n : UInt8) (hn : chunksCount E.fr b = .ok n)
    (hbm : b.toNat ≤ E.fr.modBits) (gens : EncryptionGens E) (hG : gens.G ≠ 0) (hH : gens.H ≠ 0)
    (d : EvalDomain E.Fr)
    (hd : T.newDomain (n.toNat * constraintsPerValue E.fr.modBits b.toNat + (n.toNat + 1)) = some d)
    (hp : 3 * d.size < E.fr.p) (S : Strategy E.Fr)
    (hacc : ∀ (f : ℕ → E.Fr) pk sk ek dk f', setupForGroth16 T (tape E) 1 f b gens
        = .ok ((pk, sk, ek, dk), f') →
      (S.cipher (public1 gens pk ek)).verifyCommitmentAndProof
        (S.proof (public1 gens pk ek) (public2 gens pk ek dk)) (prepareVerifyingKey pk.pk.vk)
        ek.prepare gens.prepare = .ok ()) :
    ∃ (m : ℕ → ℕ) (r : E.Fr), (∀ i < n.toNat, m i < 2 ^ b.toNat ∧ m i < E.fr.p) ∧
      ∀ (R : RngCore E) (fuel : ℕ) (st st' : R.σ) pk sk ek dk,
        setupForGroth16 T R fuel st b gens = .ok ((pk, sk, ek, dk), st') →
        S.cipher (public1 gens pk ek) =
          cipher ek (fun i => pk.pk.vk.gamma_abc_g1.tail.getD i 0) m r := by
  obtain ⟨c0, cs, hc0, hcs, hI, hC, hsat⟩ := setup_shape hn hbm
  have hsz : cs.cons.length + cs.numInst ≤ d.size := by
    rw [hC, hI]; exact T.le_size _ _ hd
  have hall : ∀ (tau alpha beta gamma delta rho : E.Fr) (s t v : ℕ → E.Fr), d.vanishing tau ≠ 0 →
      gamma ≠ 0 → delta ≠ 0 → S.len = n.toNat ∧
      Agm.CommitEqn cs d n.toNat S tau alpha beta gamma delta s t ∧
        Agm.ProofEqn cs d n.toNat S tau alpha beta gamma delta rho s t v :=
    fun tau alpha beta gamma delta rho s t v h1 h2 h3 => eqns_of_accepted T b n hn hbm c0 hc0 cs hcs hI
      gens hG hH d hd S tau alpha beta gamma delta rho s t v h1 h2 h3 (hacc _)
  obtain ⟨tau0, ht0⟩ := Agm.exists_outside d hp
  have hlen : S.len = n.toNat :=
    (hall tau0 0 0 1 1 0 (fun _ => 0) (fun _ => 0) (fun _ => 0) ht0 one_ne_zero one_ne_zero).1
  have hnv : ∀ (x : E.Fr) (g : E.G1), ZMod.val x • g = x • g := by
    intro x g
    rw [nsmul_fr (E := E), show ((ZMod.val x : ℕ) : E.Fr) = x from ZMod.natCast_zmod_val x]
  refine ⟨fun i => (S.psi (Agm.baseLen cs d n.toNat + i)).val, S.psi (Agm.baseLen cs d n.toNat + n.toNat),
    ?_, ?_⟩
  · intro i hi
    refine ⟨?_, ZMod.val_lt _⟩
    have hp5 : 5 ≤ E.fr.p := by omega
    have := hsat _ _ ⟨rfl, Agm.extract cs d hsz hp hp5 n.toNat hI S
      fun tau alpha beta gamma delta rho s t v h1 h2 h3 =>
        (hall tau alpha beta gamma delta rho s t v h1 h2 h3).2⟩ i hi
    unfold lookup at this
    rw [List.getD_cons_succ, getD_tab, if_pos hi] at this
    exact this
  · intro R fuel st st' pk sk ek dk hset
    obtain ⟨tau, alpha, beta, gamma, delta, s, t, v, g_i, hv, hgam, hdel, hpk, hg, hgl, hek, hdk⟩ :=
      setup_inv hn hc0 hcs (by rw [hC, hI]; exact hd) hset
    obtain ⟨x1, x2, x3⟩ := Agm.commit_extract cs d hsz hp n.toNat hI S.x S.psi S.chunk
      (fun tau alpha beta gamma delta s t h1 h2 h3 =>
        (hall tau alpha beta gamma delta 0 s t (fun _ => 0) h1 h2 h3).2.1)
      tau alpha beta gamma delta s t hv hgam hdel
    have hP : public1 gens pk ek =
        (Agm.all1 cs d tau n.toNat s t).map (Agm.evG alpha beta gamma delta gens.G) := by
      subst hpk hek
      exact Agm.public1_eq cs d tau alpha beta gamma delta gens n.toNat s t hI g_i hg
    have hc : ∀ k : ℕ → E.Fr, comb k (public1 gens pk ek) =
        Agm.ev1 (comb k (Agm.all1 cs d tau n.toNat s t)) alpha beta gamma delta • gens.G := by
      intro k
      rw [hP, comb_map]
      rfl
    have hgi : ∀ i < n.toNat, g_i.getD i 0 =
        (mixAt cs (d.lagrange tau) alpha beta (.inst (i + 1)) * gamma⁻¹) • gens.G := by
      intro i hi
      rw [hpk, gs_of_srs cs d _ _ _ _ _ _ _ n.toNat hI] at hg
      cases hg
      rw [getD_tab, if_pos hi]
    have hgt : ∀ i, pk.pk.vk.gamma_abc_g1.tail.getD i 0 = g_i.getD i 0 := by
      intro i
      rw [(getGs_inv hg).2 i, List.getD_eq_getElem?_getD, List.getD_eq_getElem?_getD, List.getElem?_tail]
    have hD : pk.pk.delta_g1 = delta • gens.G := by rw [hpk]; rfl
    unfold Strategy.cipher Spec.cipher
    simp only [hgt]
    rw [hc, hc, x1, x3, hlen]
    have hX0 : ek.X_0 = delta • gens.G := by rw [hek]; exact hD
    have hXl : ek.X.length = n.toNat := by rw [hek]; simp [encKey]
    have hX : ∀ i < n.toNat, ek.X.getD i 0 = (s i * delta) • gens.G := by
      intro i hi
      rw [hek, hD]
      simp only [encKey]
      rw [getD_tab, if_pos hi, smul_smul]
    have hY : ∀ i < n.toNat, ek.Y.getD i 0 = (t (i + 1) * (mixAt cs (d.lagrange tau) alpha beta
        (.inst (i + 1)) * gamma⁻¹)) • gens.G := by
      intro i hi
      rw [hek]
      simp only [encKey]
      rw [getD_tab, if_pos hi, hgi i hi, smul_smul]
    have hP1 : ek.P_1 = ((t 0 + ∑ i ∈ Finset.range n.toNat, s i * t (i + 1)) * delta) • gens.G := by
      rw [hek, hD]
      simp only [encKey]
      rw [smul_smul]
    rw [hX0, hXl, hP1]
    have e1 : S.psi (Agm.baseLen cs d n.toNat + n.toNat) • delta • gens.G =
        (S.psi (Agm.baseLen cs d n.toNat + n.toNat) * delta) • gens.G := smul_smul _ _ _
    rw [e1]
    congr 1
    · refine List.map_congr_left fun i hi => ?_
      have hi := List.mem_range.mp hi
      rw [hc, x2 i hi, hX i hi, hgi i hi, hnv, smul_smul, smul_smul, ← add_smul]
    · rw [add_smul, smul_smul, Finset.sum_smul]
      congr 1
      refine Finset.sum_congr rfl fun i hi => ?_
      rw [hY i (Finset.mem_range.mp hi), hnv, smul_smul]

/-- the honest encryptor's strategy, for any key material in closed form -/
theorem honest_core (T : FftCfg E.Fr) (b n : UInt8) (hn : chunksCount E.fr b = .ok n)
    (hbm : b.toNat ≤ E.fr.modBits) (gens : EncryptionGens E) (d : EvalDomain E.Fr)
    (c0 : BitsizeCheckCircuit E.fr) (hc0 : BitsizeCheckCircuit.new (K := E.fr) b none none true = .ok c0)
    (cs0 : CS E.Fr) (hcs0 : c0.generateConstraints (CS.new true) = .ok cs0)
    (hI : cs0.numInst = n.toNat + 1)
    (hC : cs0.cons.length = n.toNat * constraintsPerValue E.fr.modBits b.toNat)
    (hd : T.newDomain (n.toNat * constraintsPerValue E.fr.modBits b.toNat + (n.toNat + 1)) = some d)
    (m : ℕ → ℕ) (hm : ∀ i < n.toNat, m i < 2 ^ b.toNat) (r : E.Fr) :
    ∃ S : Strategy E.Fr, ∀ (tau alpha beta gamma delta : E.Fr) (s t : ℕ → E.Fr) (pk : ProvingKey E)
      (g_i : List E.G1) (ek : EncryptionKey E) (dk : DecryptionKey E),
      d.vanishing tau ≠ 0 → gamma ≠ 0 → delta ≠ 0 →
      pk = srsKey cs0 d tau alpha beta gamma delta gens.G gens.H →
      getGsForEncryption pk.pk.vk = .ok g_i →
      ek = encKey n.toNat s t (fun i => g_i.getD i 0) pk.pk.delta_g1 pk.gamma_g1 gens.H →
      S.cipher (public1 gens pk ek) =
          cipher ek (fun i => pk.pk.vk.gamma_abc_g1.tail.getD i 0) m r ∧
      (S.cipher (public1 gens pk ek)).verifyCommitmentAndProof
        (S.proof (public1 gens pk ek) (public2 gens pk ek dk)) (prepareVerifyingKey pk.pk.vk)
        ek.prepare gens.prepare = .ok () := by
  obtain ⟨e1, e2, e3, e4, -⟩ := new_ok hc0
  have hn0 : c0.num_values = n := by
    have := e4 rfl
    rw [hn] at this
    exact (Res.ok.inj this).symm
  have hnum0 : numValues c0 = n.toNat := by simp [numValues, e2, hn0]
  obtain ⟨c, hc⟩ : ∃ c, BitsizeCheckCircuit.new (K := E.fr) b none
      (some (tab n.toNat fun i => ((m i : ℕ) : E.Fr))) true = .ok c := by
    unfold BitsizeCheckCircuit.new
    simp only [hn, Res.ok_bind]
    exact ⟨_, rfl⟩
  obtain ⟨f1, f2, f3, -, -⟩ := new_ok hc
  have hvs : ∀ v ∈ (tab n.toNat fun i => ((m i : ℕ) : E.Fr)), ZMod.val v < 2 ^ c.required_bit_size.toNat := by
    intro v hv
    unfold tab at hv
    obtain ⟨i, hi, rfl⟩ := List.mem_map.mp hv
    rw [f1]
    refine lt_of_le_of_lt ?_ (hm i (List.mem_range.mp hi))
    show ZMod.val ((m i : ℕ) : ZMod E.fr.p) ≤ m i
    rw [ZMod.val_natCast]
    exact Nat.mod_le _ _
  obtain ⟨cs, hcs, -, -⟩ := C43_complete c _ f2 (by rw [f1]; exact hbm)
  obtain ⟨w1, w2, w3⟩ := C44_value_independent c0 c true false cs0 cs (e1.trans f1.symm)
    (e3.trans f3.symm) (by rw [hnum0]; simp [numValues, f2]) hcs0 hcs
  refine ⟨honest cs0.numWit d.size cs0.vars.length cs0.numInst n.toNat (fun i => ((m i : ℕ) : E.Fr)) r
    (witnessMap T.gen d cs) cs.inst.tail cs.wit, ?_⟩
  intro tau alpha beta gamma delta s t pk g_i ek dk hv hgam hdel hpk hg hek
  obtain ⟨o1, o2⟩ := honest_outputs cs0.numWit d.size cs0.vars.length cs0.numInst n.toNat
    (fun i => ((m i : ℕ) : E.Fr)) r (witnessMap T.gen d cs) cs.inst.tail cs.wit gens pk ek dk
    (by rw [hpk]; simp [srsKey]) (by rw [hpk]; simp [srsKey]) (by rw [hpk]; simp [srsKey])
    (by rw [hpk]; simp [srsKey]) (by rw [hpk]; simp [srsKey]) (by rw [hek]; simp [encKey])
    (by rw [hek]; simp [encKey]) (by rw [hpk]; simp [srsKey]) hI
  have hfc : fieldCipher ek (fun i => pk.pk.vk.gamma_abc_g1.tail.getD i 0)
      (fun i => ((m i : ℕ) : E.Fr)) r =
      cipher ek (fun i => pk.pk.vk.gamma_abc_g1.tail.getD i 0) m r := by
    unfold fieldCipher Spec.cipher
    simp only [nsmul_fr (E := E)]
  rw [hfc] at o1
  refine ⟨o1, ?_⟩
  rw [o1, o2]
  have hgt : ∀ i, pk.pk.vk.gamma_abc_g1.tail.getD i 0 = g_i.getD i 0 := by
    intro i
    rw [(getGs_inv hg).2 i, List.getD_eq_getElem?_getD, List.getD_eq_getElem?_getD, List.getElem?_tail]
  simp only [hgt]
  have hvars : cs0.vars ≠ [] := by
    unfold CS.vars
    rw [hI, List.range_succ_eq_map]
    simp
  obtain ⟨wA, wB, hab⟩ := groth16_complete_ab T c0 c gens cs0 d tau alpha beta gamma delta hcs0
    (by rw [hC, hI]; exact hd) hv hgam hdel (e1.trans f1.symm) (by rw [f1]; exact hbm) e3 f3 _ f2
    (by rw [hnum0]; simp) hvs
  obtain ⟨proof, hproof, heq, -, -⟩ := hab false 0 0
  unfold createProofWithReduction at hproof
  rw [hcs, Res.ok_bind] at hproof
  simp only [Bool.false_and, Bool.false_eq_true, if_false] at hproof
  rw [← w1, ← w2, hC, hI, hd] at hproof
  dsimp only at hproof
  rw [← hpk, proof_comb _ _ _ _ (by rw [hpk]; simpa [srsKey] using hvars)
    (by rw [hpk]; simpa [srsKey] using hvars)] at hproof
  have hproof := Res.ok.inj hproof
  rw [← hpk] at heq
  have hD : pk.pk.delta_g1 = delta • gens.G := by rw [hpk]; rfl
  have hC' : pk.gamma_g1 = (-gamma) • gens.G := by rw [hpk]; rfl
  rw [hD, hC'] at hek
  have hv1 := saver_iff pk.pk.vk gens.G gens.H gamma delta (by rw [hpk]; rfl) (by rw [hpk]; rfl) g_i hg
    n.toNat s t m r proof
  rw [if_pos heq, ← hek, ← hproof] at hv1
  have hv2 := cipher_verifies n s t (fun i => g_i.getD i 0) (delta • gens.G) ((-gamma) • gens.G) gens m r
  rw [← hek] at hv2
  unfold Ciphertext.verifyCommitmentAndProof
  rw [hv2, Res.ok_bind]
  exact hv1


/-- **C61** the converse: for all chunks below `2^b` and every `r` there is such a strategy (the honest
encryptor's), and it is accepted in every run.  So the hypotheses of `C61_knowledge_sound` can be met, and
the accepted strategies are exactly those that encrypt chunks in range. -/
theorem C61_honest_strategy (T : FftCfg E.Fr) (b n : UInt8) (hn : chunksCount E.fr b = .ok n)
    (hbm : b.toNat ≤ E.fr.modBits) (gens : EncryptionGens E) (d : EvalDomain E.Fr)
    (hd : T.newDomain (n.toNat * constraintsPerValue E.fr.modBits b.toNat + (n.toNat + 1)) = some d)
    (m : ℕ → ℕ) (hm : ∀ i < n.toNat, m i < 2 ^ b.toNat) (r : E.Fr) :
    ∃ S : Strategy E.Fr, ∀ (R : RngCore E) (fuel : ℕ) (st st' : R.σ) pk sk ek dk,
      setupForGroth16 T R fuel st b gens = .ok ((pk, sk, ek, dk), st') →
      S.cipher (public1 gens pk ek) =
          cipher ek (fun i => pk.pk.vk.gamma_abc_g1.tail.getD i 0) m r ∧
      (S.cipher (public1 gens pk ek)).verifyCommitmentAndProof
        (S.proof (public1 gens pk ek) (public2 gens pk ek dk)) (prepareVerifyingKey pk.pk.vk)
        ek.prepare gens.prepare = .ok () := by
  obtain ⟨c0, cs0, hc0, hcs0, hI, hC, -⟩ := setup_shape hn hbm
  obtain ⟨S, hS⟩ := honest_core T b n hn hbm gens d c0 hc0 cs0 hcs0 hI hC hd m hm r
  refine ⟨S, ?_⟩
  intro R fuel st st' pk sk ek dk hset
  obtain ⟨tau, alpha, beta, gamma, delta, s, t, v, g_i, hv, hgam, hdel, hpk, hg, hgl, hek, hdk⟩ :=
    setup_inv hn hc0 hcs0 (by rw [hC, hI]; exact hd) hset
  exact hS tau alpha beta gamma delta s t pk g_i ek dk hv hgam hdel hpk hg hek

/-- **C60** the hypotheses of `C60_range_sound` are met for all chunks in range: by the honest prover. -/
theorem C60_honest_prover (T : FftCfg E.Fr) (b n : UInt8) (hn : chunksCount E.fr b = .ok n)
    (hbm : b.toNat ≤ E.fr.modBits) (c0 : BitsizeCheckCircuit E.fr)
    (hc0 : BitsizeCheckCircuit.new (K := E.fr) b none none true = .ok c0)
    (gens : EncryptionGens E) (d : EvalDomain E.Fr)
    (hd : T.newDomain (n.toNat * constraintsPerValue E.fr.modBits b.toNat + (n.toNat + 1)) = some d)
    (R' : RngCore E) (st1 : R'.σ) (m : ℕ → E.Fr) (hm : ∀ i < n.toNat, (m i).val < 2 ^ b.toNat)
    (r : E.Fr) : ∃ ka kb kc : ℕ → E.Fr,
    ∀ (f : ℕ → E.Fr) pk f' g_i sk ek dk st2,
      generateSrs T (tape E) 1 f c0.generateConstraints gens = .ok (pk, f') →
      getGsForEncryption pk.pk.vk = .ok g_i →
      keygen R' st1 b gens g_i pk.pk.delta_g1 pk.gamma_g1 = .ok ((sk, ek, dk), st2) →
      verifyProof (prepareVerifyingKey pk.pk.vk)
        ⟨comb ka (public1 gens pk ek), comb kb (public2 gens pk ek dk), comb kc (public1 gens pk ek)⟩
        (fieldCipher ek (fun i => g_i.getD i 0) m r) = .ok () := by
  obtain ⟨c0', cs0, hc0', hcs0, hI, hC, -⟩ := setup_shape hn hbm
  rw [hc0] at hc0'
  cases hc0'
  obtain ⟨S, hS⟩ := honest_core T b n hn hbm gens d c0 hc0 cs0 hcs0 hI hC hd (fun i => (m i).val) hm r
  refine ⟨S.a, S.b, S.c, ?_⟩
  intro f pk f' g_i sk ek dk st2 hsrs hg hkg
  obtain ⟨cs', d', tau, alpha, beta, gamma, delta, hcs', hd', hv, hgam, hdel, hpk⟩ := srs_inv hsrs
  rw [hcs0] at hcs'
  cases hcs'
  rw [hC, hI, hd] at hd'
  cases hd'
  obtain ⟨n', hn', hlen⟩ := keygen_ok_inv hkg
  rw [hn] at hn'
  cases hn'
  rw [keygen_eq R' st1 gens g_i _ _ hn hlen] at hkg
  simp only [Res.ok.injEq, Prod.mk.injEq] at hkg
  obtain ⟨⟨rfl, rfl, rfl⟩, -⟩ := hkg
  obtain ⟨h1, h2⟩ := hS tau alpha beta gamma delta _ _ pk g_i _
    (decKey n.toNat (draw R' st1 0) (fun i => draw R' st1 (1 + i))
      (fun i => draw R' st1 (2 + 2 * n.toNat + i)) gens.H) hv hgam hdel hpk hg rfl
  unfold Ciphertext.verifyCommitmentAndProof at h2
  obtain ⟨-, -, h2⟩ := Res.bind_eq_ok.mp h2
  rw [h1] at h2
  refine Eq.trans (congrArg (verifyProof _ _) ?_) h2
  have hgt : ∀ i, pk.pk.vk.gamma_abc_g1.tail.getD i 0 = g_i.getD i 0 := by
    intro i
    rw [(getGs_inv hg).2 i, List.getD_eq_getElem?_getD, List.getD_eq_getElem?_getD, List.getElem?_tail]
  have hnv : ∀ (x : E.Fr) (g : E.G1), ZMod.val x • g = x • g := by
    intro x g
    rw [nsmul_fr (E := E), show ((ZMod.val x : ℕ) : E.Fr) = x from ZMod.natCast_zmod_val x]
  unfold fieldCipher Spec.cipher
  simp only [hgt, hnv]

/-- **C61** in terms of the API: what an algebraic adversary gets accepted (whatever the setup draws) is
what `encrypt_decomposed_message` returns for chunks below `2^b` that the adversary's coefficients
determine; in every setup run with nonzero generators and decryption key these chunks are what decryption
returns. -/
theorem C61_is_encryption (T : FftCfg E.Fr) (b n : UInt8) (hb : b.toNat ≤ 16)
    (hn : chunksCount E.fr b = .ok n)
    (hbm : b.toNat ≤ E.fr.modBits) (gens : EncryptionGens E) (hG : gens.G ≠ 0) (hH : gens.H ≠ 0)
    (d : EvalDomain E.Fr)
    (hd : T.newDomain (n.toNat * constraintsPerValue E.fr.modBits b.toNat + (n.toNat + 1)) = some d)
    (hp : 3 * d.size < E.fr.p) (S : Strategy E.Fr)
    (hacc : ∀ (f : ℕ → E.Fr) pk sk ek dk f', setupForGroth16 T (tape E) 1 f b gens
        = .ok ((pk, sk, ek, dk), f') →
      (S.cipher (public1 gens pk ek)).verifyCommitmentAndProof
        (S.proof (public1 gens pk ek) (public2 gens pk ek dk)) (prepareVerifyingKey pk.pk.vk)
        ek.prepare gens.prepare = .ok ()) :
    ∃ (chunks : List UInt16) (r : E.Fr), chunks.length = n.toNat ∧
      (∀ x ∈ chunks, x.toNat < 2 ^ b.toNat) ∧
      ∀ (R : RngCore E) (fuel : ℕ) (st st' : R.σ) pk sk ek dk g_i,
        setupForGroth16 T R fuel st b gens = .ok ((pk, sk, ek, dk), st') →
        getGsForEncryption pk.pk.vk = .ok g_i →
        (∀ (R' : RngCore E) (st1 : R'.σ), draw R' st1 0 = r →
          encryptDecomposedMessage R' st1 chunks ek g_i =
            .ok ((flat (S.cipher (public1 gens pk ek)), r), after R' st1 1)) ∧
        ((∀ g ∈ g_i, g ≠ 0) → (∀ V ∈ dk.V_2, V ≠ 0) → ∀ chk, ∃ nu,
          decryptToChunks chk (S.cipher (public1 gens pk ek)).X_r
            (S.cipher (public1 gens pk ek)).enc_chunks sk dk.prepare g_i b = .ok (chunks, nu)) := by
  obtain ⟨m, r, hm, hall⟩ := C61_knowledge_sound T b n hn hbm gens hG hH d hd hp S hacc
  have h16 : 2 ^ b.toNat ≤ 2 ^ 16 := Nat.pow_le_pow_right (by norm_num) hb
  have hto : ∀ i < n.toNat, (UInt16.ofNat (m i)).toNat = m i := by
    intro i hi
    have := (hm i hi).1
    simp only [UInt16.toNat_ofNat']
    exact Nat.mod_eq_of_lt (by omega)
  refine ⟨tab n.toNat fun i => UInt16.ofNat (m i), r, by simp, ?_, ?_⟩
  · intro x hx
    unfold tab at hx
    obtain ⟨i, hi, rfl⟩ := List.mem_map.mp hx
    rw [hto i (List.mem_range.mp hi)]
    exact (hm i (List.mem_range.mp hi)).1
  intro R fuel st st' pk sk ek dk g_i hset hg
  have hct := hall R fuel st st' pk sk ek dk hset
  have hset0 := hset
  unfold setupForGroth16 at hset
  obtain ⟨c0, hc0, hset⟩ := Res.bind_eq_ok.mp hset
  obtain ⟨⟨pk', st2⟩, hsrs, hset⟩ := Res.bind_eq_ok.mp hset
  obtain ⟨g_i', hg', hset⟩ := Res.bind_eq_ok.mp hset
  obtain ⟨⟨⟨sk', ek', dk'⟩, st3⟩, hkg, hset⟩ := Res.bind_eq_ok.mp hset
  simp only [Res.pure_eq, Res.ok.injEq, Prod.mk.injEq] at hset
  obtain ⟨⟨rfl, rfl, rfl, rfl⟩, rfl⟩ := hset
  rw [hg] at hg'
  cases hg'
  have hgt : ∀ i, pk'.pk.vk.gamma_abc_g1.tail.getD i 0 = g_i.getD i 0 := by
    intro i
    rw [(getGs_inv hg).2 i, List.getD_eq_getElem?_getD, List.getD_eq_getElem?_getD, List.getElem?_tail]
  have hfs : FromSetup ek' b gens g_i pk'.pk.delta_g1 pk'.gamma_g1 := Or.inl ⟨_, _, _, _, _, hkg⟩
  obtain ⟨n', s, t, hn', hgn, hek⟩ := fromSetup_inv hfs
  rw [hn] at hn'
  cases hn'
  have hX : ek'.X.length = n.toNat := by rw [hek]; simp [encKey]
  have hw : WellFormed ek' := by rw [hek]; exact encKey_wf _ _ _ _ _ _ _
  have hciph : ∀ r', cipher ek' (fun i => g_i.getD i 0)
      (fun i => (nums (tab n.toNat fun i => UInt16.ofNat (m i))).getD i 0) r' =
      cipher ek' (fun i => g_i.getD i 0) m r' := by
    intro r'
    have hget : ∀ i < n.toNat, (nums (tab n.toNat fun i => UInt16.ofNat (m i))).getD i 0 = m i := by
      intro i hi
      unfold nums
      rw [map_tab, getD_tab, if_pos hi, hto i hi]
    unfold Spec.cipher
    refine congr (congrArg₂ _ rfl ?_) ?_
    · unfold tab
      refine List.map_congr_left fun i hi => ?_
      rw [hX] at hi
      have := hget i (List.mem_range.mp hi)
      unfold tab at this
      dsimp only
      rw [this]
    · refine congrArg₂ _ (Finset.sum_congr rfl fun i hi => ?_) rfl
      rw [hX] at hi
      dsimp only
      rw [hget i (Finset.mem_range.mp hi)]
  have henc : ∀ (R' : RngCore E) (st1 : R'.σ), draw R' st1 0 = r →
      encryptDecomposedMessage R' st1 (tab n.toNat fun i => UInt16.ofNat (m i)) ek' g_i =
        .ok ((flat (S.cipher (public1 gens pk' ek')), r), after R' st1 1) := by
    intro R' st1 hdr
    rw [encryptDecomposed_ok R' st1 _ ek' g_i hw (by rw [hX]; exact n.toNat_lt) (by simp [hX])
      (by rw [hX]; exact hgn), hciph, hdr, hct]
    simp only [hgt]
  refine ⟨henc, ?_⟩
  intro hg0 hV chk
  obtain ⟨ct, r2, st4, e1, e2⟩ := C17_decrypt_encrypt_chunks R st2 _ b gens g_i _ _ sk' ek' dk' hkg
    (by omega) hg0 hV (tape E) (fun _ => r) (tab n.toNat fun i => UInt16.ofNat (m i)) (by simp [hX])
    (by
      intro x hx
      unfold tab at hx
      obtain ⟨i, hi, rfl⟩ := List.mem_map.mp hx
      rw [hto i (List.mem_range.mp hi)]
      have := hm i (List.mem_range.mp hi)
      omega) chk
  rw [henc (tape E) (fun _ => r) (draw_tape _ _)] at e1
  simp only [Res.ok.injEq, Prod.mk.injEq] at e1
  rw [flat_inj e1.1.1]
  exact ⟨_, e2⟩


end

namespace Fix

theorem bits8 : (8 : UInt8).toNat ≤ E.fr.modBits := by
  rw [show E.fr.modBits = 64 from goldFr_modBits]; decide

theorem dom8_count : goldFft.newDomain ((8 : UInt8).toNat *
    constraintsPerValue E.fr.modBits (8 : UInt8).toNat + ((8 : UInt8).toNat + 1)) = some dom8 := by
  rw [rows8_eq, eight]; exact dom8_ok

theorem dom8_small : 3 * dom8.size < E.fr.p := by
  rw [show dom8.size = 2 ^ 10 from rfl]
  exact (by decide : 3 * 2 ^ 10 < goldR)

theorem gens_ne : gens.G ≠ 0 ∧ gens.H ≠ 0 :=
  ⟨by exact (by decide +kernel : (2 : F) ≠ 0), by exact (by decide +kernel : (3 : F) ≠ 0)⟩

end Fix

/-- The hypotheses of C61 are met by a concrete curve-size-64 instance and the honest strategy for the
chunks 1, 2, ..., 8; the chunks C61 finds are these. -/
example : ∃ (chunks : List UInt16) (r : Fix.E.Fr), chunks.length = 8 ∧
      ∀ (R : RngCore Fix.E) (fuel : ℕ) (st st' : R.σ) pk sk ek dk g_i,
        setupForGroth16 goldFft R fuel st 8 Fix.gens = .ok ((pk, sk, ek, dk), st') →
        getGsForEncryption pk.pk.vk = .ok g_i →
        ∀ (R' : RngCore Fix.E) (st1 : R'.σ), draw R' st1 0 = r →
          encryptDecomposedMessage R' st1 chunks ek g_i =
            .ok ((flat (cipher ek (fun i => pk.pk.vk.gamma_abc_g1.tail.getD i 0) (fun i => i + 1)
              (5 : Fix.F)), r), after R' st1 1) := by
  obtain ⟨S, hS⟩ := C61_honest_strategy (E := Fix.E) goldFft 8 8 Fix.count8 Fix.bits8 Fix.gens Fix.dom8
    Fix.dom8_count (fun i => i + 1) (by
      intro i hi
      rw [Fix.eight] at hi ⊢
      omega) (5 : Fix.F)
  obtain ⟨chunks, r, h1, -, h3⟩ := C61_is_encryption (E := Fix.E) goldFft 8 8 (by decide) Fix.count8
    Fix.bits8 Fix.gens Fix.gens_ne.1 Fix.gens_ne.2 Fix.dom8 Fix.dom8_count Fix.dom8_small S
    (fun f pk sk ek dk f' h => (hS _ _ _ _ _ _ _ _ h).2)
  refine ⟨chunks, r, h1, ?_⟩
  intro R fuel st st' pk sk ek dk g_i hset hg R' st1 hr
  rw [(h3 R fuel st st' pk sk ek dk g_i hset hg).1 R' st1 hr, (hS _ _ _ _ _ _ _ _ hset).1]

/-- C60 on the concrete instance: no prover strategy makes `verify_proof` accept an encryption of 256 as
an 8-bit chunk in all runs of `generate_srs`. -/
example (c0 : BitsizeCheckCircuit Fix.E.fr)
    (hc0 : BitsizeCheckCircuit.new (K := Fix.E.fr) 8 none none true = .ok c0)
    (ka kb kc : ℕ → Fix.E.Fr) (r : Fix.E.Fr) :
    ¬ ∀ (f : ℕ → Fix.E.Fr) pk f' g_i sk ek dk st2,
      generateSrs goldFft (tape Fix.E) 1 f c0.generateConstraints Fix.gens = .ok (pk, f') →
      getGsForEncryption pk.pk.vk = .ok g_i →
      keygen (listRng Fix.E) Fix.st 8 Fix.gens g_i pk.pk.delta_g1 pk.gamma_g1
        = .ok ((sk, ek, dk), st2) →
      verifyProof (prepareVerifyingKey pk.pk.vk)
        ⟨comb ka (public1 Fix.gens pk ek), comb kb (public2 Fix.gens pk ek dk),
          comb kc (public1 Fix.gens pk ek)⟩
        (fieldCipher ek (fun i => g_i.getD i 0) (fun _ => (256 : Fix.F)) r) = .ok () := by
  intro h
  have := C60_range_sound (E := Fix.E) goldFft 8 8 Fix.count8 Fix.bits8 c0 hc0 Fix.gens Fix.gens_ne.1
    Fix.gens_ne.2 Fix.dom8 Fix.dom8_count Fix.dom8_small (listRng Fix.E) Fix.st ka kb kc
    (fun _ => (256 : Fix.F)) r h 0 (by decide)
  exact absurd this (by
    show ¬ ZMod.val (256 : ZMod goldR) < 2 ^ (8 : UInt8).toNat
    decide +kernel)

end Verif
