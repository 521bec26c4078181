/-
Properties C62-C63: bounds on the success of algebraic adversaries.
-/
import Verif.Props.Sound
import Verif.Lemmas.Count

namespace Verif
open Spec

section
variable {E : Engine}

theorem setup_tape_good {T : FftCfg E.Fr} {f : ℕ → E.Fr} {C : Synthesizer E.Fr} {gens : EncryptionGens E}
    {pk : ProvingKey E} {f' : ℕ → E.Fr} (h : generateSrs T (tape E) 1 f C gens = .ok (pk, f')) :
    ∃ cs d, C (CS.new true) = .ok cs ∧ T.newDomain (cs.cons.length + cs.numInst) = some d ∧
      d.vanishing (f 4) ≠ 0 ∧ f 2 ≠ 0 ∧ f 3 ≠ 0 := by
  obtain ⟨cs, d, k, hcs, hd, hk, hv, -, hg, hdel, -, -⟩ := srs_inv_draws h
  have : k = 0 := by omega
  subst this
  simp only [draw_tape] at hv hg hdel
  exact ⟨cs, d, hcs, hd, hv, hg, hdel⟩

/-- acceptance on a tape, in terms of the equations; `f'` is any tape that agrees on the scalars read -/
theorem run_iff (T : FftCfg E.Fr) (b n : UInt8) (hn : chunksCount E.fr b = .ok n)
    (hbm : b.toNat ≤ E.fr.modBits) (c0 : BitsizeCheckCircuit E.fr)
    (hc0 : BitsizeCheckCircuit.new (K := E.fr) b none none true = .ok c0) (cs : CS E.Fr)
    (hcs : c0.generateConstraints (CS.new true) = .ok cs) (hI : cs.numInst = n.toNat + 1)
    (gens : EncryptionGens E) (hG : gens.G ≠ 0) (hH : gens.H ≠ 0) (d : EvalDomain E.Fr)
    (hd : T.newDomain (n.toNat * constraintsPerValue E.fr.modBits b.toNat + (n.toNat + 1)) = some d)
    (S : Strategy E.Fr) (f f' : ℕ → E.Fr) (hff : ∀ i < 7 + 3 * n.toNat, f i = f' i)
    (htau : d.vanishing (f 4) ≠ 0) (hgam : f 2 ≠ 0) (hdel : f 3 ≠ 0) :
    ∃ pk sk ek dk f1, setupForGroth16 T (tape E) 1 f b gens = .ok ((pk, sk, ek, dk), f1) ∧
      ((S.cipher (public1 gens pk ek)).verifyCommitmentAndProof
        (S.proof (public1 gens pk ek) (public2 gens pk ek dk)) (prepareVerifyingKey pk.pk.vk)
        ek.prepare gens.prepare = .ok () ↔
      S.len = n.toNat ∧ Agm.CommitEqn cs d n.toNat S (f' 4) (f' 0) (f' 1) (f' 2) (f' 3)
          (fun i => f' (6 + i)) (fun i => f' (6 + n.toNat + i)) ∧
        Agm.ProofEqn cs d n.toNat S (f' 4) (f' 0) (f' 1) (f' 2) (f' 3) (f' 5)
          (fun i => f' (6 + i)) (fun i => f' (6 + n.toNat + i)) (fun i => f' (7 + 2 * n.toNat + i))) := by
  have hrun := setup_run T (tape E) 1 (by omega) f b n hn hbm c0 hc0 cs hcs hI gens d hd
    (by rw [draw_tape]; exact hgam) (by rw [draw_tape]; exact hdel) (by rw [draw_tape]; exact htau)
  simp only [draw_tape] at hrun
  refine ⟨_, _, _, _, _, hrun, ?_⟩
  have hg := gs_of_srs cs d (f 4) (f 0) (f 1) (f 2) (f 3) gens.G gens.H n.toNat hI
  rw [← hff 4 (by omega), ← hff 0 (by omega), ← hff 1 (by omega), ← hff 2 (by omega), ← hff 3 (by omega),
    ← hff 5 (by omega)]
  refine Agm.accept_iff cs d (f 4) (f 0) (f 1) (f 2) (f 3) n.toNat hI n.toNat_lt gens hG hH _ _ _ _ S _ rfl
    _ hg _ ?_ _ ?_
  · refine encKey_congr _ _ _ ?_ ?_ ?_
    · intro i hi
      exact hff _ (by omega)
    · intro i hi
      exact hff _ (by omega)
    · intro i hi
      rfl
  · unfold decKey tab
    refine congr (congrArg₂ _ ?_ ?_) ?_
    · rfl
    · refine List.map_congr_left fun i hi => ?_
      have hi := List.mem_range.mp hi
      dsimp only
      rw [hff (6 + i) (by omega), hff (7 + 2 * n.toNat + i) (by omega)]
    · refine List.map_congr_left fun i hi => ?_
      have hi := List.mem_range.mp hi
      dsimp only
      rw [hff (7 + 2 * n.toNat + i) (by omega)]

theorem tapeOf_poly {K : ℕ} (Good : (Fin K → E.Fr) → Prop) (i : ℕ) :
    Agm.PolyOn Good 1 (fun g => tapeOf g i) := by
  unfold tapeOf
  by_cases h : i < K
  · simp only [dif_pos h]
    exact Agm.PolyOn.coord _
  · simp only [dif_neg h]
    exact Agm.PolyOn.const _ _

/-- the scalars of a setup, read from the draws -/
def setupParams (d : EvalDomain E.Fr) (n K : ℕ) :
    Agm.Params d (fun g : Fin K → E.Fr => d.vanishing (tapeOf g 4) ≠ 0 ∧ tapeOf g 2 ≠ 0 ∧ tapeOf g 3 ≠ 0) where
  tau g := tapeOf g 4
  alpha g := tapeOf g 0
  beta g := tapeOf g 1
  gamma g := tapeOf g 2
  delta g := tapeOf g 3
  rho g := tapeOf g 5
  s g i := tapeOf g (6 + i)
  t g i := tapeOf g (6 + n + i)
  v g i := tapeOf g (7 + 2 * n + i)
  htau := tapeOf_poly _ _
  halpha := tapeOf_poly _ _
  hbeta := tapeOf_poly _ _
  hgamma := tapeOf_poly _ _
  hdelta := tapeOf_poly _ _
  hrho := tapeOf_poly _ _
  hs _ := tapeOf_poly _ _
  ht _ := tapeOf_poly _ _
  hv _ := tapeOf_poly _ _
  out _ h := h.1
  gne _ h := h.2.1
  dne _ h := h.2.2

/-- **C62** (the dichotomy) the number of setup draws on which an algebraic adversary is accepted is either
at most `(3 size + 5) p^(6 + 3 n)`, out of `p^(7 + 3 n)`, or the adversary is accepted in all successful
setups. -/
theorem C62_all_or_few (T : FftCfg E.Fr) (b n : UInt8) (hn : chunksCount E.fr b = .ok n)
    (hbm : b.toNat ≤ E.fr.modBits) (gens : EncryptionGens E) (hG : gens.G ≠ 0) (hH : gens.H ≠ 0)
    (d : EvalDomain E.Fr)
    (hd : T.newDomain (n.toNat * constraintsPerValue E.fr.modBits b.toNat + (n.toNat + 1)) = some d)
    (S : Strategy E.Fr)
    (hmany : (3 * d.size + 5) * E.fr.p ^ (6 + 3 * n.toNat) <
      {g : Fin (7 + 3 * n.toNat) → E.Fr | Accepts T b gens S (tapeOf g)}.ncard)
    (f : ℕ → E.Fr) (pk : ProvingKey E) (sk : SecretKey E) (ek : EncryptionKey E) (dk : DecryptionKey E)
    (f' : ℕ → E.Fr) (hset : setupForGroth16 T (tape E) 1 f b gens = .ok ((pk, sk, ek, dk), f')) :
    (S.cipher (public1 gens pk ek)).verifyCommitmentAndProof
      (S.proof (public1 gens pk ek) (public2 gens pk ek dk)) (prepareVerifyingKey pk.pk.vk)
      ek.prepare gens.prepare = .ok () := by
  classical
  obtain ⟨c0, cs, hc0, hcs, hI, hC, -⟩ := setup_shape hn hbm
  have good : ∀ (f : ℕ → E.Fr) pk sk ek dk f', setupForGroth16 T (tape E) 1 f b gens
      = .ok ((pk, sk, ek, dk), f') → d.vanishing (f 4) ≠ 0 ∧ f 2 ≠ 0 ∧ f 3 ≠ 0 := by
    intro f pk sk ek dk f' h
    unfold setupForGroth16 at h
    rw [hc0, Res.ok_bind] at h
    obtain ⟨⟨pk', st2⟩, hsrs, -⟩ := Res.bind_eq_ok.mp h
    obtain ⟨cs', d', hcs', hd', h1, h2, h3⟩ := setup_tape_good hsrs
    rw [hcs] at hcs'
    cases hcs'
    rw [hC, hI, hd] at hd'
    cases hd'
    exact ⟨h1, h2, h3⟩
  obtain ⟨h1, h2, h3⟩ := good f pk sk ek dk f' hset
  let g0 : Fin (7 + 3 * n.toNat) → E.Fr := fun i => f i
  have htp : ∀ i < 7 + 3 * n.toNat, f i = tapeOf g0 i := by
    intro i hi
    unfold tapeOf
    rw [dif_pos hi]
  obtain ⟨pk1, sk1, ek1, dk1, f1, hrun, hiff⟩ := run_iff T b n hn hbm c0 hc0 cs hcs hI gens hG hH d hd S f
    (tapeOf g0) htp h1 h2 h3
  rw [hset] at hrun
  simp only [Res.ok.injEq] at hrun
  obtain ⟨⟨rfl, rfl, rfl, rfl⟩, -⟩ := hrun
  have hgood0 : d.vanishing (tapeOf g0 4) ≠ 0 ∧ tapeOf g0 2 ≠ 0 ∧ tapeOf g0 3 ≠ 0 := by
    rw [← htp 4 (by omega), ← htp 2 (by omega), ← htp 3 (by omega)]
    exact ⟨h1, h2, h3⟩
  rw [hiff]
  let A : Finset (Fin (7 + 3 * n.toNat) → E.Fr) :=
    Finset.univ.filter fun g => Accepts T b gens S (tapeOf g)
  have hAcard : {g : Fin (7 + 3 * n.toNat) → E.Fr | Accepts T b gens S (tapeOf g)}.ncard = A.card := by
    rw [Set.ncard_eq_toFinset_card']
    congr 1
    ext g
    simp [A]
  rw [hAcard] at hmany
  have hAiff : ∀ g ∈ A, (d.vanishing (tapeOf g 4) ≠ 0 ∧ tapeOf g 2 ≠ 0 ∧ tapeOf g 3 ≠ 0) ∧
      S.len = n.toNat ∧ Agm.CommitEqn cs d n.toNat S (tapeOf g 4) (tapeOf g 0) (tapeOf g 1) (tapeOf g 2)
          (tapeOf g 3) (fun i => tapeOf g (6 + i)) (fun i => tapeOf g (6 + n.toNat + i)) ∧
        Agm.ProofEqn cs d n.toNat S (tapeOf g 4) (tapeOf g 0) (tapeOf g 1) (tapeOf g 2) (tapeOf g 3)
          (tapeOf g 5) (fun i => tapeOf g (6 + i)) (fun i => tapeOf g (6 + n.toNat + i))
          (fun i => tapeOf g (7 + 2 * n.toNat + i)) := by
    intro g hg
    obtain ⟨pk2, sk2, ek2, dk2, f2, hset2, hver⟩ := (Finset.mem_filter.mp hg).2
    have hgd := good _ _ _ _ _ _ hset2
    obtain ⟨pk3, sk3, ek3, dk3, f3, hrun3, hiff3⟩ := run_iff T b n hn hbm c0 hc0 cs hcs hI gens hG hH d hd S
      (tapeOf g) (tapeOf g) (fun _ _ => rfl) hgd.1 hgd.2.1 hgd.2.2
    rw [hset2] at hrun3
    simp only [Res.ok.injEq, Prod.mk.injEq] at hrun3
    obtain ⟨⟨rfl, rfl, rfl, rfl⟩, -⟩ := hrun3
    exact ⟨hgd, hiff3.mp hver⟩
  have hne : A.Nonempty := Finset.card_pos.mp (by omega)
  obtain ⟨g1, hg1⟩ := hne
  refine ⟨(hAiff g1 hg1).2.1, ?_, ?_⟩
  · by_contra hc
    have := (setupParams d n.toNat (7 + 3 * n.toNat)).count_commit cs n.toNat S g0 hgood0 hc A
      (fun g hg => ⟨(hAiff g hg).1, (hAiff g hg).2.2.1⟩)
    rw [show 7 + 3 * n.toNat - 1 = 6 + 3 * n.toNat by omega] at this
    omega
  · by_contra hc
    have := (setupParams d n.toNat (7 + 3 * n.toNat)).count_proof cs n.toNat S g0 hgood0 hc A
      (fun g hg => ⟨(hAiff g hg).1, (hAiff g hg).2.2.2⟩)
    rw [show 7 + 3 * n.toNat - 1 = 6 + 3 * n.toNat by omega] at this
    omega

/-- **C62** the knowledge error of `verify_commitment_and_proof`: an algebraic adversary that is accepted on
more than a `(3 size + 5) / p` fraction of the setup draws outputs, in every setup, the SAVER encryption of
chunks below `2^b` that its coefficients determine. -/
theorem C62_knowledge_error (T : FftCfg E.Fr) (b n : UInt8) (hn : chunksCount E.fr b = .ok n)
    (hbm : b.toNat ≤ E.fr.modBits) (gens : EncryptionGens E) (hG : gens.G ≠ 0) (hH : gens.H ≠ 0)
    (d : EvalDomain E.Fr)
    (hd : T.newDomain (n.toNat * constraintsPerValue E.fr.modBits b.toNat + (n.toNat + 1)) = some d)
    (S : Strategy E.Fr)
    (hmany : (3 * d.size + 5) * E.fr.p ^ (6 + 3 * n.toNat) <
      {g : Fin (7 + 3 * n.toNat) → E.Fr | Accepts T b gens S (tapeOf g)}.ncard) :
    ∃ (m : ℕ → ℕ) (r : E.Fr), (∀ i < n.toNat, m i < 2 ^ b.toNat ∧ m i < E.fr.p) ∧
      ∀ (R : RngCore E) (fuel : ℕ) (st st' : R.σ) pk sk ek dk,
        setupForGroth16 T R fuel st b gens = .ok ((pk, sk, ek, dk), st') →
        S.cipher (public1 gens pk ek) =
          cipher ek (fun i => pk.pk.vk.gamma_abc_g1.tail.getD i 0) m r := by
  refine C61_knowledge_sound T b n hn hbm gens hG hH d hd ?_ S
    (C62_all_or_few T b n hn hbm gens hG hH d hd S hmany)
  have hle : {g : Fin (7 + 3 * n.toNat) → E.Fr | Accepts T b gens S (tapeOf g)}.ncard ≤
      E.fr.p ^ (7 + 3 * n.toNat) := by
    refine (Set.ncard_le_card _).trans (le_of_eq ?_)
    rw [Nat.card_eq_fintype_card, Fintype.card_fun, Fintype.card_fin]
    congr 1
    exact ZMod.card _
  have h2 := hmany.trans_le hle
  rw [show 7 + 3 * n.toNat = (6 + 3 * n.toNat) + 1 by omega, pow_succ, Nat.mul_comm] at h2
  have := Nat.lt_of_mul_lt_mul_left h2
  omega

/-- the trapdoors, read from the draws, and fixed key secrets -/
def srsParams (d : EvalDomain E.Fr) (K : ℕ) (rho : E.Fr) (s t v : ℕ → E.Fr) :
    Agm.Params d (fun g : Fin K → E.Fr => d.vanishing (tapeOf g 4) ≠ 0 ∧ tapeOf g 2 ≠ 0 ∧ tapeOf g 3 ≠ 0) where
  tau g := tapeOf g 4
  alpha g := tapeOf g 0
  beta g := tapeOf g 1
  gamma g := tapeOf g 2
  delta g := tapeOf g 3
  rho _ := rho
  s _ := s
  t _ := t
  v _ := v
  htau := tapeOf_poly _ _
  halpha := tapeOf_poly _ _
  hbeta := tapeOf_poly _ _
  hgamma := tapeOf_poly _ _
  hdelta := tapeOf_poly _ _
  hrho := Agm.PolyOn.const _ _
  hs _ := Agm.PolyOn.const _ _
  ht _ := Agm.PolyOn.const _ _
  hv _ := Agm.PolyOn.const _ _
  out _ h := h.1
  gne _ h := h.2.1
  dne _ h := h.2.2

/-- **C63** the soundness error of the range check: a prover that knows the key secrets and is accepted by
`verify_proof` on more than a `(3 size + 5) / p` fraction of the draws of `generate_srs` has encrypted
elements below `2^b`. -/
theorem C63_range_error (T : FftCfg E.Fr) (b n : UInt8) (hn : chunksCount E.fr b = .ok n)
    (hbm : b.toNat ≤ E.fr.modBits) (c0 : BitsizeCheckCircuit E.fr)
    (hc0 : BitsizeCheckCircuit.new (K := E.fr) b none none true = .ok c0)
    (gens : EncryptionGens E) (hG : gens.G ≠ 0) (hH : gens.H ≠ 0) (d : EvalDomain E.Fr)
    (hd : T.newDomain (n.toNat * constraintsPerValue E.fr.modBits b.toNat + (n.toNat + 1)) = some d)
    (R' : RngCore E) (st1 : R'.σ) (ka kb kc m : ℕ → E.Fr) (r : E.Fr)
    (hmany : (3 * d.size + 5) * E.fr.p ^ 4 <
      {g : Fin 5 → E.Fr | RangeAccepts T b gens c0 R' st1 ka kb kc m r (tapeOf g)}.ncard) :
    ∀ i < n.toNat, (m i).val < 2 ^ b.toNat := by
  classical
  have hp : 3 * d.size < E.fr.p := by
    have hle : {g : Fin 5 → E.Fr | RangeAccepts T b gens c0 R' st1 ka kb kc m r (tapeOf g)}.ncard ≤
        E.fr.p ^ 5 := by
      refine (Set.ncard_le_card _).trans (le_of_eq ?_)
      rw [Nat.card_eq_fintype_card, Fintype.card_fun, Fintype.card_fin]
      congr 1
      exact ZMod.card _
    have h2 := hmany.trans_le hle
    rw [pow_succ _ 4, Nat.mul_comm] at h2
    have := Nat.lt_of_mul_lt_mul_left h2
    omega
  obtain ⟨c0', cs, hc0', hcs, hI, hC, -⟩ := setup_shape hn hbm
  rw [hc0] at hc0'
  cases hc0'
  -- acceptance in terms of the equation
  have heqn : ∀ (f : ℕ → E.Fr) pk f' g_i sk ek dk st2,
      generateSrs T (tape E) 1 f c0.generateConstraints gens = .ok (pk, f') →
      getGsForEncryption pk.pk.vk = .ok g_i →
      keygen R' st1 b gens g_i pk.pk.delta_g1 pk.gamma_g1 = .ok ((sk, ek, dk), st2) →
      (d.vanishing (f 4) ≠ 0 ∧ f 2 ≠ 0 ∧ f 3 ≠ 0) ∧
      (verifyProof (prepareVerifyingKey pk.pk.vk)
        ⟨comb ka (public1 gens pk ek), comb kb (public2 gens pk ek dk), comb kc (public1 gens pk ek)⟩
        (fieldCipher ek (fun i => g_i.getD i 0) m r) = .ok () ↔
      Agm.ev1 (comb ka (Agm.all1 cs d (f 4) n.toNat (fun i => draw R' st1 (1 + i))
          (fun i => draw R' st1 (1 + n.toNat + i)))) (f 0) (f 1) (f 2) (f 3) *
        Agm.ev2 (comb kb (Agm.lf2 cs (d.lagrange (f 4)) n.toNat (fun i => draw R' st1 (1 + i))
          (fun i => draw R' st1 (1 + n.toNat + i)) (fun i => draw R' st1 (2 + 2 * n.toNat + i))
          (draw R' st1 0))) (f 1) (f 2) (f 3) =
        f 0 * f 1 + Agm.ev1 (comb kc (Agm.all1 cs d (f 4) n.toNat (fun i => draw R' st1 (1 + i))
          (fun i => draw R' st1 (1 + n.toNat + i)))) (f 0) (f 1) (f 2) (f 3) * f 3 +
        ((r * (1 + ∑ i ∈ Finset.range n.toNat, draw R' st1 (1 + i))) * f 3 +
          (∑ i ∈ Finset.range n.toNat, m i *
            (mixAt cs (d.lagrange (f 4)) (f 0) (f 1) (.inst (i + 1)) * (f 2)⁻¹)) +
          mixAt cs (d.lagrange (f 4)) (f 0) (f 1) (.inst 0) * (f 2)⁻¹) * f 2) := by
    intro f pk f' g_i sk ek dk st2 hsrs hg hkg
    obtain ⟨cs', d', hcs', hd', h1, h2, h3⟩ := setup_tape_good hsrs
    rw [hcs] at hcs'
    cases hcs'
    rw [hC, hI, hd] at hd'
    cases hd'
    refine ⟨⟨h1, h2, h3⟩, ?_⟩
    have hrun := srs_run T (tape E) 1 (by omega) f b n hn hbm c0 hc0 cs hcs gens d hd
      (by rw [draw_tape]; exact h2) (by rw [draw_tape]; exact h3) (by rw [draw_tape]; exact h1)
    rw [hsrs] at hrun
    simp only [draw_tape, Res.ok.injEq, Prod.mk.injEq] at hrun
    obtain ⟨hpk, -⟩ := hrun
    obtain ⟨n', hn', hlen⟩ := keygen_ok_inv hkg
    rw [hn] at hn'
    cases hn'
    rw [keygen_eq R' st1 gens g_i _ _ hn hlen] at hkg
    simp only [Res.ok.injEq, Prod.mk.injEq] at hkg
    obtain ⟨⟨rfl, rfl, rfl⟩, -⟩ := hkg
    refine Agm.verify_iff cs d (f 4) (f 0) (f 1) (f 2) (f 3) n.toNat hI gens hG hH
      (fun i => draw R' st1 (1 + i)) (fun i => draw R' st1 (1 + n.toNat + i))
      (fun i => draw R' st1 (2 + 2 * n.toNat + i)) (draw R' st1 0) ka kb kc pk hpk g_i hg _ rfl _ _ ?_
    refine (Agm.componentSum_fieldCipher n.toNat _ _ _ _ _ _ m r).trans ?_
    rw [hpk] at hg
    rw [gs_of_srs cs d _ _ _ _ _ _ _ n.toNat hI] at hg
    cases hg
    rw [add_smul, Finset.sum_smul]
    refine congrArg₂ _ ?_ (Finset.sum_congr rfl fun i hi => ?_)
    · rw [hpk]
      simp only [srsKey]
      rw [smul_smul]
    · rw [getD_tab, if_pos (Finset.mem_range.mp hi), smul_smul]
  refine C60_range_sound T b n hn hbm c0 hc0 gens hG hH d hd hp R' st1 ka kb kc m r ?_
  intro f pk f' g_i sk ek dk st2 hsrs hg hkg
  obtain ⟨hgd, hiff⟩ := heqn f pk f' g_i sk ek dk st2 hsrs hg hkg
  rw [hiff]
  let g0 : Fin 5 → E.Fr := fun i => f i
  have htp : ∀ i < 5, f i = tapeOf g0 i := by
    intro i hi
    unfold tapeOf
    rw [dif_pos hi]
  rw [htp 4 (by omega), htp 2 (by omega), htp 3 (by omega)] at hgd
  rw [htp 4 (by omega), htp 3 (by omega), htp 2 (by omega), htp 1 (by omega), htp 0 (by omega)]
  by_contra hc
  let A : Finset (Fin 5 → E.Fr) :=
    Finset.univ.filter fun g => RangeAccepts T b gens c0 R' st1 ka kb kc m r (tapeOf g)
  have hAcard : {g : Fin 5 → E.Fr | RangeAccepts T b gens c0 R' st1 ka kb kc m r (tapeOf g)}.ncard
      = A.card := by
    rw [Set.ncard_eq_toFinset_card']
    congr 1
    ext g
    simp [A]
  rw [hAcard] at hmany
  have := (srsParams d 5 (draw R' st1 0) (fun i => draw R' st1 (1 + i))
    (fun i => draw R' st1 (1 + n.toNat + i)) (fun i => draw R' st1 (2 + 2 * n.toNat + i))).count_range
    cs n.toNat ka kb kc m r g0 hgd _ (fun _ => rfl) _ (fun _ => Iff.rfl) hc A (by
      intro g hg
      obtain ⟨pk2, f2, g_i2, sk2, ek2, dk2, st3, e1, e2, e3, e4⟩ := (Finset.mem_filter.mp hg).2
      obtain ⟨i1, i2⟩ := heqn _ _ _ _ _ _ _ _ e1 e2 e3
      exact ⟨i1, i2.mp e4⟩)
  exact absurd hmany (not_lt.mpr this)

/-- **C62** honest encryptors are accepted on all but a `(size + 2) / p` fraction of the draws (those on
which `generate_srs` does not succeed at the first candidate); so for `p > 4 size + 7` the hypotheses of
`C62_knowledge_error` are met for all chunks in range, and the two kinds of strategies are separated. -/
theorem C62_honest_fraction (T : FftCfg E.Fr) (b n : UInt8) (hn : chunksCount E.fr b = .ok n)
    (hbm : b.toNat ≤ E.fr.modBits) (gens : EncryptionGens E) (hG : gens.G ≠ 0) (hH : gens.H ≠ 0)
    (d : EvalDomain E.Fr)
    (hd : T.newDomain (n.toNat * constraintsPerValue E.fr.modBits b.toNat + (n.toNat + 1)) = some d)
    (hp : d.size < E.fr.p)
    (m : ℕ → ℕ) (hm : ∀ i < n.toNat, m i < 2 ^ b.toNat) (r : E.Fr) :
    ∃ S : Strategy E.Fr,
      (∀ (R : RngCore E) (fuel : ℕ) (st st' : R.σ) pk sk ek dk,
        setupForGroth16 T R fuel st b gens = .ok ((pk, sk, ek, dk), st') →
        S.cipher (public1 gens pk ek) =
          cipher ek (fun i => pk.pk.vk.gamma_abc_g1.tail.getD i 0) m r) ∧
      E.fr.p ^ (7 + 3 * n.toNat) ≤
        {g : Fin (7 + 3 * n.toNat) → E.Fr | Accepts T b gens S (tapeOf g)}.ncard +
          (d.size + 2) * E.fr.p ^ (6 + 3 * n.toNat) := by
  classical
  obtain ⟨S, hS⟩ := C61_honest_strategy T b n hn hbm gens d hd m hm r
  refine ⟨S, fun R fuel st st' pk sk ek dk h => (hS R fuel st st' pk sk ek dk h).1, ?_⟩
  obtain ⟨c0, cs, hc0, hcs, hI, hC, -⟩ := setup_shape hn hbm
  let A : Finset (Fin (7 + 3 * n.toNat) → E.Fr) :=
    Finset.univ.filter fun g => Accepts T b gens S (tapeOf g)
  let B : Finset (Fin (7 + 3 * n.toNat) → E.Fr) :=
    Finset.univ.filter fun g => d.vanishing (tapeOf g 4) * (tapeOf g 2 * tapeOf g 3) = 0
  have hAcard : {g : Fin (7 + 3 * n.toNat) → E.Fr | Accepts T b gens S (tapeOf g)}.ncard = A.card := by
    rw [Set.ncard_eq_toFinset_card']
    congr 1
    ext g
    simp [A]
  rw [hAcard]
  have hcov : (Finset.univ : Finset (Fin (7 + 3 * n.toNat) → E.Fr)) ⊆ A ∪ B := by
    intro g _
    by_cases hg : d.vanishing (tapeOf g 4) * (tapeOf g 2 * tapeOf g 3) = 0
    · exact Finset.mem_union_right _ (Finset.mem_filter.mpr ⟨Finset.mem_univ _, hg⟩)
    · refine Finset.mem_union_left _ (Finset.mem_filter.mpr ⟨Finset.mem_univ _, ?_⟩)
      have h1 := left_ne_zero_of_mul hg
      have h2 := left_ne_zero_of_mul (right_ne_zero_of_mul hg)
      have h3 := right_ne_zero_of_mul (right_ne_zero_of_mul hg)
      obtain ⟨pk, sk, ek, dk, f1, hrun, -⟩ := run_iff T b n hn hbm c0 hc0 cs hcs hI gens hG hH d hd S
        (tapeOf g) (tapeOf g) (fun _ _ => rfl) h1 h2 h3
      exact ⟨pk, sk, ek, dk, f1, hrun, (hS (tape E) 1 _ _ pk sk ek dk hrun).2⟩
  have hB : B.card ≤ (d.size + 2) * E.fr.p ^ (7 + 3 * n.toNat - 1) := by
    have hcard : Fintype.card E.Fr = E.fr.p := ZMod.card _
    have hout : ∃ tau : E.Fr, d.vanishing tau ≠ 0 := by
      have h := Agm.card_outside d
      have : 0 < (Finset.univ.filter fun t : E.Fr => d.vanishing t ≠ 0).card := by omega
      obtain ⟨t, ht⟩ := Finset.card_pos.mp this
      exact ⟨t, (Finset.mem_filter.mp ht).2⟩
    obtain ⟨tau, htau⟩ := hout
    have hv : Agm.PolyOn (fun _ : Fin (7 + 3 * n.toNat) → E.Fr => True) d.size
        (fun g => d.vanishing (tapeOf g 4)) := by
      refine ((((tapeOf_poly _ 4).pow d.size).mono (by omega)).sub (Agm.PolyOn.const _ 1)).congr
        fun g _ => ?_
      rfl
    refine ((hv.mul ((tapeOf_poly _ 2).mul (tapeOf_poly _ 3) (le_refl _)) (le_refl _)).count
      (fun i => if i.val = 4 then tau else 1) trivial ?_ B
      (fun g hg => ⟨trivial, (Finset.mem_filter.mp hg).2⟩)).trans
      (le_of_eq (congrArg (fun q => (d.size + 2) * q ^ (7 + 3 * n.toNat - 1)) hcard))
    have e4 : tapeOf (fun i : Fin (7 + 3 * n.toNat) => if i.val = 4 then tau else (1 : E.Fr)) 4 = tau := by
      unfold tapeOf
      rw [dif_pos (by omega)]
      simp
    have e2 : tapeOf (fun i : Fin (7 + 3 * n.toNat) => if i.val = 4 then tau else (1 : E.Fr)) 2 = 1 := by
      unfold tapeOf
      rw [dif_pos (by omega)]
      simp
    have e3 : tapeOf (fun i : Fin (7 + 3 * n.toNat) => if i.val = 4 then tau else (1 : E.Fr)) 3 = 1 := by
      unfold tapeOf
      rw [dif_pos (by omega)]
      simp
    rw [e4, e2, e3, mul_one, mul_one]
    exact htau
  have hun : (Finset.univ : Finset (Fin (7 + 3 * n.toNat) → E.Fr)).card = E.fr.p ^ (7 + 3 * n.toNat) := by
    rw [Finset.card_univ, Fintype.card_fun, Fintype.card_fin]
    congr 1
    exact ZMod.card _
  rw [← hun, show 6 + 3 * n.toNat = 7 + 3 * n.toNat - 1 by omega]
  exact (Finset.card_le_card hcov).trans ((Finset.card_union_le _ _).trans (Nat.add_le_add_left hB _))

end

/-- The hypothesis of `C62_knowledge_error` is met by the concrete instance with 8-bit chunks, for the
honest strategy. -/
example : ∃ S : Strategy Fix.E.Fr, (3 * Fix.dom8.size + 5) * Fix.E.fr.p ^ (6 + 3 * (8 : UInt8).toNat) <
    {g : Fin (7 + 3 * (8 : UInt8).toNat) → Fix.E.Fr | Accepts goldFft 8 Fix.gens S (tapeOf g)}.ncard := by
  have hsz := Fix.dom8_small
  have hbig : 4 * Fix.dom8.size + 8 ≤ Fix.E.fr.p := by
    rw [show Fix.dom8.size = 2 ^ 10 from rfl]
    exact (by decide : 4 * 2 ^ 10 + 8 ≤ goldR)
  obtain ⟨S, -, h⟩ := C62_honest_fraction (E := Fix.E) goldFft 8 8 Fix.count8 Fix.bits8 Fix.gens
    Fix.gens_ne.1 Fix.gens_ne.2 Fix.dom8 Fix.dom8_count (by omega) (fun i => i + 1) (by
      intro i hi
      rw [Fix.eight] at hi ⊢
      omega) (5 : Fix.F)
  refine ⟨S, ?_⟩
  generalize {g : Fin (7 + 3 * (8 : UInt8).toNat) → Fix.E.Fr | Accepts goldFft 8 Fix.gens S
    (tapeOf g)}.ncard = c at h ⊢
  rw [show 7 + 3 * (8 : UInt8).toNat = (6 + 3 * (8 : UInt8).toNat) + 1 from rfl, pow_succ] at h
  have hpos : 0 < Fix.E.fr.p ^ (6 + 3 * (8 : UInt8).toNat) := Nat.pow_pos (by omega)
  generalize Fix.E.fr.p ^ (6 + 3 * (8 : UInt8).toNat) = q at h hpos ⊢
  have h2 := Nat.mul_le_mul_left q hbig
  nlinarith

end Verif
