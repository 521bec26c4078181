/-
Property C55: when the decryption precondition "no zero generator, no zero decryption-key component"
holds for keys and SRSs made by this library.
-/
import Verif.Props.Setup
import Verif.Lemmas.Gens
import Verif.InstancesFft
import Verif.Fixtures

namespace Verif
open Spec

section
variable {E : Engine}

theorem sampleOutside_inv {R : RngCore E} {d : EvalDomain E.Fr} {fuel : ℕ} {st st' : R.σ}
    {t : E.Fr} (h : sampleOutside R d fuel st = .ok (t, st')) :
    ∃ k < fuel, t = draw R st k ∧ d.vanishing t ≠ 0 ∧ (∀ j < k, d.vanishing (draw R st j) = 0) ∧
      st' = after R st (k + 1) := by
  induction fuel generalizing st with
  | zero => simp [sampleOutside] at h
  | succ n ih =>
    simp only [sampleOutside] at h
    split at h
    · rename_i h0
      obtain ⟨k, hk, h1, h2, h3, h4⟩ := ih h
      have hsh : ∀ j, draw R ((R.fr st).2) j = draw R st (j + 1) := fun j => by
        rw [show (R.fr st).2 = after R st 1 from rfl, draw_after, Nat.add_comm]
      refine ⟨k + 1, by omega, by rw [h1, hsh], h2, ?_, ?_⟩
      · intro j hj
        cases j with
        | zero => exact h0
        | succ j => rw [← hsh]; exact h3 j (by omega)
      · rw [h4, show (R.fr st).2 = after R st 1 from rfl, after_after, Nat.add_comm 1]
    · rename_i hne
      simp only [Res.ok.injEq, Prod.mk.injEq] at h
      exact ⟨0, by omega, h.1.symm, by rw [← h.1]; exact hne, by simp, h.2.symm⟩

/-- everything a successful `generate_srs` tells, with the random draws -/
theorem srs_inv_draws {T : FftCfg E.Fr} {R : RngCore E} {fuel : ℕ} {st st' : R.σ}
    {C : Synthesizer E.Fr} {gens : EncryptionGens E} {pk : ProvingKey E}
    (h : generateSrs T R fuel st C gens = .ok (pk, st')) :
    ∃ (cs : CS E.Fr) (d : EvalDomain E.Fr) (k : ℕ),
      C (CS.new true) = .ok cs ∧ T.newDomain (cs.cons.length + cs.numInst) = some d ∧
      k < fuel ∧ d.vanishing (draw R st (4 + k)) ≠ 0 ∧
      (∀ j < k, d.vanishing (draw R st (4 + j)) = 0) ∧
      draw R st 2 ≠ 0 ∧ draw R st 3 ≠ 0 ∧ st' = after R st (4 + k + 1) ∧
      pk = srsKey cs d (draw R st (4 + k)) (draw R st 0) (draw R st 1) (draw R st 2) (draw R st 3)
        gens.G gens.H := by
  unfold generateSrs at h
  obtain ⟨⟨pk', st1⟩, hp, h⟩ := Res.bind_eq_ok.mp h
  simp only [Res.pure_eq, Res.ok.injEq, Prod.mk.injEq] at h
  obtain ⟨rfl, rfl⟩ := h
  unfold generateParametersWithQap at hp
  obtain ⟨cs, hcs, hp⟩ := Res.bind_eq_ok.mp hp
  cases hd : T.newDomain (cs.cons.length + cs.numInst) with
  | none => rw [hd] at hp; simp at hp
  | some d =>
    rw [hd] at hp
    simp only at hp
    obtain ⟨⟨t, st2⟩, ht, hp⟩ := Res.bind_eq_ok.mp hp
    simp only at hp
    split at hp
    · cases hp
    · rename_i hg
      split at hp
      · cases hp
      · rename_i hdl
        simp only [Res.ok.injEq, Prod.mk.injEq] at hp
        obtain ⟨k, hk, h1, h2, h3, h4⟩ := sampleOutside_inv (st := after R st 4) ht
        rw [draw_after] at h1
        subst h1
        refine ⟨cs, d, k, hcs, hd, hk, h2, fun j hj => by rw [← draw_after]; exact h3 j hj, hg, hdl,
          ?_, ?_⟩
        · rw [← hp.2, h4, after_after]; rfl
        · unfold srsKey mixAt
          rw [← hp.1, mulBigint_intoBigint]
          rfl

namespace Spec

/-- the `j`-th Lagrange polynomial of the domain `1, omega, .., omega^(N-1)` at a point `tau` outside
the domain: `(tau^N - 1) / N * omega^j / (tau - omega^j)` -/
def lagrangeAt {F : Type} [Field F] (N : ℕ) (omega tau : F) (j : ℕ) : F :=
  (tau ^ N - 1) / N * (omega ^ j / (tau - omega ^ j))

/-- The values of `beta` for which the `i`-th chunk generator is zero (`k = i * rows + bits`,
`j = n * rows + i + 1`): `omega^k (tau - omega^j) / (omega^j (tau - omega^k))`. -/
def badBetas {F : Type} [Field F] [DecidableEq F] (n rows bits : ℕ) (omega tau : F) : Finset F :=
  (Finset.range n).image fun i =>
    omega ^ (i * rows + bits) * (tau - omega ^ (n * rows + (i + 1))) /
      (omega ^ (n * rows + (i + 1)) * (tau - omega ^ (i * rows + bits)))

end Spec

theorem lagrange_eq_lagrangeAt (d : EvalDomain E.Fr) (t : E.Fr) (h : d.vanishing t ≠ 0) (j : ℕ) :
    d.lagrange t j = lagrangeAt d.size d.omega t j := by
  unfold EvalDomain.lagrange lagrangeAt
  rw [if_neg h, EvalDomain.vanishing]
  rw [mul_inv]
  ring

/-- **C55** the chunk generators of an SRS for the bit-size circuit, in closed form: with the trapdoors
`beta`, `gamma` (draws 1 and 2) and the evaluation point `tau` (the first later draw outside the
domain), generator `i` is `((beta * L_j(tau) - L_k(tau)) / gamma) * G` with `k = i * rows + bits` and
`j = n * rows + i + 1`, where `rows` is the number of constraints per value. -/
theorem C55_generators (T : FftCfg E.Fr) (R : RngCore E) (fuel : ℕ) (st st' : R.σ) (b n : UInt8)
    (hn : chunksCount E.fr b = .ok n) (c0 : BitsizeCheckCircuit E.fr)
    (hc0 : BitsizeCheckCircuit.new (K := E.fr) b none none true = .ok c0)
    (gens : EncryptionGens E) (pk : ProvingKey E)
    (hsrs : generateSrs T R fuel st c0.generateConstraints gens = .ok (pk, st')) :
    ∃ (d : EvalDomain E.Fr) (k : ℕ) (rows : ℕ),
      rows = constraintsPerValue E.fr.modBits b.toNat ∧
      T.newDomain (n.toNat * rows + (n.toNat + 1)) = some d ∧
      (draw R st (4 + k)) ^ d.size ≠ 1 ∧ (∀ j < k, (draw R st (4 + j)) ^ d.size = 1) ∧
      pk.pk.vk.gamma_abc_g1.tail = tab n.toNat fun i =>
        ((draw R st 1 * lagrangeAt d.size d.omega (draw R st (4 + k)) (n.toNat * rows + (i + 1)) -
          lagrangeAt d.size d.omega (draw R st (4 + k)) (i * rows + E.fr.modBits)) / draw R st 2)
          • gens.G := by
  obtain ⟨hbm, hnum⟩ := srs_bitsize_le hc0 hsrs hn
  obtain ⟨e1, e2, e3, -, -⟩ := new_ok hc0
  obtain ⟨cs, d, k, hcs, hd, hk, hv, hv', hg, hdl, -, hpk⟩ := srs_inv_draws hsrs
  obtain ⟨cs1, hcs1, hI, hC, -⟩ := (C44_shape c0 true).1 (Or.inl rfl) (by rw [e1]; exact hbm)
  obtain ⟨xs, hxs, -, hrun⟩ := genConstraints_ok c0 true (Or.inl rfl) (by rw [e1]; exact hbm)
  rw [hcs] at hcs1 hrun
  cases hcs1
  rw [e3, if_pos rfl, hnum] at hI
  rw [e1, hnum] at hC
  rw [hnum] at hxs
  have hcons := Res.ok.inj hrun
  have hcons : cs.cons = blocks (K := E.fr) E.fr.modBits b.toNat
      (tab n.toNat (valueVar true)) 0 := by
    rw [hcons]
    simp only [e1, e3, hxs, if_true]
  have hrows : constraintsPerValue E.fr.modBits b.toNat =
      if E.fr.modBits ≤ b.toNat then E.fr.modBits + 1 else 2 * E.fr.modBits - b.toNat + 1 := by
    unfold constraintsPerValue
    split <;> split <;> omega
  refine ⟨d, k, _, rfl, by rw [← hC, ← hI]; exact hd, ?_, ?_, ?_⟩
  · intro h; exact hv (by rw [EvalDomain.vanishing, h, sub_self])
  · intro j hj; exact sub_eq_zero.mp (hv' j hj)
  · rw [hpk]
    simp only [srsKey, hI]
    rw [List.range_succ_eq_map, List.map_cons, List.tail_cons, List.map_map]
    refine List.map_congr_left fun i hi => ?_
    have hi := List.mem_range.mp hi
    simp only [Function.comp_apply]
    rw [div_eq_mul_inv]
    congr 2
    obtain ⟨w1, w2, w3⟩ := blocks_wmat (K := E.fr) E.fr.modBits b.toNat
      (tab n.toNat (valueVar true)) 0 i (d.lagrange (draw R st (4 + k)))
    have m1 : matrixAt cs (d.lagrange (draw R st (4 + k))) R1C.a (.inst (i + 1)) = 0 := by
      rw [← w1, ← hcons]; rfl
    have m2 : matrixAt cs (d.lagrange (draw R st (4 + k))) R1C.b (.inst (i + 1)) = 0 := by
      rw [← w2, ← hcons]; rfl
    have m3 : matrixAt cs (d.lagrange (draw R st (4 + k))) R1C.c (.inst (i + 1)) =
        -d.lagrange (draw R st (4 + k))
          (i * constraintsPerValue E.fr.modBits b.toNat + E.fr.modBits) := by
      have : matrixAt cs (d.lagrange (draw R st (4 + k))) R1C.c (.inst (i + 1)) =
        wmat cs.cons (d.lagrange (draw R st (4 + k))) R1C.c (.inst (i + 1)) := rfl
      rw [this, hcons, w3, length_tab, Finset.sum_eq_single i]
      · rw [getD_tab, if_pos hi, hrows]
        simp [valueVar]
      · intro j hj hne
        rw [getD_tab, if_pos (Finset.mem_range.mp hj)]
        simp [valueVar, hne]
      · intro h; exact absurd (Finset.mem_range.mpr hi) h
    simp only [mixAt, qapA, qapB, qapC, m1, m2, m3, hC, ← lagrange_eq_lagrangeAt d _ hv]
    ring

theorem generator_zero_iff (d : EvalDomain E.Fr) (tau beta gamma : E.Fr) (hg : gamma ≠ 0)
    (ht : tau ^ d.size ≠ 1) (j k : ℕ) (G : E.G1) :
    ((beta * lagrangeAt d.size d.omega tau j - lagrangeAt d.size d.omega tau k) / gamma) • G = 0 ↔
      G = 0 ∨ d.omega ^ k * (tau - d.omega ^ j) / (d.omega ^ j * (tau - d.omega ^ k)) = beta := by
  have hw : ∀ i, d.omega ^ i ≠ 0 := fun i => pow_ne_zero _
    (d.prim.ne_zero (by have := d.size_pos; omega))
  have hd : ∀ i, tau - d.omega ^ i ≠ 0 := by
    intro i h
    apply ht
    rw [sub_eq_zero.mp h, ← pow_mul, mul_comm, pow_mul, d.prim.pow_eq_one, one_pow]
  have hs := d.size_ne_zero
  have hz : tau ^ d.size - 1 ≠ 0 := sub_ne_zero.mpr ht
  rw [smul_eq_zero, or_comm]
  refine or_congr_right ?_
  rw [div_eq_zero_iff, or_iff_left hg, div_eq_iff (mul_ne_zero (hw j) (hd k)), sub_eq_zero]
  unfold lagrangeAt
  have hwj := hw j
  have hdj := hd j
  have hdk := hd k
  constructor
  · intro h
    have h' : (tau ^ d.size - 1) / (d.size : E.Fr) *
        (beta * (d.omega ^ j / (tau - d.omega ^ j)) - d.omega ^ k / (tau - d.omega ^ k)) = 0 := by
      linear_combination h
    have h2 := (mul_eq_zero.mp h').resolve_left (div_ne_zero hz hs)
    have h3 : beta * (d.omega ^ j / (tau - d.omega ^ j)) = d.omega ^ k / (tau - d.omega ^ k) :=
      sub_eq_zero.mp h2
    rw [← mul_div_assoc, div_eq_div_iff hdj hdk] at h3
    linear_combination -h3
  · intro h
    have h3 : beta * (d.omega ^ j / (tau - d.omega ^ j)) = d.omega ^ k / (tau - d.omega ^ k) := by
      rw [← mul_div_assoc, div_eq_div_iff hdj hdk]
      linear_combination -h
    linear_combination (tau ^ d.size - 1) / (d.size : E.Fr) * h3

/-- **C55** a generator of the SRS is zero only if `G` is, or if `beta` is one of at most
`chunks_count` values that are determined by the domain and the evaluation point `tau`, which is drawn
independently of `beta`. -/
theorem C55_zero_generators (T : FftCfg E.Fr) (R : RngCore E) (fuel : ℕ) (st st' : R.σ)
    (b n : UInt8) (hn : chunksCount E.fr b = .ok n) (c0 : BitsizeCheckCircuit E.fr)
    (hc0 : BitsizeCheckCircuit.new (K := E.fr) b none none true = .ok c0)
    (gens : EncryptionGens E) (pk : ProvingKey E)
    (hsrs : generateSrs T R fuel st c0.generateConstraints gens = .ok (pk, st'))
    (rows : ℕ) (hrows : rows = constraintsPerValue E.fr.modBits b.toNat)
    (d : EvalDomain E.Fr) (hd : T.newDomain (n.toNat * rows + (n.toNat + 1)) = some d)
    (k : ℕ) (hk : (draw R st (4 + k)) ^ d.size ≠ 1)
    (hk' : ∀ j < k, (draw R st (4 + j)) ^ d.size = 1) :
    ((∃ g ∈ pk.pk.vk.gamma_abc_g1.tail, g = 0) ↔
      (0 < n.toNat ∧ gens.G = 0) ∨
      draw R st 1 ∈ badBetas n.toNat rows E.fr.modBits d.omega (draw R st (4 + k))) ∧
    ∀ omega tau : E.Fr, (badBetas n.toNat rows E.fr.modBits omega tau).card ≤ n.toNat := by
  constructor
  · obtain ⟨d1, k1, rows1, h1, h2, h3, h4, h5⟩ := C55_generators T R fuel st st' b n hn c0 hc0 gens pk
      hsrs
    rw [← hrows] at h1
    subst h1
    rw [hd] at h2
    cases h2
    have hkk : k1 = k := by
      rcases Nat.lt_trichotomy k1 k with h | h | h
      · exact absurd (hk' _ h) h3
      · exact h
      · exact absurd (h4 _ h) hk
    subst hkk
    have hg : draw R st 2 ≠ 0 := by
      obtain ⟨-, -, -, -, -, -, -, -, h, -⟩ := srs_inv_draws hsrs
      exact h
    rw [h5]
    unfold badBetas tab
    simp only [List.mem_map, List.mem_range, Finset.mem_image, Finset.mem_range, ↓existsAndEq,
      and_true]
    constructor
    · rintro ⟨i, hi, h⟩
      rcases (generator_zero_iff d _ _ _ hg hk _ _ _).mp h with h | h
      · exact Or.inl ⟨by omega, h⟩
      · exact Or.inr ⟨i, hi, h⟩
    · rintro (⟨h0, h⟩ | ⟨i, hi, h⟩)
      · exact ⟨0, h0, (generator_zero_iff d _ _ _ hg hk _ _ _).mpr (Or.inl h)⟩
      · exact ⟨i, hi, (generator_zero_iff d _ _ _ hg hk _ _ _).mpr (Or.inr h)⟩
  · intro omega tau
    exact Finset.card_image_le.trans (by simp)

/-- **C55** the decryption-key part: on a successful `keygen`, every `V_2[i]` is nonzero exactly when
there are no chunks, or the generator `H`, the secret `rho` (first draw) and all `v_i` (the last `n`
draws) are nonzero. -/
theorem C55_decryption_key (R : RngCore E) (st st' : R.σ) (b n : UInt8)
    (hn : chunksCount E.fr b = .ok n) (gens : EncryptionGens E) (g_i : List E.G1) (D C : E.G1)
    (sk : SecretKey E) (ek : EncryptionKey E) (dk : DecryptionKey E)
    (h : keygen R st b gens g_i D C = .ok ((sk, ek, dk), st')) :
    (∀ V ∈ dk.V_2, V ≠ 0) ↔ n.toNat = 0 ∨ (gens.H ≠ 0 ∧ draw R st 0 ≠ 0 ∧
      ∀ i < n.toNat, draw R st (2 + 2 * n.toNat + i) ≠ 0) := by
  have hg : n.toNat ≤ g_i.length := by
    by_contra hc
    rcases (C07_keygen R st b n gens g_i D C hn).2 (by omega) with h'
    rw [h] at h'
    cases h'
  rw [keygen_eq R st gens g_i D C hn hg] at h
  simp only [Res.ok.injEq, Prod.mk.injEq] at h
  obtain ⟨⟨-, -, rfl⟩, -⟩ := h
  unfold decKey tab
  simp only [List.mem_map, List.mem_range, forall_exists_index, and_imp, forall_apply_eq_imp_iff₂,
    ne_eq, smul_eq_zero, mul_eq_zero, not_or]
  constructor
  · intro h
    rcases Nat.eq_zero_or_pos n.toNat with h0 | h0
    · exact Or.inl h0
    · exact Or.inr ⟨(h 0 h0).2, (h 0 h0).1.1, fun i hi => (h i hi).1.2⟩
  · rintro (h0 | ⟨h1, h2, h3⟩) i hi
    · omega
    · exact ⟨⟨h2, h3 i hi⟩, h1⟩

/-- **C55** the pipeline of C54 in terms of the random draws only: `setup_for_groth16` succeeds and
everything encrypted, with proof, under its keys verifies and decrypts, whenever the generators `G`, `H`
are nonzero, `gamma`, `delta`, `rho` and the `v_i` are nonzero, `tau` is outside the domain and `beta`
is not one of the at most `chunks_count` exceptional values. -/
theorem C55_pipeline (T : FftCfg E.Fr) (R : RngCore E) (fuel : ℕ) (st : R.σ) (b n : UInt8)
    (hb : Supported b) (hn : chunksCount E.fr b = .ok n) (hbm : b.toNat ≤ E.fr.modBits)
    (hal : 64 * E.fr.limbs < E.fr.modBits + b.toNat ∧ chunksNeeded E.fr b.toNat ≤ 255)
    (gens : EncryptionGens E) (hG : gens.G ≠ 0) (hH : gens.H ≠ 0)
    (rows : ℕ) (hrows : rows = constraintsPerValue E.fr.modBits b.toNat)
    (d : EvalDomain E.Fr) (hd : T.newDomain (n.toNat * rows + (n.toNat + 1)) = some d)
    (hf : 0 < fuel) (htau : (draw R st 4) ^ d.size ≠ 1)
    (hbeta : draw R st 1 ∉ badBetas n.toNat rows E.fr.modBits d.omega (draw R st 4))
    (hgamma : draw R st 2 ≠ 0) (hdelta : draw R st 3 ≠ 0) (hrho : draw R st 5 ≠ 0)
    (hv : ∀ i < n.toNat, draw R st (7 + 2 * n.toNat + i) ≠ 0) :
    ∃ pk sk ek dk st', setupForGroth16 T R fuel st b gens = .ok ((pk, sk, ek, dk), st') ∧
      ∀ (chk : Bool) (R' : RngCore E) (st1 : R'.σ) (m : E.Fr),
        ∃ ct r proof nu st2, encryptWithProof T chk R' st1 m ek pk b = .ok ((ct, r, proof), st2) ∧
          ct.verifyCommitmentAndProof proof (prepareVerifyingKey pk.pk.vk) ek.prepare gens.prepare
            = .ok () ∧
          ct.decryptGivenGroth16Vk chk sk dk.prepare pk.pk.vk b = .ok (m, nu) ∧
          E.e nu gens.H = E.e ct.X_r dk.V_0 := by
  have hb0 : b ≠ 0 := by rcases hb with rfl | rfl | rfl <;> decide
  obtain ⟨c0, N, hc0, hN, -, hsome⟩ := C49_srs_cases T R fuel st b hb0 hbm gens
  obtain ⟨e1, e2, e3, e4, -⟩ := new_ok hc0
  have hn0 : c0.num_values = n := by
    have := e4 rfl
    rw [hn] at this
    exact (Res.ok.inj this).symm
  have hnum : numValues c0 = n.toNat := by simp [numValues, e2, hn0]
  rw [hnum, ← hrows] at hN
  rw [← hN] at hd
  have htau' : d.vanishing (draw R st (4 + 0)) ≠ 0 := sub_ne_zero.mpr htau
  obtain ⟨pk, hsrs⟩ := (hsome d hd 0 hf htau' (by simp)).2 hgamma hdelta
  rw [hN] at hd
  obtain ⟨sk, ek, dk, st2, hset, -, -, -, -, -, -, -, hkg⟩ :=
    (C49_setup_consistent T R fuel st b n hn gens c0 hc0).1 pk _ hsrs
  refine ⟨pk, sk, ek, dk, st2, hset, ?_⟩
  intro chk R' st1 m
  refine C54_pipeline T R fuel st st2 b hb hal gens pk sk ek dk hset ?_ ?_ chk R' st1 m
  · intro g hg h0
    rcases (C55_zero_generators T R fuel st _ b n hn c0 hc0 gens pk hsrs rows hrows d hd 0 htau
      (by simp)).1.mp ⟨g, hg, h0⟩ with h | h
    · exact hG h.2
    · exact hbeta h
  · refine (C55_decryption_key R _ st2 b n hn gens _ _ _ sk ek dk hkg).mpr (Or.inr ⟨hH, ?_, ?_⟩)
    · rw [draw_after]; exact hrho
    · intro i hi
      rw [draw_after, show 4 + 0 + 1 + (2 + 2 * n.toNat + i) = 7 + 2 * n.toNat + i by omega]
      exact hv i hi

/-- **C55** with generators from `EncryptionGens::new_using_rng`: they are the first point of each group
the random source yields, and the pipeline works whenever these two points are not the identity and the
later scalar draws avoid the exceptional values. -/
theorem C55_random_generators (T : FftCfg E.Fr) (R : RngCore E) (fuel : ℕ) (st0 st1 st : R.σ)
    (G : E.G1) (H : E.G2) (hG1 : R.g1 st0 = (G, st1)) (hH1 : R.g2 st1 = (H, st)) (b n : UInt8)
    (hb : Supported b) (hn : chunksCount E.fr b = .ok n) (hbm : b.toNat ≤ E.fr.modBits)
    (hal : 64 * E.fr.limbs < E.fr.modBits + b.toNat ∧ chunksNeeded E.fr b.toNat ≤ 255)
    (hG : G ≠ 0) (hH : H ≠ 0)
    (rows : ℕ) (hrows : rows = constraintsPerValue E.fr.modBits b.toNat)
    (d : EvalDomain E.Fr) (hd : T.newDomain (n.toNat * rows + (n.toNat + 1)) = some d)
    (hf : 0 < fuel) (htau : (draw R st 4) ^ d.size ≠ 1)
    (hbeta : draw R st 1 ∉ badBetas n.toNat rows E.fr.modBits d.omega (draw R st 4))
    (hgamma : draw R st 2 ≠ 0) (hdelta : draw R st 3 ≠ 0) (hrho : draw R st 5 ≠ 0)
    (hv : ∀ i < n.toNat, draw R st (7 + 2 * n.toNat + i) ≠ 0) :
    ∃ gens, EncryptionGens.newUsingRng R st0 = (gens, st) ∧ gens.G = G ∧ gens.H = H ∧
    ∃ pk sk ek dk st', setupForGroth16 T R fuel st b gens = .ok ((pk, sk, ek, dk), st') ∧
      ∀ (chk : Bool) (R' : RngCore E) (st1 : R'.σ) (m : E.Fr),
        ∃ ct r proof nu st2, encryptWithProof T chk R' st1 m ek pk b = .ok ((ct, r, proof), st2) ∧
          ct.verifyCommitmentAndProof proof (prepareVerifyingKey pk.pk.vk) ek.prepare gens.prepare
            = .ok () ∧
          ct.decryptGivenGroth16Vk chk sk dk.prepare pk.pk.vk b = .ok (m, nu) ∧
          E.e nu H = E.e ct.X_r dk.V_0 := by
  have hnew : EncryptionGens.newUsingRng R st0 = (⟨G, H⟩, st) := by
    unfold EncryptionGens.newUsingRng
    simp only [hG1, hH1]
  exact ⟨⟨G, H⟩, hnew, rfl, rfl, C55_pipeline T R fuel st b n hb hn hbm hal ⟨G, H⟩ hG hH rows hrows d hd hf
    htau hbeta hgamma hdelta hrho hv⟩

end

/-! ### A concrete run -/

namespace Fix
noncomputable section

/-- alpha, beta, gamma, delta, tau = 1, 2, 3, 4, 5; then the key-generation secrets of `Fix.st` -/
def stFull : (listRng E).σ :=
  (([1, 2, 3, 4, 5, 3, 2, 4, 6, 8, 1, 3, 5, 7, 9, 10, 11, 12, 13] : List F), [], [])

/-- the domain of size 512 -/
def dom : EvalDomain E.Fr := goldDomain 9 (by norm_num)

/-- its generator -/
def w : F := goldRoot ^ 2 ^ (32 - 9)

theorem w_eq : w = ((1803076106186727246 : ℕ) : F) := by
  unfold w goldRoot
  rw [← pow_mul, zmod_pow_powMod goldR 64 7 _ (by decide +kernel)]
  exact congrArg _ (by decide +kernel)

theorem w_pow (m : ℕ) (hm : m < 2 ^ 64) :
    w ^ m = ((powMod goldR 64 1803076106186727246 m : ℕ) : F) := by
  rw [w_eq, zmod_pow_powMod goldR 64 _ _ hm]

theorem w_prim : IsPrimitiveRoot w (2 ^ 9) := dom.prim

theorem dom_ok : goldFft.newDomain (4 * 113 + (4 + 1)) = some dom := by
  have h : Nat.clog 2 457 = 9 := by decide +kernel
  have hn : ∀ (m : ℕ) (h : m = 9) (hm : m ≤ 32), goldDomain m hm = dom := by
    rintro m rfl hm; rfl
  show (if h : Nat.clog 2 457 ≤ 32 then some (goldDomain (Nat.clog 2 457) h) else none) = _
  rw [dif_pos (by rw [h]; norm_num), hn _ h]

theorem dom_size : dom.size = 2 ^ 9 := rfl

theorem draw4 : draw (listRng E) stFull 4 = (5 : F) := rfl

theorem tau_ok : (5 : F) ^ (2 ^ 9) ≠ 1 := by
  have : (5 : F) = ((5 : ℕ) : F) := by norm_num
  rw [this, zmod_pow_powMod goldR 64 _ _ (by decide +kernel)]
  decide +kernel

theorem tau_ok' (x : F) (N : ℕ) (hx : x = 5) (hN : N = 2 ^ 9) : x ^ N ≠ 1 := by
  subst hx hN; exact tau_ok

theorem beta_ok : (2 : F) ∉ badBetas 4 113 64 w (5 : F) := by
  intro h
  obtain ⟨i, hi, h⟩ := Finset.mem_image.mp h
  have hi := Finset.mem_range.mp hi
  have hd : ∀ m, (5 : F) - w ^ m ≠ 0 := by
    intro m h
    apply tau_ok
    rw [sub_eq_zero.mp h, ← pow_mul, mul_comm, pow_mul, w_prim.pow_eq_one, one_pow]
  have hw : ∀ m, w ^ m ≠ 0 := fun m => pow_ne_zero _ (w_prim.ne_zero (by norm_num))
  rw [div_eq_iff (mul_ne_zero (hw _) (hd _)), w_pow _ (by omega), w_pow _ (by omega)] at h
  revert h
  interval_cases i <;> decide +kernel

theorem four' : (4 : UInt8).toNat = 4 := by decide

theorem rows_eq : constraintsPerValue E.fr.modBits (16 : UInt8).toNat = 113 := by
  rw [show E.fr.modBits = 64 from goldFr_modBits]; decide

end
end Fix

/-- the hypotheses of `C55_pipeline` are met by a concrete run, so `setup_for_groth16` succeeds there and
the pipeline works for every message -/
theorem fix_pipeline : ∃ pk sk ek dk st',
    setupForGroth16 (E := Fix.E) goldFft (listRng Fix.E) 1 Fix.stFull 16 Fix.gens =
      .ok ((pk, sk, ek, dk), st') ∧
    ∀ (chk : Bool) (R' : RngCore Fix.E) (st1 : R'.σ) (m : Fix.E.Fr),
      ∃ ct r proof nu st2, encryptWithProof goldFft chk R' st1 m ek pk 16 =
          .ok ((ct, r, proof), st2) ∧
        ct.verifyCommitmentAndProof proof (prepareVerifyingKey pk.pk.vk) ek.prepare
          Fix.gens.prepare = .ok () ∧
        ct.decryptGivenGroth16Vk chk sk dk.prepare pk.pk.vk 16 = .ok (m, nu) ∧
        Fix.E.e nu Fix.gens.H = Fix.E.e ct.X_r dk.V_0 := by
  refine C55_pipeline (E := Fix.E) goldFft (listRng Fix.E) 1 Fix.stFull 16 4 ?_ ?_ ?_
    ?_ Fix.gens ?_ ?_ 113 ?_ Fix.dom ?_ (by norm_num)
    ?_ ?_ ?_ ?_ ?_ ?_
  · exact Or.inr (Or.inr rfl)
  · exact Fix.count
  · rw [show Fix.E.fr.modBits = 64 from goldFr_modBits]; decide
  · exact Fix.aligned
  · exact (by decide +kernel : (2 : Fix.F) ≠ 0)
  · exact (by decide +kernel : (3 : Fix.F) ≠ 0)
  · exact Fix.rows_eq.symm
  · rw [Fix.four']; exact Fix.dom_ok
  · exact Fix.tau_ok' _ _ Fix.draw4 Fix.dom_size
  · rw [show Fix.E.fr.modBits = 64 from goldFr_modBits]
    exact Fix.beta_ok
  · exact (by decide +kernel : (3 : Fix.F) ≠ 0)
  · exact (by decide +kernel : (4 : Fix.F) ≠ 0)
  · exact (by decide +kernel : (3 : Fix.F) ≠ 0)
  · intro i hi
    rw [Fix.four'] at hi ⊢
    interval_cases i
    · exact (by decide +kernel : (10 : Fix.F) ≠ 0)
    · exact (by decide +kernel : (11 : Fix.F) ≠ 0)
    · exact (by decide +kernel : (12 : Fix.F) ≠ 0)
    · exact (by decide +kernel : (13 : Fix.F) ≠ 0)

/-- the same run starting with the random choice of the generators (`C55_random_generators`) -/
example : ∃ gens : EncryptionGens Fix.E,
    EncryptionGens.newUsingRng (listRng Fix.E) (Fix.stFull.1, [(2 : Fix.F)], [(3 : Fix.F)])
      = (gens, Fix.stFull) ∧ gens.G = (2 : Fix.F) ∧ gens.H = (3 : Fix.F) := by
  obtain ⟨gens, h1, h2, h3, -⟩ := C55_random_generators (E := Fix.E) goldFft (listRng Fix.E) 1
    (Fix.stFull.1, [(2 : Fix.F)], [(3 : Fix.F)]) (Fix.stFull.1, [], [(3 : Fix.F)]) Fix.stFull
    (2 : Fix.F) (3 : Fix.F) rfl rfl 16 4 (Or.inr (Or.inr rfl)) Fix.count
    (by rw [show Fix.E.fr.modBits = 64 from goldFr_modBits]; decide) Fix.aligned
    (by exact (by decide +kernel : (2 : Fix.F) ≠ 0)) (by exact (by decide +kernel : (3 : Fix.F) ≠ 0)) 113
    Fix.rows_eq.symm Fix.dom (by rw [Fix.four']; exact Fix.dom_ok) (by norm_num)
    (Fix.tau_ok' _ _ Fix.draw4 Fix.dom_size)
    (by rw [show Fix.E.fr.modBits = 64 from goldFr_modBits]; exact Fix.beta_ok)
    (by exact (by decide +kernel : (3 : Fix.F) ≠ 0)) (by exact (by decide +kernel : (4 : Fix.F) ≠ 0))
    (by exact (by decide +kernel : (3 : Fix.F) ≠ 0)) (by
      intro i hi
      rw [Fix.four'] at hi ⊢
      interval_cases i
      · exact (by decide +kernel : (10 : Fix.F) ≠ 0)
      · exact (by decide +kernel : (11 : Fix.F) ≠ 0)
      · exact (by decide +kernel : (12 : Fix.F) ≠ 0)
      · exact (by decide +kernel : (13 : Fix.F) ≠ 0))
  exact ⟨gens, h1, h2, h3⟩

/-- The parts of that run: circuit, SRS, generators and keys.  These are the hypotheses of C45, C46,
C48, C49, C54 and the other C55 theorems. -/
theorem fix_run : ∃ (c0 : BitsizeCheckCircuit Fix.E.fr) (pk : ProvingKey Fix.E) (sk : SecretKey Fix.E)
    (ek : EncryptionKey Fix.E) (dk : DecryptionKey Fix.E) (g_i : List Fix.E.G1)
    (st1 st2 : (listRng Fix.E).σ),
    BitsizeCheckCircuit.new (K := Fix.E.fr) 16 none none true = .ok c0 ∧
    generateSrs goldFft (listRng Fix.E) 1 Fix.stFull c0.generateConstraints Fix.gens
      = .ok (pk, st1) ∧
    getGsForEncryption pk.pk.vk = .ok g_i ∧
    keygen (listRng Fix.E) st1 16 Fix.gens g_i pk.pk.delta_g1 pk.gamma_g1
      = .ok ((sk, ek, dk), st2) ∧
    FromSetup ek 16 Fix.gens g_i pk.pk.delta_g1 pk.gamma_g1 ∧
    setupForGroth16 goldFft (listRng Fix.E) 1 Fix.stFull 16 Fix.gens
      = .ok ((pk, sk, ek, dk), st2) := by
  obtain ⟨pk, sk, ek, dk, st', hset, -⟩ := fix_pipeline
  have hset0 := hset
  unfold setupForGroth16 at hset
  obtain ⟨c0, hc0, hset⟩ := Res.bind_eq_ok.mp hset
  obtain ⟨⟨pk', st2⟩, hsrs, hset⟩ := Res.bind_eq_ok.mp hset
  obtain ⟨g_i, hg, hset⟩ := Res.bind_eq_ok.mp hset
  obtain ⟨⟨⟨sk', ek', dk'⟩, st3⟩, hkg, hset⟩ := Res.bind_eq_ok.mp hset
  simp only [Res.pure_eq, Res.ok.injEq, Prod.mk.injEq] at hset
  obtain ⟨⟨rfl, rfl, rfl, rfl⟩, rfl⟩ := hset
  exact ⟨c0, _, _, _, _, g_i, st2, st3, hc0, hsrs, hg, hkg, Or.inl ⟨_, _, _, _, _, hkg⟩, hset0⟩

/-- C45, C46, C48 on the concrete run: an accepted proof for every message exists, and adding a nonzero
element to the first component makes it fail. -/
example : ∃ (pk : ProvingKey Fix.E) (ek : EncryptionKey Fix.E), ∀ m : Fix.E.Fr, ∃ ct r proof st2,
    encryptWithProof goldFft true (listRng Fix.E) Fix.st1 m ek pk 16 = .ok ((ct, r, proof), st2) ∧
    verifyProof (prepareVerifyingKey pk.pk.vk) proof ct = .ok () ∧
    verifyProof (prepareVerifyingKey pk.pk.vk) proof { ct with X_r := ct.X_r + Fix.D }
      = .err .pairingCheckFailed := by
  obtain ⟨c0, pk, sk, ek, dk, g_i, st1, st2, hc0, hsrs, hg, hkg, hk, -⟩ := fix_run
  refine ⟨pk, ek, fun m => ?_⟩
  obtain ⟨ct, r, proof, st3, h1, -, h2⟩ := C46_encrypt_with_proof goldFft (listRng Fix.E) 1 Fix.stFull
    st1 16 (Or.inr (Or.inr rfl)) Fix.aligned c0 Fix.gens pk hc0 hsrs g_i hg ek hk true (listRng Fix.E)
    Fix.st1 m
  unfold Ciphertext.verifyCommitmentAndProof at h2
  obtain ⟨-, -, h2⟩ := Res.bind_eq_ok.mp h2
  refine ⟨ct, r, proof, st3, h1, h2, ?_⟩
  refine (C48_single_change goldFft (listRng Fix.E) 1 Fix.stFull st1 _ Fix.gens pk hsrs
    (by exact (by decide +kernel : (3 : Fix.F) ≠ 0)) proof ct.X_r ct.enc_chunks ct.commitment h2).2
    _ ct.commitment ?_
  intro h
  have : (17 : Fix.F) = 0 := add_eq_left.mp h
  exact absurd this (by decide +kernel)

/-- the circuit of `C46_checked_build_aborts` with a value that does not fit -/
example (pk : ProvingKey Fix.E) (ek : EncryptionKey Fix.E) (c : BitsizeCheckCircuit Fix.E.fr)
    (hc : BitsizeCheckCircuit.new (K := Fix.E.fr) 16 none (some ([(65536 : Fix.F)] : List Fix.F)) true
      = .ok c) :
    createProof goldFft true (listRng Fix.E) Fix.st1 c.generateConstraints (1 : Fix.F) pk ek
      = .panic :=
  C46_checked_build_aborts (E := Fix.E) goldFft (listRng Fix.E) Fix.st1 16 none _ c hc
    (by rw [show Fix.E.fr.modBits = 64 from goldFr_modBits]; decide)
    ⟨(65536 : Fix.F), List.mem_singleton.mpr rfl, by
      show 2 ^ (16 : UInt8).toNat ≤ ZMod.val (65536 : ZMod goldR)
      decide +kernel⟩ _ pk ek

/-- C47 on the concrete key: moving an element between the chunks is seen by the commitment check -/
example (pvk : PreparedVerifyingKey Fix.E) (proof : Proof Fix.E) (x : Fix.E.G1) (hx : x ≠ 0) :
    verifyProof pvk proof ⟨Fix.ct1.X_r, moveBetween Fix.ct1.enc_chunks 0 1 x, Fix.ct1.commitment⟩ =
      verifyProof pvk proof Fix.ct1 ∧
    (⟨Fix.ct1.X_r, moveBetween Fix.ct1.enc_chunks 0 1 x, Fix.ct1.commitment⟩ :
      Ciphertext Fix.E).verifyCommitment Fix.ek.prepare Fix.gens.prepare
        = .err .invalidCommitment := by
  have h := C47_move_between_chunks pvk proof Fix.ek Fix.gens
    (fun i => ([1, 3, 5, 7, 9] : List Fix.F).getD i 0) Fix.wf (by decide +kernel)
    (by exact (by decide +kernel : (3 : Fix.F) ≠ 0)) ?_ Fix.ct1.X_r Fix.ct1.enc_chunks
    Fix.ct1.commitment 0 1 (by decide +kernel) (by decide +kernel) (by decide) x
  · refine ⟨h.1, h.2 hx ?_ ?_⟩
    · exact (by decide +kernel : (3 : Fix.F) ≠ 5)
    · obtain ⟨ct, h1, h2⟩ := (C15_honest_ciphertexts_verify Fix.ek 16 Fix.gens Fix.gi Fix.D Fix.C
        Fix.fromSetup (listRng Fix.E) Fix.st1 _ _).1 Fix.m1 _ Fix.enc1
      rw [flat_inj h1]
      exact h2
  · intro i hi
    have hi : i < 5 := hi
    interval_cases i <;> decide +kernel

end Verif
