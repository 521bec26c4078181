/-
Property C104: chunks that do not fit.
-/
import Verif.Props.Generic
import Verif.Props.Verified
import Verif.Props.Candidates

namespace Verif
open Spec
variable {E : Engine}

namespace Oversized

/-- the polynomial that vanishes at the evaluation point when the proof is accepted: `A B - C - Z H` with the prover's own
quotient (without the leading coefficient, for which the key has no element) -/
noncomputable def defect (T : FftCfg E.Fr) (d : EvalDomain E.Fr) (cs : CS E.Fr) : Polynomial E.Fr :=
  d.poly (rowsA cs) * d.poly (rows cs R1C.b) - d.poly (rows cs R1C.c) -
    (Polynomial.X ^ d.size - 1) *
      ∑ k ∈ Finset.range (d.size - 1), Polynomial.C (lookup (witnessMap T.gen d cs) k) * Polynomial.X ^ k

theorem defect_eval (T : FftCfg E.Fr) (d : EvalDomain E.Fr) (cs : CS E.Fr) (t : E.Fr) :
    (defect T d cs).eval t = (d.poly (rowsA cs)).eval t * (d.poly (rows cs R1C.b)).eval t -
      (d.poly (rows cs R1C.c)).eval t -
      d.vanishing t * ∑ k ∈ Finset.range (d.size - 1), lookup (witnessMap T.gen d cs) k * t ^ k := by
  simp only [defect, Polynomial.eval_sub, Polynomial.eval_mul, Polynomial.eval_pow, Polynomial.eval_X,
    Polynomial.eval_one, Polynomial.eval_finsetSum, Polynomial.eval_C, EvalDomain.vanishing]

theorem defect_natDegree (T : FftCfg E.Fr) (d : EvalDomain E.Fr) (cs : CS E.Fr) :
    (defect T d cs).natDegree ≤ 2 * (d.size - 1) := by
  have hN := d.size_pos
  unfold defect
  refine (Polynomial.natDegree_sub_le _ _).trans (max_le ((Polynomial.natDegree_sub_le _ _).trans (max_le ?_ ?_)) ?_)
  · refine (Polynomial.natDegree_mul_le).trans ?_
    have h1 := d.poly_natDegree (rowsA cs)
    have h2 := d.poly_natDegree (rows cs R1C.b)
    omega
  · have := d.poly_natDegree (rows cs R1C.c)
    omega
  · by_cases h1 : d.size = 1
    · rw [h1]
      simp
    · refine (Polynomial.natDegree_mul_le).trans ?_
      have h2 : (Polynomial.X ^ d.size - 1 : Polynomial E.Fr).natDegree = d.size := by
        have := Polynomial.natDegree_X_pow_sub_C (n := d.size) (r := (1 : E.Fr))
        simpa using this
      have h3 : (∑ k ∈ Finset.range (d.size - 1), Polynomial.C (lookup (witnessMap T.gen d cs) k) *
          Polynomial.X ^ k : Polynomial E.Fr).natDegree ≤ d.size - 2 := by
        refine Polynomial.natDegree_sum_le_of_forall_le _ _ fun k hk => ?_
        refine (Polynomial.natDegree_C_mul_X_pow_le _ _).trans ?_
        have := Finset.mem_range.mp hk
        omega
      omega

theorem defect_ne_zero (T : FftCfg E.Fr) (d : EvalDomain E.Fr) (cs : CS E.Fr)
    (hsz : cs.cons.length ≤ d.size)
    (hns : ¬ ∀ r ∈ cs.cons, r.Holds (lookup cs.inst) (lookup cs.wit)) : defect T d cs ≠ 0 := by
  intro h0
  apply hns
  intro r hr
  obtain ⟨j, hj, rfl⟩ := List.getElem_of_mem hr
  have he : (defect T d cs).eval (d.omega ^ j) = 0 := by rw [h0, Polynomial.eval_zero]
  have hz : d.vanishing (d.omega ^ j) = 0 := by
    unfold EvalDomain.vanishing
    rw [← pow_mul, Nat.mul_comm, pow_mul, d.prim.pow_eq_one, one_pow, sub_self]
  rw [defect_eval, hz, zero_mul, sub_zero, d.eval_omega _ j (by omega), d.eval_omega _ j (by omega),
    d.eval_omega _ j (by omega)] at he
  unfold rowsA rows at he
  rw [if_pos hj, if_pos hj, if_pos hj] at he
  have := sub_eq_zero.mp he
  unfold rowValue at this
  simp only [List.getD_eq_getElem?_getD, List.getElem?_map, List.getElem?_eq_getElem hj,
      Option.map_some, Option.getD_some] at this
  exact this

/-- what an unchecked build's prover computes on any assignment -/
theorem proof_eq (T : FftCfg E.Fr) (C : Synthesizer E.Fr)
    (cs0 cs : CS E.Fr) (d : EvalDomain E.Fr) (t alpha beta gamma delta : E.Fr) (g1 : E.G1)
    (g2 : E.G2) (r s : E.Fr)
    (hC : C (CS.new false) = .ok cs)
    (hcons : cs0.cons = cs.cons) (hnI : cs0.numInst = cs.numInst) (hnW : cs0.numWit = cs.numWit)
    (hi : cs.inst.length = cs.numInst) (hw : cs.wit.length = cs.numWit)
    (h0 : lookup cs.inst 0 = 1) (hpos : 0 < cs.numInst)
    (hd : T.newDomain (cs.cons.length + cs.numInst) = some d) (ht : d.vanishing t ≠ 0)
    (hdelta : delta ≠ 0) :
    ∃ A B Cc : E.Fr, createProofWithReduction T false C
      (srsKey cs0 d t alpha beta gamma delta g1 g2).pk r s = .ok ⟨A • g1, B • g2, Cc • g1⟩ ∧
      A * B = alpha * beta +
        (∑ i ∈ Finset.range cs0.numInst,
          lookup cs.inst i * mixAt cs0 (d.lagrange t) alpha beta (.inst i)) + Cc * delta +
        (defect T d cs).eval t := by
  have hq : ∀ u, qapA cs0 u = qapA cs u ∧ qapB cs0 u = qapB cs u ∧ qapC cs0 u = qapC cs u := by
    intro u
    refine ⟨?_, ?_, ?_⟩
    · funext v
      cases v <;> simp only [qapA, matrixAt, hcons]
    · unfold qapB matrixAt; rw [hcons]
    · unfold qapC matrixAt; rw [hcons]
  have hvars : cs0.vars = cs.vars := by unfold CS.vars; rw [hnI, hnW]
  have hmix : ∀ u, mixAt cs0 u alpha beta = mixAt cs u alpha beta := by
    intro u
    funext v
    unfold mixAt
    rw [(hq u).1, (hq u).2.1, (hq u).2.2]
  have hkey : srsKey (E := E) cs0 d t alpha beta gamma delta g1 g2 =
      srsKey cs d t alpha beta gamma delta g1 g2 := by
    unfold srsKey
    rw [hvars, hmix, hnI, hnW, (hq _).1, (hq _).2.1]
  rw [hkey, hmix, hnI]
  clear hkey hmix hvars hq hnI hnW hcons cs0
  have hle := T.le_size _ _ hd
  let u := d.lagrange t
  have hA : wsum cs (qapA cs u) = (d.poly (rowsA cs)).eval t := by
    rw [wsum_qapA cs hi hw u d.size hle, d.lagrange_sum _ t ht]
  have hB : wsum cs (qapB cs u) = (d.poly (rows cs R1C.b)).eval t := by
    unfold qapB
    rw [wsum_rows cs hi hw u R1C.b d.size (by omega), d.lagrange_sum _ t ht]
  have hCt : wsum cs (qapC cs u) = (d.poly (rows cs R1C.c)).eval t := by
    unfold qapC
    rw [wsum_rows cs hi hw u R1C.c d.size (by omega), d.lagrange_sum _ t ht]
  let hs := witnessMap T.gen d cs
  let Hq := ∑ i ∈ Finset.range (d.size - 1), lookup hs i * (d.vanishing t * delta⁻¹ * t ^ i)
  let A := alpha + wsum cs (qapA cs u) + r * delta
  let B := beta + wsum cs (qapB cs u) + s * delta
  let L := ∑ i ∈ Finset.range cs.numWit, lookup cs.wit i * (mixAt cs u alpha beta (.wit i) * delta⁻¹)
  refine ⟨A, B, s * A + r * B - r * s * delta + L + Hq, ?_, ?_⟩
  · unfold createProofWithReduction
    rw [hC]
    simp only [Res.ok_bind, Bool.false_and, Bool.false_eq_true, if_false, hd]
    unfold createProofWithAssignment
    simp only [srsKey]
    rw [calculateCoeff_eq (K := E.fr) cs hi h0 hpos, Res.ok_bind,
      calculateCoeff_eq (K := E.fr) cs hi h0 hpos (s • delta • g1) (beta • g1) g1,
      calculateCoeff_eq (K := E.fr) cs hi h0 hpos (s • delta • g2) (beta • g2) g2,
      msm_range (K := E.fr), msm_range (K := E.fr)]
    by_cases hr : r = 0
    · rw [if_neg (by simpa using hr)]
      simp only [Res.ok_bind, Res.pure_eq]
      congr 2
      · simp only [A, u]; module
      · simp only [B, u]; module
      · simp only [A, L, Hq, u, hr, hs]; module
    · rw [if_pos hr]
      simp only [Res.ok_bind, Res.pure_eq]
      congr 2
      · simp only [A, u]; module
      · simp only [B, u]; module
      · simp only [A, B, L, Hq, u, hs]; module
  · have hmixsum : (∑ i ∈ Finset.range cs.numInst,
          lookup cs.inst i * mixAt cs (d.lagrange t) alpha beta (.inst i)) + L * delta =
        beta * wsum cs (qapA cs u) + alpha * wsum cs (qapB cs u) + wsum cs (qapC cs u) := by
      have h1 : L * delta =
          ∑ i ∈ Finset.range cs.numWit, lookup cs.wit i * mixAt cs u alpha beta (.wit i) := by
        simp only [L]
        rw [Finset.sum_mul]
        apply Finset.sum_congr rfl
        intro i _
        rw [mul_assoc, mul_assoc, inv_mul_cancel₀ hdelta, mul_one]
      rw [h1]
      have : wsum cs (mixAt cs u alpha beta) = beta * wsum cs (qapA cs u) +
          alpha * wsum cs (qapB cs u) + wsum cs (qapC cs u) := by
        rw [← wsum_smul, ← wsum_smul, ← wsum_add, ← wsum_add]
        rfl
      rw [← this]
      rfl
    have hHd : Hq * delta = wsum cs (qapA cs u) * wsum cs (qapB cs u) - wsum cs (qapC cs u) - (defect T d cs).eval t := by
      rw [defect_eval, hA, hB, hCt]
      simp only [Hq, hs]
      rw [Finset.sum_mul, Finset.mul_sum]
      rw [Finset.sum_congr rfl (fun i _ => (by
        field_simp : lookup (witnessMap T.gen d cs) i * (d.vanishing t * delta⁻¹ * t ^ i) * delta =
          d.vanishing t * (lookup (witnessMap T.gen d cs) i * t ^ i)))]
      ring
    simp only [A, B]
    linear_combination -hmixsum - hHd

/-- for a key made by `generate_srs`, the pairing equation of Groth16 is an equation between scalars -/
theorem groth_scalars (cs0 : CS E.Fr) (d : EvalDomain E.Fr) (tau alpha beta gamma delta : E.Fr)
    (G : E.G1) (H : E.G2) (hG : G ≠ 0) (hH : H ≠ 0) (hgam : gamma ≠ 0) (vs : List E.Fr)
    (hn : cs0.numInst = vs.length + 1) (A B Cc : E.Fr)
    (h : Groth16Eq (srsKey cs0 d tau alpha beta gamma delta G H).pk.vk ⟨A • G, B • H, Cc • G⟩ vs) :
    A * B = alpha * beta + (∑ i ∈ Finset.range cs0.numInst,
      lookup (1 :: vs) i * mixAt cs0 (d.lagrange tau) alpha beta (.inst i)) + Cc * delta := by
  unfold Groth16Eq at h
  have hsum : ∀ k, k < vs.length + 1 →
      (srsKey cs0 d tau alpha beta gamma delta G H).pk.vk.gamma_abc_g1.getD k 0 =
      (mixAt cs0 (d.lagrange tau) alpha beta (.inst k) * gamma⁻¹) • G := by
    intro k hk'
    simp only [srsKey]
    rw [List.getD_eq_getElem?_getD, List.getElem?_map, List.getElem?_range (by omega)]
    rfl
  have hlin : (srsKey cs0 d tau alpha beta gamma delta G H).pk.vk.gamma_abc_g1.getD 0 0 +
      ∑ i ∈ Finset.range vs.length, vs.getD i 0 •
        (srsKey cs0 d tau alpha beta gamma delta G H).pk.vk.gamma_abc_g1.getD (i + 1) 0 =
      ((∑ i ∈ Finset.range cs0.numInst,
          lookup (1 :: vs) i * mixAt cs0 (d.lagrange tau) alpha beta (.inst i)) * gamma⁻¹) •
        G := by
    rw [hn, Finset.sum_range_succ', hsum 0 (by omega), Finset.sum_congr rfl
      (fun i hi => by rw [hsum (i + 1) (by have := Finset.mem_range.mp hi; omega), smul_smul]),
      ← Finset.sum_smul, ← add_smul, add_mul, Finset.sum_mul]
    congr 1
    rw [add_comm]
    congr 1
    · apply Finset.sum_congr rfl
      intro i _
      show vs.getD i 0 * _ = (1 :: vs).getD (i + 1) 0 * _ * _
      rw [List.getD_cons_succ, mul_assoc]
    · show _ = (1 :: vs).getD 0 0 * _ * _
      rw [List.getD_cons_zero, one_mul]
  rw [hlin] at h
  simp only [srsKey, map_smul, LinearMap.smul_apply, smul_smul] at h
  rw [← add_smul, ← add_smul, ← sub_eq_zero, ← sub_smul] at h
  rcases smul_eq_zero.mp h with h0 | h0
  · have hg : ∀ S : E.Fr, gamma * (S * gamma⁻¹) = S := fun S => by field_simp
    rw [hg] at h0
    linear_combination h0
  · rcases E.nondeg _ _ h0 with h1 | h1
    · exact absurd h1 hG
    · exact absurd h1 hH

end Oversized
open Oversized

/-- **C104** a vector of chunks one of which does not fit in `b` bits.  `encrypt_decomposed_message` encrypts it without
complaint, into a ciphertext that passes `verify_commitment`.  In checked builds `create_proof` aborts.  In unchecked builds
it returns a proof, and `verify_commitment_and_proof` rejects it with `PairingCheckFailed`, whatever the trapdoors, the keys
and the randomness, unless the SRS was generated at one of at most `2 (size - 1)` evaluation points (`size` the size of the
evaluation domain), which depend on the chunks only. -/
theorem C104_oversized_chunk (T : FftCfg E.Fr) (b n : UInt8) (hn : chunksCount E.fr b = .ok n)
    (hbm : b.toNat ≤ E.fr.modBits) (d : EvalDomain E.Fr)
    (hd : T.newDomain (n.toNat * constraintsPerValue E.fr.modBits b.toNat + (n.toNat + 1)) = some d)
    (c0 : BitsizeCheckCircuit E.fr) (hc0 : BitsizeCheckCircuit.new (K := E.fr) b none none true = .ok c0)
    (gens : EncryptionGens E) (hG : gens.G ≠ 0) (hH : gens.H ≠ 0)
    (chunks : List UInt16) (hbad : ∃ x ∈ chunks, 2 ^ b.toNat ≤ (((x.toNat : ℕ) : E.Fr)).val)
    (num : Option UInt8) (c : BitsizeCheckCircuit E.fr)
    (hc : BitsizeCheckCircuit.new (K := E.fr) b num
      (some (chunks.map fun c => ((c.toNat : ℕ) : E.Fr))) true = .ok c) :
    ∃ bad : Finset E.Fr, bad.card ≤ 2 * (d.size - 1) ∧
    ∀ (R : RngCore E) (fuel : ℕ) (st st' : R.σ) (pk : ProvingKey E),
      generateSrs T R fuel st c0.generateConstraints gens = .ok (pk, st') →
    ∀ (g_i : List E.G1) (ek : EncryptionKey E), getGsForEncryption pk.pk.vk = .ok g_i →
      FromSetup ek b gens g_i pk.pk.delta_g1 pk.gamma_g1 →
    ∀ (R' : RngCore E) (st1 st2 : R'.σ) (v : List E.G1) (r : E.Fr),
      encryptDecomposedMessage R' st1 chunks ek g_i = .ok ((v, r), st2) →
    ∀ (R'' : RngCore E) (st3 : R''.σ),
      createProof T true R'' st3 c.generateConstraints r pk ek = .panic ∧
      ∃ (ct : Ciphertext E) (proof : Proof E) (st4 : R''.σ), v = flat ct ∧
        ct.verifyCommitment ek.prepare gens.prepare = .ok () ∧
        createProof T false R'' st3 c.generateConstraints r pk ek = .ok (proof, st4) ∧
        ((∀ k < fuel, d.vanishing (draw R st (4 + k)) ≠ 0 → (∀ j < k, d.vanishing (draw R st (4 + j)) = 0) →
            draw R st (4 + k) ∉ bad) →
          ct.verifyCommitmentAndProof proof (prepareVerifyingKey pk.pk.vk) ek.prepare gens.prepare =
            .err .pairingCheckFailed) := by
  classical
  obtain ⟨b1, b2, b3, -, -⟩ := new_ok hc
  obtain ⟨a1, -, a3, -, -⟩ := new_ok hc0
  obtain ⟨cs, hcs, hsat, -⟩ := C43_complete c _ b2 (by rw [b1]; exact hbm)
  obtain ⟨cs', hcs', -, -, hshape⟩ := (C44_shape c false).1 (Or.inr (by rw [b2]; rfl)) (by rw [b1]; exact hbm)
  rw [hcs] at hcs'
  cases hcs'
  obtain ⟨hinst, hil, hwl⟩ := hshape _ rfl b2
  rw [b3, if_pos rfl] at hinst
  refine ⟨(defect T d cs).roots.toFinset, ?_, ?_⟩
  · refine le_trans (Multiset.toFinset_card_le _) ((Polynomial.card_roots' _).trans (defect_natDegree T d cs))
  intro R fuel st st' pk hsrs g_i ek hg hk R' st1 st2 v r henc R'' st3
  refine ⟨C46_checked_build_aborts T R'' st3 b num _ c hc hbm ?_ r pk ek, ?_⟩
  · obtain ⟨x, hx, hge⟩ := hbad
    exact ⟨_, List.mem_map_of_mem hx, hge⟩
  obtain ⟨n', s, t, hn', hgn, hek⟩ := fromSetup_inv hk
  rw [hn] at hn'
  cases hn'
  have hX : ek.X.length = n.toNat := by rw [hek]; simp [encKey]
  have hw : WellFormed ek := by rw [hek]; exact encKey_wf _ _ _ _ _ _ _
  have hX256 : ek.X.length < 256 := by rw [hX]; exact n.toNat_lt
  have hlen : chunks.length = ek.X.length := by
    by_contra hc'
    rw [(C14_encrypt_decomposed R' st1 chunks ek g_i).2.2.1 hw
      (by rwa [Nat.mod_eq_of_lt hX256])] at henc
    cases henc
  obtain ⟨-, hnum⟩ := srs_bitsize_le hc0 hsrs hn
  obtain ⟨cs0, d0, k, hcs0, hd0, hkf, hvan, hfirst, hgam, hdel, -, hpk⟩ := srs_inv_draws hsrs
  have hnumc : numValues c = chunks.length := by simp [numValues, b2]
  obtain ⟨e1, e2, e3⟩ := C44_value_independent c0 c true false cs0 cs (a1.trans b1.symm) (a3.trans b3.symm)
    (by rw [hnum, hnumc, hlen, hX]) hcs0 hcs
  have hshape0 := (C44_shape c0 true).1 (Or.inl rfl) (by rw [a1]; exact hbm)
  obtain ⟨cs0', hcs0', hI0, hC0, -⟩ := hshape0
  rw [hcs0] at hcs0'
  cases hcs0'
  rw [a3, if_pos rfl, hnum] at hI0
  rw [hnum, a1] at hC0
  have hdd : d0 = d := by
    rw [hC0, hI0, hd] at hd0
    exact (Option.some.inj hd0).symm
  subst hdd
  have hle := T.le_size _ _ hd
  have hns : ¬ ∀ q ∈ cs.cons, q.Holds (lookup cs.inst) (lookup cs.wit) := by
    intro hall
    have h1 := hsat.mp ⟨by rw [hinst]; rfl, hall⟩
    obtain ⟨x, hx, hge⟩ := hbad
    have := h1 _ (List.mem_map_of_mem hx)
    rw [b1] at this
    omega
  have hne := defect_ne_zero T d0 cs (by rw [← e1, hC0]; omega) hns
  obtain ⟨A, B, Cc, hrun, heq⟩ := proof_eq T c.generateConstraints cs0 cs d0 (draw R st (4 + k)) (draw R st 0)
    (draw R st 1) (draw R st 2) (draw R st 3) gens.G gens.H (draw R'' st3 0) (draw R'' st3 1) hcs e1 e2 e3 hil hwl
    (by rw [hinst]; rfl) (by rw [← e2, hI0]; omega) (by rw [← e1, ← e2]; exact hd0) hvan hdel
  rw [← hpk] at hrun
  have henc' := encryptDecomposed_ok R' st1 chunks ek g_i hw hX256 hlen (by omega)
  rw [henc] at henc'
  simp only [Res.ok.injEq, Prod.mk.injEq] at henc'
  obtain ⟨⟨hv, hr⟩, -⟩ := henc'
  have hproof : createProof T false R'' st3 c.generateConstraints r pk ek =
      .ok (⟨A • gens.G, B • gens.H, Cc • gens.G + r • ek.P_2⟩, after R'' st3 2) := by
    show (createProofWithReduction T false c.generateConstraints pk.pk (draw R'' st3 0)
      (draw R'' (after R'' st3 1) 0) >>= _) = _
    have h0' : createProofWithReduction T false c.generateConstraints pk.pk (draw R'' st3 0)
      (draw R'' (after R'' st3 1) 0) = .ok _ := hrun
    rw [h0', Res.ok_bind, mulBigint_intoBigint]
    rfl
  have hcom := cipher_verifies n s t (fun i => g_i.getD i 0) pk.pk.delta_g1 pk.gamma_g1 gens
    (fun i => (nums chunks).getD i 0) (draw R' st1 0)
  rw [← hek] at hcom
  refine ⟨_, _, _, hv, hcom, hproof, fun hbadτ => ?_⟩
  have hτ := hbadτ k hkf hvan hfirst
  have hev : (defect T d0 cs).eval (draw R st (4 + k)) ≠ 0 := by
    intro h
    apply hτ
    rw [Multiset.mem_toFinset, Polynomial.mem_roots hne]
    exact h
  unfold Ciphertext.verifyCommitmentAndProof
  rw [hcom, Res.ok_bind]
  obtain ⟨proof1, -, -, p3, -, p5⟩ := C45_api T R fuel st st' _ gens pk hsrs g_i hg ek b hk R' st1
    st2 chunks _ r (by rw [henc, hv]) false c.generateConstraints R'' st3 _ _ hproof
  rw [hrun] at p3
  cases p3
  refine p5 ?_
  unfold Groth16Eq
  intro hgr
  rw [hpk] at hgr
  have hfin := groth_scalars cs0 d0 (draw R st (4 + k)) (draw R st 0) (draw R st 1) (draw R st 2) (draw R st 3)
    gens.G gens.H hG hH hgam _ (by rw [hI0, List.length_map, hlen, hX]) A B Cc hgr
  rw [heq, hinst] at hfin
  apply hev
  linear_combination hfin

/-- the vector of chunks `1, 2, …, 7, 300` for chunks of 8 bits: there is an SRS under which everything happens as the
theorem says, with no condition left -/
example : ∃ (st st' : (tape Fix.E).σ) (pk : ProvingKey Fix.E) (sk : SecretKey Fix.E) (ek : EncryptionKey Fix.E)
    (dk : DecryptionKey Fix.E) (g_i : List Fix.E.G1) (c : BitsizeCheckCircuit Fix.E.fr) (ct : Ciphertext Fix.E)
    (r : Fix.E.Fr) (st2 : (listRng Fix.E).σ) (proof : Proof Fix.E) (st4 : (listRng Fix.E).σ),
    setupForGroth16 goldFft (tape Fix.E) 1 st 8 Fix.gens = .ok ((pk, sk, ek, dk), st') ∧
    getGsForEncryption pk.pk.vk = .ok g_i ∧
    BitsizeCheckCircuit.new (K := Fix.E.fr) 8 none
      (some (([1, 2, 3, 4, 5, 6, 7, 300] : List UInt16).map fun c => ((c.toNat : ℕ) : Fix.E.Fr))) true = .ok c ∧
    encryptDecomposedMessage (listRng Fix.E) Fix.st1 [1, 2, 3, 4, 5, 6, 7, 300] ek g_i = .ok ((flat ct, r), st2) ∧
    ct.verifyCommitment ek.prepare Fix.gens.prepare = .ok () ∧
    createProof goldFft true (listRng Fix.E) Fix.st1 c.generateConstraints r pk ek = .panic ∧
    createProof goldFft false (listRng Fix.E) Fix.st1 c.generateConstraints r pk ek = .ok (proof, st4) ∧
    ct.verifyCommitmentAndProof proof (prepareVerifyingKey pk.pk.vk) ek.prepare Fix.gens.prepare =
      .err .pairingCheckFailed := by
  classical
  obtain ⟨c0, -, -, -, -, -, hc0, -⟩ := Fix.run8
  obtain ⟨c, hc⟩ : ∃ c, BitsizeCheckCircuit.new (K := Fix.E.fr) 8 none
      (some (([1, 2, 3, 4, 5, 6, 7, 300] : List UInt16).map fun c => ((c.toNat : ℕ) : Fix.E.Fr))) true = .ok c := by
    unfold BitsizeCheckCircuit.new
    exact ⟨_, rfl⟩
  obtain ⟨bad, hcard, key⟩ := C104_oversized_chunk (E := Fix.E) goldFft 8 8 Fix.count8 Fix.bits8 Fix.dom8 Fix.dom8_count
    c0 hc0 Fix.gens Fix.gens_ne.1 Fix.gens_ne.2 [1, 2, 3, 4, 5, 6, 7, 300] ⟨300, by decide, by
      exact (by decide +kernel : 2 ^ (8 : UInt8).toNat ≤ (((300 : UInt16).toNat : ℕ) : Fix.F).val)⟩ none c hc
  obtain ⟨τ, hτ⟩ : ∃ τ, τ ∉ bad ∪ Finset.univ.filter fun t : Fix.E.Fr => Fix.dom8.vanishing t = 0 := by
    by_contra hall
    push Not at hall
    have h1 := Finset.card_le_card (fun x _ => hall x : (Finset.univ : Finset Fix.E.Fr) ⊆ _)
    have h2 := h1.trans (Finset.card_union_le _ _)
    have h4 : Fix.dom8.size = 2 ^ 10 := rfl
    rw [Cand.roots_card Fix.dom8, Finset.card_univ, ZMod.card, h4] at h2
    rw [h4] at hcard
    have h3 : 4000 < Fix.E.fr.p := by exact (by decide +kernel : 4000 < goldR)
    omega
  rw [Finset.mem_union, not_or] at hτ
  obtain ⟨hτ1, hτ2⟩ := hτ
  have hτ3 : Fix.dom8.vanishing τ ≠ 0 := by
    intro h
    exact hτ2 (Finset.mem_filter.mpr ⟨Finset.mem_univ _, h⟩)
  let st : (tape Fix.E).σ := fun i => if i = 4 then τ else 1
  have hends := (C92_ends_iff (E := Fix.E) goldFft 8 8 Fix.count8 Fix.bits8 Fix.gens Fix.dom8 Fix.dom8_count (tape Fix.E) 1
    st).2.mpr ⟨⟨0, by omega, by rw [draw_tape]; exact hτ3⟩, by
      rw [draw_tape]; exact one_ne_zero, by rw [draw_tape]; exact one_ne_zero⟩
  obtain ⟨hok, herr, hpan⟩ := C49_setup_consistent goldFft (tape Fix.E) 1 st 8 8 Fix.count8 Fix.gens c0 hc0
  obtain ⟨out, hout⟩ := hends
  obtain ⟨pk, st1, hsrs⟩ : ∃ pk st1, generateSrs goldFft (tape Fix.E) 1 st c0.generateConstraints Fix.gens
      = .ok (pk, st1) := by
    cases h : generateSrs goldFft (tape Fix.E) 1 st c0.generateConstraints Fix.gens with
    | ok a => exact ⟨a.1, a.2, rfl⟩
    | err e => rw [herr e h] at hout; cases hout
    | panic => rw [hpan h] at hout; cases hout
  obtain ⟨sk, ek, dk, st2, hsetup, hl, -, -, -, -, -, -, hkg⟩ := hok pk st1 hsrs
  have hgs : getGsForEncryption pk.pk.vk = .ok pk.pk.vk.gamma_abc_g1.tail := by
    unfold getGsForEncryption
    split
    · rename_i h; rw [h] at hl; simp at hl
    · rename_i h; rw [h]; rfl
  have hk : FromSetup ek 8 Fix.gens pk.pk.vk.gamma_abc_g1.tail pk.pk.delta_g1 pk.gamma_g1 := .inl ⟨_, _, _, _, _, hkg⟩
  obtain ⟨n, s, t, hn, hgn, hek⟩ := fromSetup_inv hk
  rw [Fix.count8] at hn
  cases hn
  have hX : ek.X.length = 8 := by rw [hek]; simp [encKey, Fix.eight]
  have hw : WellFormed ek := by rw [hek]; exact encKey_wf _ _ _ _ _ _ _
  have henc := encryptDecomposed_ok (listRng Fix.E) Fix.st1 [1, 2, 3, 4, 5, 6, 7, 300] ek pk.pk.vk.gamma_abc_g1.tail hw
    (by omega) (by rw [hX]; rfl) (by rw [hX]; exact (Nat.le_of_eq Fix.eight.symm).trans hgn)
  obtain ⟨h1, ct, proof, st4, hv, h2, h3, h4⟩ := key (tape Fix.E) 1 st st1 pk hsrs _ ek hgs hk (listRng Fix.E) Fix.st1 _ _ _
    henc (listRng Fix.E) Fix.st1
  rw [hv] at henc
  refine ⟨st, st2, pk, sk, ek, dk, _, c, ct, _, _, proof, st4, hsetup, hgs, hc, henc, h2, h1, h3, h4 ?_⟩
  intro k hk' _ _
  have : k = 0 := by omega
  subst this
  rw [draw_tape]
  exact hτ1

end Verif
