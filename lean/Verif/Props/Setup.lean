/-
Property C49: `setup_for_groth16`, and the composition of setup, encryption with proof, verification
and decryption.
-/
import Verif.Model.Setup
import Verif.Props.Groth16
import Verif.Props.Decrypt

namespace Verif
open Spec

variable {E : Engine}

/-- **C49** `setup_for_groth16` succeeds whenever SRS generation succeeds, with that SRS; all other
outcomes are those of circuit creation and SRS generation.  On success: the verification key has
`chunks_count + 1` input elements, both keys validate and support exactly `chunks_count` chunks,
`X_0` is the SRS's `delta * G`, and the encryption key is one produced by `keygen` on the SRS's own
generators, `delta * G` and `-gamma * G`, for one pair of nonzero trapdoors that also underlies the
verification key. -/
theorem C49_setup_consistent (T : FftCfg E.Fr) (R : RngCore E) (fuel : ℕ) (st : R.σ) (b n : UInt8)
    (hn : chunksCount E.fr b = .ok n) (gens : EncryptionGens E) (c0 : BitsizeCheckCircuit E.fr)
    (hc0 : BitsizeCheckCircuit.new (K := E.fr) b none none true = .ok c0) :
    (∀ pk st1, generateSrs T R fuel st c0.generateConstraints gens = .ok (pk, st1) →
      ∃ sk ek dk st2, setupForGroth16 T R fuel st b gens = .ok ((pk, sk, ek, dk), st2) ∧
        pk.pk.vk.gamma_abc_g1.length = n.toNat + 1 ∧
        ek.validate = .ok () ∧ dk.validate = .ok () ∧
        ek.supportedChunksCount = .ok n ∧ dk.supportedChunksCount = .ok n ∧
        (∃ gamma delta : E.Fr, gamma ≠ 0 ∧ delta ≠ 0 ∧
          pk.pk.delta_g1 = delta • gens.G ∧ pk.pk.vk.delta_g2 = delta • gens.H ∧
          pk.gamma_g1 = (-gamma) • gens.G ∧ pk.pk.vk.gamma_g2 = gamma • gens.H) ∧
        ek.X_0 = pk.pk.delta_g1 ∧
        keygen R st1 b gens pk.pk.vk.gamma_abc_g1.tail pk.pk.delta_g1 pk.gamma_g1
          = .ok ((sk, ek, dk), st2)) ∧
    (∀ e, generateSrs T R fuel st c0.generateConstraints gens = .err e →
      setupForGroth16 T R fuel st b gens = .err e) ∧
    (generateSrs T R fuel st c0.generateConstraints gens = .panic →
      setupForGroth16 T R fuel st b gens = .panic) := by
  refine ⟨?_, ?_, ?_⟩
  · intro pk st1 hsrs
    obtain ⟨hbm, hnum⟩ := srs_bitsize_le hc0 hsrs hn
    obtain ⟨e1, e2, e3, -, -⟩ := new_ok hc0
    obtain ⟨cs, d, tau, alpha, beta, gamma, delta, hcs, -, -, hgam, hdel, hpk⟩ := srs_inv hsrs
    obtain ⟨cs', hcs', hI, -⟩ := (C44_shape c0 true).1 (Or.inl rfl) (by rw [e1]; exact hbm)
    rw [hcs] at hcs'
    cases hcs'
    rw [e3, if_pos rfl, hnum] at hI
    have hl : pk.pk.vk.gamma_abc_g1.length = n.toNat + 1 := by rw [hpk]; simp [srsKey, hI]
    have hgs : getGsForEncryption pk.pk.vk = .ok pk.pk.vk.gamma_abc_g1.tail := by
      unfold getGsForEncryption
      split
      · rename_i h; rw [h] at hl; simp at hl
      · rename_i h; rw [h]; rfl
    obtain ⟨sk, ek, dk, st2, hkg, -, -, -, -, -, v1, v2, s1, s2, -⟩ :=
      (C07_keygen R st1 b n gens pk.pk.vk.gamma_abc_g1.tail pk.pk.delta_g1 pk.gamma_g1 hn).1
        (by rw [List.length_tail, hl]; omega)
    refine ⟨sk, ek, dk, st2, ?_, hl, v1, v2, s1, s2, ⟨gamma, delta, hgam, hdel, ?_, ?_, ?_, ?_⟩,
      (C08_keygen_pairing_equations R st1 st2 b gens _ _ _ sk ek dk hkg).1, hkg⟩
    · unfold setupForGroth16
      rw [hc0, Res.ok_bind, hsrs, Res.ok_bind]
      simp only
      rw [hgs, Res.ok_bind, hkg, Res.ok_bind]
      rfl
    all_goals rw [hpk]; rfl
  · intro e h
    unfold setupForGroth16
    rw [hc0, Res.ok_bind, h]
    rfl
  · intro h
    unfold setupForGroth16
    rw [hc0, Res.ok_bind, h]
    rfl

/-- **C49** SRS generation for the bit-size circuit, complete case list: with `b` at most the modulus
bit size, it fails only if there is no evaluation domain of the needed size, or one of the drawn
trapdoors `gamma`, `delta` is zero (then with `UnexpectedIdentity`). -/
theorem C49_srs_cases (T : FftCfg E.Fr) (R : RngCore E) (fuel : ℕ) (st : R.σ) (b : UInt8)
    (hb : b ≠ 0) (hbm : b.toNat ≤ E.fr.modBits) (gens : EncryptionGens E) :
    ∃ c0 N, BitsizeCheckCircuit.new (K := E.fr) b none none true = .ok c0 ∧
      N = numValues c0 * constraintsPerValue E.fr.modBits b.toNat + (numValues c0 + 1) ∧
      (T.newDomain N = none →
        generateSrs T R fuel st c0.generateConstraints gens = .err .synthesisOther) ∧
      (∀ d, T.newDomain N = some d →
        -- the trapdoor point: the first draw after the four trapdoors that is outside the domain
        (∀ k < fuel, d.vanishing (draw R st (4 + k)) ≠ 0 →
          (∀ j < k, d.vanishing (draw R st (4 + j)) = 0) →
          (draw R st 2 = 0 ∨ draw R st 3 = 0 →
            generateSrs T R fuel st c0.generateConstraints gens = .err .unexpectedIdentity) ∧
          (draw R st 2 ≠ 0 → draw R st 3 ≠ 0 →
            ∃ pk, generateSrs T R fuel st c0.generateConstraints gens
              = .ok (pk, after R st (4 + k + 1))))) := by
  obtain ⟨n, hn⟩ : ∃ n, chunksCount E.fr b = .ok n := by
    rcases chunksCount_cases E.fr b with h | h
    · exfalso
      unfold chunksCount at h
      rw [if_neg (by intro h0; exact hb (UInt8.toNat_inj.mp h0))] at h
      cases h
    · exact h
  obtain ⟨c0, hc0⟩ : ∃ c, BitsizeCheckCircuit.new (K := E.fr) b none none true = .ok c := by
    unfold BitsizeCheckCircuit.new
    simp only [hn, Res.ok_bind]
    exact ⟨_, rfl⟩
  obtain ⟨e1, e2, e3, -, -⟩ := new_ok hc0
  obtain ⟨cs, hcs, hI, hC, -⟩ := (C44_shape c0 true).1 (Or.inl rfl) (by rw [e1]; exact hbm)
  rw [e3, if_pos rfl] at hI
  rw [e1] at hC
  refine ⟨c0, cs.cons.length + cs.numInst, hc0, by rw [hC, hI], ?_, ?_⟩
  · intro hd
    unfold generateSrs generateParametersWithQap
    simp only [hcs, Res.ok_bind, hd]
    rfl
  · intro d hd k hk hout hin
    have hsample : ∀ (k fuel : ℕ) (st : R.σ), k < fuel → d.vanishing (draw R st k) ≠ 0 →
        (∀ j < k, d.vanishing (draw R st j) = 0) →
        sampleOutside R d fuel st = .ok (draw R st k, after R st (k + 1)) := by
      intro k
      induction k with
      | zero =>
        intro fuel st hf h1 _
        obtain ⟨f, rfl⟩ : ∃ f, fuel = f + 1 := ⟨fuel - 1, by omega⟩
        simp only [sampleOutside]
        exact if_neg h1
      | succ k ih =>
        intro fuel st hf h1 h2
        obtain ⟨f, rfl⟩ : ∃ f, fuel = f + 1 := ⟨fuel - 1, by omega⟩
        simp only [sampleOutside]
        have h0 : d.vanishing (R.fr st).1 = 0 := h2 0 (by omega)
        rw [if_pos h0]
        have hsh : ∀ j, draw R (after R st 1) j = draw R st (j + 1) := fun j => by
          rw [draw_after, Nat.add_comm]
        have := ih f (after R st 1) (by omega) (by rw [hsh]; exact h1)
          (fun j hj => by rw [hsh]; exact h2 (j + 1) (by omega))
        rw [hsh] at this
        refine this.trans ?_
        rw [after_after, Nat.add_comm 1]
    have hs := hsample k fuel (after R st 4) hk (by rw [draw_after]; exact hout)
      (fun j hj => by rw [draw_after]; exact hin j hj)
    rw [draw_after, after_after] at hs
    have hrun : generateSrs T R fuel st c0.generateConstraints gens =
        (generateParametersWithQap T R fuel (after R st 4) c0.generateConstraints (draw R st 0)
          (draw R st 1) (draw R st 2) (draw R st 3) gens.G gens.H >>= fun p =>
          Res.ok (⟨p.1, mulBigint gens.G (intoBigint (K := E.fr) (-(draw R st 2)))⟩, p.2)) := rfl
    rw [hrun]
    unfold generateParametersWithQap
    simp only [hcs, Res.ok_bind, hd, hs]
    constructor
    · rintro (h | h)
      · rw [if_pos h]; rfl
      · by_cases h2 : draw R st 2 = 0
        · rw [if_pos h2]; rfl
        · rw [if_neg h2, if_pos h]; rfl
    · intro h2 h3
      rw [if_neg h2, if_neg h3]
      exact ⟨_, rfl⟩

/-! ### C54: the whole pipeline -/

/-- **C54** setup, encryption with proof, verification, decryption and the public check of the decryption
value `nu` compose, for every message, for every successful `setup_for_groth16` whose generators and
decryption key have no zero component. -/
theorem C54_pipeline (T : FftCfg E.Fr) (R : RngCore E) (fuel : ℕ) (st st' : R.σ) (b : UInt8)
    (hb : Supported b)
    (hal : 64 * E.fr.limbs < E.fr.modBits + b.toNat ∧ chunksNeeded E.fr b.toNat ≤ 255)
    (gens : EncryptionGens E) (pk : ProvingKey E) (sk : SecretKey E) (ek : EncryptionKey E)
    (dk : DecryptionKey E)
    (hset : setupForGroth16 T R fuel st b gens = .ok ((pk, sk, ek, dk), st'))
    (hgi : ∀ g ∈ pk.pk.vk.gamma_abc_g1.tail, g ≠ 0) (hV : ∀ V ∈ dk.V_2, V ≠ 0)
    (chk : Bool) (R' : RngCore E) (st1 : R'.σ) (m : E.Fr) :
    ∃ ct r proof nu st2, encryptWithProof T chk R' st1 m ek pk b = .ok ((ct, r, proof), st2) ∧
      ct.verifyCommitmentAndProof proof (prepareVerifyingKey pk.pk.vk) ek.prepare gens.prepare
        = .ok () ∧
      ct.decryptGivenGroth16Vk chk sk dk.prepare pk.pk.vk b = .ok (m, nu) ∧
      E.e nu gens.H = E.e ct.X_r dk.V_0 := by
  unfold setupForGroth16 at hset
  obtain ⟨c0, hc0, hset⟩ := Res.bind_eq_ok.mp hset
  obtain ⟨⟨pk', st2⟩, hsrs, hset⟩ := Res.bind_eq_ok.mp hset
  obtain ⟨g_i, hg, hset⟩ := Res.bind_eq_ok.mp hset
  obtain ⟨⟨⟨sk', ek', dk'⟩, st3⟩, hkg, hset⟩ := Res.bind_eq_ok.mp hset
  simp only [Res.pure_eq, Res.ok.injEq, Prod.mk.injEq] at hset
  obtain ⟨⟨rfl, rfl, rfl, rfl⟩, -⟩ := hset
  have htail : pk'.pk.vk.gamma_abc_g1.tail = g_i ∧ pk'.pk.vk.gamma_abc_g1 ≠ [] := by
    unfold getGsForEncryption at hg
    split at hg
    · cases hg
    · rename_i h; cases hg; rw [h]; simp
  have hk : FromSetup ek' b gens g_i pk'.pk.delta_g1 pk'.gamma_g1 := Or.inl ⟨_, _, _, _, _, hkg⟩
  obtain ⟨ct, r, proof, st4, h1, h2, h3⟩ := C46_encrypt_with_proof T R fuel st st2 b hb hal c0 gens pk'
    hc0 hsrs g_i hg ek' hk chk R' st1 m
  obtain ⟨ct', r', st5, h4, -, h5⟩ := C18_decrypt_encrypt R st2 _ b gens g_i _ _ sk' ek' dk' hkg hb hal
    (by rw [← htail.1]; exact hgi) hV R' st1 m
  rw [h2] at h4
  cases h4
  have h6 := ((h5 pk'.pk.vk htail.1 htail.2).2 chk).1
  refine ⟨ct, r, proof, _, st4, h1, h3, h6, ?_⟩
  have h7 : (sk'.rho * r) • ek'.X_0 = sk'.rho • ct.X_r := by
    unfold Ciphertext.decryptGivenGroth16Vk at h6
    rw [hg, Res.ok_bind] at h6
    exact (C19_nu_message chk _ _ sk' dk'.prepare g_i b [] m _).1 h6
  rw [h7]
  exact (C19_publicly_checkable R st2 _ b gens g_i _ _ sk' ek' dk' hkg ct.X_r 0).1

end Verif
