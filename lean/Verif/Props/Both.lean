/-
Property C59: the exact behaviour of the combined check `verify_commitment_and_proof`.
-/
import Verif.Props.Encrypt
import Verif.Props.Groth16
import Verif.Fixtures

namespace Verif
open Spec

variable {E : Engine}

/-- **C59** `verify_commitment_and_proof` accepts exactly if the number of chunks fits the key, the
commitment equation and the Groth16 equation hold; and it reports the failures in this order: wrong number
of chunks, then the commitment, then the proof. -/
theorem C59_verify_both (ek : EncryptionKey E) (gens : EncryptionGens E) (t : ℕ → E.Fr)
    (hw : WellFormed ek) (hn : ek.X.length < 256) (hH : gens.H ≠ 0)
    (hZ : ∀ i < ek.X.length + 1, ek.Z.getD i 0 = t i • gens.H)
    (vk : VerifyingKey E) (hvk : vk.gamma_abc_g1 ≠ []) (proof : Proof E)
    (X_r : E.G1) (c : List E.G1) (psi : E.G1) :
    let result := Ciphertext.verifyCommitmentAndProof ⟨X_r, c, psi⟩ proof (prepareVerifyingKey vk)
      ek.prepare gens.prepare
    let commitmentHolds := psi = t 0 • X_r + ∑ i ∈ Finset.range c.length, t (i + 1) • c.getD i 0
    let proofHolds := E.e proof.a proof.b = E.e vk.alpha_g1 vk.beta_g2 + E.e proof.c vk.delta_g2 +
      E.e (X_r + c.sum + vk.gamma_abc_g1.getD 0 0) vk.gamma_g2
    (result = .ok () ↔ c.length = ek.X.length ∧ commitmentHolds ∧ proofHolds) ∧
    (result = .err (.incompatibleEncryptionKey c.length ek.X.length) ↔ c.length ≠ ek.X.length) ∧
    (result = .err .invalidCommitment ↔ c.length = ek.X.length ∧ ¬ commitmentHolds) ∧
    (result = .err .pairingCheckFailed ↔ c.length = ek.X.length ∧ commitmentHolds ∧ ¬ proofHolds) := by
  intro result commitmentHolds proofHolds
  obtain ⟨h1, h2, h3⟩ := C16_accept_iff ek gens t hw hn hH hZ X_r c psi
  have hres : result = (verifyCiphertextCommitment X_r c psi ek.prepare gens.prepare >>= fun _ =>
      if proofHolds then Res.ok () else .err .pairingCheckFailed) := by
    show (Ciphertext.verifyCommitmentAndProof ⟨X_r, c, psi⟩ proof (prepareVerifyingKey vk)
      ek.prepare gens.prepare) = _
    unfold Ciphertext.verifyCommitmentAndProof
    rw [verifyProof_eq vk proof _ hvk]
    rfl
  by_cases hl : c.length = ek.X.length
  · by_cases hc : commitmentHolds
    · have := h1.mpr ⟨hl, hc⟩
      rw [hres, this, Res.ok_bind]
      by_cases hp : proofHolds
      · simp [hp, hl, hc]
      · simp [hp, hl, hc]
    · have := h2.mpr ⟨hl, hc⟩
      rw [hres, this]
      simp [hl, hc]
  · have := h3 hl
    rw [hres, this]
    simp [hl]

/-- **C59** the same for arbitrary keys of consistent shape, in terms of pairings: whatever group elements the encryption
key, the generators, the verifying key, the proof and the ciphertext consist of. -/
theorem C59_any_key (ek : EncryptionKey E) (gens : EncryptionGens E)
    (hw : WellFormed ek) (hn : ek.X.length < 256)
    (vk : VerifyingKey E) (hvk : vk.gamma_abc_g1 ≠ []) (proof : Proof E)
    (X_r : E.G1) (c : List E.G1) (psi : E.G1) :
    let result := Ciphertext.verifyCommitmentAndProof ⟨X_r, c, psi⟩ proof (prepareVerifyingKey vk)
      ek.prepare gens.prepare
    let commitmentHolds := E.e X_r (ek.Z.getD 0 0) +
      ∑ i ∈ Finset.range c.length, E.e (c.getD i 0) (ek.Z.getD (i + 1) 0) = E.e psi gens.H
    let proofHolds := E.e proof.a proof.b = E.e vk.alpha_g1 vk.beta_g2 + E.e proof.c vk.delta_g2 +
      E.e (X_r + c.sum + vk.gamma_abc_g1.getD 0 0) vk.gamma_g2
    (result = .ok () ↔ c.length = ek.X.length ∧ commitmentHolds ∧ proofHolds) ∧
    (result = .err (.incompatibleEncryptionKey c.length ek.X.length) ↔ c.length ≠ ek.X.length) ∧
    (result = .err .invalidCommitment ↔ c.length = ek.X.length ∧ ¬ commitmentHolds) ∧
    (result = .err .pairingCheckFailed ↔ c.length = ek.X.length ∧ commitmentHolds ∧ ¬ proofHolds) := by
  intro result commitmentHolds proofHolds
  obtain ⟨h1, h2, h3⟩ := C16_any_key ek gens hw hn X_r c psi
  have hres : result = (verifyCiphertextCommitment X_r c psi ek.prepare gens.prepare >>= fun _ =>
      if proofHolds then .ok () else .err .pairingCheckFailed) := by
    show (Ciphertext.verifyCommitmentAndProof ⟨X_r, c, psi⟩ proof (prepareVerifyingKey vk)
      ek.prepare gens.prepare) = _
    unfold Ciphertext.verifyCommitmentAndProof
    rw [verifyProof_eq vk proof _ hvk]
    rfl
  by_cases hl : c.length = ek.X.length
  · by_cases hc : commitmentHolds
    · have := h1.mpr ⟨hl, hc⟩
      rw [hres, this, Res.ok_bind]
      by_cases hp : proofHolds
      · simp [hp, hl, hc]
      · simp [hp, hl, hc]
    · have := h2.mpr ⟨hl, hc⟩
      rw [hres, this]
      simp [hl, hc]
  · have := h3.mpr hl
    rw [hres, this]
    simp [hl]

/-- an encryption key with inconsistent contents (random `Z`): accepted exactly on the pairing equation -/
example (vk : VerifyingKey Fix.E) (hvk : vk.gamma_abc_g1 ≠ []) (proof : Proof Fix.E) :
    Ciphertext.verifyCommitmentAndProof (E := Fix.E) ⟨(1 : Fix.F), [(1 : Fix.F)], (0 : Fix.F)⟩ proof
      (prepareVerifyingKey vk) (EncryptionKey.prepare (E := Fix.E)
        ⟨(1 : Fix.F), [(1 : Fix.F)], [(1 : Fix.F)], [(4 : Fix.F), (9 : Fix.F)], (1 : Fix.F), (1 : Fix.F)⟩)
      (EncryptionGens.prepare (E := Fix.E) ⟨(2 : Fix.F), (0 : Fix.F)⟩) = .err .invalidCommitment := by
  refine (C59_any_key (E := Fix.E) ⟨(1 : Fix.F), [(1 : Fix.F)], [(1 : Fix.F)], [(4 : Fix.F), (9 : Fix.F)], (1 : Fix.F),
    (1 : Fix.F)⟩ ⟨(2 : Fix.F), (0 : Fix.F)⟩ ⟨rfl, rfl⟩ (by decide) vk hvk proof (1 : Fix.F) [(1 : Fix.F)]
    (0 : Fix.F)).2.2.1.mpr ⟨rfl, ?_⟩
  decide +kernel

/-- C59 on the concrete key: the honest ciphertext with another commitment is rejected for the commitment,
whatever proof comes with it; without its last chunk it is rejected for the number of chunks. -/
example (vk : VerifyingKey Fix.E) (hvk : vk.gamma_abc_g1 ≠ []) (proof : Proof Fix.E) :
    Ciphertext.verifyCommitmentAndProof ⟨Fix.ct1.X_r, Fix.ct1.enc_chunks, Fix.psiBad⟩ proof
      (prepareVerifyingKey vk) Fix.ek.prepare Fix.gens.prepare = .err .invalidCommitment ∧
    Ciphertext.verifyCommitmentAndProof ⟨Fix.ct1.X_r, Fix.ct1.enc_chunks.dropLast, Fix.psiBad⟩ proof
      (prepareVerifyingKey vk) Fix.ek.prepare Fix.gens.prepare
        = .err (.incompatibleEncryptionKey 3 4) := by
  have h := fun c psi => C59_verify_both Fix.ek Fix.gens (fun i => ([1, 3, 5, 7, 9] : List Fix.F).getD i 0)
    Fix.wf (by decide +kernel) (by exact (by decide +kernel : (3 : Fix.F) ≠ 0)) (by
      intro i hi
      have hi : i < 5 := hi
      interval_cases i <;> decide +kernel) vk hvk proof Fix.ct1.X_r c psi
  refine ⟨(h Fix.ct1.enc_chunks Fix.psiBad).2.2.1.mpr ⟨by decide +kernel, ?_⟩,
    (h Fix.ct1.enc_chunks.dropLast Fix.psiBad).2.1.mpr (by decide +kernel)⟩
  decide +kernel

end Verif
