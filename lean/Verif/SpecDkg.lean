/-
Specification of the soundness game for distributed key generation, used by C71: parameters and keys are made,
and an algebraic adversary outputs a ciphertext and a proof from everything that was published.
-/
import Verif.SpecAgm
import Verif.SpecSec
import Verif.Model.Protocol

namespace Verif
variable {E : Engine}

namespace Spec

/-- `generate_srs` for the circuit of chunk size `b`, followed by distributed key generation with its output
(src/setup.rs:94-119 with the key generation of src/tests.rs:37-53).  Returns the proving key, the messages of
the two rounds and the final encryption key. -/
def setupForDkg (T : FftCfg E.Fr) (R : RngCore E) (fuel : ℕ) (st : R.σ) (b : UInt8) (gens : EncryptionGens E)
    (parties : List (Party E)) :
    Res (ProvingKey E × List (FEncryptionKeyPartial E) × List (P1share E) × EncryptionKey E) := do
  let circuit ← BitsizeCheckCircuit.new (K := E.fr) b none none true
  let (pk, _) ← generateSrs T R fuel st circuit.generateConstraints gens
  let g_i ← getGsForEncryption pk.pk.vk
  let (keys, shares, ek) ← dkgTranscript parties b gens g_i pk.pk.delta_g1 pk.gamma_g1
  return (pk, keys, shares, ek)

/-- All elements of the first group that are published. -/
def dkgPublic1 (gens : EncryptionGens E) (pk : ProvingKey E) (keys : List (FEncryptionKeyPartial E))
    (shares : List (P1share E)) (ek : EncryptionKey E) : List E.G1 :=
  public1 gens pk ek ++ ((keys.map partialElems1).flatten ++ shares.map (·.P_1))

/-- All elements of the second group that are published. -/
def dkgPublic2 (gens : EncryptionGens E) (pk : ProvingKey E) (keys : List (FEncryptionKeyPartial E))
    (ek : EncryptionKey E) : List E.G2 :=
  [gens.H, pk.pk.vk.beta_g2, pk.pk.vk.gamma_g2, pk.pk.vk.delta_g2] ++ (pk.pk.b_g2_query ++
    (ek.Z ++ (keys.map (·.Z)).flatten))

/-- The first five scalars of the tape are those of `generate_srs`, the others the honest party's; the other
parties are arbitrary machines in arbitrary states.  Everything succeeds, at the first candidate for the
evaluation point, and `verify_commitment_and_proof` accepts what the adversary makes of what was published. -/
def DkgAccepts (T : FftCfg E.Fr) (b : UInt8) (gens : EncryptionGens E) (others1 others2 : List (Party E))
    (S : Strategy E.Fr) (f : ℕ → E.Fr) : Prop :=
  ∃ pk keys shares ek,
    setupForDkg T (tape E) 1 f b gens (others1 ++ ⟨tape E, fun i => f (5 + i)⟩ :: others2) =
      .ok (pk, keys, shares, ek) ∧
    (S.cipher (dkgPublic1 gens pk keys shares ek)).verifyCommitmentAndProof
      (S.proof (dkgPublic1 gens pk keys shares ek) (dkgPublic2 gens pk keys ek)) (prepareVerifyingKey pk.pk.vk)
      ek.prepare gens.prepare = .ok ()

/-- All parties are arbitrary machines in arbitrary states; the tape has the five scalars of `generate_srs`.
Everything succeeds, and `verify_proof` accepts the proof with coefficients `ka`, `kb`, `kc` for the SAVER
ciphertext of the field elements `m_i` with randomness `r`. -/
def DkgRangeAccepts (T : FftCfg E.Fr) (b : UInt8) (gens : EncryptionGens E) (parties : List (Party E))
    (ka kb kc m : ℕ → E.Fr) (r : E.Fr) (f : ℕ → E.Fr) : Prop :=
  ∃ pk keys shares ek,
    setupForDkg T (tape E) 1 f b gens parties = .ok (pk, keys, shares, ek) ∧
    verifyProof (prepareVerifyingKey pk.pk.vk)
      ⟨comb ka (dkgPublic1 gens pk keys shares ek), comb kb (dkgPublic2 gens pk keys ek),
        comb kc (dkgPublic1 gens pk keys shares ek)⟩
      (fieldCipher ek (fun i => pk.pk.vk.gamma_abc_g1.tail.getD i 0) m r) = .ok ()

end Spec
end Verif
