/-
Specification for C87: adaptive adversaries that see honest ciphertexts and proofs.
-/
import Verif.SpecNm
import Verif.SpecAdaptive

namespace Verif
variable {E : Engine}

namespace Spec

/-- One tape for all: `setup_for_groth16` succeeds at the first candidate for the evaluation point, the honest users
encrypt `ms` with `encrypt_with_proof`, an adaptive adversary is shown everything public and all honest ciphertexts and proofs, and `P`
holds of the outcome; `P` is given the keys, the honest ciphertexts and proofs, and the adversary's ciphertext and
proof. -/
def NmOutcome (T : FftCfg E.Fr) (chk : Bool) (b : UInt8) (gens : EncryptionGens E) (ms : List E.Fr)
    (A : Prover E (Strategy E.Fr)) (f : ℕ → E.Fr)
    (P : ProvingKey E → SecretKey E → EncryptionKey E → DecryptionKey E → List (Ciphertext E × Proof E) →
      Ciphertext E → Proof E → Prop) : Prop :=
  ∃ pk sk ek dk f' l f'', setupForGroth16 T (tape E) 1 f b gens = .ok ((pk, sk, ek, dk), f') ∧
    encryptAll T chk (tape E) ek pk b ms f' = .ok (l, f'') ∧
    P pk sk ek dk l (A.cipher (view1 gens pk ek l) (view2 gens pk ek dk l))
      (A.proof (view1 gens pk ek l) (view2 gens pk ek dk l))

end Spec
end Verif
