/-
Specification for C81, C83: adversaries that see honest ciphertexts and proofs and output a ciphertext and a
proof of their own.
-/
import Verif.SpecAgm

namespace Verif
variable {E : Engine}

namespace Spec

/-- Honest users: the messages are passed to `encrypt_with_proof` one after the other. -/
def encryptAll (T : FftCfg E.Fr) (chk : Bool) (R : RngCore E) (ek : EncryptionKey E) (pk : ProvingKey E)
    (b : UInt8) : List E.Fr → R.σ → Res (List (Ciphertext E × Proof E) × R.σ)
  | [], st => .ok ([], st)
  | m :: ms, st => do
    let ((ct, _, proof), st) ← encryptWithProof T chk R st m ek pk b
    let (l, st) ← encryptAll T chk R ek pk b ms st
    return ((ct, proof) :: l, st)

/-- the elements of the first group in these ciphertexts and proofs -/
def seen1 (l : List (Ciphertext E × Proof E)) : List E.G1 :=
  (l.map fun p => [p.1.X_r] ++ p.1.enc_chunks ++ [p.1.commitment, p.2.a, p.2.c]).flatten

/-- the elements of the second group -/
def seen2 (l : List (Ciphertext E × Proof E)) : List E.G2 := l.map fun p => p.2.b

/-- everything the adversary sees in the first group -/
def view1 (gens : EncryptionGens E) (pk : ProvingKey E) (ek : EncryptionKey E)
    (l : List (Ciphertext E × Proof E)) : List E.G1 := public1 gens pk ek ++ seen1 l

/-- everything the adversary sees in the second group -/
def view2 (gens : EncryptionGens E) (pk : ProvingKey E) (ek : EncryptionKey E) (dk : DecryptionKey E)
    (l : List (Ciphertext E × Proof E)) : List E.G2 := public2 gens pk ek dk ++ seen2 l

/-- One tape for all: `setup_for_groth16` succeeds at the first candidate for the evaluation point, the honest
users encrypt `ms`, and `verify_commitment_and_proof` accepts what the adversary makes of all it has seen. -/
def NmAccepts (T : FftCfg E.Fr) (chk : Bool) (b : UInt8) (gens : EncryptionGens E) (ms : List E.Fr)
    (S : Strategy E.Fr) (f : ℕ → E.Fr) : Prop :=
  ∃ pk sk ek dk f' l f'', setupForGroth16 T (tape E) 1 f b gens = .ok ((pk, sk, ek, dk), f') ∧
    encryptAll T chk (tape E) ek pk b ms f' = .ok (l, f'') ∧
    (S.cipher (view1 gens pk ek l)).verifyCommitmentAndProof
      (S.proof (view1 gens pk ek l) (view2 gens pk ek dk l)) (prepareVerifyingKey pk.pk.vk)
      ek.prepare gens.prepare = .ok ()

end Spec
end Verif
