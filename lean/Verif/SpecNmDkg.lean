/-
Specification for C90: adaptive adversaries against distributed keys that see honest ciphertexts and proofs.
-/
import Verif.SpecNmAdapt

namespace Verif
variable {E : Engine}

namespace Spec

/-- everything the adversary sees in the first group: all that was published during parameter and key generation, and
the ciphertexts and proofs of the honest users -/
def dkgView1 (gens : EncryptionGens E) (pk : ProvingKey E) (keys : List (FEncryptionKeyPartial E))
    (shares : List (P1share E)) (ek : EncryptionKey E) (l : List (Ciphertext E × Proof E)) : List E.G1 :=
  dkgPublic1 gens pk keys shares ek ++ seen1 l

/-- everything it sees in the second group -/
def dkgView2 (gens : EncryptionGens E) (pk : ProvingKey E) (keys : List (FEncryptionKeyPartial E))
    (ek : EncryptionKey E) (l : List (Ciphertext E × Proof E)) : List E.G2 :=
  dkgPublic2 gens pk keys ek ++ seen2 l

/-- One tape for the honest side: the first five scalars are those of `generate_srs`, the next `2 n + 1` those of the
honest party (`n` is the number of chunks of the key), the others those of the honest users, who encrypt `ms` with
`encrypt_with_proof`.  The other parties are arbitrary machines in arbitrary states.  An adaptive adversary is shown
everything published and all honest ciphertexts and proofs, and `P` holds of the outcome; `P` is given the proving key,
the encryption key, the honest ciphertexts and proofs, and the adversary's ciphertext and proof. -/
def NmDkgOutcome (T : FftCfg E.Fr) (chk : Bool) (b : UInt8) (gens : EncryptionGens E)
    (others1 others2 : List (Party E)) (ms : List E.Fr) (A : Prover E (Strategy E.Fr)) (f : ℕ → E.Fr)
    (P : ProvingKey E → EncryptionKey E → List (Ciphertext E × Proof E) → Ciphertext E → Proof E → Prop) : Prop :=
  ∃ pk keys shares ek l f',
    setupForDkg T (tape E) 1 f b gens (others1 ++ ⟨tape E, fun i => f (5 + i)⟩ :: others2) =
      .ok (pk, keys, shares, ek) ∧
    encryptAll T chk (tape E) ek pk b ms (fun i => f (6 + 2 * ek.X.length + i)) = .ok (l, f') ∧
    P pk ek l (A.cipher (dkgView1 gens pk keys shares ek l) (dkgView2 gens pk keys ek l))
      (A.proof (dkgView1 gens pk keys shares ek l) (dkgView2 gens pk keys ek l))

end Spec
end Verif
