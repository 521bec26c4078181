/-
Specification of adaptive generic-group provers, used by C74 onwards: they may ask arbitrary questions about the
published group elements and choose the coefficients of their output depending on the answers.
-/
import Verif.SpecDkg

namespace Verif
variable {E : Engine}

namespace Spec

/-- An adaptive generic-group prover: it asks questions about the elements it has been given, and in the end it
decides what to output. -/
inductive Prover (E : Engine) (α : Type) where
  | output (a : α)
  | ask (q : Question E) (yes no : Prover E α)

variable {α : Type}

/-- the largest number of questions it asks -/
def Prover.questions : Prover E α → ℕ
  | .output _ => 0
  | .ask _ yes no => 1 + max yes.questions no.questions

/-- its decision, when it is shown `view1` and `view2` -/
def Prover.choice (view1 : List E.G1) (view2 : List E.G2) : Prover E α → α
  | .output a => a
  | .ask q yes no => if q.Yes view1 view2 then yes.choice view1 view2 else no.choice view1 view2

/-- the ciphertext output by a prover that chooses the coefficients of a ciphertext and a proof -/
def Prover.cipher (A : Prover E (Strategy E.Fr)) (view1 : List E.G1) (view2 : List E.G2) : Ciphertext E :=
  (A.choice view1 view2).cipher view1

/-- the proof it outputs -/
def Prover.proof (A : Prover E (Strategy E.Fr)) (view1 : List E.G1) (view2 : List E.G2) : Proof E :=
  (A.choice view1 view2).proof view1 view2

/-- `setup_for_groth16` succeeds on this tape, at the first candidate for the evaluation point, and `P` holds of
what the prover, shown everything public, makes of it; `P` is given the proving key, the encryption key, the
ciphertext and the proof. -/
def Outcome (T : FftCfg E.Fr) (b : UInt8) (gens : EncryptionGens E) (A : Prover E (Strategy E.Fr)) (f : ℕ → E.Fr)
    (P : ProvingKey E → EncryptionKey E → Ciphertext E → Proof E → Prop) : Prop :=
  ∃ pk sk ek dk f', setupForGroth16 T (tape E) 1 f b gens = .ok ((pk, sk, ek, dk), f') ∧
    P pk ek (A.cipher (public1 gens pk ek) (public2 gens pk ek dk))
      (A.proof (public1 gens pk ek) (public2 gens pk ek dk))

/-- `verify_commitment_and_proof` accepts -/
def Accepted (gens : EncryptionGens E) (pk : ProvingKey E) (ek : EncryptionKey E) (ct : Ciphertext E)
    (proof : Proof E) : Prop :=
  ct.verifyCommitmentAndProof proof (prepareVerifyingKey pk.pk.vk) ek.prepare gens.prepare = .ok ()

/-- the ciphertext is the SAVER encryption of the chunks `m` with randomness `r` under this key -/
def Encrypts (pk : ProvingKey E) (ek : EncryptionKey E) (m : ℕ → ℕ) (r : E.Fr) (ct : Ciphertext E) : Prop :=
  ct = cipher ek (fun i => pk.pk.vk.gamma_abc_g1.tail.getD i 0) m r

/-- The same for distributed key generation: the first five scalars of the tape are those of `generate_srs`, the
others the honest party's; the other parties are arbitrary machines in arbitrary states.  The prover is shown
everything that was published. -/
def DkgOutcome (T : FftCfg E.Fr) (b : UInt8) (gens : EncryptionGens E) (others1 others2 : List (Party E))
    (A : Prover E (Strategy E.Fr)) (f : ℕ → E.Fr) (P : ProvingKey E → EncryptionKey E → Ciphertext E → Proof E → Prop) : Prop :=
  ∃ pk keys shares ek,
    setupForDkg T (tape E) 1 f b gens (others1 ++ ⟨tape E, fun i => f (5 + i)⟩ :: others2) =
      .ok (pk, keys, shares, ek) ∧
    P pk ek (A.cipher (dkgPublic1 gens pk keys shares ek) (dkgPublic2 gens pk keys ek))
      (A.proof (dkgPublic1 gens pk keys shares ek) (dkgPublic2 gens pk keys ek))

/-! ### Range proofs -/

/-- What a range prover that knows all key secrets chooses: the coefficients of the three elements of the proof, the
encrypted field elements and the randomness. -/
structure RangeChoice (F : Type) where
  a : ℕ → F
  b : ℕ → F
  c : ℕ → F
  m : ℕ → F
  r : F

/-- `generate_srs` succeeds on this tape and so does key generation with its output, by an arbitrary machine in an
arbitrary state; the prover is shown everything public; `verify_proof` accepts its proof for the SAVER ciphertext of
the field elements it has chosen, and `P` holds of these field elements. -/
def RangeOutcome (T : FftCfg E.Fr) (b : UInt8) (gens : EncryptionGens E) (c0 : BitsizeCheckCircuit E.fr)
    (R' : RngCore E) (st1 : R'.σ) (A : Prover E (RangeChoice E.Fr)) (f : ℕ → E.Fr) (P : (ℕ → E.Fr) → Prop) : Prop :=
  ∃ pk f' g_i sk ek dk st2 C,
    generateSrs T (tape E) 1 f c0.generateConstraints gens = .ok (pk, f') ∧
    getGsForEncryption pk.pk.vk = .ok g_i ∧
    keygen R' st1 b gens g_i pk.pk.delta_g1 pk.gamma_g1 = .ok ((sk, ek, dk), st2) ∧
    C = A.choice (public1 gens pk ek) (public2 gens pk ek dk) ∧
    verifyProof (prepareVerifyingKey pk.pk.vk)
      ⟨comb C.a (public1 gens pk ek), comb C.b (public2 gens pk ek dk), comb C.c (public1 gens pk ek)⟩
      (fieldCipher ek (fun i => g_i.getD i 0) C.m C.r) = .ok () ∧
    P C.m

/-- The same for distributed key generation with arbitrary parties. -/
def DkgRangeOutcome (T : FftCfg E.Fr) (b : UInt8) (gens : EncryptionGens E) (parties : List (Party E))
    (A : Prover E (RangeChoice E.Fr)) (f : ℕ → E.Fr) (P : (ℕ → E.Fr) → Prop) : Prop :=
  ∃ pk keys shares ek C,
    setupForDkg T (tape E) 1 f b gens parties = .ok (pk, keys, shares, ek) ∧
    C = A.choice (dkgPublic1 gens pk keys shares ek) (dkgPublic2 gens pk keys ek) ∧
    verifyProof (prepareVerifyingKey pk.pk.vk)
      ⟨comb C.a (dkgPublic1 gens pk keys shares ek), comb C.b (dkgPublic2 gens pk keys ek),
        comb C.c (dkgPublic1 gens pk keys shares ek)⟩
      (fieldCipher ek (fun i => pk.pk.vk.gamma_abc_g1.tail.getD i 0) C.m C.r) = .ok () ∧
    P C.m

end Spec
end Verif
