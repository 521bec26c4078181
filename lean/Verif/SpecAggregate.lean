/-
Specification of C100: aggregation of ciphertexts submitted by honest and malicious encryptors under a distributed key.
-/
import Verif.SpecDkgTapes

namespace Verif
variable {E : Engine}

namespace Spec

/-- what a malicious encryptor contributes: a vector of chunks of its own, or the message of an honest user -/
inductive Contribution where
  | own (chunks : List UInt16)
  | copyOf (user : ℕ)

/-- the chunks contributed, when the chunks of the messages of the honest users are `honest` -/
def Contribution.value (honest : List (List UInt16)) : Contribution → List UInt16
  | .own chunks => chunks
  | .copyOf user => honest.getD user []

/-- a vector of `n` chunks below `2^bits`, or one of `q` users -/
def Contribution.Valid (n bits q : ℕ) : Contribution → Prop
  | .own chunks => chunks.length = n ∧ ∀ x ∈ chunks, x.toNat < 2 ^ bits
  | .copyOf user => user < q

/-- the `k` ciphertexts and proofs submitted by an adversary that is shown `view1` and `view2` -/
def submitted (k : ℕ) (A : Prover E (ℕ → Strategy E.Fr)) (view1 : List E.G1) (view2 : List E.G2) :
    List (Ciphertext E × Proof E) :=
  tab k fun i => ((A.choice view1 view2 i).cipher view1, (A.choice view1 view2 i).proof view1 view2)

/-- Parameter generation with at most `F` candidates for the evaluation point draws from the tape `fs`.  The first `2 n + 1`
scalars of the tape `h` are those of the honest party, the others those of the honest users, who encrypt `ms` with
`encrypt_with_proof`.  The adversary controls the other parties, is shown everything published and all honest ciphertexts
and proofs, and submits `k` ciphertexts with proofs; `P` is given the proving key, the encryption key, the honest
submissions and those of the adversary. -/
def AggOutcome (F : ℕ) (T : FftCfg E.Fr) (chk : Bool) (b : UInt8) (gens : EncryptionGens E)
    (others1 others2 : List (Party E)) (ms : List E.Fr) (k : ℕ) (A : Prover E (ℕ → Strategy E.Fr)) (fs h : ℕ → E.Fr)
    (P : ProvingKey E → EncryptionKey E → List (Ciphertext E × Proof E) → List (Ciphertext E × Proof E) → Prop) : Prop :=
  ∃ pk keys shares ek l h',
    setupForDkg T (tape E) F fs b gens (crew others1 others2 h) = .ok (pk, keys, shares, ek) ∧
    encryptAll T chk (tape E) ek pk b ms (fun i => h (1 + 2 * ek.X.length + i)) = .ok (l, h') ∧
    P pk ek l (submitted k A (dkgView1 gens pk keys shares ek l) (dkgView2 gens pk keys ek l))

/-- Whichever of the submissions in `all` are selected (in whatever order, possibly several times): if the proof of each selected one is accepted and
the chunks cannot overflow `b'` bits, then the selected ciphertexts add up to a ciphertext whose commitment is accepted, and
which the parties re-encrypt and every destination decrypts, as chunks of `b'` bits, to the chunk-wise sums of the selected
`values`. -/
def SumsTold (b : UInt8) (n : ℕ) (gens : EncryptionGens E) (parties : List (Party E)) (pk : ProvingKey E)
    (ek : EncryptionKey E) (all : List (Ciphertext E × Proof E)) (values : List (List UInt16)) : Prop :=
  ∃ g_i sks, getGsForEncryption pk.pk.vk = .ok g_i ∧
    dkg parties b gens g_i pk.pk.delta_g1 pk.gamma_g1 = .ok (sks, ek) ∧
    ∀ sel : List ℕ, sel ≠ [] →
      (∀ s ∈ sel, ∃ ct proof, all[s]? = some (ct, proof) ∧ Accepted gens pk ek ct proof) →
      ∀ b' : UInt8, b'.toNat ≤ 16 → sel.length * (2 ^ b.toNat - 1) < 2 ^ b'.toNat →
        sel.length * (2 ^ b.toNat - 1) < E.fr.p →
        ∃ ct sums, aggregate (sel.filterMap fun s => (all[s]?).map fun c => flat c.1) = .ok (flat ct) ∧
          ct.verifyCommitment ek.prepare gens.prepare = .ok () ∧
          Says b' gens g_i sks ct sums ∧ sums.length = n ∧
          ∀ i < n, (nums sums).getD i 0 = (sel.map fun s => (nums (values.getD s [])).getD i 0).sum

/-- The honest submissions are accepted; and for any selection of accepted submissions, honest or not, the sums of the
contributions are delivered: the honest users contribute their messages, the adversary `c`. -/
def HonestSums (b : UInt8) (n : ℕ) (gens : EncryptionGens E) (parties : List (Party E)) (ms : List E.Fr) (k : ℕ)
    (c : ℕ → Contribution) (pk : ProvingKey E) (ek : EncryptionKey E) (l subs : List (Ciphertext E × Proof E)) : Prop :=
  (∀ p ∈ l, Accepted gens pk ek p.1 p.2) ∧ ∃ honest : List (List UInt16),
    List.Forall₂ (fun m ds => decompose (K := E.fr) m b = .ok ds) ms honest ∧
    SumsTold b n gens parties pk ek (l ++ subs) (honest ++ tab k fun i => (c i).value honest)

/-- All submissions are checked with `verify_proof` and their commitments with one `verify_commitments_in_batch`, with the
powers of the challenge `x`. -/
def BatchAccepted (gens : EncryptionGens E) (pk : ProvingKey E) (ek : EncryptionKey E) (x : E.Fr)
    (all : List (Ciphertext E × Proof E)) : Prop :=
  (∀ p ∈ all, verifyProof (prepareVerifyingKey pk.pk.vk) p.2 p.1 = .ok ()) ∧
    verifyCommitmentsInBatch (all.map (·.1)) (tab all.length fun i => x ^ i) ek.prepare gens.prepare = .ok ()

/-- The first submission of the adversary has an acceptable commitment and cancels the contribution of user `j`: the two add
up to a ciphertext that every destination reads as zeros. -/
def Cancels (b : UInt8) (n : ℕ) (gens : EncryptionGens E) (parties : List (Party E)) (j : ℕ) (pk : ProvingKey E)
    (ek : EncryptionKey E) (l subs : List (Ciphertext E × Proof E)) : Prop :=
  ∃ user sub g_i sks ct, (l[j]?).map (·.1) = some user ∧ (subs[0]?).map (·.1) = some sub ∧
    sub.verifyCommitment ek.prepare gens.prepare = .ok () ∧
    getGsForEncryption pk.pk.vk = .ok g_i ∧ dkg parties b gens g_i pk.pk.delta_g1 pk.gamma_g1 = .ok (sks, ek) ∧
    aggregate [flat user, flat sub] = .ok (flat ct) ∧
    ((∀ g ∈ g_i, g ≠ 0) → Says b gens g_i sks ct (List.replicate n 0))

/-- The number of choices of `L` draws of `generate_srs`, `M` draws of the honest side and the verifier's challenge for which
`Q` holds. -/
noncomputable def drawsX (E : Engine) (L M : ℕ) (Q : (ℕ → E.Fr) → (ℕ → E.Fr) → E.Fr → Prop) : ℕ :=
  {x : ((Fin L → E.Fr) × (Fin M → E.Fr)) × E.Fr | Q (tapeOf x.1.1) (tapeOf x.1.2) x.2}.ncard

end Spec
end Verif
