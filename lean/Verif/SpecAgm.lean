/-
Specification of algebraic adversaries, used by C60-C62: what they see (every published group
element), what they output (fixed linear combinations of it), and the random tape of a setup run.
-/
import Verif.Spec
import Verif.Model.Setup

namespace Verif
variable {E : Engine}

namespace Spec

/-- `sum_i k_i l_i` -/
def comb {F G : Type} [Semiring F] [AddCommMonoid G] [Module F G] (k : ℕ → F) (l : List G) : G :=
  ∑ i ∈ Finset.range l.length, k i • l.getD i 0

/-- All elements of the first group that are published by `generate_srs` and key generation. -/
def public1 (gens : EncryptionGens E) (pk : ProvingKey E) (ek : EncryptionKey E) : List E.G1 :=
  pk.pk.l_query ++ (pk.pk.h_query ++ ([gens.G, pk.pk.vk.alpha_g1, pk.pk.beta_g1, pk.pk.delta_g1,
    pk.gamma_g1] ++ (pk.pk.a_query ++ (pk.pk.b_g1_query ++ (pk.pk.vk.gamma_abc_g1 ++
    ([ek.X_0] ++ (ek.X ++ ([ek.P_2] ++ (ek.Y ++ [ek.P_1])))))))))

/-- All elements of the second group that are published by `generate_srs` and key generation,
including the decryption key. -/
def public2 (gens : EncryptionGens E) (pk : ProvingKey E) (ek : EncryptionKey E)
    (dk : DecryptionKey E) : List E.G2 :=
  [gens.H, pk.pk.vk.beta_g2, pk.pk.vk.gamma_g2, pk.pk.vk.delta_g2] ++ (pk.pk.b_g2_query ++
    (ek.Z ++ ([dk.V_0] ++ (dk.V_1 ++ dk.V_2))))

/-- The SAVER ciphertext equations for arbitrary field elements `m_i` in place of chunks. -/
def fieldCipher (ek : EncryptionKey E) (g : ℕ → E.G1) (m : ℕ → E.Fr) (r : E.Fr) : Ciphertext E where
  X_r := r • ek.X_0
  enc_chunks := tab ek.X.length fun i => r • ek.X.getD i 0 + m i • g i
  commitment := (∑ i ∈ Finset.range ek.X.length, m i • ek.Y.getD i 0) + r • ek.P_1

/-- A generator that reads its scalars from a tape. -/
def tape (E : Engine) : RngCore E where
  σ := ℕ → E.Fr
  fr f := (f 0, fun i => f (i + 1))
  g1 f := (0, f)
  g2 f := (0, f)

/-- An algebraic (generic-group) adversary: every group element it outputs is a linear combination, with
fixed coefficients, of the published elements of the same group. -/
structure Strategy (F : Type) where
  x : ℕ → F
  len : ℕ
  chunk : ℕ → ℕ → F
  psi : ℕ → F
  a : ℕ → F
  b : ℕ → F
  c : ℕ → F

/-- the ciphertext it outputs -/
def Strategy.cipher (S : Strategy E.Fr) (P1 : List E.G1) : Ciphertext E where
  X_r := comb S.x P1
  enc_chunks := tab S.len fun i => comb (S.chunk i) P1
  commitment := comb S.psi P1

/-- the proof it outputs -/
def Strategy.proof (S : Strategy E.Fr) (P1 : List E.G1) (P2 : List E.G2) : Proof E where
  a := comb S.a P1
  b := comb S.b P2
  c := comb S.c P1

/-- A tape that starts with the given draws. -/
def tapeOf {K : ℕ} (g : Fin K → E.Fr) : ℕ → E.Fr := fun i => if h : i < K then g ⟨i, h⟩ else 0

/-- `setup_for_groth16` succeeds on this tape, at the first candidate for the evaluation point, and
`verify_commitment_and_proof` accepts what the adversary makes of its output. -/
def Accepts (T : FftCfg E.Fr) (b : UInt8) (gens : EncryptionGens E) (S : Strategy E.Fr) (f : ℕ → E.Fr) :
    Prop :=
  ∃ pk sk ek dk f', setupForGroth16 T (tape E) 1 f b gens = .ok ((pk, sk, ek, dk), f') ∧
    (S.cipher (public1 gens pk ek)).verifyCommitmentAndProof
      (S.proof (public1 gens pk ek) (public2 gens pk ek dk)) (prepareVerifyingKey pk.pk.vk)
      ek.prepare gens.prepare = .ok ()

/-- `generate_srs` and key generation succeed and `verify_proof` accepts the prover's output -/
def RangeAccepts (T : FftCfg E.Fr) (b : UInt8) (gens : EncryptionGens E) (c0 : BitsizeCheckCircuit E.fr)
    (R' : RngCore E) (st1 : R'.σ) (ka kb kc m : ℕ → E.Fr) (r : E.Fr) (f : ℕ → E.Fr) : Prop :=
  ∃ pk f' g_i sk ek dk st2,
    generateSrs T (tape E) 1 f c0.generateConstraints gens = .ok (pk, f') ∧
    getGsForEncryption pk.pk.vk = .ok g_i ∧
    keygen R' st1 b gens g_i pk.pk.delta_g1 pk.gamma_g1 = .ok ((sk, ek, dk), st2) ∧
    verifyProof (prepareVerifyingKey pk.pk.vk)
      ⟨comb ka (public1 gens pk ek), comb kb (public2 gens pk ek dk), comb kc (public1 gens pk ek)⟩
      (fieldCipher ek (fun i => g_i.getD i 0) m r) = .ok ()

end Spec
end Verif
