/-
Specification vocabulary for property C103: a proving key from an untrusted source.
-/
import Verif.Spec
import Verif.Model.Groth16

namespace Verif
namespace Spec
variable {E : Engine}

/-- The proof passes `verify_proof` under the verification key for the ciphertext. -/
def Passes (vk : VerifyingKey E) (ct : Ciphertext E) (proof : Proof E) : Prop :=
  verifyProof (prepareVerifyingKey vk) proof ct = .ok ()

/-- `g` generates its group (of prime order). -/
def Generates {G : Type} [AddCommGroup G] [Module (ZMod E.fr.p) G] (g : G) : Prop :=
  g ≠ 0 ∧ ∀ x : G, ∃ a : E.Fr, x = a • g

/-- Outcomes of `create_proof` described by the two scalars it draws: `outcome t s` is the proof returned by every run,
on every source of randomness, that draws `t` and then `s`. -/
def ProofsBy (T : FftCfg E.Fr) (chk : Bool) (C : Synthesizer E.Fr) (r : E.Fr) (pk : ProvingKey E) (ek : EncryptionKey E)
    (outcome : E.Fr → E.Fr → Proof E) : Prop :=
  ∀ (R : RngCore E) (st : R.σ), createProof T chk R st C r pk ek =
    .ok (outcome (draw R st 0) (draw R st 1), after R st 2)

/-- The proving key with the point `D` added to element number `j` of the list from which the prover combines its
witness; the verification key and everything else is unchanged. -/
def altered (pk : ProvingKey E) (j : ℕ) (D : E.G1) : ProvingKey E :=
  { pk with pk := { pk.pk with l_query := pk.pk.l_query.set j (pk.pk.l_query.getD j 0 + D) } }

/-- Position of bit `k` of value number `i` in the circuit's witness for values of at most `b` bits over a field with
`bits`-bit elements: every value occupies its `bits` bits and one or-accumulator for each bit above bit `b`. -/
def bitPosition (bits b i k : ℕ) : ℕ := i * (bits + (bits - b - 1)) + k

end Spec
end Verif
