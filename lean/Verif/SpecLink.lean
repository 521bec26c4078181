/-
Specification of C93: openings of the commitment inside a ciphertext and of chunked commitments, as a proof of
equality of openings (src/commitment.rs:13-38) would establish them.
-/
import Verif.SpecAdaptive
import Verif.Model.Commitment

namespace Verif
variable {E : Engine}

namespace Spec

/-- the chunks `m` and the randomness `r` open the commitment `psi` of a ciphertext:
`psi = m_0 Y_0 + m_1 Y_1 + ... + r P_1` -/
def OpensPsi (ek : EncryptionKey E) (psi : E.G1) (m : ℕ → E.Fr) (r : E.Fr) : Prop :=
  psi = (∑ i ∈ Finset.range ek.Y.length, m i • ek.Y.getD i 0) + r • ek.P_1

/-- the chunks `m` and the blinding `r` open the chunked commitment `J` with respect to a commitment key, whose last
element is for the blinding: `J = m_0 key_0 + m_1 key_1 + ... + r H` -/
def OpensChunked {F G : Type} [Field F] [AddCommGroup G] [Module F G] (key : List G) (J : G) (m : ℕ → F) (r : F) :
    Prop :=
  J = (∑ i ∈ Finset.range (key.length - 1), m i • key.getD i 0) + r • key.getD (key.length - 1) 0

/-- what an adversary that has to convince others of an equality of openings chooses: the coefficients of a
ciphertext and a proof, and the chunks and the randomness it shows to open the commitment -/
structure Claim (F : Type) where
  strategy : Strategy F
  m : ℕ → F
  r : F

end Spec
end Verif
