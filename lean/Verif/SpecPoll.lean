/-
Specification used in the statements of C109 and C112.
-/
import Verif.Model.Protocol
import Verif.Spec

namespace Verif
namespace Spec
variable {E : Engine}

/-- What a ciphertext carries at position `i` for the holders of the secret keys `sks` together: the `i`-th chunk component
without its mask, `c_i - s_i X_r` with `s_i` the sum of the parties' `i`-th secrets.  An encryption of chunks `m_i` carries
`m_i g_i`. -/
def content (sks : List (SecretKeyST E)) (ct : Ciphertext E) (i : ℕ) : E.G1 :=
  ct.enc_chunks.getD i 0 - (sks.map fun sk => sk.s.getD i 0).sum • ct.X_r

/-- A ballot that adds the integers `δ i` to the tally, computed from public parameters alone: like an encryption
(`[r X_0, r X_i + δ_i g_i, r P_1 + sum δ_i Y_i]`), but for any integers, also negative ones. -/
def shiftBallot (ek : EncryptionKey E) (g_i : List E.G1) (δ : ℕ → ℤ) (r : E.Fr) : Ciphertext E where
  X_r := r • ek.X_0
  enc_chunks := tab ek.X.length fun i => r • ek.X.getD i 0 + δ i • g_i.getD i 0
  commitment := (∑ i ∈ Finset.range ek.X.length, δ i • ek.Y.getD i 0) + r • ek.P_1

end Spec
end Verif
