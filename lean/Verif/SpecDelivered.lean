/-
Specification of C105: which deliveries of the messages of distributed key generation are without fault.
-/
import Verif.Model.Delivered
import Verif.SpecAgm

namespace Verif
namespace Spec
variable {E : Engine}

/-- every partial key delivered to the final combination also reached every party that sent a share, no party's share
is missing or repeated, and nothing else was delivered; the order is irrelevant -/
def Faultless {ι : Type*} (keys : List ι) (shares : List (ι × List ι)) : Prop :=
  (shares.map (·.1)).Perm keys ∧ ∀ S ∈ shares, S.2.Perm keys

/-- the party with number `j` of parties that draw `w` scalars each from one tape -/
def partyAt (E : Engine) {K : ℕ} (g : Fin K → E.Fr) (w j : ℕ) : Party E :=
  ⟨tape E, fun i => tapeOf g (j * w + i)⟩

/-- by how much (as a multiple of `X_0`) the sum of the `P_1` shares in `shares` differs from the `P_1` of the key the
parties in `keys` have together, when every party draws its `s_0, .., s_{n-1}` first and then its `t_0, .., t_n`:
`sum over shares (t_0 + sum_i t_{i+1} * (sum over the sender's view s_i))` minus
`sum over keys t_0 + sum_i (sum over keys s_i) (sum over keys t_{i+1})` -/
def shareGap (n : ℕ) (keys : List (Party E)) (shares : List (Party E × List (Party E))) : E.Fr :=
  (shares.map fun S => draw S.1.1 S.1.2 n +
    ∑ i ∈ Finset.range n, draw S.1.1 S.1.2 (n + (i + 1)) * (S.2.map fun Q => draw Q.1 Q.2 i).sum).sum -
  ((keys.map fun Q => draw Q.1 Q.2 n).sum +
    ∑ i ∈ Finset.range n, (keys.map fun Q => draw Q.1 Q.2 i).sum * (keys.map fun Q => draw Q.1 Q.2 (n + (i + 1))).sum)

/-- some honest encryption with nonzero randomness under the key passes `verify_commitment` -/
def SomeEncryptionPasses (ek : EncryptionKey E) (gens : EncryptionGens E) (g_i : List E.G1) : Prop :=
  ∃ (R : RngCore E) (st st' : R.σ) (chunks : List UInt16) (ct : Ciphertext E) (r : E.Fr),
    encryptDecomposedMessage R st chunks ek g_i = .ok ((flat ct, r), st') ∧ r ≠ 0 ∧
      ct.verifyCommitment ek.prepare gens.prepare = .ok ()

/-- by how much (as a multiple of `X_0`) chunk `i` is off: `r_{k0} (sum of all parties' s_i)` minus the sum of
`r_k s_i` over all shares, with `s_i` of the sender and `r_k` the randomness of the ciphertext the share is for -/
def keyGap (N : ℕ) (P : ℕ → Party E) (enc : ℕ → Party E × List UInt16) (shares : List (ReShare E)) (k0 i : ℕ) : E.Fr :=
  draw (enc k0).1.1 (enc k0).1.2 0 * (∑ j ∈ Finset.range N, draw (P j).1 (P j).2 i) -
    (shares.map fun S => draw (enc S.about).1.1 (enc S.about).1.2 0 * draw (P S.sender).1 (P S.sender).2 i).sum

/-- by how much (as a multiple of `G`) every chunk is off: every share's randomness times the difference of the secret
keys of the destination it is for and the destination that decrypts -/
def maskGap (dest : ℕ → Party E) (shares : List (ReShare E)) (d0 : ℕ) : E.Fr :=
  (shares.map fun S => draw S.rng.1 S.rng.2 0 *
    (draw (dest S.dest).1 (dest S.dest).2 0 - draw (dest d0).1 (dest d0).2 0)).sum

/-- the sum of the encryption randomness of the ciphertexts party `j` sent shares for, one summand per share -/
def sharesOf (enc : ℕ → Party E × List UInt16) (shares : List (ReShare E)) (j : ℕ) : E.Fr :=
  ((shares.filter fun S => S.sender == j).map fun S => draw (enc S.about).1.1 (enc S.about).1.2 0).sum

end Spec
end Verif
