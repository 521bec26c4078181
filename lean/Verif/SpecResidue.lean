/-
Specification of C124: what somebody who can read freed memory does with it.
-/
import Verif.Model.Residue
import Verif.Spec

namespace Verif
namespace Spec
variable {E : Engine}

/-- the values `s_i`, from what `keygen` has freed: the products `s_i v_i` divided by `v_i` -/
def masksLeft : List (Buffer E) → List E.Fr
  | [_, _, .scalars v, .scalars sv] => List.zipWith (· / ·) sv v
  | [_, _, _, _, .scalars s] => s
  | _ => []

/-- the values `s_i` of a party, from what dropping its secret key has freed -/
def partyMasksLeft : List (Buffer E) → List E.Fr
  | .scalars s :: _ => s
  | _ => []

/-- the values `t_i` of a party, from what `FkeygenPartial` has freed -/
def partyTrapdoorsLeft : List (Buffer E) → List E.Fr
  | .integers t :: _ => t.map (Nat.cast : ℕ → E.Fr)
  | _ => []

/-- reading a ciphertext, given the values `s_i`: subtract `s_i X_r` from the `i`-th component and find the discrete logarithms
(the crate's own function does that, called with `X_r = 0` and the secret key 0) -/
def readWith (chk : Bool) (s : List E.Fr) (ct : Ciphertext E) (g_i : List E.G1) (b : UInt8) : Res (List UInt16) :=
  decryptAfterReEncryption chk 0 ((List.range ct.enc_chunks.length).map fun i =>
    ct.enc_chunks.getD i 0 - s.getD i 0 • ct.X_r) ⟨0⟩ g_i b

/-- a "ciphertext" with whatever components one likes, given the values `t_i`: its commitment is `t_0 c_0 + sum_i t_{i+1} c_i` -/
def forgeWith (t : ℕ → E.Fr) (c_0 : E.G1) (c : List E.G1) : Ciphertext E :=
  ⟨c_0, c, t 0 • c_0 + ∑ i ∈ Finset.range c.length, t (i + 1) • c.getD i 0⟩

/-- what party `P` has freed by the time `FkeygenPartial` has returned -/
def freedBy (P : Party E) (b : UInt8) (gens : EncryptionGens E) (g_i : List E.G1) (D C : E.G1) : List (Buffer E) :=
  match fkeygenPartialFreed P.1 P.2 b gens g_i D C with
  | .ok ((_, freed), _) => freed
  | _ => []

end Spec
end Verif
