/-
Distributed key generation over a network that loses, repeats or reorders messages.
-/
import Verif.Model.Protocol

namespace Verif
variable {E : Engine}

/-- The partial key party `P` publishes and the secrets it keeps: `FkeygenPartial`, src/keygen.rs:310-358, as called in
src/tests.rs:38-43. -/
def ownContribution (P : Party E) (b : UInt8) (gens : EncryptionGens E) (g_i : List E.G1) (delta_g gamma_g : E.G1) :
    Res (SecretKeyST E × FEncryptionKeyPartial E) := do
  let (out, _) ← fkeygenPartial P.1 P.2 b gens g_i delta_g gamma_g
  return out

/-- What somebody makes of the partial keys that reached it, in the order in which they arrived: `combineEKs`,
src/keygen.rs:361-393, as called in src/tests.rs:44-45. -/
def combineDelivered (keys : List (Party E)) (b : UInt8) (gens : EncryptionGens E) (g_i : List E.G1)
    (delta_g gamma_g : E.G1) : Res (FEncryptionKeyPartial E) := do
  let eks ← mapRes (fun (P : Party E) => do
    let out ← ownContribution P b gens g_i delta_g gamma_g
    return out.2) keys
  combineEKs gamma_g eks

/-- Distributed key generation, src/tests.rs:37-53, as seen by somebody whom the partial keys of the parties in `keys`
and the `P_1` shares of the parties in `shares` reached (in this order; a party may be missing or occur repeatedly).
Every share comes with the list of parties whose partial keys had reached its sender when it computed the share.  The
source has the special case in which all lists are the same. -/
def dkgAsDelivered (keys : List (Party E)) (shares : List (Party E × List (Party E))) (b : UInt8)
    (gens : EncryptionGens E) (g_i : List E.G1) (delta_g gamma_g : E.G1) : Res (EncryptionKey E) := do
  let ek ← combineDelivered keys b gens g_i delta_g gamma_g
  let ss ← mapRes (fun (S : Party E × List (Party E)) => do
    let view ← combineDelivered S.2 b gens g_i delta_g gamma_g
    let own ← ownContribution S.1 b gens g_i delta_g gamma_g
    genP1share view own.1) shares
  let p1 ← combineP1share ss
  return keygenFinal ek p1

/-- A re-encryption share as it arrives: which party made it, with which randomness, for which ciphertext and for which
destination. What `re_encrypt_share`, src/encryption.rs:392-414, returns, as a message. -/
structure ReShare (E : Engine) where
  sender : ℕ
  rng : Party E
  about : ℕ
  dest : ℕ

/-- Distributed re-encryption, src/tests.rs:37-178, when the wrong set of shares arrives: distributed key generation,
several encryptions under the key (encryptor `k` has its own RNG and chunk vector, `enc k`), several destinations
(`dest d` is the RNG of its key generation), and then the shares `shares` are combined (in the order in which they
arrived) and added to ciphertext `k0`, and destination `d0` decrypts.  A party may be missing or occur repeatedly in
`shares`, and every share may have been made for another ciphertext or another destination.  The source has the special
case in which every party occurs once and all shares are for `k0` and `d0`.  `&ct[1..n + 1]` is modelled by
`v.tail.take n`; the two differ only if `v` is shorter than `n + 1`, which no ciphertext is. -/
def reEncryptAsDelivered (parties : List (Party E)) (b : UInt8) (gens : EncryptionGens E) (g_i : List E.G1)
    (delta_g gamma_g : E.G1) (enc : ℕ → Party E × List UInt16) (dest : ℕ → Party E) (shares : List (ReShare E))
    (k0 d0 : ℕ) (chk : Bool) (b' : UInt8) : Res (List UInt16) := do
  let (sks, ek) ← dkg parties b gens g_i delta_g gamma_g
  let ss ← mapRes (fun (S : ReShare E) => do
    let sk ← idx sks S.sender
    let ((v, _), _) ← encryptDecomposedMessage (enc S.about).1.1 (enc S.about).1.2 (enc S.about).2 ek g_i
    let ((_, ekd), _) ← fkeygenDest (dest S.dest).1 (dest S.dest).2 gens
    let c_0 ← idx v 0
    let (sh, _) ← reEncryptShare S.rng.1 S.rng.2 gens c_0 (v.tail.take (enc S.about).2.length) ekd sk
    return sh) shares
  let (w, gr) ← combineShares ss
  let ((v, _), _) ← encryptDecomposedMessage (enc k0).1.1 (enc k0).1.2 (enc k0).2 ek g_i
  let out ← combineCtWithW (v.tail.take (enc k0).2.length) gr w
  let ((skd, _), _) ← fkeygenDest (dest d0).1 (dest d0).2 gens
  let c_0 ← idx out 0
  decryptAfterReEncryption chk c_0 out.tail skd g_i b'

end Verif
