/-
The multi-party protocols composed from the crate's functions, as its tests and README compose
them (src/tests.rs:37-178), for any number of parties and ciphertexts.
-/
import Verif.Model.Encryption

namespace Verif

/-- A party: its own random number generator and its start state.
Who calls `FkeygenPartial` (src/keygen.rs:310-358) and `re_encrypt_share` (src/encryption.rs:392-414) in
src/tests.rs:30-185. -/
abbrev Party (E : Engine) := Σ R : RngCore E, R.σ

variable {E : Engine}

/-- First round of distributed key generation, src/tests.rs:38-43: every party runs
`FkeygenPartial` with the same public parameters. -/
def dkgRound1 (parties : List (Party E)) (b : UInt8) (gens : EncryptionGens E) (g_i : List E.G1)
    (delta_g gamma_g : E.G1) : Res (List (SecretKeyST E × FEncryptionKeyPartial E)) :=
  mapRes (fun (P : Party E) => do
    let (out, _) ← fkeygenPartial P.1 P.2 b gens g_i delta_g gamma_g
    return out) parties

/-- Distributed key generation, src/tests.rs:37-53: all partial keys are combined, every party
computes its `P_1` share from the combined key, the shares are combined, and the final key is
assembled. Returns the parties' secret keys and the final encryption key. -/
def dkg (parties : List (Party E)) (b : UInt8) (gens : EncryptionGens E) (g_i : List E.G1)
    (delta_g gamma_g : E.G1) : Res (List (SecretKeyST E) × EncryptionKey E) := do
  let outs ← dkgRound1 parties b gens g_i delta_g gamma_g
  let ek ← combineEKs gamma_g (outs.map (·.2))
  let shares ← mapRes (fun sk => genP1share ek sk) (outs.map (·.1))
  let p1 ← combineP1share shares
  return (outs.map (·.1), keygenFinal ek p1)

/-- The messages the parties publish during distributed key generation, src/tests.rs:37-53: the partial keys of
the first round, the `P_1` shares of the second round, and the final key everybody computes from them. (The same
run as `dkg`, which returns the secret keys instead of the messages.) -/
def dkgTranscript (parties : List (Party E)) (b : UInt8) (gens : EncryptionGens E) (g_i : List E.G1)
    (delta_g gamma_g : E.G1) : Res (List (FEncryptionKeyPartial E) × List (P1share E) × EncryptionKey E) := do
  let outs ← dkgRound1 parties b gens g_i delta_g gamma_g
  let ek ← combineEKs gamma_g (outs.map (·.2))
  let shares ← mapRes (fun sk => genP1share ek sk) (outs.map (·.1))
  let p1 ← combineP1share shares
  return (outs.map (·.2), shares, keygenFinal ek p1)

/-- Distributed key generation (src/tests.rs:37-53) in which the last contribution of either round is made by a
party that has seen the other parties' published contributions of that round: it submits `rogueKey keys` as its
partial key and `rogueShare ek shares` as its `P_1` share. All others are honest. -/
def dkgWithRogue (parties : List (Party E))
    (rogueKey : List (FEncryptionKeyPartial E) → FEncryptionKeyPartial E)
    (rogueShare : FEncryptionKeyPartial E → List (P1share E) → P1share E)
    (b : UInt8) (gens : EncryptionGens E) (g_i : List E.G1) (delta_g gamma_g : E.G1) :
    Res (EncryptionKey E) := do
  let outs ← dkgRound1 parties b gens g_i delta_g gamma_g
  let ek ← combineEKs gamma_g (outs.map (·.2) ++ [rogueKey (outs.map (·.2))])
  let shares ← mapRes (fun sk => genP1share ek sk) (outs.map (·.1))
  let p1 ← combineP1share (shares ++ [rogueShare ek shares])
  return keygenFinal ek p1

/-- Folding `combine_re_encrypt_share` over all shares, src/tests.rs:155-162 (two parties there).
Panics on an empty list: there is no neutral share. -/
def combineShares : List (List E.G1 × E.G1) → Res (List E.G1 × E.G1)
  | [] => .panic
  | x :: xs => foldRes (fun acc y => combineReEncryptShare acc.2 y.2 acc.1 y.1) x xs

/-- Distributed re-encryption, src/tests.rs:135-169: every party (secret key, RNG) computes its
share for the ciphertext `c_0, c`; the shares are combined and added to the ciphertext. -/
def reEncryptAll (gens : EncryptionGens E) (c_0 : E.G1) (c : List E.G1)
    (ekd : FEncryptionKeyDest E) (parties : List (SecretKeyST E × Party E)) :
    Res (List E.G1) := do
  let shares ← mapRes (fun (P : SecretKeyST E × Party E) => do
    let (sh, _) ← reEncryptShare P.2.1 P.2.2 gens c_0 c ekd P.1
    return sh) parties
  let (w, gr) ← combineShares shares
  combineCtWithW c gr w

/-- Several encryptors, each with its own RNG, encrypt their chunk vectors under one key
(src/tests.rs:59-63, two of them there).  Returns the ciphertext vectors and the randomness. -/
def encryptMany (encs : List (Party E × List UInt16)) (ek : EncryptionKey E) (g_i : List E.G1) :
    Res (List (List E.G1 × E.Fr)) :=
  mapRes (fun (e : Party E × List UInt16) => do
    let (out, _) ← encryptDecomposedMessage e.1.1 e.1.2 e.2 ek g_i
    return out) encs

/-- The same with message-level encryption (`Encryption::encrypt`, src/encryption.rs:106-123);
a ciphertext is laid out as the vector `[X_r, chunks.., commitment]` of the chunk-level API
(src/tests.rs:88-92). -/
def encryptMessages (encs : List (Party E × E.Fr)) (ek : EncryptionKey E) (g_i : List E.G1)
    (b : UInt8) : Res (List (List E.G1 × E.Fr)) :=
  mapRes (fun (e : Party E × E.Fr) => do
    let ((ct, r), _) ← encrypt e.1.1 e.1.2 e.2 ek g_i b
    return (ct.X_r :: (ct.enc_chunks ++ [ct.commitment]), r)) encs

/-- Folding `add_cts` over several ciphertext vectors, src/tests.rs:65.  Panics on an empty list:
there is nothing to start from. -/
def aggregate : List (List E.G1) → Res (List E.G1)
  | [] => .panic
  | x :: xs => foldRes addCts x xs

end Verif
