/-
The functions that compute pairings, with a count of the pairs of points that they pair.  `E::multi_pairing` and
`E::multi_miller_loop` of `n` pairs count `n` (arkworks leaves out pairs with the point at infinity; this is not modelled),
`E::pairing` counts one.  These are copies of definitions in `Model/Encryption`,
`Model/Keygen` and `Model/Groth16` with a counter; that they compute the same is proved (C122).
-/
import Verif.Model.Work
import Verif.Model.Groth16

namespace Verif
variable {E : Engine}

/-- `E::multi_pairing(a, b)`, src/encryption.rs:245,274,323, and `E::multi_miller_loop(a, b)` with the final exponentiation,
src/saver_groth16.rs:135-146: one pairing for each pair. -/
def multiPairingC (a : List E.G1) (b : List E.G2P) : Counted E.GT := (E.multiPairing a b, a.length)

/-- `E::pairing(a, b)`, src/encryption.rs:334, src/keygen.rs:292. -/
def pairPC (a : E.G1) (b : E.G2P) : Counted E.GT := (.ok (E.pairP a b), 1)

/-- `Encryption::verify_ciphertext_commitment`, src/encryption.rs:224-250. -/
def verifyCiphertextCommitmentC (c_0 : E.G1) (c : List E.G1) (commitment : E.G1) (ek : PreparedEncryptionKey E)
    (gens : PreparedEncryptionGens E) : Counted Unit :=
  (Counted.free ek.supportedChunksCount).andThen fun cnt =>
  let expected := cnt.toNat
  if c.length ≠ expected then .free (.err (.incompatibleEncryptionKey c.length expected))
  else
    let a := getG1ForCommitmentChecks c_0 c commitment
    (Counted.free (getG2ForCommitmentChecks ek gens)).andThen fun b =>
    (multiPairingC a b).andThen fun p =>
    if p = 0 then .free (.ok ()) else .free (.err .invalidCommitment)

/-- `Encryption::verify_commitments_in_batch`, src/encryption.rs:252-279. -/
def verifyCommitmentsInBatchC (cts : List (Ciphertext E)) (r_powers : List E.Fr) (ek : PreparedEncryptionKey E)
    (gens : PreparedEncryptionGens E) : Counted Unit :=
  if r_powers.length ≠ cts.length then .free .panic
  else
    (Counted.free ek.supportedChunksCount).andThen fun cnt =>
    (Counted.free (batchShapes cnt.toNat cts)).andThen fun _ =>
    (Counted.free (getG1ForBatchChecks cts r_powers)).andThen fun a =>
    (Counted.free (getG2ForCommitmentChecks ek gens)).andThen fun b =>
    (multiPairingC a b).andThen fun p =>
    if p = 0 then .free (.ok ()) else .free (.err .invalidCommitment)

/-- Calling `Ciphertext::verify_commitment` (src/encryption.rs:83-95) on one ciphertext after the other, until one is
rejected; what `verify_commitments_in_batch`, src/encryption.rs:252-279, is meant to replace. -/
def verifyOneByOneC (ek : PreparedEncryptionKey E) (gens : PreparedEncryptionGens E) : List (Ciphertext E) → Counted Unit
  | [] => .free (.ok ())
  | ct :: cts => (verifyCiphertextCommitmentC ct.X_r ct.enc_chunks ct.commitment ek gens).andThen fun _ =>
    verifyOneByOneC ek gens cts

/-- `Encryption::decrypt_to_chunks_given_pairing_powers`, src/encryption.rs:296-350. -/
def decryptToChunksGivenPairingPowersP (chk : Bool) (c_0 : E.G1) (c : List E.G1) (sk : SecretKey E)
    (dk : PreparedDecryptionKey E) (g_i : List E.G1) (b : UInt8) (powers : Option (List (List E.GT))) :
    Counted (List UInt16 × E.G1) :=
  let n := c.length
  (Counted.free dk.supportedChunksCount).andThen fun cnt =>
  if n ≠ cnt.toNat then .free (.err (.incompatibleDecryptionKey n cnt.toNat))
  else if n > g_i.length then .free (.err (.vectorShorterThanExpected n g_i.length))
  else
    let c_0_rho := mulBigint c_0 (intoBigint (K := E.fr) (-sk.rho))
    (Counted.free (chunkMaxU32 chk b)).andThen fun maxVal =>
    let pw := powers.getD []
    (mapCounted (fun i =>
      (Counted.free (idx c i)).andThen fun ci =>
      (Counted.free (idx dk.V_2 i)).andThen fun v2 =>
      (Counted.free (idx dk.V_1 i)).andThen fun v1 =>
      (multiPairingC [ci, c_0_rho] [v2, v1]).andThen fun p =>
      if p = 0 then .free (.ok 0)
      else if pw.isEmpty then
        (Counted.free (idx g_i i)).andThen fun g =>
        (pairPC g v2).andThen fun g_i_v_i => .free (solveDiscreteLog (UInt16.ofNat maxVal) g_i_v_i p)
      else .free (solveDiscreteLogUsingPairingPowers i (UInt16.ofNat maxVal) p pw)) (List.range n)).andThen fun chunks =>
    .free (.ok (chunks, -c_0_rho))

/-- `PreparedDecryptionKey::pairing_powers`, src/keygen.rs:282-305. -/
def PreparedDecryptionKey.pairingPowersC (chk : Bool) (dk : PreparedDecryptionKey E) (b : UInt8) (g_i : List E.G1) :
    Counted (List (List E.GT)) :=
  (Counted.free dk.supportedChunksCount).andThen fun n =>
  (Counted.free (chunkMaxI32 chk b)).andThen fun maxVal =>
  mapCounted (fun i =>
    (Counted.free (idx g_i i)).andThen fun g =>
    (Counted.free (idx dk.V_2 i)).andThen fun v =>
    (pairPC g v).andThen fun gv => .free (.ok (powersLoop gv gv (maxVal - 1)))) (List.range n.toNat)

/-- `verify_qap_proof`, src/saver_groth16.rs:128-152. -/
def verifyQapProofC (pvk : PreparedVerifyingKey E) (a : E.G1) (b : E.G2) (c d : E.G1) : Counted Unit :=
  (multiPairingC [a, c, d] [E.prep b, pvk.delta_g2_neg_pc, pvk.gamma_g2_neg_pc]).andThen fun qap =>
  if qap ≠ pvk.alpha_g1_beta_g2 then .free (.err .pairingCheckFailed) else .free (.ok ())

/-- `verify_proof`, src/saver_groth16.rs:102-114. -/
def verifyProofC (pvk : PreparedVerifyingKey E) (proof : Proof E) (ct : Ciphertext E) : Counted Unit :=
  (Counted.free (calculateD pvk ct)).andThen fun d => verifyQapProofC pvk proof.a proof.b proof.c d

/-- `Ciphertext::verify_commitment_and_proof`, src/encryption.rs:628-637. -/
def Ciphertext.verifyCommitmentAndProofC (ct : Ciphertext E) (proof : Proof E) (pvk : PreparedVerifyingKey E)
    (ek : PreparedEncryptionKey E) (gens : PreparedEncryptionGens E) : Counted Unit :=
  (verifyCiphertextCommitmentC ct.X_r ct.enc_chunks ct.commitment ek gens).andThen fun _ => verifyProofC pvk proof ct

end Verif
