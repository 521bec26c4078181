/-
Model of src/encryption.rs (the functions that need the SNARK prover/verifier are in
`Verif.Model.Groth16`).  Methods taking `impl Into<Prepared..>` are modelled on the prepared
type; the unprepared call is the composition with `prepare`, as `Into` does.
-/
import Verif.Model.Keygen

namespace Verif
variable {E : Engine}

/-- `Ciphertext`, src/encryption.rs:39-46. -/
@[ext] structure Ciphertext (E : Engine) where
  X_r : E.G1
  enc_chunks : List E.G1
  commitment : E.G1

/-! ### Encryption -/

/-- `Encryption::encrypt_decomposed_message`, src/encryption.rs:353-389. -/
def encryptDecomposedMessage (R : RngCore E) (st : R.σ) (chunks : List UInt16)
    (ek : EncryptionKey E) (g_i : List E.G1) : Res ((List E.G1 × E.Fr) × R.σ) := do
  let cnt ← ek.supportedChunksCount
  let expected := cnt.toNat
  if chunks.length ≠ expected then
    .err (.incompatibleEncryptionKey chunks.length expected)
  else if chunks.length > g_i.length then
    .err (.vectorShorterThanExpected chunks.length g_i.length)
  else do
    let (r, st) := R.fr st
    let r_repr := intoBigint (K := E.fr) r
    let m := chunks.map fun m_i => m_i.toNat
    let cs ← mapRes (fun i => do
      let x ← idx ek.X i
      let g ← idx g_i i
      let k ← idx m i
      return mulBigint x r_repr + mulBigint g k) (List.range ek.X.length)
    let psi := msmBigint ek.commitmentKey (m ++ [r_repr])
    return ((mulBigint ek.X_0 r_repr :: (cs ++ [psi]), r), st)

/-- `Vec::remove(i)`: panics if `i >= len`. Called at src/encryption.rs:117-118. -/
def vecRemove {A : Type} (v : List A) (i : ℕ) : Res (A × List A) :=
  match v[i]? with
  | some a => .ok (a, v.eraseIdx i)
  | none => .panic

/-- `Encryption::encrypt`, src/encryption.rs:106-123.  The struct fields are evaluated in source
order: `X_r: ct.remove(0)`, `commitment: ct.remove(ct.len() - 1)`, `enc_chunks: ct`.
(`ct.len() - 1` cannot underflow, see the length of the vector above.) -/
def encrypt (R : RngCore E) (st : R.σ) (m : E.Fr) (ek : EncryptionKey E) (g_i : List E.G1)
    (b : UInt8) : Res ((Ciphertext E × E.Fr) × R.σ) := do
  let decomposed ← decompose (K := E.fr) m b
  let ((ct, r), st) ← encryptDecomposedMessage R st decomposed ek g_i
  let (X_r, ct) ← vecRemove ct 0
  let (commitment, ct) ← vecRemove ct (ct.length - 1)
  return (({ X_r := X_r, enc_chunks := ct, commitment := commitment }, r), st)

/-- `Encryption::encrypt_given_snark_vk`, src/encryption.rs:146-155. -/
def encryptGivenSnarkVk (R : RngCore E) (st : R.σ) (m : E.Fr) (ek : EncryptionKey E)
    (vk : VerifyingKey E) (b : UInt8) : Res ((Ciphertext E × E.Fr) × R.σ) := do
  let g_i ← getGsForEncryption vk
  encrypt R st m ek g_i b

/-! ### Commitment verification -/

/-- `get_g1_for_ciphertext_commitment_pairing_checks`, src/encryption.rs:566-576. -/
def getG1ForCommitmentChecks (c_0 : E.G1) (c : List E.G1) (commitment : E.G1) : List E.G1 :=
  [c_0] ++ c ++ [-commitment]

/-- `get_g2_for_ciphertext_commitment_pairing_checks`, src/encryption.rs:610-621. -/
def getG2ForCommitmentChecks (ek : PreparedEncryptionKey E) (gens : PreparedEncryptionGens E) :
    Res (List E.G2P) := do
  let z0 ← idx ek.Z 0
  return [z0] ++ ek.Z.tail ++ [gens.H]

/-- `Encryption::verify_ciphertext_commitment`, src/encryption.rs:224-250. -/
def verifyCiphertextCommitment (c_0 : E.G1) (c : List E.G1) (commitment : E.G1)
    (ek : PreparedEncryptionKey E) (gens : PreparedEncryptionGens E) : Res Unit := do
  let cnt ← ek.supportedChunksCount
  let expected := cnt.toNat
  if c.length ≠ expected then .err (.incompatibleEncryptionKey c.length expected)
  else do
    let a := getG1ForCommitmentChecks c_0 c commitment
    let b ← getG2ForCommitmentChecks ek gens
    let p ← E.multiPairing a b
    if p = 0 then .ok () else .err .invalidCommitment

/-- `Ciphertext::verify_commitment`, src/encryption.rs:83-95. -/
def Ciphertext.verifyCommitment (ct : Ciphertext E) (ek : PreparedEncryptionKey E)
    (gens : PreparedEncryptionGens E) : Res Unit :=
  verifyCiphertextCommitment ct.X_r ct.enc_chunks ct.commitment ek gens

/-- `get_g1_for_ciphertext_commitments_in_batch_pairing_checks`, src/encryption.rs:578-608.
`ciphertexts[0]` panics on an empty slice. -/
def getG1ForBatchChecks (cts : List (Ciphertext E)) (r_powers : List E.Fr) :
    Res (List E.G1) := do
  let ct0 ← idx cts 0
  let num := r_powers.length
  let r_repr := r_powers.map (intoBigint (K := E.fr))
  let bases0 ← mapRes (fun i => do
    let ct ← idx cts i
    return ct.X_r) (List.range num)
  let mids ← mapRes (fun j => do
    let bases ← mapRes (fun i => do
      let ct ← idx cts i
      idx ct.enc_chunks j) (List.range num)
    return msmBigint bases r_repr) (List.range ct0.enc_chunks.length)
  let basesN ← mapRes (fun i => do
    let ct ← idx cts i
    return ct.commitment) (List.range num)
  return [msmBigint bases0 r_repr] ++ mids ++ [-(msmBigint basesN r_repr)]

/-- The shape loop of `verify_commitments_in_batch`, src/encryption.rs:262-269. -/
def batchShapes (expected : ℕ) : List (Ciphertext E) → Res Unit
  | [] => .ok ()
  | c :: cs =>
    if c.enc_chunks.length ≠ expected then
      .err (.incompatibleEncryptionKey c.enc_chunks.length expected)
    else batchShapes expected cs

/-- `Encryption::verify_commitments_in_batch`, src/encryption.rs:252-279; the `assert_eq!` at
line 258 panics. -/
def verifyCommitmentsInBatch (cts : List (Ciphertext E)) (r_powers : List E.Fr)
    (ek : PreparedEncryptionKey E) (gens : PreparedEncryptionGens E) : Res Unit :=
  if r_powers.length ≠ cts.length then .panic
  else do
    let cnt ← ek.supportedChunksCount
    batchShapes cnt.toNat cts
    let a ← getG1ForBatchChecks cts r_powers
    let b ← getG2ForCommitmentChecks ek gens
    let p ← E.multiPairing a b
    if p = 0 then .ok () else .err .invalidCommitment

/-! ### Discrete logarithm search -/

/-- Loop `for j in 2..=chunk_max_val { cur += g; if cur == p { return Ok(j) } }` of
src/encryption.rs:516-522 and 535-541; the last argument counts the remaining iterations. -/
def dlogLoop {A : Type} [AddCommGroup A] [DecidableEq A] (g p : A) : A → ℕ → ℕ → Res UInt16
  | _, _, 0 => .err .couldNotFindDiscreteLog
  | cur, j, k + 1 =>
    if cur + g = p then .ok (UInt16.ofNat j) else dlogLoop g p (cur + g) (j + 1) k

/-- `solve_discrete_log` (src/encryption.rs:526-542, in the target group) and
`solve_discrete_log_for_g` (src/encryption.rs:507-523, in G1): same code for two groups. -/
def solveDiscreteLog {A : Type} [AddCommGroup A] [DecidableEq A] (maxVal : UInt16) (g p : A) :
    Res UInt16 :=
  if p = g then .ok 1 else dlogLoop g p g 2 (maxVal.toNat - 1)

/-- Loop of `solve_discrete_log_using_pairing_powers`, src/encryption.rs:554-562; `j0` is the
0-based index (`let j = j as usize - 1`), the last argument counts the remaining iterations. -/
def powersSearch {A : Type} [DecidableEq A] (powers : List (List A)) (i : ℕ) (p : A) :
    ℕ → ℕ → Res UInt16
  | _, 0 => .err .couldNotFindDiscreteLog
  | j0, k + 1 => do
    let row ← idx powers i
    if row.length < j0 then .err .invalidPairingPowers
    else do
      let x ← idx row j0
      if x = p then .ok (UInt16.ofNat j0 + 1) else powersSearch powers i p (j0 + 1) k

/-- `solve_discrete_log_using_pairing_powers`, src/encryption.rs:545-564. -/
def solveDiscreteLogUsingPairingPowers {A : Type} [DecidableEq A] (i : ℕ) (maxVal : UInt16)
    (p : A) (powers : List (List A)) : Res UInt16 :=
  if powers.length < i then .err .invalidPairingPowers
  else powersSearch powers i p 0 maxVal.toNat

/-- `let chunk_max_val: u32 = (1 << chunk_bit_size) - 1;` of src/encryption.rs:320 and 491: checked
builds panic for a shift of 32 or more, unchecked builds mask the shift amount. -/
def chunkMaxU32 (chk : Bool) (b : UInt8) : Res ℕ :=
  if b.toNat < 32 then .ok (2 ^ b.toNat - 1)
  else if chk then .panic
  else .ok (2 ^ (b.toNat % 32) - 1)

/-! ### Decryption -/

/-- `Encryption::decrypt_to_chunks_given_pairing_powers`, src/encryption.rs:296-350.
`chunk_max_val as CHUNK_TYPE` truncates to 16 bits. -/
def decryptToChunksGivenPairingPowers (chk : Bool) (c_0 : E.G1) (c : List E.G1) (sk : SecretKey E)
    (dk : PreparedDecryptionKey E) (g_i : List E.G1) (b : UInt8)
    (powers : Option (List (List E.GT))) : Res (List UInt16 × E.G1) := do
  let n := c.length
  let cnt ← dk.supportedChunksCount
  if n ≠ cnt.toNat then .err (.incompatibleDecryptionKey n cnt.toNat)
  else if n > g_i.length then .err (.vectorShorterThanExpected n g_i.length)
  else do
    let c_0_rho := mulBigint c_0 (intoBigint (K := E.fr) (-sk.rho))
    let maxVal ← chunkMaxU32 chk b
    let pw := powers.getD []
    let chunks ← mapRes (fun i => do
      let ci ← idx c i
      let v2 ← idx dk.V_2 i
      let v1 ← idx dk.V_1 i
      let p ← E.multiPairing [ci, c_0_rho] [v2, v1]
      if p = 0 then Res.ok 0
      else if pw.isEmpty then do
        let g ← idx g_i i
        let g_i_v_i := E.pairP g v2
        solveDiscreteLog (UInt16.ofNat maxVal) g_i_v_i p
      else
        solveDiscreteLogUsingPairingPowers i (UInt16.ofNat maxVal) p pw) (List.range n)
    return (chunks, -c_0_rho)

/-- `Encryption::decrypt_to_chunks`, src/encryption.rs:282-291. -/
def decryptToChunks (chk : Bool) (c_0 : E.G1) (c : List E.G1) (sk : SecretKey E)
    (dk : PreparedDecryptionKey E) (g_i : List E.G1) (b : UInt8) : Res (List UInt16 × E.G1) :=
  decryptToChunksGivenPairingPowers chk c_0 c sk dk g_i b none

/-- `Encryption::decrypt`, src/encryption.rs:159-169. -/
def decrypt (chk : Bool) (c_0 : E.G1) (c : List E.G1) (sk : SecretKey E)
    (dk : PreparedDecryptionKey E) (g_i : List E.G1) (b : UInt8) : Res (E.Fr × E.G1) := do
  let (chunks, nu) ← decryptToChunks chk c_0 c sk dk g_i b
  let m ← compose (K := E.fr) chk chunks b
  return (m, nu)

/-- `Encryption::decrypt_given_pairing_powers`, src/encryption.rs:173-192. -/
def decryptGivenPairingPowers (chk : Bool) (c_0 : E.G1) (c : List E.G1) (sk : SecretKey E)
    (dk : PreparedDecryptionKey E) (g_i : List E.G1) (b : UInt8) (powers : List (List E.GT)) :
    Res (E.Fr × E.G1) := do
  let (chunks, nu) ← decryptToChunksGivenPairingPowers chk c_0 c sk dk g_i b (some powers)
  let m ← compose (K := E.fr) chk chunks b
  return (m, nu)

/-- `Encryption::decrypt_given_groth16_vk`, src/encryption.rs:195-205. -/
def decryptGivenGroth16Vk (chk : Bool) (c_0 : E.G1) (c : List E.G1) (sk : SecretKey E)
    (dk : PreparedDecryptionKey E) (vk : VerifyingKey E) (b : UInt8) : Res (E.Fr × E.G1) := do
  let g_i ← getGsForEncryption vk
  decrypt chk c_0 c sk dk g_i b

/-- `Encryption::decrypt_given_groth16_vk_and_pairing_powers`, src/encryption.rs:209-220. -/
def decryptGivenGroth16VkAndPairingPowers (chk : Bool) (c_0 : E.G1) (c : List E.G1)
    (sk : SecretKey E) (dk : PreparedDecryptionKey E) (vk : VerifyingKey E) (b : UInt8)
    (powers : List (List E.GT)) : Res (E.Fr × E.G1) := do
  let g_i ← getGsForEncryption vk
  decryptGivenPairingPowers chk c_0 c sk dk g_i b powers

/-- `Ciphertext::decrypt`, src/encryption.rs:51-59. -/
def Ciphertext.decrypt (chk : Bool) (ct : Ciphertext E) (sk : SecretKey E)
    (dk : PreparedDecryptionKey E) (g_i : List E.G1) (b : UInt8) : Res (E.Fr × E.G1) :=
  Verif.decrypt chk ct.X_r ct.enc_chunks sk dk g_i b

/-- `Ciphertext::decrypt_given_pairing_powers`, src/encryption.rs:63-80. -/
def Ciphertext.decryptGivenPairingPowers (chk : Bool) (ct : Ciphertext E) (sk : SecretKey E)
    (dk : PreparedDecryptionKey E) (g_i : List E.G1) (b : UInt8) (powers : List (List E.GT)) :
    Res (E.Fr × E.G1) :=
  Verif.decryptGivenPairingPowers chk ct.X_r ct.enc_chunks sk dk g_i b powers

/-- `Ciphertext::decrypt_given_groth16_vk`, src/encryption.rs:639-648. -/
def Ciphertext.decryptGivenGroth16Vk (chk : Bool) (ct : Ciphertext E) (sk : SecretKey E)
    (dk : PreparedDecryptionKey E) (vk : VerifyingKey E) (b : UInt8) : Res (E.Fr × E.G1) := do
  let g_i ← getGsForEncryption vk
  ct.decrypt chk sk dk g_i b

/-- `Ciphertext::decrypt_given_groth16_vk_and_pairing_powers`, src/encryption.rs:650-660. -/
def Ciphertext.decryptGivenGroth16VkAndPairingPowers (chk : Bool) (ct : Ciphertext E)
    (sk : SecretKey E) (dk : PreparedDecryptionKey E) (vk : VerifyingKey E) (b : UInt8)
    (powers : List (List E.GT)) : Res (E.Fr × E.G1) := do
  let g_i ← getGsForEncryption vk
  ct.decryptGivenPairingPowers chk sk dk g_i b powers

/-! ### Distributed re-encryption and aggregation -/

/-- `Encryption::re_encrypt_share`, src/encryption.rs:392-414. -/
def reEncryptShare (R : RngCore E) (st : R.σ) (gens : EncryptionGens E) (c_0 : E.G1)
    (c : List E.G1) (ekd : FEncryptionKeyDest E) (sk : SecretKeyST E) :
    Res ((List E.G1 × E.G1) × R.σ) := do
  let n := c.length
  let (rho, st) := R.fr st
  let g_r := mulBigint gens.G (intoBigint (K := E.fr) rho)
  let w ← mapRes (fun i => do
    let s ← idx sk.s i
    return mulBigint c_0 (intoBigint (K := E.fr) (-s)) +
      mulBigint ekd.pk (intoBigint (K := E.fr) rho)) (List.range n)
  return ((w, g_r), st)

/-- `Encryption::combine_re_encrypt_share`, src/encryption.rs:417-433. -/
def combineReEncryptShare (g_r1 g_r2 : E.G1) (w1 w2 : List E.G1) :
    Res (List E.G1 × E.G1) := do
  let w ← mapRes (fun i => do
    let x ← idx w1 i
    let y ← idx w2 i
    return x + y) (List.range w1.length)
  return (w, g_r1 + g_r2)

/-- `Encryption::combine_ct_with_w`, src/encryption.rs:436-453 (the parameter `gens` is unused). -/
def combineCtWithW (c : List E.G1) (g_r : E.G1) (w : List E.G1) : Res (List E.G1) := do
  let cs ← mapRes (fun i => do
    let x ← idx c i
    let y ← idx w i
    return x + y) (List.range c.length)
  return g_r :: cs

/-- `Encryption::add_cts`, src/encryption.rs:456-470. -/
def addCts (ct1 ct2 : List E.G1) : Res (List E.G1) :=
  mapRes (fun i => do
    let x ← idx ct1 i
    let y ← idx ct2 i
    return x + y) (List.range ct1.length)

/-- `Encryption::decrypt_to_chunks_after_re_encryption`, src/encryption.rs:473-504. -/
def decryptAfterReEncryption (chk : Bool) (c_0 : E.G1) (c : List E.G1) (sk : SecretKey E)
    (g_i : List E.G1) (b : UInt8) : Res (List UInt16) := do
  let n := c.length
  if n > g_i.length then .err (.vectorShorterThanExpected n g_i.length)
  else do
    let c_0_rho := mulBigint c_0 (intoBigint (K := E.fr) (-sk.rho))
    let gi_mi ← mapRes (fun i => do
      let x ← idx c i
      return x + c_0_rho) (List.range n)
    let maxVal ← chunkMaxU32 chk b
    mapRes (fun i => do
      let p ← idx gi_mi i
      if p = 0 then Res.ok 0
      else do
        let g ← idx g_i i
        solveDiscreteLog (UInt16.ofNat maxVal) g p) (List.range n)

end Verif
