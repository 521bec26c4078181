/-
The test programs of the crate (the `#[test]` functions that call its API), as programs in the model: the same calls in the same
order, with one random number generator.  Output and timing are left out.  `encrypt_decrypt_timing` (src/encryption.rs:969-1151) is
commented out in /repo and left out here; the tests of the macros are in `Props/Macros`.
-/
import Verif.Model.Poll
import Verif.Model.Setup

namespace Verif

/-- The random number generator of the tests, `StdRng::seed_from_u64(0u64)`, e.g. src/tests.rs:24: besides scalars and points they
draw 32-bit integers, `u32::rand(rng)`, src/encryption.rs:743.  Any state machine, not only the one with seed 0. -/
structure TestRng (E : Engine) extends RngCore E where
  u32 : σ → UInt32 × σ

variable {E : Engine}

/-- `Result::unwrap`, as used in the tests, e.g. src/tests.rs:35: an error becomes a panic. -/
def unwrapRes {α : Type} : Res α → Res α
  | .err _ => .panic
  | x => x

/-- `assert_eq!`, as used in the tests, e.g. src/tests.rs:180. -/
def assertEq {α : Type} [DecidableEq α] (a b : α) : Res Unit := if a = b then .ok () else .panic

/-- `gen_messages`, src/encryption.rs:737-745.  (Only called with chunk sizes below 32.) -/
def genMessages (R : TestRng E) (b : UInt8) : ℕ → R.σ → List UInt16 × R.σ
  | 0, st => ([], st)
  | n + 1, st =>
    let (w, st) := R.u32 st
    let (ms, st) := genMessages R b n st
    ((w &&& ((1 <<< b.toUInt32) - 1)).toUInt16 :: ms, st)

/-- `(0..n).map(|_| G1Affine::rand(rng)).collect()`, src/encryption.rs:692-694, src/keygen.rs:559-561. -/
def g1s (R : RngCore E) : ℕ → R.σ → List E.G1 × R.σ
  | 0, st => ([], st)
  | n + 1, st =>
    let (x, st) := R.g1 st
    let (xs, st) := g1s R n st
    (x :: xs, st)

/-- The public parameters that the tests without a SNARK make up, src/encryption.rs:690-698, 715-723, src/keygen.rs:557-566:
generators, `g_i`, `delta * G`, `gamma * G`. -/
def testParams (R : RngCore E) (b : UInt8) (st : R.σ) : Res ((EncryptionGens E × List E.G1 × E.G1 × E.G1) × R.σ) := do
  let n ← chunksCount E.fr b
  let (gens, st) := EncryptionGens.newUsingRng R st
  let (g_i, st) := g1s R n.toNat st
  let (delta, st) := R.fr st
  let (gamma, st) := R.fr st
  let g_delta := mulBigint gens.G (intoBigint (K := E.fr) delta)
  let g_gamma := mulBigint gens.G (intoBigint (K := E.fr) gamma)
  return ((gens, g_i, g_delta, g_gamma), st)

/-- `enc_setup`, src/encryption.rs:680-701. -/
def encSetup (R : RngCore E) (b : UInt8) (st : R.σ) :
    Res ((EncryptionGens E × List E.G1 × SecretKey E × EncryptionKey E × DecryptionKey E) × R.σ) := do
  let ((gens, g_i, g_delta, g_gamma), st) ← testParams R b st
  let ((sk, ek, dk), st) ← unwrapRes (keygen R st b gens g_i g_delta g_gamma)
  return ((gens, g_i, sk, ek, dk), st)

/-- Key generation by two parties with one random number generator, src/encryption.rs:724-732, src/keygen.rs:626-635,
src/saver_groth16.rs:277-285, 403-418, src/tests.rs:38-53. -/
def twoPartyKeygen (R : RngCore E) (b : UInt8) (gens : EncryptionGens E) (g_i : List E.G1) (g_delta g_gamma : E.G1)
    (st : R.σ) : Res ((SecretKeyST E × SecretKeyST E × EncryptionKey E) × R.σ) := do
  let ((sk1, ek1), st) ← unwrapRes (fkeygenPartial R st b gens g_i g_delta g_gamma)
  let ((sk2, ek2), st) ← unwrapRes (fkeygenPartial R st b gens g_i g_delta g_gamma)
  let ek3 ← combineEKs g_gamma [ek1, ek2]
  let p11 ← genP1share ek3 sk1
  let p12 ← genP1share ek3 sk2
  let p_combined ← combineP1share [p11, p12]
  return ((sk1, sk2, keygenFinal ek3 p_combined), st)

/-- `enc_setup_distributed`, src/encryption.rs:703-735: generators, `g_i`, encryption key, destination's keys, secret keys. -/
def encSetupDistributed (R : RngCore E) (b : UInt8) (st : R.σ) :
    Res ((EncryptionGens E × List E.G1 × EncryptionKey E × FEncryptionKeyDest E × SecretKey E × SecretKeyST E × SecretKeyST E)
      × R.σ) := do
  let ((gens, g_i, g_delta, g_gamma), st) ← testParams R b st
  let ((sk1, sk2, ek_fin), st) ← twoPartyKeygen R b gens g_i g_delta g_gamma st
  let ((skd, ekd), st) ← unwrapRes (fkeygenDest R st gens)
  return ((gens, g_i, ek_fin, ekd, skd, sk1, sk2), st)

/-- `check` of the test `encrypt_decrypt`, src/encryption.rs:749-852. -/
def testEncryptDecrypt (chk : Bool) (R : TestRng E) (b : UInt8) (st : R.σ) : Res Unit := do
  let n ← chunksCount E.fr b
  let (m, st) := genMessages R b n.toNat st
  let ((gens, g_i, sk, ek, dk), st) ← encSetup R.toRngCore b st
  let ((ct, _), _) ← unwrapRes (encryptDecomposedMessage R.toRngCore st m ek g_i)
  assertEq ct.length (m.length + 2)
  let (c_0, c) ← slices m.length ct
  let psi ← idx ct (m.length + 1)
  unwrapRes (verifyCiphertextCommitment c_0 c psi ek.prepare gens.prepare)
  unwrapRes (verifyCiphertextCommitment c_0 c psi ek.prepare gens.prepare)
  let (m1, _) ← unwrapRes (decryptToChunks chk c_0 c sk dk.prepare g_i b)
  assertEq m1 m
  let (m2, _) ← unwrapRes (decryptToChunks chk c_0 c sk dk.prepare g_i b)
  assertEq m2 m
  let pairing_powers ← unwrapRes (dk.prepare.pairingPowers chk b g_i)
  let (m3, _) ← unwrapRes (decryptToChunksGivenPairingPowers chk c_0 c sk dk.prepare g_i b (some pairing_powers))
  assertEq m3 m

/-- Re-encryption by two parties with one random number generator, and the destination's decryption with the bound for `b'`,
src/encryption.rs:911-958, src/saver_groth16.rs:328-369, 502-544, src/tests.rs:135-178: of the ciphertext vector `ct` for
`n` chunks. -/
def twoPartyDelivery (chk : Bool) (R : RngCore E) (gens : EncryptionGens E) (g_i : List E.G1) (ekd : FEncryptionKeyDest E)
    (skd : SecretKey E) (sk1 sk2 : SecretKeyST E) (n : ℕ) (b' : Res UInt8) (ct : List E.G1) (st : R.σ) : Res (List UInt16) := do
  let (c_0, c) ← slices n ct
  let ((w1, gr1), st) ← unwrapRes (reEncryptShare R st gens c_0 c ekd sk1)
  let ((w2, gr2), _) ← unwrapRes (reEncryptShare R st gens c_0 c ekd sk2)
  let (wc, grc) ← unwrapRes (combineReEncryptShare gr1 gr2 w1 w2)
  let ct2 ← unwrapRes (combineCtWithW c grc wc)
  let (d_0, d) ← slices n ct2
  let b' ← b'
  unwrapRes (decryptAfterReEncryption chk d_0 d skd g_i b')

/-- `check` of the test `encrypt_decrypt_distributed`, src/encryption.rs:861-960. -/
def testEncryptDecryptDistributed (chk : Bool) (R : TestRng E) (b : UInt8) (st : R.σ) : Res Unit := do
  let n ← chunksCount E.fr b
  let (m, st) := genMessages R b n.toNat st
  let ((gens, g_i, ek, ekd, skd, sk1, sk2), st) ← encSetupDistributed R.toRngCore b st
  let ((ct, _), st) ← unwrapRes (encryptDecomposedMessage R.toRngCore st m ek g_i)
  assertEq ct.length (m.length + 2)
  let (c_0, c) ← slices m.length ct
  let psi ← idx ct (m.length + 1)
  unwrapRes (verifyCiphertextCommitment c_0 c psi ek.prepare gens.prepare)
  unwrapRes (verifyCiphertextCommitment c_0 c psi ek.prepare gens.prepare)
  let m' ← twoPartyDelivery chk R.toRngCore gens g_i ekd skd sk1 sk2 m.length (.ok b) ct st
  assertEq m' m

/-- The assertions about an encryption key in the tests of key generation, src/keygen.rs:573-583, 589, 595-604 and
src/keygen.rs:637-661. -/
def assertEncKey (ek : EncryptionKey E) (n : ℕ) : Res Unit := do
  let prepared_ek := ek.prepare
  assertEq ek.X.length n
  assertEq prepared_ek.X.length n
  assertEq ek.Y.length n
  assertEq prepared_ek.Y.length n
  assertEq ek.Z.length (n + 1)
  assertEq prepared_ek.Z.length (n + 1)
  unwrapRes ek.validate
  unwrapRes prepared_ek.validate
  let c ← unwrapRes ek.supportedChunksCount
  assertEq c (UInt8.ofNat n)
  let c ← unwrapRes prepared_ek.supportedChunksCount
  assertEq c (UInt8.ofNat n)
  assertEq ek.commitmentKey.length (n + 1)
  assertEq prepared_ek.commitmentKey.length (n + 1)
  -- the lengths have just been checked: these slices and indices are in range
  assertEq (ek.commitmentKey.take n) ek.Y
  assertEq (prepared_ek.commitmentKey.take n) ek.Y
  let p ← idx ek.commitmentKey n
  assertEq p ek.P_1
  let p ← idx prepared_ek.commitmentKey n
  assertEq p ek.P_1

/-- The assertions about a decryption key, src/keygen.rs:579-582, 585-586, 590-594. -/
def assertDecKey (dk : DecryptionKey E) (n : ℕ) : Res Unit := do
  let prepared_dk := dk.prepare
  assertEq dk.V_1.length n
  assertEq prepared_dk.V_1.length n
  assertEq dk.V_2.length n
  assertEq prepared_dk.V_2.length n
  unwrapRes dk.validate
  unwrapRes prepared_dk.validate
  let c ← unwrapRes dk.supportedChunksCount
  assertEq c (UInt8.ofNat n)
  let c ← unwrapRes prepared_dk.supportedChunksCount
  assertEq c (UInt8.ofNat n)

/-- `check_keygen` of the test `keygen_works`, src/keygen.rs:555-607.  Simplification: the assertions about the two keys, which do
not depend on each other, are separated. -/
def testKeygen (R : RngCore E) (b : UInt8) (st : R.σ) : Res Unit := do
  let n ← chunksCount E.fr b
  let ((gens, g_i, g_delta, g_gamma), st) ← testParams R b st
  let ((_, ek, dk), _) ← unwrapRes (keygen R st b gens g_i g_delta g_gamma)
  assertEncKey ek n.toNat
  assertDecKey dk n.toNat

/-- `check_keygen_dist` of the test `keygen_dist`, src/keygen.rs:613-662. -/
def testKeygenDist (R : RngCore E) (b : UInt8) (st : R.σ) : Res Unit := do
  let n ← chunksCount E.fr b
  let ((gens, g_i, g_delta, g_gamma), st) ← testParams R b st
  let ((_, _, ek_fin), _) ← twoPartyKeygen R b gens g_i g_delta g_gamma st
  assertEncKey ek_fin n.toNat

/-- `check` of the test `commitment_key_creation`, src/commitment.rs:167-188. -/
def testCommitmentKey (chk : Bool) (R : RngCore E) (b : UInt8) (st : R.σ) : Res Unit := do
  let (g, _) := R.g1 st
  let n ← chunksCount E.fr b
  -- `1 << chunk_bit_size` is a `u64` here
  let radix ← if b.toNat < 64 then Res.ok (2 ^ b.toNat) else if chk then .panic else .ok (2 ^ (b.toNat % 64))
  let gs_1 := commitmentKeyPow2 g n radix
  let gs_2 ← commitmentKeyNonPow2 E.fr g n radix
  assertEq gs_1 gs_2

/-- `check` of the test `setup_for_groth16_works`, src/setup.rs:162-191. -/
def testSetup (T : FftCfg E.Fr) (fuel : ℕ) (R : RngCore E) (b : UInt8) (st : R.σ) : Res Unit := do
  let n ← chunksCount E.fr b
  let (gens, st) := EncryptionGens.newUsingRng R st
  let (_, st) := ChunkedCommitmentGens.newUsingRng R st
  let ((pk, _, ek, dk), _) ← unwrapRes (setupForGroth16 T R fuel st b gens)
  assertEq pk.pk.vk.gamma_abc_g1.length (n.toNat + 1)
  unwrapRes ek.validate
  unwrapRes dk.validate
  let c ← unwrapRes ek.supportedChunksCount
  assertEq c (UInt8.ofNat n.toNat)
  let c ← unwrapRes dk.supportedChunksCount
  assertEq c (UInt8.ofNat n.toNat)

/-- `create_proof`, `verify_ciphertext_commitment` and `verify_proof` for a ciphertext vector, src/saver_groth16.rs:217-244,
294-321, 433-460, 467-494, src/tests.rs:67-94, 101-128.  Returns the state of the random number generator. -/
def proveAndVerify (T : FftCfg E.Fr) (chk : Bool) (R : RngCore E) (b n : UInt8) (gens : EncryptionGens E) (srs : ProvingKey E)
    (ek : EncryptionKey E) (msgs : List UInt16) (ct : List E.G1) (r : E.Fr) (st : R.σ) : Res R.σ := do
  let circuit ← BitsizeCheckCircuit.new (K := E.fr) b (some n) (some (msgs.map fun c => ((c.toNat : ℕ) : E.Fr))) true
  let (proof, st) ← unwrapRes (createProof T chk R st circuit.generateConstraints r srs ek)
  let (c_0, c) ← slices n.toNat ct
  let psi ← idx ct (n.toNat + 1)
  unwrapRes (verifyCiphertextCommitment c_0 c psi ek.prepare gens.prepare)
  let pvk := prepareVerifyingKey srs.pk.vk
  let cts : Ciphertext E := { X_r := c_0, enc_chunks := c, commitment := psi }
  unwrapRes (verifyProof pvk proof cts)
  return st

/-- The beginning of the tests with a SNARK, src/saver_groth16.rs:172-180, 259-267, 382-393: generators, number of chunks, messages
(`k` times, one after the other), SRS. -/
def snarkSetup (T : FftCfg E.Fr) (fuel : ℕ) (R : TestRng E) (b : UInt8) (k : ℕ) (st : R.σ) :
    Res ((EncryptionGens E × UInt8 × List UInt16 × ProvingKey E) × R.σ) := do
  let (gens, st) := EncryptionGens.newUsingRng R.toRngCore st
  let n ← chunksCount E.fr b
  let (msgs, st) := genMessages R b (k * n.toNat) st
  let circuit ← BitsizeCheckCircuit.new (K := E.fr) b (some n) none true
  let (srs, st) ← unwrapRes (generateSrs T R.toRngCore fuel st circuit.generateConstraints gens)
  return ((gens, n, msgs, srs), st)

/-- `check` of the test `encrypt_and_snark_verification`, src/saver_groth16.rs:171-250. -/
def testSnark (T : FftCfg E.Fr) (fuel : ℕ) (chk : Bool) (R : TestRng E) (b : UInt8) (st : R.σ) : Res Unit := do
  let ((gens, n, msgs, srs), st) ← snarkSetup T fuel R b 1 st
  let g_i ← getGsForEncryption srs.pk.vk
  let ((sk, ek, dk), st) ← unwrapRes (keygen R.toRngCore st b gens g_i srs.pk.delta_g1 srs.gamma_g1)
  let ((ct, r), st) ← unwrapRes (encryptDecomposedMessage R.toRngCore st msgs ek g_i)
  let (c_0, c) ← slices n.toNat ct
  let (m', _) ← unwrapRes (decryptToChunks chk c_0 c sk dk.prepare g_i b)
  assertEq m' msgs
  let _ ← proveAndVerify T chk R.toRngCore b n gens srs ek msgs ct r st
  return ()

/-- `chunk_bit_size*2` for a `u8`, src/saver_groth16.rs:367, 542, src/tests.rs:176. -/
def twice (chk : Bool) (b : UInt8) : Res UInt8 := if chk && decide (256 ≤ 2 * b.toNat) then .panic else .ok (b * 2)

/-- `check` of the test `encrypt_and_ver_distributed`, src/saver_groth16.rs:258-373. -/
def testDistributed (T : FftCfg E.Fr) (fuel : ℕ) (chk : Bool) (R : TestRng E) (b : UInt8) (st : R.σ) : Res Unit := do
  let ((gens, n, msgs, srs), st) ← snarkSetup T fuel R b 1 st
  let g_i ← getGsForEncryption srs.pk.vk
  let ((sk1, sk2, ek_fin), st) ← twoPartyKeygen R.toRngCore b gens g_i srs.pk.delta_g1 srs.gamma_g1 st
  let ((skd, ekd), st) ← unwrapRes (fkeygenDest R.toRngCore st gens)
  let ((ct, r), st) ← unwrapRes (encryptDecomposedMessage R.toRngCore st msgs ek_fin g_i)
  let st ← proveAndVerify T chk R.toRngCore b n gens srs ek_fin msgs ct r st
  let m' ← twoPartyDelivery chk R.toRngCore gens g_i ekd skd sk1 sk2 n.toNat (twice chk b) ct st
  assertEq m' msgs

/-- `check` of the test `encrypt_and_ver_distributed_with_addition`, src/tests.rs:23-182 and the same in
src/saver_groth16.rs:381-548. -/
def testAddition (T : FftCfg E.Fr) (fuel : ℕ) (chk : Bool) (R : TestRng E) (b : UInt8) (st : R.σ) : Res Unit := do
  let ((gens, n, both, srs), st) ← snarkSetup T fuel R b 2 st
  let msgs := both.take n.toNat
  let msgs2 := both.drop n.toNat
  let g_i ← getGsForEncryption srs.pk.vk
  let ((sk1, sk2, ek_fin), st) ← twoPartyKeygen R.toRngCore b gens g_i srs.pk.delta_g1 srs.gamma_g1 st
  let ((skd, ekd), st) ← unwrapRes (fkeygenDest R.toRngCore st gens)
  let ((ct, r), st) ← unwrapRes (encryptDecomposedMessage R.toRngCore st msgs ek_fin g_i)
  let ((ct2, r2), st) ← unwrapRes (encryptDecomposedMessage R.toRngCore st msgs2 ek_fin g_i)
  let ct_combined ← unwrapRes (addCts ct ct2)
  let st ← proveAndVerify T chk R.toRngCore b n gens srs ek_fin msgs ct r st
  let st ← proveAndVerify T chk R.toRngCore b n gens srs ek_fin msgs2 ct2 r2 st
  let m' ← twoPartyDelivery chk R.toRngCore gens g_i ekd skd sk1 sk2 n.toNat (twice chk b) ct_combined st
  let x ← idx m' 4
  let a ← idx msgs 4
  let a2 ← idx msgs2 4
  -- `msgs[4]+msgs2[4]` for `u16`
  let y ← if chk && decide (65536 ≤ a.toNat + a2.toNat) then Res.panic else .ok (a + a2)
  assertEq x y

/-- `assert_ne!`, as used in src/setup.rs:142. -/
def assertNe {α : Type} [DecidableEq α] (a b : α) : Res Unit := if a = b then .panic else .ok ()

/-- `==` of generators (derived, src/setup.rs:20-22). -/
instance : DecidableEq (EncryptionGens E) := fun a b =>
  decidable_of_iff (a.G = b.G ∧ a.H = b.H) (by cases a; cases b; simp)

/-- `==` of generators (derived, src/setup.rs:69-71). -/
instance : DecidableEq (ChunkedCommitmentGens E.G1) := fun a b =>
  decidable_of_iff (a.G = b.G ∧ a.H = b.H) (by cases a; cases b; simp)

/-- The next statement after a call that searches for a point with a hash function (src/setup.rs:136-155): not reached if the
search has not ended (`none`) or has panicked. -/
def andThen {α β : Type} (x : Option (Res α)) (k : α → Option (Res β)) : Option (Res β) :=
  match x with
  | none => none
  | some (.ok a) => k a
  | some (.err e) => some (.err e)
  | some .panic => some .panic

/-- The test `gens`, src/setup.rs:132-158. -/
def testGens (chk : Bool) (digest : List UInt8 → List UInt8) (h1 : HashCurve E.G1) (h2 : HashCurve E.G2) (fuel : ℕ)
    (R : RngCore E) (st : R.σ) : Option (Res Unit) :=
  andThen (EncryptionGens.new (E := E) chk digest h1 h2 fuel [1, 2, 3]) fun enc_gens_1 =>
  andThen (EncryptionGens.new (E := E) chk digest h1 h2 fuel [1, 2, 3]) fun enc_gens_2 =>
  andThen (EncryptionGens.new (E := E) chk digest h1 h2 fuel [1, 2]) fun enc_gens_3 =>
  andThen (some (do
    assertEq enc_gens_1 enc_gens_2
    assertNe enc_gens_2 enc_gens_3
    let (a, st) := EncryptionGens.newUsingRng R st
    let (b, st) := EncryptionGens.newUsingRng R st
    assertNe a b
    return st)) fun st =>
  andThen (ChunkedCommitmentGens.new chk digest h1 fuel [1, 2, 3]) fun comm_gens_1 =>
  andThen (ChunkedCommitmentGens.new chk digest h1 fuel [1, 2, 3]) fun comm_gens_2 =>
  andThen (ChunkedCommitmentGens.new chk digest h1 fuel [1, 0]) fun comm_gens_3 =>
  some (do
    assertEq comm_gens_1 comm_gens_2
    assertNe comm_gens_2 comm_gens_3
    let (a, st) := ChunkedCommitmentGens.newUsingRng R st
    let (b, _) := ChunkedCommitmentGens.newUsingRng R st
    assertNe a b)

end Verif
