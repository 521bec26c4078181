/-
The poll of `Model/OpenPoll` when users have to prove what their ballots contain: an asynchronous transition system built from
the crate's functions and encodings.  Honest users call `encrypt_with_proof`, the aggregator calls
`verify_commitment_and_proof`.
-/
import Verif.Model.Poll
import Verif.Model.Groth16

namespace Verif
variable {E : Engine}

/-- A Groth16 proof as bytes: the derived encoding of `ark_groth16::Proof`, the type that `create_proof` returns
(src/saver_groth16.rs:78-102); its three points one after the other. -/
def arkProof (C : Codecs E) : Ark (Proof E) where
  ser k := C.g1.ser k.a ++ C.g2.ser k.b ++ C.g1.ser k.c
  de bs := do
    let (a, bs) ← C.g1.de bs
    let (b, bs) ← C.g2.de bs
    let (c, bs) ← C.g1.de bs
    return ({ a := a, b := b, c := c }, bs)

/-- A ciphertext with its proof as bytes: the encoding of `Ciphertext` (src/encryption.rs:34-46) and that of the proof. -/
def arkSubmission (C : Codecs E) : Ark (Ciphertext E × Proof E) where
  ser x := (arkCiphertext C).ser x.1 ++ (arkProof C).ser x.2
  de bs := do
    let (ct, bs) ← (arkCiphertext C).de bs
    let (proof, bs) ← (arkProof C).de bs
    return ((ct, proof), bs)

/-- What is fixed during such a poll: in addition to the configuration of a poll, the proving key, the FFT configuration,
whether the prover checks that the circuit is satisfied (a debug assertion), and the chunk size.
The proving key is that of src/saver_groth16.rs:32-39. -/
structure ProvedCfg (E : Engine) extends PollCfg E where
  pk : ProvingKey E
  fft : FftCfg E.Fr
  chk : Bool
  bits : UInt8

/-- The aggregator accepts these bytes: they can be read as a ciphertext with a proof, and
`verify_commitment_and_proof` (src/encryption.rs:628-637) accepts. -/
def Provable (K : ProvedCfg E) (bs : List UInt8) (ct : Ciphertext E) (proof : Proof E) : Prop :=
  (∃ rest, (arkSubmission K.codecs).de bs = some ((ct, proof), rest)) ∧
    ct.verifyCommitmentAndProof proof (prepareVerifyingKey K.pk.pk.vk) K.ek.prepare K.gens.prepare = .ok ()

/-- A ciphertext as the vector that `add_cts` adds: the fields in the order of src/encryption.rs:373-387. -/
def asVector (ct : Ciphertext E) : List E.G1 := ct.X_r :: (ct.enc_chunks ++ [ct.commitment])

/-- One step of the poll; `bad` are the users who do what they like.
* `vote`: an honest user encrypts a message of its choice with a proof (`encrypt_with_proof`, src/encryption.rs:126-143) and
  puts both on the board, in place of its earlier submission; the chunks are recorded;
* `post`: a dishonest user puts any bytes on the board, in place of its earlier ones;
* `count`, `torn`, `close`, `share`: as in `PollStep`, for bytes that the aggregator accepts. -/
inductive ProvedStep (K : ProvedCfg E) (bad : ℕ → Prop) (S : Poll) : Poll → Prop
  | vote (j : ℕ) (P : Party E) (m : E.Fr) (chunks : List UInt16) (ct : Ciphertext E) (r : E.Fr) (proof : Proof E)
      (st' : P.1.σ) :
      j < K.users → ¬ bad j → decompose (K := E.fr) m K.bits = .ok chunks →
      encryptWithProof K.fft K.chk P.1 P.2 m K.ek K.pk K.bits = .ok ((ct, r, proof), st') →
      ProvedStep K bad S { S with
        cast := (j, chunks) :: S.cast
        posted := (j, (arkSubmission K.codecs).ser (ct, proof)) :: S.posted
        ballots := Function.update S.ballots j (some ((arkSubmission K.codecs).ser (ct, proof))) }
  | post (j : ℕ) (bs : List UInt8) :
      j < K.users → bad j → ProvedStep K bad S { S with
        posted := (j, bs) :: S.posted
        ballots := Function.update S.ballots j (some bs) }
  | count (j : ℕ) (bs : List UInt8) (ct : Ciphertext E) (proof : Proof E) (x : List ℕ × List E.G1) :
      S.ballots j = some bs → Provable K bs ct proof → nextTally K.codecs S.store j (asVector ct) = some (.ok x) →
      ProvedStep K bad S { S with store := (arkTally K.codecs).ser x }
  | torn (j : ℕ) (bs : List UInt8) (ct : Ciphertext E) (proof : Proof E) (x : List ℕ × List E.G1) (l : ℕ) :
      S.ballots j = some bs → Provable K bs ct proof → nextTally K.codecs S.store j (asVector ct) = some (.ok x) →
      l < ((arkTally K.codecs).ser x).length →
      ProvedStep K bad S { S with store := ((arkTally K.codecs).ser x).take l }
  | close (x : List ℕ × List E.G1) (rest : List UInt8) :
      S.total = none → (arkTally K.codecs).de S.store = some (x, rest) →
      ProvedStep K bad S { S with total := some S.store }
  | share (j : ℕ) (sk : SecretKeyST E) (P : Party E) (bs rest : List UInt8) (x : List ℕ × List E.G1) (c_0 : E.G1)
      (c : List E.G1) (sh : List E.G1 × E.G1) (st' : P.1.σ) :
      K.sks[j]? = some sk → S.total = some bs → (arkTally K.codecs).de bs = some (x, rest) →
      slices K.ek.X.length x.2 = .ok (c_0, c) → reEncryptShare P.1 P.2 K.gens c_0 c K.ekd sk = .ok (sh, st') →
      ProvedStep K bad S { S with shares := Function.update S.shares j (some ((arkShare K.codecs).ser sh)) }

/-- Finitely many steps.
Histories of calls of the functions cited at `ProvedStep` (src/encryption.rs:126-143,392-414,456-470,628-637). -/
inductive ProvedRuns (K : ProvedCfg E) (bad : ℕ → Prop) : Poll → Poll → Prop
  | refl (S : Poll) : ProvedRuns K bad S S
  | step {S T U : Poll} : ProvedRuns K bad S T → ProvedStep K bad T U → ProvedRuns K bad S U

end Verif
