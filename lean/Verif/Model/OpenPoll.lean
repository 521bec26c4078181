/-
The poll of `Model/Poll` with users who put whatever bytes they like on the board, and an aggregator that checks what it
reads: an asynchronous transition system built from the crate's functions and encodings.  The check is that of
src/tests.rs:79-86.
-/
import Verif.Model.Poll

namespace Verif
variable {E : Engine}

/-- The check of a ciphertext vector: `verify_ciphertext_commitment(&ct[0], &ct[1..n + 1], &ct[n + 1], ..)`,
src/tests.rs:79-86 (`verify_ciphertext_commitment`: src/encryption.rs:224-250); aborts if the vector is too short. -/
def checkBallot (K : PollCfg E) (v : List E.G1) : Res Unit := do
  let (c_0, c) ← slices K.ek.X.length v
  let psi ← idx v (K.ek.X.length + 1)
  verifyCiphertextCommitment c_0 c psi K.ek.prepare K.gens.prepare

/-- The aggregator accepts these bytes as a ballot: they can be read, the vector has `n + 2` entries, and it passes the
check. The check is that of `verify_ciphertext_commitment`, src/encryption.rs:224-249. -/
def Acceptable (K : PollCfg E) (bs : List UInt8) (v : List E.G1) : Prop :=
  (∃ rest, (arkVec K.codecs.g1).de bs = some (v, rest)) ∧ v.length = K.ek.X.length + 2 ∧ checkBallot K v = .ok ()

/-- One step of the poll; `bad` are the users who do what they like.
* `vote`: an honest user encrypts chunks of its choice and puts the ciphertext on the board, as in `PollStep`;
* `post`: a dishonest user puts any bytes on the board, in place of its earlier ones;
* `count`, `torn`: as in `PollStep`, for bytes that the aggregator accepts;
* `close`, `share`: as in `PollStep`.
The functions called are those cited at `PollStep` (src/encryption.rs:353-389,392-414,456-470) and
`verify_ciphertext_commitment`, src/encryption.rs:224-249. -/
inductive OpenStep (K : PollCfg E) (bad : ℕ → Prop) (S : Poll) : Poll → Prop
  | vote (j : ℕ) (P : Party E) (chunks : List UInt16) (v : List E.G1) (r : E.Fr) (st' : P.1.σ) :
      j < K.users → ¬ bad j → encryptDecomposedMessage P.1 P.2 chunks K.ek K.g_i = .ok ((v, r), st') →
      OpenStep K bad S { S with
        cast := (j, chunks) :: S.cast
        posted := (j, (arkVec K.codecs.g1).ser v) :: S.posted
        ballots := Function.update S.ballots j (some ((arkVec K.codecs.g1).ser v)) }
  | post (j : ℕ) (bs : List UInt8) :
      j < K.users → bad j → OpenStep K bad S { S with
        posted := (j, bs) :: S.posted
        ballots := Function.update S.ballots j (some bs) }
  | count (j : ℕ) (bs : List UInt8) (v : List E.G1) (x : List ℕ × List E.G1) :
      S.ballots j = some bs → Acceptable K bs v → nextTally K.codecs S.store j v = some (.ok x) →
      OpenStep K bad S { S with store := (arkTally K.codecs).ser x }
  | torn (j : ℕ) (bs : List UInt8) (v : List E.G1) (x : List ℕ × List E.G1) (l : ℕ) :
      S.ballots j = some bs → Acceptable K bs v → nextTally K.codecs S.store j v = some (.ok x) →
      l < ((arkTally K.codecs).ser x).length →
      OpenStep K bad S { S with store := ((arkTally K.codecs).ser x).take l }
  | close (x : List ℕ × List E.G1) (rest : List UInt8) :
      S.total = none → (arkTally K.codecs).de S.store = some (x, rest) →
      OpenStep K bad S { S with total := some S.store }
  | share (j : ℕ) (sk : SecretKeyST E) (P : Party E) (bs rest : List UInt8) (x : List ℕ × List E.G1) (c_0 : E.G1)
      (c : List E.G1) (sh : List E.G1 × E.G1) (st' : P.1.σ) :
      K.sks[j]? = some sk → S.total = some bs → (arkTally K.codecs).de bs = some (x, rest) →
      slices K.ek.X.length x.2 = .ok (c_0, c) → reEncryptShare P.1 P.2 K.gens c_0 c K.ekd sk = .ok (sh, st') →
      OpenStep K bad S { S with shares := Function.update S.shares j (some ((arkShare K.codecs).ser sh)) }

/-- Finitely many steps.
Histories of calls of the functions cited at `OpenStep` (src/encryption.rs:224-249,353-470). -/
inductive OpenRuns (K : PollCfg E) (bad : ℕ → Prop) : Poll → Poll → Prop
  | refl (S : Poll) : OpenRuns K bad S S
  | step {S T U : Poll} : OpenRuns K bad S T → OpenStep K bad T U → OpenRuns K bad S U

end Verif
