/-
Aggregation and re-encryption by users, an aggregator and key holders that may crash at any moment: an asynchronous
transition system built from the crate's functions and encodings.  The order of calls is that of src/tests.rs:59-183.
-/
import Verif.Model.Restart

namespace Verif
variable {E : Engine}

/-- What is fixed during a poll: the point encodings, the number of users, the distributed key, the parameters, the
destination, and the key holders' secret keys. The types are those of src/keygen.rs:46,94,120 and src/setup.rs:23. -/
structure PollCfg (E : Engine) where
  codecs : Codecs E
  users : ℕ
  ek : EncryptionKey E
  g_i : List E.G1
  gens : EncryptionGens E
  ekd : FEncryptionKeyDest E
  sks : List (SecretKeyST E)

/-- The state of a poll: all votes cast and all ballots put on the board so far (nobody reads these two; they serve to say
what has happened), the ballots on the board (of each user the last one), the aggregator's storage, the tally it has published, and the key holders' published
shares.
The setting in which src/encryption.rs:353-504 is used, as in src/tests.rs:30-185; not itself code of /repo. -/
structure Poll where
  cast : List (ℕ × List UInt16)
  posted : List (ℕ × List UInt8)
  ballots : ℕ → Option (List UInt8)
  store : List UInt8
  total : Option (List UInt8)
  shares : ℕ → Option (List UInt8)

/-- Nothing has happened yet. The start of the setting of src/tests.rs:30-185. -/
def Poll.init : Poll := ⟨[], [], fun _ => none, [], none, fun _ => none⟩

/-- A tally as bytes: who has been counted (`Vec<usize>`), and the sum of the ciphertext vectors (`Vec<G1Affine>`), both in
the canonical encoding. The sum is what `add_cts`, src/encryption.rs:456-470, returns. -/
def arkTally (C : Codecs E) : Ark (List ℕ × List E.G1) where
  ser x := (arkVec arkUsize).ser x.1 ++ (arkVec C.g1).ser x.2
  de bs := do
    let (done, bs) ← (arkVec arkUsize).de bs
    let (sum, bs) ← (arkVec C.g1).de bs
    return ((done, sum), bs)

/-- A re-encryption share as bytes: what `re_encrypt_share` returns, `(Vec<G1Affine>, G1Affine)`,
src/encryption.rs:392-414. -/
def arkShare (C : Codecs E) : Ark (List E.G1 × E.G1) where
  ser x := (arkVec C.g1).ser x.1 ++ C.g1.ser x.2
  de bs := do
    let (w, bs) ← (arkVec C.g1).de bs
    let (g, bs) ← C.g1.de bs
    return ((w, g), bs)

/-- `ct[0]` and `ct[1..n + 1]` of a vector, src/tests.rs:140-141, 171-172; aborts if it is too short. -/
def slices (n : ℕ) (v : List E.G1) : Res (E.G1 × List E.G1) :=
  match v with
  | [] => .panic
  | c_0 :: vs => if vs.length < n then .panic else .ok (c_0, vs.take n)

/-- What the aggregator is about to store when it counts the ballot `v` of user `j`: it adds it (`add_cts`,
src/encryption.rs:456-470) to the tally in its storage, unless the user has been counted already; if there is nothing readable
in its storage, it starts a new tally. -/
def nextTally (C : Codecs E) (store : List UInt8) (j : ℕ) (v : List E.G1) : Option (Res (List ℕ × List E.G1)) :=
  match (arkTally C).de store with
  | none => some (.ok ([j], v))
  | some ((done, sum), _) =>
    if j ∈ done then none else
    some (do
      let sum ← addCts sum v
      return (j :: done, sum))

/-- One step of the poll.
* `vote`: a user encrypts chunks of its choice (`encrypt_decomposed_message`, src/encryption.rs:353-389) with whatever
  randomness and puts the ciphertext on the board, in place of its earlier one if there is one (a user that crashes and
  has forgotten everything votes again);
* `count`: the aggregator adds a ballot to its tally and stores the result;
* `torn`: it does so, but crashes before everything is written: what was in its storage before is lost;
* `close`: the aggregator publishes the tally it has stored, unless it has done so before;
* `share`: a key holder computes its share (`re_encrypt_share`, src/encryption.rs:392-414) of the re-encryption of the
  published sum, with whatever randomness, and publishes it, in place of its earlier one if there is one. -/
inductive PollStep (K : PollCfg E) (S : Poll) : Poll → Prop
  | vote (j : ℕ) (P : Party E) (chunks : List UInt16) (v : List E.G1) (r : E.Fr) (st' : P.1.σ) :
      j < K.users → encryptDecomposedMessage P.1 P.2 chunks K.ek K.g_i = .ok ((v, r), st') →
      PollStep K S { S with
        cast := (j, chunks) :: S.cast
        posted := (j, (arkVec K.codecs.g1).ser v) :: S.posted
        ballots := Function.update S.ballots j (some ((arkVec K.codecs.g1).ser v)) }
  | count (j : ℕ) (bs rest : List UInt8) (v : List E.G1) (x : List ℕ × List E.G1) :
      S.ballots j = some bs → (arkVec K.codecs.g1).de bs = some (v, rest) →
      nextTally K.codecs S.store j v = some (.ok x) →
      PollStep K S { S with store := (arkTally K.codecs).ser x }
  | torn (j : ℕ) (bs rest : List UInt8) (v : List E.G1) (x : List ℕ × List E.G1) (l : ℕ) :
      S.ballots j = some bs → (arkVec K.codecs.g1).de bs = some (v, rest) →
      nextTally K.codecs S.store j v = some (.ok x) → l < ((arkTally K.codecs).ser x).length →
      PollStep K S { S with store := ((arkTally K.codecs).ser x).take l }
  | close (x : List ℕ × List E.G1) (rest : List UInt8) :
      S.total = none → (arkTally K.codecs).de S.store = some (x, rest) →
      PollStep K S { S with total := some S.store }
  | share (j : ℕ) (sk : SecretKeyST E) (P : Party E) (bs rest : List UInt8) (x : List ℕ × List E.G1) (c_0 : E.G1)
      (c : List E.G1) (sh : List E.G1 × E.G1) (st' : P.1.σ) :
      K.sks[j]? = some sk → S.total = some bs → (arkTally K.codecs).de bs = some (x, rest) →
      slices K.ek.X.length x.2 = .ok (c_0, c) → reEncryptShare P.1 P.2 K.gens c_0 c K.ekd sk = .ok (sh, st') →
      PollStep K S { S with shares := Function.update S.shares j (some ((arkShare K.codecs).ser sh)) }

/-- Finitely many steps. Histories of calls of the functions cited at `PollStep` (src/encryption.rs:353-470). -/
inductive PollRuns (K : PollCfg E) : Poll → Poll → Prop
  | refl (S : Poll) : PollRuns K S S
  | step {S T U : Poll} : PollRuns K S T → PollStep K T U → PollRuns K S U

/-- Who has been counted, as published. Published with the sum that `add_cts`, src/encryption.rs:456-470, returns. -/
def Poll.counted (K : PollCfg E) (S : Poll) : Option (List ℕ) := do
  let bs ← S.total
  let (x, _) ← (arkTally K.codecs).de bs
  return x.1

/-- What the destination gets from what has been published, as soon as everything has: it combines the shares
(`combine_re_encrypt_share`, src/encryption.rs:417-433), adds them to the sum (`combine_ct_with_w`, src/encryption.rs:436-453)
and decrypts the result (`decrypt_to_chunks_after_re_encryption`, src/encryption.rs:473-504). -/
def Poll.outcome (K : PollCfg E) (chk : Bool) (skd : SecretKey E) (b : UInt8) (S : Poll) : Option (Res (List UInt16)) := do
  let bs ← S.total
  let (x, _) ← (arkTally K.codecs).de bs
  let shs ← readAll (arkShare K.codecs) S.shares K.sks.length
  return (do
    let (_, c) ← slices K.ek.X.length x.2
    let (w, gr) ← combineShares shs
    let re ← combineCtWithW c gr w
    let (g_r, cs) ← slices K.ek.X.length re
    decryptAfterReEncryption chk g_r cs skd K.g_i b)

end Verif
