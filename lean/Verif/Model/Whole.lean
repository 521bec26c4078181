/-
Everything in one transition system: distributed key generation by parties that crash (`Model/Restart`), and the poll that
uses the resulting key, with dishonest users (`Model/OpenPoll`); the order of calls is that of src/tests.rs:37-183.
-/
import Verif.Model.OpenPoll

namespace Verif
variable {E : Engine}

/-- What everybody knows from the start: the point encodings, the number of key holders and of users, the chunk size, the
generators, `delta_g` and `gamma_g` of the SNARK's key, and the destination's public key.
The arguments of src/keygen.rs:310-316 and the types of src/keygen.rs:120 and src/setup.rs:23. -/
structure Public (E : Engine) where
  codecs : Codecs E
  holders : ℕ
  users : ℕ
  b : UInt8
  gens : EncryptionGens E
  g_i : List E.G1
  delta_g : E.G1
  gamma_g : E.G1
  ekd : FEncryptionKeyDest E

/-- The key holders with what they have published, and the poll.
The setting of src/tests.rs:30-185; not itself code of /repo. -/
structure Whole (E : Engine) where
  sys : Sys E
  poll : Poll

/-- Nobody has done anything yet. The start of the setting of src/tests.rs:30-185. -/
def Whole.init : Whole E := ⟨Sys.init, Poll.init⟩

/-- What the poll is run with: the key is the one that anybody computes from what the key holders have published
(src/tests.rs:42-53), and the secret keys are those that the key holders find in their storages (as soon as the key can be
computed, they all find one: C107).  A user needs only the key of it, and a key holder its own secret key. -/
def Whole.cfg (A : Public E) (W : Whole E) : Option (PollCfg E) :=
  match W.sys.finalKey A.codecs A.holders A.gamma_g with
  | some (.ok ek) => do
    let sks ← (List.range A.holders).mapM fun j => do
      let (sk, _) ← load A.codecs (W.sys.node j).disk
      return sk
    return ⟨A.codecs, A.users, ek, A.g_i, A.gens, A.ekd, sks⟩
  | _ => none

/-- One step: a key holder does a step of key generation or crashes, whether or not the poll has begun, or somebody does a
step of the poll, with the key as it can be computed at this moment.
The functions called are those cited at `SysStep` (src/keygen.rs:310-449) and `PollStep`
(src/encryption.rs:353-470). -/
inductive WholeStep (A : Public E) (bad : ℕ → Prop) (W : Whole E) : Whole E → Prop
  | keygen (S : Sys E) :
      SysStep A.codecs A.holders A.b A.gens A.g_i A.delta_g A.gamma_g W.sys S → WholeStep A bad W { W with sys := S }
  | poll (K : PollCfg E) (S : Poll) :
      W.cfg A = some K → OpenStep K bad W.poll S → WholeStep A bad W { W with poll := S }

/-- Finitely many steps.
Histories of calls of the functions cited at `WholeStep` (src/keygen.rs:310-449, src/encryption.rs:353-470). -/
inductive WholeRuns (A : Public E) (bad : ℕ → Prop) : Whole E → Whole E → Prop
  | refl (W : Whole E) : WholeRuns A bad W W
  | step {W V U : Whole E} : WholeRuns A bad W V → WholeStep A bad V U → WholeRuns A bad W U

/-- What the destination gets, as soon as everything has been published.
Computed with src/encryption.rs:417-504, see `Poll.outcome`. -/
def Whole.outcome (A : Public E) (chk : Bool) (skd : SecretKey E) (b : UInt8) (W : Whole E) : Option (Res (List UInt16)) := do
  let K ← W.cfg A
  W.poll.outcome K chk skd b

/-- Who has been counted, as published. Published with the sum that `add_cts`, src/encryption.rs:456-470, returns. -/
def Whole.counted (A : Public E) (W : Whole E) : Option (List ℕ) := do
  let K ← W.cfg A
  W.poll.counted K

end Verif
