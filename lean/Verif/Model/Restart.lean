/-
Distributed key generation by parties that may crash at any moment: an asynchronous transition system built from the
crate's key generation functions and the derived encodings of its types.
-/
import Verif.Model.Protocol
import Verif.Model.Serde

namespace Verif
variable {E : Engine}

/-- A party: what is in its storage (survives crashes) and the secret key it has in memory (does not).
The secret key is that of `FkeygenPartial`, src/keygen.rs:310-358. -/
structure Node (E : Engine) where
  disk : List UInt8
  mem : Option (SecretKeyST E)

/-- The parties, and what they have published: partial keys and `P_1` shares, as bytes.
What `FkeygenPartial` (src/keygen.rs:310-358) and `genP1share` (src/keygen.rs:396-416) return. -/
structure Sys (E : Engine) where
  node : ℕ → Node E
  keys : ℕ → Option (List UInt8)
  shares : ℕ → Option (List UInt8)

/-- Nobody has done anything yet. The start of the setting of src/tests.rs:37-53. -/
def Sys.init : Sys E := ⟨fun _ => ⟨[], none⟩, fun _ => none, fun _ => none⟩

/-- What a party stores: its secret key and its partial key, in the derived canonical encodings, src/keygen.rs:42-87. -/
def stored (C : Codecs E) (sk : SecretKeyST E) (k : FEncryptionKeyPartial E) : List UInt8 :=
  arkSecretKeyST.ser sk ++ (arkPartialKey C).ser k

/-- Reading it back; fails if something is missing. The encodings derived at src/keygen.rs:43-46,68-71. -/
def load (C : Codecs E) (bs : List UInt8) : Option (SecretKeyST E × FEncryptionKeyPartial E) := do
  let (sk, bs) ← arkSecretKeyST.de bs
  let (k, _) ← (arkPartialKey C).de bs
  return (sk, k)

/-- Reading what all of `N` parties have published; fails as long as something is missing.
The encodings derived at src/keygen.rs:57-60,68-71. -/
def readAll {α : Type} (c : Ark α) (board : ℕ → Option (List UInt8)) (N : ℕ) : Option (List α) :=
  (List.range N).mapM fun j => do
    let bs ← board j
    let (x, _) ← c.de bs
    return x

/-- One step of the system: some party does something, or crashes.  The calls are those of src/tests.rs:37-53.
* `generate`: a party that finds nothing readable in its storage calls `FkeygenPartial` (src/keygen.rs:310-358) with
  whatever randomness and stores the result;
* `torn`: it does so but crashes before everything is written;
* `publish`: it publishes the partial key it has stored (possibly again);
* `crash`: it loses its memory;
* `restart`: it loads its secret key from its storage;
* `share`: it combines the partial keys of all parties (`combineEKs`, src/keygen.rs:361-393), computes its share
  (`genP1share`, src/keygen.rs:396-417) and publishes it (possibly again). -/
inductive SysStep (C : Codecs E) (N : ℕ) (b : UInt8) (gens : EncryptionGens E) (g_i : List E.G1) (delta_g gamma_g : E.G1)
    (S : Sys E) : Sys E → Prop
  | generate (j : ℕ) (P : Party E) (sk : SecretKeyST E) (k : FEncryptionKeyPartial E) (st' : P.1.σ) :
      j < N → load C (S.node j).disk = none →
      fkeygenPartial P.1 P.2 b gens g_i delta_g gamma_g = .ok ((sk, k), st') →
      SysStep C N b gens g_i delta_g gamma_g S { S with node := Function.update S.node j ⟨stored C sk k, some sk⟩ }
  | torn (j : ℕ) (P : Party E) (sk : SecretKeyST E) (k : FEncryptionKeyPartial E) (st' : P.1.σ) (l : ℕ) :
      j < N → load C (S.node j).disk = none →
      fkeygenPartial P.1 P.2 b gens g_i delta_g gamma_g = .ok ((sk, k), st') → l < (stored C sk k).length →
      SysStep C N b gens g_i delta_g gamma_g S { S with node := Function.update S.node j ⟨(stored C sk k).take l, none⟩ }
  | publish (j : ℕ) (sk : SecretKeyST E) (k : FEncryptionKeyPartial E) :
      j < N → load C (S.node j).disk = some (sk, k) →
      SysStep C N b gens g_i delta_g gamma_g S { S with keys := Function.update S.keys j (some ((arkPartialKey C).ser k)) }
  | crash (j : ℕ) :
      SysStep C N b gens g_i delta_g gamma_g S { S with node := Function.update S.node j ⟨(S.node j).disk, none⟩ }
  | restart (j : ℕ) (sk : SecretKeyST E) (k : FEncryptionKeyPartial E) :
      j < N → load C (S.node j).disk = some (sk, k) →
      SysStep C N b gens g_i delta_g gamma_g S { S with node := Function.update S.node j ⟨(S.node j).disk, some sk⟩ }
  | share (j : ℕ) (sk : SecretKeyST E) (ks : List (FEncryptionKeyPartial E)) (ek : FEncryptionKeyPartial E)
      (sh : P1share E) :
      j < N → (S.node j).mem = some sk → readAll (arkPartialKey C) S.keys N = some ks →
      combineEKs gamma_g ks = .ok ek → genP1share ek sk = .ok sh →
      SysStep C N b gens g_i delta_g gamma_g S { S with shares := Function.update S.shares j (some ((arkP1share C).ser sh)) }

/-- Finitely many steps. Histories of calls of the functions cited at `SysStep` (src/keygen.rs:310-449). -/
inductive SysRuns (C : Codecs E) (N : ℕ) (b : UInt8) (gens : EncryptionGens E) (g_i : List E.G1) (delta_g gamma_g : E.G1) :
    Sys E → Sys E → Prop
  | refl (S : Sys E) : SysRuns C N b gens g_i delta_g gamma_g S S
  | step {S T U : Sys E} : SysRuns C N b gens g_i delta_g gamma_g S T → SysStep C N b gens g_i delta_g gamma_g T U →
      SysRuns C N b gens g_i delta_g gamma_g S U

/-- The key anybody computes from what has been published, as soon as everything has (`combineEKs`, `combineP1share`,
`keygenFinal`, src/keygen.rs:361-452). -/
def Sys.finalKey (C : Codecs E) (N : ℕ) (gamma_g : E.G1) (S : Sys E) : Option (Res (EncryptionKey E)) := do
  let ks ← readAll (arkPartialKey C) S.keys N
  let shs ← readAll (arkP1share C) S.shares N
  return (do
    let ek ← combineEKs gamma_g ks
    let p1 ← combineP1share shs
    return keygenFinal ek p1)

end Verif
