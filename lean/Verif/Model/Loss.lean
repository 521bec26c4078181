/-
Distributed key generation by parties that may crash and whose storage may be lost.
-/
import Verif.Model.Restart

namespace Verif
variable {E : Engine}

/-- One step of the system of `SysStep` (the calls of src/tests.rs:37-53; `FkeygenPartial`, `combineEKs`, `genP1share`,
src/keygen.rs:310-416), in which storage can be lost.
* `step`: a step of `SysStep`.  If the parties are `careful`, a party writes new secrets into its storage only if nothing is
  published under its name;
* `lose`: what a party has in its storage is damaged or gone; it may go on with what it has in memory (that its machine is lost
  altogether is this and a crash).  If losses are `early`, that happens only to parties that have not published anything. -/
inductive LossStep (early careful : Prop) (C : Codecs E) (N : ℕ) (b : UInt8) (gens : EncryptionGens E) (g_i : List E.G1)
    (delta_g gamma_g : E.G1) (S : Sys E) : Sys E → Prop
  | step (T : Sys E) : SysStep C N b gens g_i delta_g gamma_g S T →
      (careful → ∀ j, (T.node j).disk ≠ (S.node j).disk → S.keys j = none) →
      LossStep early careful C N b gens g_i delta_g gamma_g S T
  | lose (j : ℕ) (bs : List UInt8) : load C bs = none → (early → S.keys j = none) →
      LossStep early careful C N b gens g_i delta_g gamma_g S
        { S with node := Function.update S.node j ⟨bs, (S.node j).mem⟩ }

/-- Finitely many steps. Histories of calls of the functions cited at `LossStep` (src/keygen.rs:310-449). -/
inductive LossRuns (early careful : Prop) (C : Codecs E) (N : ℕ) (b : UInt8) (gens : EncryptionGens E) (g_i : List E.G1)
    (delta_g gamma_g : E.G1) : Sys E → Sys E → Prop
  | refl (S : Sys E) : LossRuns early careful C N b gens g_i delta_g gamma_g S S
  | step {S T U : Sys E} : LossRuns early careful C N b gens g_i delta_g gamma_g S T →
      LossStep early careful C N b gens g_i delta_g gamma_g T U → LossRuns early careful C N b gens g_i delta_g gamma_g S U

end Verif
