/-
Many polls under one distributed key: key generation once, and any number of polls with the resulting key, each with users,
a destination, an aggregator and a tally of its own, in any interleaving; built from `Model/WholeProved`.  Nothing in /repo
ties a key to one poll: src/tests.rs:30-185 and src/saver_groth16.rs:257-376 are the polls that the crate itself contains, and
the functions that they call take the key as an argument (src/encryption.rs:126-143,353-470,628-637).
-/
import Verif.Model.WholeProved

namespace Verif
variable {E : Engine}

/-- What everybody knows from the start: what is the same for all polls, and the number of users and the destination's public
key of each poll. `users` and `ekd` of `common` are not used.
The types are those of src/keygen.rs:46,94,120 and src/setup.rs:23. -/
structure ManyPublic (E : Engine) where
  common : ProvedPublic E
  users : ℕ → ℕ
  ekd : ℕ → FEncryptionKeyDest E

/-- What everybody knows of poll `i`. The arguments of src/encryption.rs:126-143,392-414 in that poll. -/
abbrev ManyPublic.forPoll (M : ManyPublic E) (i : ℕ) : ProvedPublic E :=
  { M.common with users := M.users i, ekd := M.ekd i }

/-- The key holders with what they have published, and all polls.
The setting in which the functions cited at `ManyStep` are used (src/keygen.rs:310-449, src/encryption.rs:126-143); not itself
code of /repo. -/
structure Many (E : Engine) where
  sys : Sys E
  polls : ℕ → Poll

/-- Nobody has done anything yet. The start of the setting of src/tests.rs:30-185, in all polls. -/
def Many.init : Many E := ⟨Sys.init, fun _ => Poll.init⟩

/-- What concerns poll `i`: key generation and that poll. The setting of src/saver_groth16.rs:257-376, for one poll. -/
abbrev Many.one (W : Many E) (i : ℕ) : Whole E := ⟨W.sys, W.polls i⟩

/-- One step: of key generation, or of one of the polls with the key as it can be computed at this moment; `bad i` are the
dishonest users of poll `i`.
The functions called are those cited at `SysStep` (src/keygen.rs:310-449) and `ProvedStep`
(src/encryption.rs:126-143,392-414,456-470,628-637). -/
inductive ManyStep (M : ManyPublic E) (bad : ℕ → ℕ → Prop) (W : Many E) : Many E → Prop
  | keygen (S : Sys E) :
      SysStep M.common.codecs M.common.holders M.common.b M.common.gens M.common.g_i M.common.delta_g M.common.gamma_g W.sys S →
      ManyStep M bad W { W with sys := S }
  | poll (i : ℕ) (K : ProvedCfg E) (S : Poll) :
      (W.one i).provedCfg (M.forPoll i) = some K → ProvedStep K (bad i) (W.polls i) S →
      ManyStep M bad W { W with polls := Function.update W.polls i S }

/-- Finitely many steps.
Histories of calls of the functions cited at `ManyStep` (src/keygen.rs:310-449, src/encryption.rs:126-637). -/
inductive ManyRuns (M : ManyPublic E) (bad : ℕ → ℕ → Prop) : Many E → Many E → Prop
  | refl (W : Many E) : ManyRuns M bad W W
  | step {W V U : Many E} : ManyRuns M bad W V → ManyStep M bad V U → ManyRuns M bad W U

/-- What the destination of poll `i` gets, as soon as everything has been published.
Computed with src/encryption.rs:417-504, see `Poll.outcome`. -/
def Many.outcome (M : ManyPublic E) (i : ℕ) (chk : Bool) (skd : SecretKey E) (b : UInt8) (W : Many E) :
    Option (Res (List UInt16)) :=
  (W.one i).outcome (M.forPoll i).toPublic chk skd b

/-- Who has been counted in poll `i`, as published. Published with the sum that `add_cts`, src/encryption.rs:456-470,
returns. -/
def Many.counted (M : ManyPublic E) (i : ℕ) (W : Many E) : Option (List ℕ) :=
  (W.one i).counted (M.forPoll i).toPublic

end Verif
