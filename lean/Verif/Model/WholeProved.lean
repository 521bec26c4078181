/-
Everything in one transition system, with proofs: distributed key generation by parties that crash (`Model/Restart`), and the
poll that uses the resulting key and in which users prove what their ballots contain (`Model/ProvedPoll`); the order of calls
is that of src/saver_groth16.rs:257-376 (test `encrypt_and_ver_distributed`).
-/
import Verif.Model.ProvedPoll
import Verif.Model.Whole

namespace Verif
variable {E : Engine}

/-- What everybody knows from the start: in addition to `Public`, the proving key, the FFT configuration, and whether the
prover checks that the circuit is satisfied. The proving key is that of src/saver_groth16.rs:32-39. -/
structure ProvedPublic (E : Engine) extends Public E where
  pk : ProvingKey E
  fft : FftCfg E.Fr
  chk : Bool

/-- What the poll is run with, as soon as the key can be computed (`Whole.cfg`), with the proving key and the chunk size that
is also that of the keys (src/saver_groth16.rs:267-297). -/
def Whole.provedCfg (A : ProvedPublic E) (W : Whole E) : Option (ProvedCfg E) :=
  (W.cfg A.toPublic).map fun K => { toPollCfg := K, pk := A.pk, fft := A.fft, chk := A.chk, bits := A.b }

/-- One step: of key generation, or of the poll with the key as it can be computed at this moment.
The functions called are those cited at `SysStep` (src/keygen.rs:310-449) and `ProvedStep`
(src/encryption.rs:126-143,392-414,456-470,628-637). -/
inductive FullStep (A : ProvedPublic E) (bad : ℕ → Prop) (W : Whole E) : Whole E → Prop
  | keygen (S : Sys E) :
      SysStep A.codecs A.holders A.b A.gens A.g_i A.delta_g A.gamma_g W.sys S → FullStep A bad W { W with sys := S }
  | poll (K : ProvedCfg E) (S : Poll) :
      W.provedCfg A = some K → ProvedStep K bad W.poll S → FullStep A bad W { W with poll := S }

/-- Finitely many steps.
Histories of calls of the functions cited at `FullStep` (src/keygen.rs:310-449, src/encryption.rs:126-637). -/
inductive FullRuns (A : ProvedPublic E) (bad : ℕ → Prop) : Whole E → Whole E → Prop
  | refl (W : Whole E) : FullRuns A bad W W
  | step {W V U : Whole E} : FullRuns A bad W V → FullStep A bad V U → FullRuns A bad W U

end Verif
