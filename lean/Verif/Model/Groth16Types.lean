/-
Data types of `ark-groth16` used by the crate, and the few functions of src/saver_groth16.rs that
the other modules need.
-/
import Verif.Model.Engine

namespace Verif

/-- `ark_groth16::VerifyingKey`. Re-exported at src/saver_groth16.rs:21-24. -/
structure VerifyingKey (E : Engine) where
  alpha_g1 : E.G1
  beta_g2 : E.G2
  gamma_g2 : E.G2
  delta_g2 : E.G2
  gamma_abc_g1 : List E.G1

/-- `ark_groth16::PreparedVerifyingKey`. Re-exported at src/saver_groth16.rs:21-24. -/
structure PreparedVerifyingKey (E : Engine) where
  vk : VerifyingKey E
  alpha_g1_beta_g2 : E.GT
  gamma_g2_neg_pc : E.G2P
  delta_g2_neg_pc : E.G2P

/-- `ark_groth16::prepare_verifying_key` (re-exported at src/saver_groth16.rs:21-24). -/
def prepareVerifyingKey {E : Engine} (vk : VerifyingKey E) : PreparedVerifyingKey E where
  vk := vk
  alpha_g1_beta_g2 := E.e vk.alpha_g1 vk.beta_g2
  gamma_g2_neg_pc := E.prep (-vk.gamma_g2)
  delta_g2_neg_pc := E.prep (-vk.delta_g2)

/-- `ark_groth16::Proof`. Re-exported at src/saver_groth16.rs:21-24. -/
structure Proof (E : Engine) where
  a : E.G1
  b : E.G2
  c : E.G1

/-- `ark_groth16::ProvingKey`. Re-exported at src/saver_groth16.rs:21-24. -/
structure Groth16ProvingKey (E : Engine) where
  vk : VerifyingKey E
  beta_g1 : E.G1
  delta_g1 : E.G1
  a_query : List E.G1
  b_g1_query : List E.G1
  b_g2_query : List E.G2
  h_query : List E.G1
  l_query : List E.G1

/-- `saver_groth16::ProvingKey`, src/saver_groth16.rs:32-39. -/
structure ProvingKey (E : Engine) where
  pk : Groth16ProvingKey E
  gamma_g1 : E.G1

/-- `get_gs_for_encryption`, src/saver_groth16.rs:42-44: the slice `gamma_abc_g1[1..]` panics on
an empty vector. -/
def getGsForEncryption {E : Engine} (vk : VerifyingKey E) : Res (List E.G1) :=
  match vk.gamma_abc_g1 with
  | [] => .panic
  | _ :: gs => .ok gs

end Verif
