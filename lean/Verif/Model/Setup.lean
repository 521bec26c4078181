/-
Model of src/setup.rs.
-/
import Verif.Model.Groth16
import Verif.Model.Keygen
import Verif.Model.Commitment

namespace Verif

/-- `b" : G"`, src/setup.rs:45,81. -/
def labelG : List UInt8 := [32, 58, 32, 71]

/-- `b" : H"`, src/setup.rs:47,82. -/
def labelH : List UInt8 := [32, 58, 32, 72]

/-- What the hash-to-group functions need from a curve: `AffineRepr::from_random_bytes`, which may
return a curve point of any order, and the cofactor multiplication into the group.  (Not code of
/repo.). Called at src/utils.rs:147,151,154. -/
structure HashCurve (G : Type) where
  Point : Type
  fromRandomBytes : List UInt8 → Option Point
  clearCofactor : Point → G

variable {E : Engine}

/-- `EncryptionGens::new`, src/setup.rs:43-49.  `none`: one of the two searches has not terminated
after `fuel` iterations. -/
def EncryptionGens.new (chk : Bool) (digest : List UInt8 → List UInt8) (h1 : HashCurve E.G1)
    (h2 : HashCurve E.G2) (fuel : ℕ) (label : List UInt8) : Option (Res (EncryptionGens E)) :=
  match groupElemFromTryAndIncr chk digest h1.fromRandomBytes h1.clearCofactor fuel
      (label ++ labelG) with
  | none => none
  | some .panic => some .panic
  | some (.err e) => some (.err e)
  | some (.ok G) =>
    (groupElemFromTryAndIncr chk digest h2.fromRandomBytes h2.clearCofactor fuel
      (label ++ labelH)).map fun r => r >>= fun H => Res.ok { G := G, H := H }

/-- `EncryptionGens::new_using_rng`, src/setup.rs:51-55. -/
def EncryptionGens.newUsingRng (R : RngCore E) (st : R.σ) : EncryptionGens E × R.σ :=
  let (G, st) := R.g1 st
  let (H, st) := R.g2 st
  ({ G := G, H := H }, st)

/-- `ChunkedCommitmentGens::new`, src/setup.rs:80-84. -/
def ChunkedCommitmentGens.new {G : Type} (chk : Bool) (digest : List UInt8 → List UInt8)
    (h : HashCurve G) (fuel : ℕ) (label : List UInt8) : Option (Res (ChunkedCommitmentGens G)) :=
  match groupElemFromTryAndIncr chk digest h.fromRandomBytes h.clearCofactor fuel
      (label ++ labelG) with
  | none => none
  | some .panic => some .panic
  | some (.err e) => some (.err e)
  | some (.ok G) =>
    (groupElemFromTryAndIncr chk digest h.fromRandomBytes h.clearCofactor fuel
      (label ++ labelH)).map fun r => r >>= fun H => Res.ok { G := G, H := H }

/-- `ChunkedCommitmentGens::new_using_rng`, src/setup.rs:86-90, for `G = E::G1Affine`. -/
def ChunkedCommitmentGens.newUsingRng (R : RngCore E) (st : R.σ) :
    ChunkedCommitmentGens E.G1 × R.σ :=
  let (G, st) := R.g1 st
  let (H, st) := R.g1 st
  ({ G := G, H := H }, st)

/-- `setup_for_groth16`, src/setup.rs:94-119. -/
def setupForGroth16 (T : FftCfg E.Fr) (R : RngCore E) (fuel : ℕ) (st : R.σ) (b : UInt8)
    (gens : EncryptionGens E) :
    Res ((ProvingKey E × SecretKey E × EncryptionKey E × DecryptionKey E) × R.σ) := do
  let circuit ← BitsizeCheckCircuit.new (K := E.fr) b none none true
  let (pk, st) ← generateSrs T R fuel st circuit.generateConstraints gens
  let g_i ← getGsForEncryption pk.pk.vk
  let ((sk, ek, dk), st) ← keygen R st b gens g_i pk.pk.delta_g1 pk.gamma_g1
  return ((pk, sk, ek, dk), st)

end Verif
