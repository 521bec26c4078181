/-
External interface of the crate: the `ark-ff` prime field, the `ark-ec` pairing engine
`E: Pairing`, and the random number generator.  None of this is code of /repo; these are the
assumptions on the dependencies (see DESIGN.md, "Trusted base").
-/
import Mathlib.Data.ZMod.Basic
import Mathlib.Algebra.Module.ZMod
import Mathlib.Algebra.Field.ZMod
import Mathlib.Algebra.Module.LinearMap.Defs
import Mathlib.LinearAlgebra.BilinearMap
import Mathlib.Data.Nat.Size
import Verif.Model.Res

namespace Verif

/-- A prime field `F: PrimeField` (used e.g. in src/utils.rs:19,30,61): its order and the number
of 64-bit limbs of its `BigInt`. -/
structure FieldCfg where
  /-- the modulus `F::MODULUS` -/
  p : ℕ
  prime : p.Prime
  /-- number of 64-bit limbs of `F::BigInt` -/
  limbs : ℕ
  /-- canonical representatives fit into the limbs -/
  p_lt : p < 2 ^ (64 * limbs)

namespace FieldCfg
variable (K : FieldCfg)

/-- The scalar field. `F: PrimeField` at src/utils.rs:19,30,61. -/
abbrev F : Type := ZMod K.p

/-- The modulus is prime: `F: PrimeField`, src/utils.rs:19,30,61. -/
instance : Fact K.p.Prime := ⟨K.prime⟩
/-- The modulus is not zero: `F: PrimeField`, src/utils.rs:19,30,61. -/
instance : NeZero K.p := ⟨K.prime.ne_zero⟩

/-- `F::MODULUS_BIT_SIZE`: the bit length of the modulus (src/utils.rs:20,106). -/
def modBits : ℕ := Nat.size K.p

end FieldCfg

/-- `x.into_bigint()`: canonical integer representative (e.g. src/utils.rs:31). -/
def intoBigint {K : FieldCfg} (x : K.F) : ℕ := x.val

/-- `g.mul_bigint(k)`: the natural multiple (e.g. src/keygen.rs:338). -/
def mulBigint {G : Type} [AddCommGroup G] (g : G) (k : ℕ) : G := k • g

/-- `VariableBaseMSM::msm_bigint(bases, scalars)` (src/commitment.rs:65, src/encryption.rs:385):
`ark-ec` truncates to the shorter of the two slices. -/
def msmBigint {G : Type} [AddCommGroup G] (bases : List G) (scalars : List ℕ) : G :=
  (List.zipWith (fun g k => k • g) bases scalars).sum

/-- The pairing engine `E: Pairing`.  Affine and projective representations are identified;
`G2P` is `E::G2Prepared`.  The groups are vector spaces over the scalar field (prime order `p`
subgroups) and the pairing is bilinear and nondegenerate.
`E: Pairing` throughout, e.g. src/encryption.rs:39,99, src/keygen.rs:310,476. -/
structure Engine where
  fr : FieldCfg
  G1 : Type
  G2 : Type
  GT : Type
  G2P : Type
  [g1Grp : AddCommGroup G1]
  [g2Grp : AddCommGroup G2]
  [gtGrp : AddCommGroup GT]
  [g1Mod : Module (ZMod fr.p) G1]
  [g2Mod : Module (ZMod fr.p) G2]
  [gtMod : Module (ZMod fr.p) GT]
  [g1Dec : DecidableEq G1]
  [g2Dec : DecidableEq G2]
  [gtDec : DecidableEq GT]
  /-- the pairing `E::pairing` -/
  e : G1 →ₗ[ZMod fr.p] G2 →ₗ[ZMod fr.p] GT
  /-- the pairing of nonzero points is nonzero -/
  nondeg : ∀ a b, e a b = 0 → a = 0 ∨ b = 0
  /-- `E::G2Prepared::from` -/
  prep : G2 → G2P
  /-- pairing with a prepared second argument -/
  pairP : G1 → G2P → GT
  pairP_prep : ∀ a b, pairP a (prep b) = e a b

namespace Engine
attribute [instance] Engine.g1Grp Engine.g2Grp Engine.gtGrp Engine.g1Mod Engine.g2Mod
  Engine.gtMod Engine.g1Dec Engine.g2Dec Engine.gtDec

variable (E : Engine)

/-- `E::ScalarField`. E.g. src/keygen.rs:327. -/
abbrev Fr : Type := ZMod E.fr.p

/-- `E::ScalarField: PrimeField`, src/keygen.rs:327. -/
instance : Fact E.fr.p.Prime := ⟨E.fr.prime⟩
/-- `E::ScalarField: PrimeField`, src/keygen.rs:327. -/
instance : NeZero E.fr.p := ⟨E.fr.prime.ne_zero⟩

/-- `E::multi_pairing(a, b)` (src/encryption.rs:245,274,323): `ark-ec` zips both iterators with
`zip_eq`, which panics if the lengths differ. -/
def multiPairing (a : List E.G1) (b : List E.G2P) : Res E.GT :=
  if a.length = b.length then .ok (List.zipWith E.pairP a b).sum else .panic

end Engine

/-- `R: RngCore`: an arbitrary state machine from which the crate draws scalars and points with
`UniformRand` (`E::ScalarField::rand(rng)`, `E::G1Affine::rand(rng)`, `E::G2Affine::rand(rng)`).
E.g. src/keygen.rs:310,327, src/encryption.rs:372, src/setup.rs:51-53. -/
structure RngCore (E : Engine) where
  σ : Type
  fr : σ → E.Fr × σ
  g1 : σ → E.G1 × σ
  g2 : σ → E.G2 × σ

namespace RngCore
variable {E : Engine} (R : RngCore E)

/-- `(0..n).map(|_| E::ScalarField::rand(rng)).collect()` (src/keygen.rs:326-331). -/
def frs : ℕ → R.σ → List E.Fr × R.σ
  | 0, st => ([], st)
  | n + 1, st =>
    let (x, st1) := R.fr st
    let (xs, st2) := frs n st1
    (x :: xs, st2)

end RngCore

end Verif
