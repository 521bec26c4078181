/-
The evaluation domains of `ark-poly` as used by `ark-groth16`'s R1CS-to-QAP reduction.  None of this
is code of /repo; it is what `Groth16::generate_parameters_with_qap` (src/saver_groth16.rs:60) and
`Groth16::create_proof_with_reduction` (src/saver_groth16.rs:92) compute with.
-/
import Verif.Model.Engine
import Mathlib.RingTheory.RootsOfUnity.PrimitiveRoots
import Mathlib.Algebra.BigOperators.Group.Finset.Basic

namespace Verif

/-- `GeneralEvaluationDomain<F>` (`ark-poly`): the subgroup generated by a primitive root of unity.
Used by `ark-groth16` in the calls at src/saver_groth16.rs:60-69,92. -/
structure EvalDomain (F : Type) [Field F] where
  size : ℕ
  omega : F
  size_pos : 0 < size
  prim : IsPrimitiveRoot omega size

/-- The FFT configuration of a scalar field: `D::new(n)` (a domain of size at least `n`, or `None`)
and `F::GENERATOR`, the coset offset, which lies outside every domain.
Used by `ark-groth16` in the calls at src/saver_groth16.rs:60-69,92. -/
structure FftCfg (F : Type) [Field F] where
  newDomain : ℕ → Option (EvalDomain F)
  le_size : ∀ n d, newDomain n = some d → n ≤ d.size
  gen : F
  gen_ne_zero : gen ≠ 0
  coset : ∀ n d, newDomain n = some d → gen ^ d.size ≠ 1

namespace EvalDomain
variable {F : Type} [Field F] (d : EvalDomain F)

/-- `evaluate_vanishing_polynomial`. Used by `ark-groth16` in the calls at src/saver_groth16.rs:60-69,92. -/
def vanishing (t : F) : F := t ^ d.size - 1

/-- `ifft_in_place`, as the inverse discrete Fourier transform it computes: values at `omega^i` to
coefficients.  Vectors of length `size` are written as functions of the index.
Used by `ark-groth16` in the calls at src/saver_groth16.rs:92. -/
def ifft (a : ℕ → F) : ℕ → F :=
  fun k => (d.size : F)⁻¹ * ∑ i ∈ Finset.range d.size, a i * (d.omega⁻¹) ^ (i * k)

/-- `fft_in_place` on the coset with offset `g`: coefficients to values at `g * omega^i`.
Used by `ark-groth16` in the calls at src/saver_groth16.rs:92. -/
def cosetFft (g : F) (c : ℕ → F) : ℕ → F :=
  fun i => ∑ k ∈ Finset.range d.size, c k * (g * d.omega ^ i) ^ k

/-- `ifft_in_place` on the coset with offset `g`. Used by `ark-groth16` in the calls at src/saver_groth16.rs:92. -/
def cosetIfft (g : F) (v : ℕ → F) : ℕ → F := fun k => (g⁻¹) ^ k * d.ifft v k

/-- `evaluate_all_lagrange_coefficients(t)[i]`: an indicator if `t` is in the domain, otherwise
`Z(t) * omega^i / (size * (t - omega^i))`. Used by `ark-groth16` in the calls at src/saver_groth16.rs:60-69. -/
def lagrange [DecidableEq F] (t : F) (i : ℕ) : F :=
  if d.vanishing t = 0 then (if d.omega ^ i = t then 1 else 0)
  else d.vanishing t * d.omega ^ i * ((d.size : F) * (t - d.omega ^ i))⁻¹

end EvalDomain

end Verif
