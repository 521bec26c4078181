/-
The radix-2 evaluation domains of the BLS12-381 scalar field (2-adicity 32, multiplicative generator
7), used to show that the hypotheses of the SNARK theorems can be met.
-/
import Verif.Instances
import Verif.Model.Fft
import Mathlib.Data.Nat.Log
import Mathlib.GroupTheory.OrderOfElement

namespace Verif

/-- a primitive `2^32`-th root of unity -/
noncomputable def blsRoot : ZMod blsR := ((7 : ℕ) : ZMod blsR) ^ ((blsR - 1) / 2 ^ 32)

instance : Fact blsR.Prime := ⟨blsR_prime⟩

theorem blsRoot_prim : IsPrimitiveRoot blsRoot (2 ^ 32) := by
  have h1 : 1 < blsR := by decide +kernel
  have e1 : (blsR - 1) / 2 ^ 32 * 2 ^ 31 = (blsR - 1) / 2 := by decide +kernel
  have e2 : (blsR - 1) / 2 ^ 32 * 2 ^ (31 + 1) = blsR - 1 := by decide +kernel
  have ho : orderOf blsRoot = 2 ^ (31 + 1) := by
    apply orderOf_eq_prime_pow
    · unfold blsRoot
      rw [← pow_mul, e1]
      exact zmod_pow_ne_one_of_powMod h1 256 (by decide +kernel) (by decide +kernel)
    · unfold blsRoot
      rw [← pow_mul, e2]
      exact zmod_pow_eq_one_of_powMod h1 256 (by decide +kernel) (by decide +kernel)
  have := IsPrimitiveRoot.orderOf blsRoot
  rwa [ho] at this

/-- the domain of size `2^k` -/
noncomputable def blsDomain (k : ℕ) (hk : k ≤ 32) : EvalDomain blsFr.F where
  size := 2 ^ k
  omega := blsRoot ^ 2 ^ (32 - k)
  size_pos := by positivity
  prim := blsRoot_prim.pow (by positivity) (by rw [← pow_add]; congr 1; omega)

/-- radix-2 domains: the next power of two, up to `2^32` -/
noncomputable def blsFft : FftCfg blsFr.F where
  newDomain n := if h : Nat.clog 2 n ≤ 32 then some (blsDomain (Nat.clog 2 n) h) else none
  le_size n d h := by
    split at h
    · cases h
      exact Nat.le_pow_clog (by norm_num) n
    · cases h
  gen := ((7 : ℕ) : ZMod blsR)
  gen_ne_zero := by
    intro h
    have := (ZMod.natCast_eq_zero_iff 7 blsR).mp h
    have h7 : blsR ≤ 7 := Nat.le_of_dvd (by norm_num) this
    exact absurd h7 (by decide +kernel)
  coset n d h := by
    split at h
    · rename_i hk
      cases h
      intro hc
      have h1 : 1 < blsR := by decide +kernel
      have : ((7 : ℕ) : ZMod blsR) ^ (2 ^ 32) ≠ 1 :=
        zmod_pow_ne_one_of_powMod h1 256 (by decide +kernel) (by decide +kernel)
      apply this
      have e : (2 : ℕ) ^ 32 = 2 ^ (Nat.clog 2 n) * 2 ^ (32 - Nat.clog 2 n) := by
        rw [← pow_add]; congr 1; omega
      rw [e, pow_mul]
      have hc' : ((7 : ℕ) : ZMod blsR) ^ (2 ^ (Nat.clog 2 n)) = 1 := hc
      rw [hc', one_pow]
    · cases h

/-! ### Goldilocks -/

instance : Fact goldR.Prime := ⟨goldR_prime⟩

/-- a primitive `2^32`-th root of unity of the Goldilocks field -/
noncomputable def goldRoot : ZMod goldR := ((7 : ℕ) : ZMod goldR) ^ ((goldR - 1) / 2 ^ 32)

theorem goldRoot_prim : IsPrimitiveRoot goldRoot (2 ^ 32) := by
  have h1 : 1 < goldR := by decide +kernel
  have e1 : (goldR - 1) / 2 ^ 32 * 2 ^ 31 = (goldR - 1) / 2 := by decide +kernel
  have e2 : (goldR - 1) / 2 ^ 32 * 2 ^ (31 + 1) = goldR - 1 := by decide +kernel
  have ho : orderOf goldRoot = 2 ^ (31 + 1) := by
    apply orderOf_eq_prime_pow
    · unfold goldRoot
      rw [← pow_mul, e1]
      exact zmod_pow_ne_one_of_powMod h1 64 (by decide +kernel) (by decide +kernel)
    · unfold goldRoot
      rw [← pow_mul, e2]
      exact zmod_pow_eq_one_of_powMod h1 64 (by decide +kernel) (by decide +kernel)
  have := IsPrimitiveRoot.orderOf goldRoot
  rwa [ho] at this

/-- the domain of size `2^k` -/
noncomputable def goldDomain (k : ℕ) (hk : k ≤ 32) : EvalDomain goldFr.F where
  size := 2 ^ k
  omega := goldRoot ^ 2 ^ (32 - k)
  size_pos := by positivity
  prim := goldRoot_prim.pow (by positivity) (by rw [← pow_add]; congr 1; omega)

/-- radix-2 domains of the Goldilocks field: the next power of two, up to `2^32` -/
noncomputable def goldFft : FftCfg goldFr.F where
  newDomain n := if h : Nat.clog 2 n ≤ 32 then some (goldDomain (Nat.clog 2 n) h) else none
  le_size n d h := by
    split at h
    · cases h
      exact Nat.le_pow_clog (by norm_num) n
    · cases h
  gen := ((7 : ℕ) : ZMod goldR)
  gen_ne_zero := by
    intro h
    have := (ZMod.natCast_eq_zero_iff 7 goldR).mp h
    have h7 : goldR ≤ 7 := Nat.le_of_dvd (by norm_num) this
    exact absurd h7 (by decide +kernel)
  coset n d h := by
    split at h
    · rename_i hk
      cases h
      intro hc
      have h1 : 1 < goldR := by decide +kernel
      have : ((7 : ℕ) : ZMod goldR) ^ (2 ^ 32) ≠ 1 :=
        zmod_pow_ne_one_of_powMod h1 64 (by decide +kernel) (by decide +kernel)
      apply this
      have e : (2 : ℕ) ^ 32 = 2 ^ (Nat.clog 2 n) * 2 ^ (32 - Nat.clog 2 n) := by
        rw [← pow_add]; congr 1; omega
      rw [e, pow_mul]
      have hc' : ((7 : ℕ) : ZMod goldR) ^ (2 ^ (Nat.clog 2 n)) = 1 := hc
      rw [hc', one_pow]
    · cases h

theorem zmod_pow_powMod (p fuel a e : ℕ) (h : e < 2 ^ fuel) :
    (a : ZMod p) ^ e = ((powMod p fuel a e : ℕ) : ZMod p) := by
  rw [powMod_eq _ _ _ _ h, ZMod.natCast_mod]
  push_cast
  rfl

end Verif
