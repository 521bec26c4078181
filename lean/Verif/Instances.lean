/-
Concrete instances used to show that the hypotheses of the property theorems can be met:
the BLS12-381 scalar field (proved prime by a Lucas certificate), the 64-bit "Goldilocks" field,
a few small fields, and for every field the engine `Engine.scalar K` whose groups are the field
itself and whose pairing is multiplication (groups of prime order with a nondegenerate bilinear
pairing).
-/
import Verif.Model.Engine
import Mathlib.NumberTheory.LucasPrimality
import Mathlib.Tactic.NormNum.Prime
import Mathlib.Tactic.IntervalCases

namespace Verif

/-- square-and-multiply modulo `m`, for certificates only -/
def powMod (m : ℕ) : ℕ → ℕ → ℕ → ℕ
  | 0, _, _ => 1 % m
  | fuel + 1, a, e =>
    let r := powMod m fuel (a * a % m) (e / 2)
    if e % 2 = 1 then a * r % m else r

theorem powMod_eq (m fuel a e : ℕ) (h : e < 2 ^ fuel) : powMod m fuel a e = a ^ e % m := by
  induction fuel generalizing a e with
  | zero =>
    have : e = 0 := by simpa using h
    subst this
    simp [powMod]
  | succ k ih =>
    have h2 : e / 2 < 2 ^ k := by
      rw [pow_succ] at h
      omega
    simp only [powMod, ih _ _ h2]
    have key : (a * a % m) ^ (e / 2) % m = a ^ (2 * (e / 2)) % m := by
      rw [← Nat.pow_mod, ← pow_two, ← pow_mul]
    split
    · rename_i ho
      rw [key, Nat.mul_mod, Nat.mod_mod, ← Nat.mul_mod, ← pow_succ']
      congr 2
      omega
    · rename_i ho
      rw [key]
      congr 2
      omega

theorem zmod_pow_eq_one_of_powMod {p a e : ℕ} (hp : 1 < p) (fuel : ℕ) (he : e < 2 ^ fuel)
    (h : powMod p fuel a e = 1) : (a : ZMod p) ^ e = 1 := by
  rw [powMod_eq _ _ _ _ he] at h
  rw [← Nat.cast_pow, show (1 : ZMod p) = ((1 : ℕ) : ZMod p) by simp,
    ZMod.natCast_eq_natCast_iff]
  unfold Nat.ModEq
  rw [h, Nat.mod_eq_of_lt hp]

theorem zmod_pow_ne_one_of_powMod {p a e : ℕ} (hp : 1 < p) (fuel : ℕ) (he : e < 2 ^ fuel)
    (h : powMod p fuel a e ≠ 1) : (a : ZMod p) ^ e ≠ 1 := by
  rw [powMod_eq _ _ _ _ he] at h
  intro hc
  apply h
  rw [← Nat.cast_pow, show (1 : ZMod p) = ((1 : ℕ) : ZMod p) by simp,
    ZMod.natCast_eq_natCast_iff] at hc
  unfold Nat.ModEq at hc
  rw [hc, Nat.mod_eq_of_lt hp]

/-- order of the scalar field of BLS12-381 -/
def blsR : ℕ := 0x73eda753299d7d483339d80809a1d80553bda402fffe5bfeffffffff00000001

theorem blsR_prime : Nat.Prime blsR := by
  have h1 : 1 < blsR := by decide +kernel
  apply lucas_primality blsR ((7 : ℕ) : ZMod blsR)
  · exact zmod_pow_eq_one_of_powMod h1 256 (by decide +kernel) (by decide +kernel)
  · intro q hq hd
    have hfac : blsR - 1 = 2 ^ 32 * (3 * (11 * (19 * (10177 * (125527 * (859267 * (906349 ^ 2 *
        (2508409 * (2529403 * (52437899 * 254760293 ^ 2)))))))))) := by decide +kernel
    rw [hfac] at hd
    have aux : ∀ {n k : ℕ}, Nat.Prime n → q ∣ n ^ k → q = n := fun hn h =>
      (Nat.prime_dvd_prime_iff_eq hq hn).mp (hq.dvd_of_dvd_pow h)
    have aux1 : ∀ {n : ℕ}, Nat.Prime n → q ∣ n → q = n := fun hn h =>
      (Nat.prime_dvd_prime_iff_eq hq hn).mp h
    have hall : q = 2 ∨ q = 3 ∨ q = 11 ∨ q = 19 ∨ q = 10177 ∨ q = 125527 ∨ q = 859267 ∨
        q = 906349 ∨ q = 2508409 ∨ q = 2529403 ∨ q = 52437899 ∨ q = 254760293 := by
      rcases (Nat.Prime.dvd_mul hq).mp hd with h | hd
      · have := aux (by norm_num) h; tauto
      rcases (Nat.Prime.dvd_mul hq).mp hd with h | hd
      · have := aux1 (by norm_num) h; tauto
      rcases (Nat.Prime.dvd_mul hq).mp hd with h | hd
      · have := aux1 (by norm_num) h; tauto
      rcases (Nat.Prime.dvd_mul hq).mp hd with h | hd
      · have := aux1 (by norm_num) h; tauto
      rcases (Nat.Prime.dvd_mul hq).mp hd with h | hd
      · have := aux1 (by norm_num) h; tauto
      rcases (Nat.Prime.dvd_mul hq).mp hd with h | hd
      · have := aux1 (by norm_num) h; tauto
      rcases (Nat.Prime.dvd_mul hq).mp hd with h | hd
      · have := aux1 (by norm_num) h; tauto
      rcases (Nat.Prime.dvd_mul hq).mp hd with h | hd
      · have := aux (by norm_num) h; tauto
      rcases (Nat.Prime.dvd_mul hq).mp hd with h | hd
      · have := aux1 (by norm_num) h; tauto
      rcases (Nat.Prime.dvd_mul hq).mp hd with h | hd
      · have := aux1 (by norm_num) h; tauto
      rcases (Nat.Prime.dvd_mul hq).mp hd with h | hd
      · have := aux1 (by norm_num) h; tauto
      · have := aux (by norm_num) hd; tauto
    apply zmod_pow_ne_one_of_powMod h1 256
    · exact lt_of_le_of_lt (Nat.div_le_self _ _) (by decide +kernel)
    · rcases hall with h | h | h | h | h | h | h | h | h | h | h | h <;> subst h <;> decide +kernel

/-- the BLS12-381 scalar field: 255-bit modulus in 4 limbs -/
def blsFr : FieldCfg where
  p := blsR
  prime := blsR_prime
  limbs := 4
  p_lt := by decide +kernel

theorem blsFr_modBits : blsFr.modBits = 255 := by
  have h1 : blsR < 2 ^ 255 := by decide +kernel
  have h2 : 2 ^ 254 ≤ blsR := by decide +kernel
  show Nat.size blsR = 255
  have a := Nat.size_le.mpr h1
  have b := Nat.lt_size.mpr h2
  omega

/-- the Goldilocks field `2^64 - 2^32 + 1` (one limb) -/
def goldR : ℕ := 0xffffffff00000001

theorem goldR_prime : Nat.Prime goldR := by
  have h1 : 1 < goldR := by decide +kernel
  apply lucas_primality goldR ((7 : ℕ) : ZMod goldR)
  · exact zmod_pow_eq_one_of_powMod h1 64 (by decide +kernel) (by decide +kernel)
  · intro q hq hd
    have hfac : goldR - 1 = 2 ^ 32 * (3 * (5 * (17 * (257 * 65537)))) := by decide +kernel
    rw [hfac] at hd
    have aux : ∀ {n k : ℕ}, Nat.Prime n → q ∣ n ^ k → q = n := fun hn h =>
      (Nat.prime_dvd_prime_iff_eq hq hn).mp (hq.dvd_of_dvd_pow h)
    have aux1 : ∀ {n : ℕ}, Nat.Prime n → q ∣ n → q = n := fun hn h =>
      (Nat.prime_dvd_prime_iff_eq hq hn).mp h
    have hall : q = 2 ∨ q = 3 ∨ q = 5 ∨ q = 17 ∨ q = 257 ∨ q = 65537 := by
      rcases (Nat.Prime.dvd_mul hq).mp hd with h | hd
      · have := aux (by norm_num) h; tauto
      rcases (Nat.Prime.dvd_mul hq).mp hd with h | hd
      · have := aux1 (by norm_num) h; tauto
      rcases (Nat.Prime.dvd_mul hq).mp hd with h | hd
      · have := aux1 (by norm_num) h; tauto
      rcases (Nat.Prime.dvd_mul hq).mp hd with h | hd
      · have := aux1 (by norm_num) h; tauto
      rcases (Nat.Prime.dvd_mul hq).mp hd with h | hd
      · have := aux1 (by norm_num) h; tauto
      · have := aux1 (by norm_num) hd; tauto
    apply zmod_pow_ne_one_of_powMod h1 64
    · exact lt_of_le_of_lt (Nat.div_le_self _ _) (by decide +kernel)
    · rcases hall with h | h | h | h | h | h <;> subst h <;> decide +kernel

def goldFr : FieldCfg where
  p := goldR
  prime := goldR_prime
  limbs := 1
  p_lt := by decide +kernel

theorem goldFr_modBits : goldFr.modBits = 64 := by
  have h1 : goldR < 2 ^ 64 := by decide +kernel
  have h2 : 2 ^ 63 ≤ goldR := by decide +kernel
  show Nat.size goldR = 64
  have a := Nat.size_le.mpr h1
  have b := Nat.lt_size.mpr h2
  omega

/-- a 7-bit field stored in one limb -/
def smallFr : FieldCfg where
  p := 101
  prime := by norm_num
  limbs := 1
  p_lt := by norm_num

theorem smallFr_modBits : smallFr.modBits = 7 := by
  show Nat.size 101 = 7
  have a := Nat.size_le.mpr (show 101 < 2 ^ 7 by norm_num)
  have b := Nat.lt_size.mpr (show 2 ^ 6 ≤ 101 by norm_num)
  omega

/-- a 17-bit field (65537) stored in one limb -/
def fermatFr : FieldCfg where
  p := 65537
  prime := by norm_num
  limbs := 1
  p_lt := by norm_num

theorem fermatFr_modBits : fermatFr.modBits = 17 := by
  show Nat.size 65537 = 17
  have a := Nat.size_le.mpr (show 65537 < 2 ^ 17 by norm_num)
  have b := Nat.lt_size.mpr (show 2 ^ 16 ≤ 65537 by norm_num)
  omega

/-- The engine whose three groups are the field itself, with multiplication as pairing. -/
abbrev Engine.scalar (K : FieldCfg) : Engine :=
  letI : Fact K.p.Prime := ⟨K.prime⟩
  { fr := K
    G1 := ZMod K.p
    G2 := ZMod K.p
    GT := ZMod K.p
    G2P := ZMod K.p
    e := LinearMap.mul (ZMod K.p) (ZMod K.p)
    nondeg := fun a b h => by simpa using h
    prep := id
    pairP := fun a b => a * b
    pairP_prep := fun a b => by simp }

/-- A random number generator that returns the given scalars and points in order, then zeros. -/
abbrev listRng (E : Engine) : RngCore E where
  σ := List E.Fr × List E.G1 × List E.G2
  fr st := (st.1.headD 0, (st.1.tail, st.2))
  g1 st := (st.2.1.headD 0, (st.1, st.2.1.tail, st.2.2))
  g2 st := (st.2.2.headD 0, (st.1, st.2.1, st.2.2.tail))

end Verif
