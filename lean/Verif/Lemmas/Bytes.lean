/-
Helper lemmas for src/utils.rs: byte strings, decomposition and composition.
-/
import Verif.Spec
import Verif.Lemmas.Basic
import Mathlib.Tactic.Ring
import Mathlib.Tactic.NormNum
import Mathlib.Data.Nat.Bitwise

namespace Verif
open Spec

/-- Horner evaluation with start value -/
def horner (base acc : ℕ) (ds : List ℕ) : ℕ := ds.foldl (fun a x => a * base + x) acc

theorem horner_cons (base acc d : ℕ) (ds : List ℕ) :
    horner base acc (d :: ds) = horner base (acc * base + d) ds := rfl

theorem horner_acc (base acc : ℕ) (ds : List ℕ) :
    horner base acc ds = acc * base ^ ds.length + horner base 0 ds := by
  induction ds generalizing acc with
  | nil => simp [horner]
  | cons d ds ih =>
    rw [horner_cons, horner_cons, ih, ih (0 * base + d)]
    simp only [List.length_cons, pow_succ]
    ring

theorem horner_append (base acc : ℕ) (a b : List ℕ) :
    horner base acc (a ++ b) = horner base (horner base acc a) b := by
  simp [horner, List.foldl_append]

theorem positional_cons (base d : ℕ) (ds : List ℕ) :
    positional base (d :: ds) = d * base ^ ds.length + positional base ds := by
  unfold positional
  rw [List.length_cons, Finset.sum_range_succ']
  simp only [List.getD_cons_zero, Nat.add_sub_cancel, Nat.sub_zero, List.getD_cons_succ]
  rw [add_comm]
  congr 1
  apply Finset.sum_congr rfl
  intro i _
  congr 2
  omega

theorem positional_eq_horner (base : ℕ) (ds : List ℕ) : positional base ds = horner base 0 ds := by
  induction ds with
  | nil => simp [positional, horner]
  | cons d ds ih =>
    rw [positional_cons, horner_cons, horner_acc, ih]
    ring

theorem horner_lt {base : ℕ} {ds : List ℕ} (h : ∀ d ∈ ds, d < base) :
    horner base 0 ds < base ^ ds.length := by
  induction ds with
  | nil => simp [horner]
  | cons d ds ih =>
    have h1 := ih (fun x hx => h x (by simp [hx]))
    have h2 := h d (by simp)
    rw [horner_cons, horner_acc, List.length_cons, pow_succ]
    have : (0 * base + d + 1) * base ^ ds.length ≤ base * base ^ ds.length :=
      Nat.mul_le_mul_right _ (by omega)
    nlinarith [this]

theorem horner_inj {base : ℕ} {a b : List ℕ} (hl : a.length = b.length)
    (ha : ∀ d ∈ a, d < base) (hb : ∀ d ∈ b, d < base)
    (h : horner base 0 a = horner base 0 b) : a = b := by
  induction a generalizing b with
  | nil => cases b with
    | nil => rfl
    | cons _ _ => simp at hl
  | cons x a ih =>
    cases b with
    | nil => simp at hl
    | cons y b =>
      simp only [List.length_cons, Nat.add_right_cancel_iff] at hl
      rw [horner_cons, horner_cons, horner_acc, horner_acc base _ b, hl] at h
      have h1 := horner_lt (base := base) (ds := a) (fun d hd => ha d (by simp [hd]))
      have h2 := horner_lt (base := base) (ds := b) (fun d hd => hb d (by simp [hd]))
      rw [hl] at h1
      have hxy : x = y := by
        have e1 : (x * base ^ b.length + horner base 0 a) / base ^ b.length = x := by
          rw [Nat.add_comm, Nat.add_mul_div_right _ _ (by omega), Nat.div_eq_of_lt h1]; omega
        have e2 : (y * base ^ b.length + horner base 0 b) / base ^ b.length = y := by
          rw [Nat.add_comm, Nat.add_mul_div_right _ _ (by omega), Nat.div_eq_of_lt h2]; omega
        simp only [Nat.zero_mul, Nat.zero_add] at h
        rw [← e1, h, e2]
      subst hxy
      congr 1
      exact ih hl (fun d hd => ha d (by simp [hd])) (fun d hd => hb d (by simp [hd])) (by omega)

theorem bytesValue_eq (bytes : List UInt8) :
    bytesValue bytes = horner 256 0 (bytes.map UInt8.toNat) := by
  simp [bytesValue, horner, List.foldl_map]

@[simp] theorem length_bytesLE (len n : ℕ) : (bytesLE len n).length = len := by
  induction len generalizing n with
  | zero => rfl
  | succ k ih => simp [bytesLE, ih]

@[simp] theorem length_toBytesBE (limbs n : ℕ) : (toBytesBE limbs n).length = 8 * limbs := by
  simp [toBytesBE]

theorem horner_bytesLE (len n : ℕ) :
    horner 256 0 ((bytesLE len n).reverse.map UInt8.toNat) = n % 256 ^ len := by
  induction len generalizing n with
  | zero => simp [bytesLE, horner, Nat.mod_one]
  | succ k ih =>
    simp only [bytesLE, List.reverse_cons, List.map_append, List.map_cons, List.map_nil]
    rw [horner_append, ih]
    simp only [horner, List.foldl_cons, List.foldl_nil]
    have : (UInt8.ofNat (n % 256)).toNat = n % 256 := by
      simp
    rw [this, pow_succ, Nat.mul_comm (256 ^ k) 256, Nat.mod_mul]
    ring

theorem horner_toBytesBE {K : FieldCfg} (m : K.F) :
    horner 256 0 ((toBytesBE K.limbs (intoBigint m)).map UInt8.toNat) = m.val := by
  rw [toBytesBE, horner_bytesLE]
  apply Nat.mod_eq_of_lt
  have h1 : m.val < K.p := ZMod.val_lt m
  have h2 := K.p_lt
  have : (256 : ℕ) ^ (8 * K.limbs) = 2 ^ (64 * K.limbs) := by
    rw [show (256 : ℕ) = 2 ^ 8 by norm_num, ← pow_mul]; congr 1; ring
  show m.val < _
  omega

/-! #### single words -/

theorem hi_nibble (x : UInt8) : (x >>> 4).toUInt16.toNat = x.toNat / 16 := by
  simp [Nat.shiftRight_eq_div_pow]

theorem lo_nibble (x : UInt8) : (x &&& 15).toUInt16.toNat = x.toNat % 16 := by
  have : x.toNat &&& 15 = x.toNat % 2 ^ 4 := Nat.and_two_pow_sub_one_eq_mod x.toNat 4
  simpa using this

theorem byte_pair (x y : UInt8) :
    ((x.toUInt16 <<< 8) + y.toUInt16).toNat = x.toNat * 256 + y.toNat := by
  have hx := x.toNat_lt
  have hy := y.toNat_lt
  simp [UInt16.toNat_add, UInt16.toNat_shiftLeft, Nat.shiftLeft_eq]
  omega

theorem nibble_join {x y : UInt16} (hx : x.toNat < 16) (hy : y.toNat < 16) :
    ((x <<< 4) + y).toUInt8.toNat = x.toNat * 16 + y.toNat := by
  simp [Nat.shiftLeft_eq]
  omega

theorem hi_byte (x : UInt16) : (x >>> 8).toUInt8.toNat = x.toNat / 256 := by
  have hx := x.toNat_lt
  simp [UInt16.toNat_shiftRight, Nat.shiftRight_eq_div_pow]
  omega

theorem lo_byte (x : UInt16) : (x &&& 255).toUInt8.toNat = x.toNat % 256 := by
  have : x.toNat % 256 &&& 255 = x.toNat % 256 % 2 ^ 8 :=
    Nat.and_two_pow_sub_one_eq_mod (x.toNat % 256) 8
  simp only [UInt16.toNat_toUInt8, UInt16.toNat_and, UInt16.reduceToNat, Nat.reducePow]
  have h2 : x.toNat &&& 255 = x.toNat % 2 ^ 8 := Nat.and_two_pow_sub_one_eq_mod x.toNat 8
  rw [h2]
  omega

/-! #### decompose as positional representation -/

theorem horner_nibbles (bytes : List UInt8) (acc : ℕ) :
    horner 16 acc ((bytes.flatMap fun (x : UInt8) =>
      [(x >>> 4).toUInt16, (x &&& 15).toUInt16]).map UInt16.toNat)
      = horner 256 acc (bytes.map UInt8.toNat) := by
  induction bytes generalizing acc with
  | nil => rfl
  | cons x xs ih =>
    simp only [List.flatMap_cons, List.cons_append, List.nil_append, List.map_cons, horner_cons]
    rw [ih, hi_nibble, lo_nibble]
    congr 1
    omega

theorem length_nibbles (bytes : List UInt8) :
    (bytes.flatMap fun (x : UInt8) => [(x >>> 4).toUInt16, (x &&& 15).toUInt16]).length
      = 2 * bytes.length := by
  induction bytes with
  | nil => rfl
  | cons x xs ih => simp only [List.flatMap_cons, List.length_append, ih, List.length_cons,
      List.length_nil]; omega

theorem horner_pairs (k : ℕ) (bytes : List UInt8) (h : bytes.length = 2 * k) (acc : ℕ) :
    horner 65536 acc ((bytePairs bytes).map UInt16.toNat)
      = horner 256 acc (bytes.map UInt8.toNat) := by
  induction k generalizing bytes acc with
  | zero =>
    have : bytes = [] := List.length_eq_zero_iff.mp (by omega)
    subst this; simp [bytePairs, horner]
  | succ k ih =>
    match bytes, h with
    | x :: y :: rest, h =>
      simp only [bytePairs, List.map_cons, horner_cons]
      rw [ih rest (by simp at h; omega), byte_pair]
      have e : acc * 65536 + (x.toNat * 256 + y.toNat) = (acc * 256 + x.toNat) * 256 + y.toNat := by
        ring
      rw [e]
    | [x], h => simp at h; omega

theorem length_pairs (k : ℕ) (bytes : List UInt8) (h : bytes.length = 2 * k) :
    (bytePairs bytes).length = k := by
  induction k generalizing bytes with
  | zero =>
    have : bytes = [] := List.length_eq_zero_iff.mp (by omega)
    subst this; rfl
  | succ k ih =>
    match bytes, h with
    | x :: y :: rest, h =>
      simp only [bytePairs, List.length_cons]
      rw [ih rest (by simp at h; omega)]
    | [x], h => simp at h; omega

/-! #### compose as positional value -/

theorem nibblePairs_horner (chk : Bool) (k : ℕ) (d : List UInt16) (h : d.length = 2 * k)
    (hd : ∀ x ∈ d, x.toNat < 16) :
    ∃ bs, nibblePairs chk d = .ok bs ∧
      ∀ acc, horner 256 acc (bs.map UInt8.toNat) = horner 16 acc (d.map UInt16.toNat) := by
  induction k generalizing d with
  | zero =>
    have : d = [] := List.length_eq_zero_iff.mp (by omega)
    subst this; exact ⟨[], rfl, fun _ => rfl⟩
  | succ k ih =>
    match d, h, hd with
    | x :: y :: rest, h, hd =>
      have hx := hd x (by simp)
      have hy := hd y (by simp)
      obtain ⟨bs, h1, h2⟩ := ih rest (by simp at h; omega) (fun z hz => hd z (by simp [hz]))
      have hno : ¬ (65536 ≤ (x <<< 4).toNat + y.toNat) := by
        simp [UInt16.toNat_shiftLeft, Nat.shiftLeft_eq]
        omega
      refine ⟨((x <<< 4) + y).toUInt8 :: bs, ?_, ?_⟩
      · simp only [nibblePairs, hno, decide_false, Bool.and_false, h1]
        rfl
      · intro acc
        simp only [List.map_cons, horner_cons, h2]
        rw [nibble_join hx hy]
        congr 1
        ring
    | [x], h, _ => simp at h; omega

theorem horner_bytes_of_u16 (d : List UInt16) (hd : ∀ x ∈ d, x.toNat < 256) (acc : ℕ) :
    horner 256 acc ((d.map fun x => x.toUInt8).map UInt8.toNat)
      = horner 256 acc (d.map UInt16.toNat) := by
  congr 1
  rw [List.map_map]
  apply List.map_congr_left
  intro x hx
  have := hd x hx
  simp
  omega

theorem horner_split (d : List UInt16) (acc : ℕ) :
    horner 256 acc ((d.flatMap fun (x : UInt16) =>
      [(x >>> 8).toUInt8, (x &&& 255).toUInt8]).map UInt8.toNat)
      = horner 65536 acc (d.map UInt16.toNat) := by
  induction d generalizing acc with
  | nil => simp [horner]
  | cons x xs ih =>
    simp only [List.flatMap_cons, List.cons_append, List.nil_append, List.map_cons, horner_cons]
    rw [ih, hi_byte, lo_byte]
    have e : (acc * 256 + x.toNat / 256) * 256 + x.toNat % 256 = acc * 65536 + x.toNat := by
      omega
    rw [e]

end Verif
