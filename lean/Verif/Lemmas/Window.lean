/-
Helper lemmas for the window tables of src/utils.rs:94-140.
-/
import Verif.Lemmas.Basic
import Mathlib.Tactic.Ring
import Mathlib.Data.Nat.Bitwise
import Mathlib.Algebra.BigOperators.Ring.Finset

namespace Verif

theorem doubleN_eq {G : Type} [AddCommGroup G] (k : ℕ) (g : G) : doubleN k g = 2 ^ k • g := by
  unfold doubleN
  induction k generalizing g with
  | zero => simp
  | succ k ih =>
    rw [Function.iterate_succ_apply, ih, pow_succ, mul_smul, two_smul]

theorem sum_bits (m w : ℕ) :
    ∑ i ∈ Finset.range w, (if m.testBit i then 2 ^ i else 0) = m % 2 ^ w := by
  induction w with
  | zero => simp [Nat.mod_one]
  | succ w ih =>
    rw [Finset.sum_range_succ, ih, Nat.mod_pow_succ]
    congr 1
    rw [Nat.testBit_eq_decide_div_mod_eq]
    by_cases h : m / 2 ^ w % 2 = 1
    · simp [h]
    · have h0 : m / 2 ^ w % 2 = 0 := by omega
      simp [h0]

theorem windowDigit_eq {ms w o n : ℕ} (hn : n < 2 ^ ms) :
    windowDigit ms w o n = n / 2 ^ (o * w) % 2 ^ w := by
  unfold windowDigit
  have : ((List.range w).map fun i =>
      if decide (o * w + i < ms) && n.testBit (o * w + i) then 2 ^ i else 0)
      = tab w (fun i => if (n / 2 ^ (o * w)).testBit i then 2 ^ i else 0) := by
    unfold tab
    apply List.map_congr_left
    intro i _
    have e : (n / 2 ^ (o * w)).testBit i = n.testBit (o * w + i) := by
      rw [Nat.testBit_div_two_pow, Nat.add_comm]
    rw [e]
    by_cases h : o * w + i < ms
    · simp [h]
    · have hb : n.testBit (o * w + i) = false :=
        Nat.testBit_lt_two_pow (lt_of_lt_of_le hn (Nat.pow_le_pow_right (by omega) (by omega)))
      simp [hb]
  rw [this, sum_tab, sum_bits]

theorem sum_window_digits (n w k : ℕ) :
    ∑ o ∈ Finset.range k, (n / 2 ^ (o * w) % 2 ^ w) * 2 ^ (o * w) = n % 2 ^ (k * w) := by
  induction k with
  | zero => simp [Nat.mod_one]
  | succ k ih =>
    rw [Finset.sum_range_succ, ih, Nat.add_mul, Nat.one_mul, pow_add, Nat.mod_mul]
    ring

theorem mulWindowSize_pos (k : ℕ) : 0 < mulWindowSize k := by
  unfold mulWindowSize
  split
  · omega
  · rename_i h
    have h5 : Nat.clog 2 32 ≤ Nat.clog 2 k := Nat.clog_mono_right 2 (by omega)
    have : Nat.clog 2 32 = 5 := by
      have := Nat.clog_pow 2 5 (by omega)
      simpa using this
    unfold arkLog2
    omega

theorem modBits_spec (K : FieldCfg) : K.p < 2 ^ K.modBits := Nat.lt_size_self K.p

theorem modBits_pos (K : FieldCfg) : 0 < K.modBits := by
  have : (0 : ℕ) < K.p := K.prime.pos
  exact Nat.size_pos.mpr this

theorem val_lt_two_pow {K : FieldCfg} (x : K.F) : x.val < 2 ^ K.modBits :=
  lt_trans (ZMod.val_lt x) (modBits_spec K)

theorem foldl_add_eq_sum {G : Type} [AddCommMonoid G] (l : List G) (a : G) :
    l.foldl (· + ·) a = a + l.sum := by
  induction l generalizing a with
  | nil => simp
  | cons x l ih => simp [ih, add_assoc]

theorem windowTable_row {G : Type} [AddCommGroup G] (ss w : ℕ) (g : G) {o : ℕ}
    (ho : o < (ss + w - 1) / w) :
    idx (windowTable ss w g) o = .ok ((List.range (2 ^ w)).map fun k =>
      if k < (if o = (ss + w - 1) / w - 1 then 2 ^ (ss - ((ss + w - 1) / w - 1) * w) else 2 ^ w)
      then k • doubleN (o * w) g else 0) := by
  unfold windowTable
  have := idx_tab ((ss + w - 1) / w) (fun outer => (List.range (2 ^ w)).map fun k =>
      if k < (if outer = (ss + w - 1) / w - 1 then 2 ^ (ss - ((ss + w - 1) / w - 1) * w) else 2 ^ w)
      then k • doubleN (outer * w) g else 0) o
  rw [if_pos ho] at this
  exact this

theorem windowedMul_eq {K : FieldCfg} {G : Type} [AddCommGroup G] [Module (ZMod K.p) G]
    {w : ℕ} (hw : 0 < w) (g : G) (x : K.F) :
    windowedMul ((K.modBits + w - 1) / w) w (windowTable K.modBits w g) x = .ok (x • g) := by
  have hms := modBits_pos K
  set ms := K.modBits with hmsdef
  set oc := (ms + w - 1) / w with hoc
  have hocpos : 0 < oc := Nat.div_pos (by omega) hw
  have hcover : ms ≤ oc * w := by
    have := Nat.div_add_mod (ms + w - 1) w
    have h2 := Nat.mod_lt (ms + w - 1) hw
    rw [← hoc, Nat.mul_comm] at this
    omega
  have hlast : (oc - 1) * w < ms := by
    have : oc * w ≤ ms + w - 1 := Nat.div_mul_le_self _ _
    rw [Nat.sub_mul]
    omega
  have hn : x.val < 2 ^ ms := val_lt_two_pow x
  -- row 0, entry 0
  have hr0 := windowTable_row ms w g (o := 0) hocpos
  rw [← hoc] at hr0
  unfold windowedMul
  rw [hr0]
  simp only [Res.ok_bind]
  have h2w : 0 < 2 ^ w := Nat.two_pow_pos w
  have e00 := idx_tab (2 ^ w) (fun k =>
      if k < (if 0 = oc - 1 then 2 ^ (ms - (oc - 1) * w) else 2 ^ w)
      then k • doubleN (0 * w) g else 0) 0
  rw [if_pos h2w] at e00
  unfold tab at e00
  rw [e00]
  simp only [Res.ok_bind, zero_smul, ite_self]
  have hterms : mapRes (fun outer => do
      let row ← idx (windowTable ms w g) outer
      idx row (windowDigit ms w outer (intoBigint x))) (List.range oc)
      = .ok (tab oc (fun o => ((x.val / 2 ^ (o * w) % 2 ^ w) * 2 ^ (o * w)) • g)) := by
    apply mapRes_range_ok
    intro o ho
    have hro := windowTable_row ms w g (o := o) ho
    rw [← hoc] at hro
    rw [hro]
    simp only [Res.ok_bind]
    have hdig : windowDigit ms w o (intoBigint x) = x.val / 2 ^ (o * w) % 2 ^ w :=
      windowDigit_eq hn
    rw [hdig]
    have e := idx_tab (2 ^ w) (fun k =>
      if k < (if o = oc - 1 then 2 ^ (ms - (oc - 1) * w) else 2 ^ w)
      then k • doubleN (o * w) g else 0) (x.val / 2 ^ (o * w) % 2 ^ w)
    rw [if_pos (Nat.mod_lt _ h2w)] at e
    unfold tab at e
    rw [e]
    have hcur : x.val / 2 ^ (o * w) % 2 ^ w
        < (if o = oc - 1 then 2 ^ (ms - (oc - 1) * w) else 2 ^ w) := by
      split
      · rename_i h
        apply lt_of_le_of_lt (Nat.mod_le _ _)
        rw [Nat.div_lt_iff_lt_mul (Nat.two_pow_pos _), h, ← pow_add]
        rwa [Nat.sub_add_cancel hlast.le]
      · exact Nat.mod_lt _ h2w
    rw [if_pos hcur, doubleN_eq, smul_smul]
  rw [hterms]
  simp only [Res.ok_bind, Res.pure_eq]
  rw [foldl_add_eq_sum, sum_tab, zero_add]
  have : ∑ i ∈ Finset.range oc, ((x.val / 2 ^ (i * w) % 2 ^ w) * 2 ^ (i * w)) • g
      = (∑ i ∈ Finset.range oc, (x.val / 2 ^ (i * w) % 2 ^ w) * 2 ^ (i * w)) • g :=
    (Finset.sum_smul).symm
  rw [this, sum_window_digits, Nat.mod_eq_of_lt
    (lt_of_lt_of_le hn (Nat.pow_le_pow_right (by omega) hcover))]
  exact congrArg _ (mulBigint_intoBigint g x)

theorem WindowTable.multiply_new {K : FieldCfg} {G : Type} [AddCommGroup G] [Module (ZMod K.p) G]
    (k : ℕ) (g : G) (x : K.F) : (WindowTable.new K k g).multiply x = .ok (x • g) :=
  windowedMul_eq (mulWindowSize_pos k) g x

theorem WindowTable.multiplyMany_new {K : FieldCfg} {G : Type} [AddCommGroup G]
    [Module (ZMod K.p) G] (k : ℕ) (g : G) (xs : List K.F) :
    (WindowTable.new K k g).multiplyMany xs = .ok (xs.map (· • g)) := by
  unfold WindowTable.multiplyMany
  dsimp only
  rw [if_neg (show (WindowTable.new K k g).windowSize ≠ 0 from (mulWindowSize_pos k).ne'), if_pos]
  · apply mapRes_ok
    intro x _
    exact windowedMul_eq (mulWindowSize_pos k) g x
  · simp [WindowTable.new, windowTable]

theorem multiplyFieldElems_eq {K : FieldCfg} {G : Type} [AddCommGroup G] [Module (ZMod K.p) G]
    (g : G) (xs : List K.F) : multiplyFieldElems (K := K) g xs = .ok (xs.map (· • g)) :=
  WindowTable.multiplyMany_new _ g xs

end Verif
