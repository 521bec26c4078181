/-
Property C82: window tables as stored data.
-/
import Verif.Props.Encoding
import Verif.Fixtures

namespace Verif
open Spec

namespace Spec

/-- the sizes and vector lengths of a window table fit into 64 bits (always the case in Rust) -/
def FitsTable {G : Type} (w : WindowTable G) : Prop :=
  w.scalarSize < 2 ^ 64 ∧ w.windowSize < 2 ^ 64 ∧ w.outerc < 2 ^ 64 ∧ Fits w.table ∧
    ∀ row ∈ w.table, Fits row

/-- digit `o` of `x` in base `2^window` -/
def baseDigit {K : FieldCfg} (x : K.F) (window o : ℕ) : ℕ := ZMod.val x / 2 ^ (o * window) % 2 ^ window

/-- the table with entry `k` of row `o` replaced -/
def tamper {G : Type} (w : WindowTable G) (o k : ℕ) (A : G) : WindowTable G :=
  { w with table := w.table.set o ((w.table.getD o []).set k A) }

end Spec

theorem arkVec_roundtrip_mem {α : Type} {c : Ark α} (l : List α)
    (hc : ∀ x ∈ l, ∀ rest, c.de (c.ser x ++ rest) = some (x, rest)) (hl : l.length < 2 ^ 64)
    (rest : List UInt8) : (arkVec c).de ((arkVec c).ser l ++ rest) = some (l, rest) := by
  have many : ∀ l : List α, (∀ x ∈ l, ∀ rest, c.de (c.ser x ++ rest) = some (x, rest)) →
      arkDeMany c l.length (l.flatMap c.ser ++ rest) = some (l, rest) := by
    intro l
    induction l with
    | nil => intro _; rfl
    | cons x xs ih =>
      intro hc
      have h1 := hc x (by simp)
      have h2 := ih (fun y hy => hc y (by simp [hy]))
      simp only [List.length_cons, arkDeMany, List.flatMap_cons, List.append_assoc, h1,
        Option.bind_eq_bind, Option.bind_some, h2]
      rfl
  simp only [arkVec, List.append_assoc]
  rw [arkU64_roundtrip hl]
  simp only [Option.bind_eq_bind, Option.bind_some]
  exact many l hc

theorem windowTable_roundtrip {G : Type} {c : Ark G}
    (hc : ∀ x rest, c.de (c.ser x ++ rest) = some (x, rest)) (w : WindowTable G)
    (hw : FitsTable w) (rest : List UInt8) :
    (arkWindowTable c).de ((arkWindowTable c).ser w ++ rest) = some (w, rest) := by
  obtain ⟨h1, h2, h3, h4, h5⟩ := hw
  have hv := arkVec_roundtrip_mem (c := arkVec c) w.table
    (fun row hr => arkVec_roundtrip hc row (h5 row hr)) h4
  simp only [arkWindowTable, arkUsize, List.append_assoc, arkU64_roundtrip h1, arkU64_roundtrip h2,
    arkU64_roundtrip h3, hv, Option.bind_eq_bind, Option.bind_some]
  rfl

theorem vecVec_enc {α : Type} {c : Ark α}
    (hc : ∀ x rest, c.de (c.ser x ++ rest) = some (x, rest)) (xs : List (List α)) :
    vecVecCanonicalDe c (vecVecCanonicalSer c xs) = some xs := by
  unfold vecVecCanonicalDe vecVecCanonicalSer
  simp only
  induction xs with
  | nil => rfl
  | cons x xs ih =>
    simp only [List.map_cons, List.mapM_cons, vecCanonical_enc hc, Option.bind_eq_bind,
      Option.bind_some, ih]
    rfl

theorem asUsize_num {n : ℕ} (h : n < 2 ^ 64) : (SVal.num n).asUsize = some n := by
  unfold SVal.asUsize
  dsimp only
  rw [if_pos h]

theorem serdeWindow_roundtrip {G : Type} {c : Ark G}
    (hc : ∀ x rest, c.de (c.ser x ++ rest) = some (x, rest)) (w : WindowTable G)
    (hw : FitsTable w) :
    (serdeWindowTable c).dec ((serdeWindowTable c).enc w) = some w := by
  obtain ⟨h1, h2, h3, -, -⟩ := hw
  simp [serdeWindowTable, SVal.fields, SVal.field, vecVec_enc hc, asUsize_num h1, asUsize_num h2,
    asUsize_num h3]

/-- **C82** window tables survive storage: the canonical encoding round-trips, truncations are
rejected and encodings are prefix-free; the serde encoding round-trips. -/
theorem C82_roundtrip {G : Type} (c : Ark G)
    (hc : ∀ x rest, c.de (c.ser x ++ rest) = some (x, rest)) (hl : PrefixLocal c.de) :
    Faithful (arkWindowTable c) FitsTable ∧
    ∀ w : WindowTable G, FitsTable w → (serdeWindowTable c).dec ((serdeWindowTable c).enc w) = some w := by
  refine ⟨faithful_of (windowTable_roundtrip hc) ?_, serdeWindow_roundtrip hc⟩
  have l1 : PrefixLocal arkUsize.de := arkU64De_local
  have l2 := arkVec_local (arkVec_local hl)
  unfold arkWindowTable
  local_tac

/-- **C82** the layout of a stored table: three sizes in 8 little-endian bytes each, then the rows, each
with its length; with a self-describing format a map of the four fields.  Whatever is accepted is this
layout of what is read, provided the points in it have one encoding. -/
theorem C82_layout {G : Type} (c : Ark G) (w : WindowTable G) :
    (arkWindowTable c).ser w = lenPrefix w.scalarSize ++ lenPrefix w.windowSize ++ lenPrefix w.outerc ++
      onWire (onWire c.ser) w.table ∧
    (serdeWindowTable c).enc w = .map [("scalar_size", .num w.scalarSize),
      ("window_size", .num w.windowSize), ("outerc", .num w.outerc),
      ("table", .seq (w.table.map fun row => .seq (row.map fun x => SVal.bytes (c.ser x))))] ∧
    ((∀ row ∈ w.table, OneEncodings c row) → OneEncoding (arkWindowTable c) w) := by
  refine ⟨?_, rfl, ?_⟩
  · have hv : (arkVec c).ser = onWire c.ser := funext (Encod.vec_layout c)
    simp only [arkWindowTable, arkUsize, Encod.vec_layout, hv, lenPrefix, Encod.bytesLE_digits]
  · intro hone bs rest h
    have husz : ∀ (n : ℕ) (bs rest : List UInt8), arkUsize.de bs = some (n, rest) →
        bs = arkUsize.ser n ++ rest := by
      intro n bs rest h
      simp only [arkUsize, arkU64De, readExact] at h ⊢
      split at h
      · cases h
      · next hl =>
        simp only [Option.bind_eq_bind, Option.bind_some, Option.pure_def, Option.some.injEq,
          Prod.mk.injEq] at h
        obtain ⟨rfl, rfl⟩ := h
        have hlen : (bs.take 8).length = 8 := by simp; omega
        have e := bytesLE_leValue (bs.take 8)
        rw [hlen] at e
        rw [e, List.take_append_drop]
    simp only [arkWindowTable] at h ⊢
    enc_tac h
    obtain ⟨a, b1, h1, b, b2, h2, o, b3, h3, t, b4, h4, rfl, rfl⟩ := h
    rw [husz _ _ _ h1, husz _ _ _ h2, husz _ _ _ h3,
      Encod.vec t (fun row hr => Encod.vec row (hone row hr)) _ _ h4]
    simp

/-- **C82** a table that was stored and loaded again multiplies every scalar correctly. -/
theorem C82_reloaded {K : FieldCfg} {G : Type} [AddCommGroup G] [Module (ZMod K.p) G] (c : Ark G)
    (hc : ∀ x rest, c.de (c.ser x ++ rest) = some (x, rest)) (hint : ℕ) (g : G)
    (hw : FitsTable (WindowTable.new K hint g)) (rest : List UInt8) :
    ∃ w, (arkWindowTable c).de ((arkWindowTable c).ser (WindowTable.new K hint g) ++ rest)
        = some (w, rest) ∧
      (serdeWindowTable c).dec ((serdeWindowTable c).enc (WindowTable.new K hint g)) = some w ∧
      (∀ x : K.F, w.multiply x = .ok (x • g)) ∧
      ∀ xs : List K.F, w.multiplyMany xs = .ok (xs.map fun x => x • g) :=
  ⟨_, windowTable_roundtrip hc _ hw rest, serdeWindow_roundtrip hc _ hw,
    WindowTable.multiply_new hint g, WindowTable.multiplyMany_new hint g⟩

/-- a product is the sum of the entries selected by the digits -/
theorem windowedMul_sum {K : FieldCfg} {G : Type} [AddCommGroup G] (oc window : ℕ)
    (table : List (List G)) (x : K.F) (row0 : List G) (z : G) (t : ℕ → G)
    (h0 : table[0]? = some row0) (hz : row0[0]? = some z)
    (ht : ∀ o < oc, ∃ row, table[o]? = some row ∧ row[baseDigit x window o]? = some (t o)) :
    windowedMul oc window table x = .ok (z + ∑ o ∈ Finset.range oc, t o) := by
  unfold windowedMul
  rw [idx_eq_ok.mpr h0]
  simp only [Res.ok_bind]
  rw [idx_eq_ok.mpr hz]
  simp only [Res.ok_bind]
  have hterms : mapRes (fun outer => do
      let row ← idx table outer
      idx row (windowDigit K.modBits window outer (intoBigint x))) (List.range oc)
      = .ok (tab oc t) := by
    apply mapRes_range_ok
    intro o ho
    obtain ⟨row, h1, h2⟩ := ht o ho
    rw [idx_eq_ok.mpr h1]
    simp only [Res.ok_bind]
    have hdig : windowDigit K.modBits window o (intoBigint x) = baseDigit x window o :=
      windowDigit_eq (val_lt_two_pow x)
    rw [hdig]
    exact idx_eq_ok.mpr h2
  rw [hterms]
  simp only [Res.ok_bind, Res.pure_eq]
  rw [foldl_add_eq_sum, sum_tab]

/-- the entries of a fresh table that scalars can select -/
theorem windowTable_entry {K : FieldCfg} {G : Type} [AddCommGroup G] {w : ℕ} (hw : 0 < w) (g : G)
    (x : K.F) (o : ℕ) (ho : o < (K.modBits + w - 1) / w) :
    ∃ row, (windowTable K.modBits w g)[o]? = some row ∧ row.length = 2 ^ w ∧
      row[0]? = some 0 ∧
      row[baseDigit x w o]? = some ((baseDigit x w o * 2 ^ (o * w)) • g) := by
  have hms := modBits_pos K
  have hlast : ((K.modBits + w - 1) / w - 1) * w < K.modBits := by
    have : (K.modBits + w - 1) / w * w ≤ K.modBits + w - 1 := Nat.div_mul_le_self _ _
    have h1 : 0 < (K.modBits + w - 1) / w := Nat.div_pos (by omega) hw
    rw [Nat.sub_mul]
    omega
  have h2w : 0 < 2 ^ w := Nat.two_pow_pos w
  have hn : ZMod.val x < 2 ^ K.modBits := val_lt_two_pow x
  refine ⟨_, idx_eq_ok.mp (windowTable_row K.modBits w g ho), by simp, ?_, ?_⟩
  · simp [h2w]
  · have hd : baseDigit x w o < 2 ^ w := Nat.mod_lt _ h2w
    have hcur : baseDigit x w o < (if o = (K.modBits + w - 1) / w - 1 then
        2 ^ (K.modBits - ((K.modBits + w - 1) / w - 1) * w) else 2 ^ w) := by
      split
      · rename_i h
        apply lt_of_le_of_lt (Nat.mod_le _ _)
        rw [Nat.div_lt_iff_lt_mul (Nat.two_pow_pos _), h, ← pow_add]
        rwa [Nat.sub_add_cancel hlast.le]
      · exact hd
    rw [List.getElem?_map, List.getElem?_range hd, Option.map_some, if_pos hcur, doubleN_eq,
      smul_smul]

theorem tamper_mul {K : FieldCfg} {G : Type} [AddCommGroup G] [Module (ZMod K.p) G] {w : ℕ}
    (hw : 0 < w) (g : G) (o k : ℕ) (ho : o < (K.modBits + w - 1) / w) (hk : 1 ≤ k) (A : G)
    (x : K.F) :
    windowedMul ((K.modBits + w - 1) / w) w
      ((windowTable K.modBits w g).set o (((windowTable K.modBits w g).getD o []).set k A)) x
      = .ok (x • g + if baseDigit x w o = k then A - (k * 2 ^ (o * w)) • g else 0) := by
  have hms := modBits_pos K
  have hoc : 0 < (K.modBits + w - 1) / w := Nat.div_pos (by omega) hw
  -- the product with the fresh table
  obtain ⟨r0, h0, -, hz, -⟩ := windowTable_entry hw g x 0 hoc
  have hfresh := windowedMul_sum ((K.modBits + w - 1) / w) w (windowTable K.modBits w g) x r0 0
    (fun o => (baseDigit x w o * 2 ^ (o * w)) • g) h0 hz
    (fun o ho => by
      obtain ⟨row, h1, -, -, h2⟩ := windowTable_entry hw g x o ho
      exact ⟨row, h1, h2⟩)
  rw [windowedMul_eq hw g x, zero_add] at hfresh
  have hsum := Res.ok.inj hfresh
  -- row `o`
  obtain ⟨row, hrow, hlen, hrz, -⟩ := windowTable_entry hw g x o ho
  have hgd : (windowTable K.modBits w g).getD o [] = row := by
    rw [List.getD_eq_getElem?_getD, hrow]; rfl
  have hol : o < (windowTable K.modBits w g).length := (List.getElem?_eq_some_iff.mp hrow).1
  rw [hgd]
  -- first row and first entry
  obtain ⟨row0, h00, hz0⟩ : ∃ row0, ((windowTable K.modBits w g).set o (row.set k A))[0]? = some row0 ∧
      row0[0]? = some (0 : G) := by
    by_cases h : o = 0
    · subst h
      refine ⟨row.set k A, by rw [List.getElem?_set_self hol], ?_⟩
      rw [List.getElem?_set_ne (by omega)]
      exact hrz
    · exact ⟨r0, by rw [List.getElem?_set_ne h]; exact h0, hz⟩
  rw [windowedMul_sum ((K.modBits + w - 1) / w) w _ x row0 0
    (fun j => (baseDigit x w j * 2 ^ (j * w)) • g
      + if j = o ∧ baseDigit x w o = k then A - (k * 2 ^ (o * w)) • g else 0) h00 hz0 ?_]
  · rw [zero_add, Finset.sum_add_distrib, ← hsum]
    congr 2
    rw [Finset.sum_eq_single o]
    · simp
    · intro j _ hj
      rw [if_neg (fun h => hj h.1)]
    · intro h
      exact absurd (Finset.mem_range.mpr ho) h
  · intro j hj
    obtain ⟨rowj, h1, h1l, -, h2⟩ := windowTable_entry hw g x j hj
    by_cases hjo : j = o
    · subst hjo
      have : row = rowj := by rw [hrow] at h1; exact Option.some.inj h1
      subst this
      refine ⟨row.set k A, by rw [List.getElem?_set_self hol], ?_⟩
      have hdl : baseDigit x w j < row.length := by
        rw [h1l]; exact Nat.mod_lt _ (Nat.two_pow_pos w)
      by_cases hd : baseDigit x w j = k
      · rw [if_pos ⟨rfl, hd⟩, hd, List.getElem?_set_self (by rw [← hd]; exact hdl)]
        simp
      · rw [if_neg (fun h => hd h.2), List.getElem?_set_ne (fun h => hd h.symm), h2, add_zero]
    · refine ⟨rowj, by rw [List.getElem?_set_ne (fun h => hjo h.symm)]; exact h1, ?_⟩
      rw [if_neg (fun h => hjo h.1), add_zero]
      exact h2

/-- **C82** a loaded table is used unchecked: with one entry (other than an entry 0) replaced by any
group element the stored table is still accepted, and exactly the products of the scalars with that
digit at that position are off, by the difference of the entries. -/
theorem C82_unchecked {K : FieldCfg} {G : Type} [AddCommGroup G] [Module (ZMod K.p) G] (c : Ark G)
    (hc : ∀ x rest, c.de (c.ser x ++ rest) = some (x, rest)) (hint : ℕ) (g : G)
    (hfit : FitsTable (WindowTable.new K hint g)) (o k : ℕ)
    (ho : o < (WindowTable.new K hint g).outerc) (hk : 1 ≤ k) (A : G) (rest : List UInt8) :
    ∃ w, w = tamper (WindowTable.new K hint g) o k A ∧
      (arkWindowTable c).de ((arkWindowTable c).ser w ++ rest) = some (w, rest) ∧
      (serdeWindowTable c).dec ((serdeWindowTable c).enc w) = some w ∧
      (∀ x : K.F, w.multiply x = .ok (x • g +
        if baseDigit x w.windowSize o = k then A - (k * 2 ^ (o * w.windowSize)) • g else 0)) ∧
      ∀ xs : List K.F, w.multiplyMany xs = .ok (xs.map fun x => x • g +
        if baseDigit x w.windowSize o = k then A - (k * 2 ^ (o * w.windowSize)) • g else 0) := by
  have hw := mulWindowSize_pos hint
  have hfit' : FitsTable (tamper (WindowTable.new K hint g) o k A) := by
    obtain ⟨h1, h2, h3, h4, h5⟩ := hfit
    refine ⟨h1, h2, h3, ?_, ?_⟩
    · unfold Fits tamper
      rw [List.length_set]
      exact h4
    · intro row hr
      rcases List.mem_or_eq_of_mem_set hr with hr | hr
      · exact h5 row hr
      · subst hr
        unfold Fits
        rw [List.length_set]
        rcases Nat.lt_or_ge o (WindowTable.new K hint g).table.length with hl | hl
        · have : (WindowTable.new K hint g).table.getD o [] ∈ (WindowTable.new K hint g).table := by
            rw [List.getD_eq_getElem _ _ hl]
            exact List.getElem_mem hl
          exact h5 _ this
        · rw [List.getD_eq_default _ _ hl]
          simp
  refine ⟨_, rfl, windowTable_roundtrip hc _ hfit' rest, serdeWindow_roundtrip hc _ hfit', ?_, ?_⟩
  · intro x
    exact tamper_mul hw g o k ho hk A x
  · intro xs
    unfold WindowTable.multiplyMany
    dsimp only
    rw [if_neg (show (tamper (WindowTable.new K hint g) o k A).windowSize ≠ 0 from hw.ne'), if_pos]
    · apply mapRes_ok
      intro x _
      exact tamper_mul hw g o k ho hk A x
    · simp [WindowTable.new, windowTable, tamper]

theorem idx_cases {α : Type} (l : List α) (i : ℕ) : idx l i = .panic ∨ ∃ a, idx l i = .ok a := by
  rcases Nat.lt_or_ge i l.length with h | h
  · exact Or.inr ⟨l[i], idx_eq_ok.mpr (List.getElem?_eq_getElem h)⟩
  · exact Or.inl (idx_panic h)

theorem mapRes_some_panic {α β : Type} (f : α → Res β) (l : List α)
    (h : ∀ a ∈ l, f a = .panic ∨ ∃ b, f a = .ok b) (a : α) (ha : a ∈ l) (hp : f a = .panic) :
    mapRes f l = .panic := by
  induction l with
  | nil => cases ha
  | cons c cs ih =>
    unfold mapRes
    rcases h c (by simp) with hc | ⟨b, hc⟩
    · rw [hc]; rfl
    · rw [hc]
      simp only [Res.ok_bind]
      rcases List.mem_cons.mp ha with rfl | ha
      · rw [hp] at hc; cases hc
      · rw [ih (fun x hx => h x (by simp [hx])) ha]
        rfl

/-- **C82** a loaded table of the wrong shape aborts at use: an empty table, an empty first row, a row
too short for a digit that occurs, a window size of zero (several products only), fewer rows than
the stored sizes call for. -/
theorem C82_malformed {K : FieldCfg} {G : Type} [AddCommGroup G] (w : WindowTable G) :
    (w.table = [] → ∀ x : K.F, w.multiply x = .panic) ∧
    (w.table[0]? = some [] → ∀ x : K.F, w.multiply x = .panic) ∧
    (∀ (x : K.F) (o : ℕ) (row : List G), o < w.outerc → w.table[o]? = some row →
      row.length ≤ baseDigit x w.windowSize o → w.multiply x = .panic) ∧
    (w.table.length < w.outerc → ∀ x : K.F, w.multiply x = .panic) ∧
    (w.windowSize = 0 → ∀ xs : List K.F, w.multiplyMany xs = .panic) ∧
    (w.windowSize ≠ 0 → w.table.length * w.windowSize < w.scalarSize →
      ∀ xs : List K.F, w.multiplyMany xs = .panic) := by
  have hno : ∀ (x : K.F) (o : ℕ), o < w.outerc →
      (∀ row, w.table[o]? = some row → row.length ≤ baseDigit x w.windowSize o) →
      w.multiply x = .panic := by
    intro x o ho hrow
    unfold WindowTable.multiply windowedMul
    rcases idx_cases w.table 0 with h0 | ⟨row0, h0⟩
    · rw [h0]; rfl
    rw [h0]
    simp only [Res.ok_bind]
    rcases idx_cases row0 0 with hz | ⟨z, hz⟩
    · rw [hz]; rfl
    rw [hz]
    simp only [Res.ok_bind]
    have hp : mapRes (fun outer => do
        let row ← idx w.table outer
        idx row (windowDigit K.modBits w.windowSize outer (intoBigint x))) (List.range w.outerc)
        = .panic := by
      refine mapRes_some_panic _ _ ?_ o (List.mem_range.mpr ho) ?_
      · intro j _
        rcases idx_cases w.table j with h | ⟨row, h⟩
        · rw [h]; exact Or.inl rfl
        · rw [h]
          simp only [Res.ok_bind]
          exact idx_cases _ _
      · rcases idx_cases w.table o with h | ⟨row, h⟩
        · rw [h]; rfl
        · rw [h]
          simp only [Res.ok_bind]
          have hdig : windowDigit K.modBits w.windowSize o (intoBigint x)
              = baseDigit x w.windowSize o := windowDigit_eq (val_lt_two_pow x)
          rw [hdig]
          exact idx_panic (hrow row (idx_eq_ok.mp h))
    rw [hp]
    rfl
  refine ⟨?_, ?_, ?_, ?_, ?_, ?_⟩
  · intro h x
    unfold WindowTable.multiply windowedMul
    rw [h]
    rfl
  · intro h x
    unfold WindowTable.multiply windowedMul
    rw [idx_eq_ok.mpr h]
    rfl
  · intro x o row ho h hl
    refine hno x o ho ?_
    intro row' h'
    rw [h] at h'
    rw [← Option.some.inj h']
    exact hl
  · intro h x
    refine hno x w.table.length h ?_
    intro row hr
    rw [List.getElem?_eq_none (le_refl _)] at hr
    cases hr
  · intro h xs
    unfold WindowTable.multiplyMany
    dsimp only
    rw [if_pos h]
  · intro h hl xs
    unfold WindowTable.multiplyMany
    dsimp only
    rw [if_neg h, if_neg]
    intro hle
    have h1 := Nat.div_add_mod (w.scalarSize + w.windowSize - 1) w.windowSize
    have h2 := Nat.mod_lt (w.scalarSize + w.windowSize - 1) (Nat.pos_of_ne_zero h)
    have h3 := Nat.mul_le_mul_left w.windowSize hle
    rw [Nat.mul_comm w.windowSize w.table.length] at h3
    omega

/-- Non-vacuity: a table over the field of 101 elements fits, is reloaded, and the copy with entry 1 of
row 0 replaced by 0 multiplies 2 correctly and 9 = 1 + 8 wrongly. -/
example : FitsTable (WindowTable.new smallFr 5 (3 : ZMod smallFr.p)) ∧
    (tamper (WindowTable.new smallFr 5 (3 : ZMod smallFr.p)) 0 1 0).multiply (K := smallFr) 2
      = .ok 6 ∧
    (tamper (WindowTable.new smallFr 5 (3 : ZMod smallFr.p)) 0 1 0).multiply (K := smallFr) 9
      = .ok 24 := by
  have hfit : FitsTable (WindowTable.new smallFr 5 (3 : ZMod smallFr.p)) := by
    refine ⟨?_, ?_, ?_, ?_, ?_⟩
    all_goals simp [WindowTable.new, mulWindowSize, smallFr_modBits, Fits, windowTable]
  obtain ⟨w, rfl, -, -, h, -⟩ := C82_unchecked (K := smallFr) (arkField smallFr)
    (arkField_roundtrip smallFr) 5 3 hfit 0 1
    (by simp [WindowTable.new, mulWindowSize, smallFr_modBits]) (le_refl _) 0 []
  refine ⟨hfit, ?_, ?_⟩
  · rw [h]; decide +kernel
  · rw [h]; decide +kernel

end Verif
