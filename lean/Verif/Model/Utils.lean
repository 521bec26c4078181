/-
Model of src/utils.rs: chunking, window tables, try-and-increment hashing.
-/
import Verif.Model.Engine
import Mathlib.Data.Nat.Log

namespace Verif

/-- `chunks_count`, src/utils.rs:19-24.  `(scalar_size + bit_size - 1) / bit_size` in `usize`
(division by zero panics), then `as u8` truncates. -/
def chunksCount (K : FieldCfg) (b : UInt8) : Res UInt8 :=
  if b.toNat = 0 then .panic
  else .ok (UInt8.ofNat ((K.modBits + b.toNat - 1) / b.toNat))

/-- Little-endian bytes of `n`, exactly `len` of them (helper for `toBytesBE`). For src/utils.rs:31. -/
def bytesLE : ℕ → ℕ → List UInt8
  | 0, _ => []
  | len + 1, n => UInt8.ofNat (n % 256) :: bytesLE len (n / 256)

/-- `BigInt::<N>::to_bytes_be()` (`ark-ff`): the `8 * N` bytes, most significant first;
used at src/utils.rs:31. -/
def toBytesBE (limbs n : ℕ) : List UInt8 := (bytesLE (8 * limbs) n).reverse

/-- Value of a big-endian byte string. For the bytes of src/utils.rs:31,61-88. -/
def bytesValue (bytes : List UInt8) : ℕ := bytes.foldl (fun acc x => acc * 256 + x.toNat) 0

/-- `F::from_be_bytes_mod_order` (`ark-ff`), used at src/utils.rs:71,73,82. -/
def fromBeBytesModOrder {K : FieldCfg} (bytes : List UInt8) : K.F := (bytesValue bytes : ℕ)

/-- Loop body of the 16-bit case of `decompose`, src/utils.rs:45-54: `bytes.chunks(2)`;
a trailing single byte is shifted left by 8. -/
def bytePairs : List UInt8 → List UInt16
  | [] => []
  | [x] => [x.toUInt16 <<< 8]
  | x :: y :: rest => ((x.toUInt16 <<< 8) + y.toUInt16) :: bytePairs rest

/-- `decompose`, src/utils.rs:30-58.  (The addition at line 50 cannot overflow: the low byte of
`b` is zero.) -/
def decompose {K : FieldCfg} (m : K.F) (b : UInt8) : Res (List UInt16) :=
  let bytes := toBytesBE K.limbs (intoBigint m)
  if b = 4 then .ok (bytes.flatMap fun (x : UInt8) => [(x >>> 4).toUInt16, (x &&& 15).toUInt16])
  else if b = 8 then .ok (bytes.map fun x => x.toUInt16)
  else if b = 16 then .ok (bytePairs bytes)
  else .err (.unexpectedBase b)

/-- Loop of the 4-bit case of `compose`, src/utils.rs:68-70: `((n0 << 4) + n1) as u8` in `u16`.
`<<` discards high bits, `+` panics on overflow in checked builds (`chk`) and wraps otherwise.
The single-element case is not reached (length is even) and would panic on `nibbles[1]`. -/
def nibblePairs (chk : Bool) : List UInt16 → Res (List UInt8)
  | [] => .ok []
  | [_] => .panic
  | x :: y :: rest =>
    if chk && decide (65536 ≤ (x <<< 4).toNat + y.toNat) then .panic
    else do
      let bs ← nibblePairs chk rest
      return ((x <<< 4) + y).toUInt8 :: bs

/-- `compose`, src/utils.rs:61-86. -/
def compose {K : FieldCfg} (chk : Bool) (d : List UInt16) (b : UInt8) : Res K.F :=
  if b = 4 then
    if d.length % 2 = 1 then .err .invalidDecomposition
    else do
      let bytes ← nibblePairs chk d
      return fromBeBytesModOrder bytes
  else if b = 8 then .ok (fromBeBytesModOrder (d.map fun x => x.toUInt8))
  else if b = 16 then
    .ok (fromBeBytesModOrder (d.flatMap fun (x : UInt16) => [(x >>> 8).toUInt8, (x &&& 255).toUInt8]))
  else .err (.unexpectedBase b)

/-! ### Window tables, src/utils.rs:94-140 (calling `ark-ec`'s `FixedBase`) -/

/-- `ark_std::log2`: ceiling of the binary logarithm.
Used by `FixedBase::get_mul_window_size`, called at src/utils.rs:107,129. -/
def arkLog2 (x : ℕ) : ℕ := Nat.clog 2 x

/-- `FixedBase::get_mul_window_size` (`ark-ec`), called at src/utils.rs:107,129. -/
def mulWindowSize (numScalars : ℕ) : ℕ :=
  if numScalars < 32 then 3 else arkLog2 numScalars * 69 / 100

/-- `k`-fold doubling. For src/commitment.rs:120 and the tables of src/utils.rs:109. -/
def doubleN {G : Type} [AddCommGroup G] (k : ℕ) (g : G) : G := (fun x => x + x)^[k] g

/-- `FixedBase::get_window_table` (`ark-ec`), called at src/utils.rs:109.  Row `outer` holds
`0, g_outer, 2 g_outer, ...` with `g_outer = 2^(outer * window) g`; the last row is filled only
up to `2^(scalar_size - (outerc-1) * window)` entries, the rest stays zero.
Simplification: the running sum `g_inner` is written as a natural multiple. -/
def windowTable {G : Type} [AddCommGroup G] (scalarSize window : ℕ) (g : G) : List (List G) :=
  let inWindow := 2 ^ window
  let outerc := (scalarSize + window - 1) / window
  let lastInWindow := 2 ^ (scalarSize - (outerc - 1) * window)
  (List.range outerc).map fun outer =>
    let cur := if outer = outerc - 1 then lastInWindow else inWindow
    (List.range inWindow).map fun k => if k < cur then k • doubleN (outer * window) g else 0

/-- Inner loop of `FixedBase::windowed_mul` (`ark-ec`): the window digit at position `outer`.
Called at src/utils.rs:120,125. -/
def windowDigit (modulusSize window outer n : ℕ) : ℕ :=
  ((List.range window).map fun i =>
    if decide (outer * window + i < modulusSize) && n.testBit (outer * window + i)
    then 2 ^ i else 0).sum

/-- `FixedBase::windowed_mul` (`ark-ec`), called at src/utils.rs:120. -/
def windowedMul {K : FieldCfg} {G : Type} [AddCommGroup G] (outerc window : ℕ)
    (table : List (List G)) (x : K.F) : Res G := do
  let row0 ← idx table 0
  let res0 ← idx row0 0
  let terms ← mapRes (fun outer => do
    let row ← idx table outer
    idx row (windowDigit K.modBits window outer (intoBigint x))) (List.range outerc)
  return terms.foldl (· + ·) res0

/-- `WindowTable`, src/utils.rs:94-100. -/
structure WindowTable (G : Type) where
  scalarSize : ℕ
  windowSize : ℕ
  outerc : ℕ
  table : List (List G)

/-- `WindowTable::new`, src/utils.rs:105-116. -/
def WindowTable.new (K : FieldCfg) {G : Type} [AddCommGroup G] (numMul : ℕ) (g : G) :
    WindowTable G :=
  let scalarSize := K.modBits
  let windowSize := mulWindowSize numMul
  let outerc := (scalarSize + windowSize - 1) / windowSize
  { scalarSize, windowSize, outerc, table := windowTable scalarSize windowSize g }

/-- `WindowTable::multiply`, src/utils.rs:119-121. -/
def WindowTable.multiply {K : FieldCfg} {G : Type} [AddCommGroup G] (w : WindowTable G)
    (x : K.F) : Res G :=
  windowedMul w.outerc w.windowSize w.table x

/-- `WindowTable::multiply_many`, src/utils.rs:124-126, i.e. `FixedBase::msm` (`ark-ec`), which
recomputes `outerc` (a division by zero, hence a panic, if the stored window size is zero) and
asserts `outerc <= table.len()`.  Simplification: `usize` overflows, possible only in a deserialized
table with absurd sizes, are not modelled. -/
def WindowTable.multiplyMany {K : FieldCfg} {G : Type} [AddCommGroup G] (w : WindowTable G)
    (xs : List K.F) : Res (List G) :=
  let outerc := (w.scalarSize + w.windowSize - 1) / w.windowSize
  if w.windowSize = 0 then .panic
  else if outerc ≤ w.table.length then
    mapRes (fun x => windowedMul outerc w.windowSize w.table x) xs
  else .panic

/-- `multiply_field_elems_with_same_group_elem`, src/utils.rs:134-140. -/
def multiplyFieldElems {K : FieldCfg} {G : Type} [AddCommGroup G] (g : G) (xs : List K.F) :
    Res (List G) :=
  (WindowTable.new K xs.length g).multiplyMany xs

/-! ### Try-and-increment hashing, src/utils.rs:142-175 -/

/-- `b"-attempt-"`, src/utils.rs:150,170. -/
def attemptTag : List UInt8 := [45, 97, 116, 116, 101, 109, 112, 116, 45]

/-- `j.to_le_bytes()` for `j: u64`. Called at src/utils.rs:150,170. -/
def leBytes64 (j : UInt64) : List UInt8 := bytesLE 8 j.toNat

/-- The loop `while g.is_none() { .. j += 1; }` of src/utils.rs:148-153 and 168-173, with fuel:
`none` means "still running after `fuel` iterations".  `digest` is `D::digest`, `from` is
`G::from_random_bytes` resp. `F::from_random_bytes`.  `j += 1` overflows after `2^64 - 1`
iterations: panic in checked builds, wrap-around otherwise. -/
def tryLoop {C : Type} (chk : Bool) (digest : List UInt8 → List UInt8)
    (fromBytes : List UInt8 → Option C) (bytes : List UInt8) :
    ℕ → UInt64 → Option C → Option (Res C)
  | _, _, some g => some (.ok g)
  | 0, _, none => none
  | fuel + 1, j, none =>
    let g := fromBytes (digest (bytes ++ attemptTag ++ leBytes64 j))
    if chk && decide (j.toNat = 2 ^ 64 - 1) then some .panic
    else tryLoop chk digest fromBytes bytes fuel (j + 1) g

/-- `field_elem_from_try_and_incr`, src/utils.rs:165-175, and (without the cofactor
multiplication) `projective_group_elem_from_try_and_incr`, src/utils.rs:145-155. -/
def tryAndIncr {C : Type} (chk : Bool) (digest : List UInt8 → List UInt8)
    (fromBytes : List UInt8 → Option C) (fuel : ℕ) (bytes : List UInt8) : Option (Res C) :=
  tryLoop chk digest fromBytes bytes fuel 1 (fromBytes (digest bytes))

/-- `projective_group_elem_from_try_and_incr`/`affine_group_elem_from_try_and_incr`,
src/utils.rs:145-161; `clear` is `mul_by_cofactor_to_group`. -/
def groupElemFromTryAndIncr {C G : Type} (chk : Bool) (digest : List UInt8 → List UInt8)
    (fromBytes : List UInt8 → Option C) (clear : C → G) (fuel : ℕ) (bytes : List UInt8) :
    Option (Res G) :=
  (tryAndIncr chk digest fromBytes fuel bytes).map fun r => r >>= fun c => Res.ok (clear c)

end Verif
