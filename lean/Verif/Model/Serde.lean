/-
Model of the serialization layer: the `CanonicalSerialize`/`CanonicalDeserialize` derives on the
crate's types, and src/serde_utils.rs (`AsCanonical`, used through `#[serde_as(as = "ArkObjectBytes")]`
and `#[serde_as(as = "Vec<ArkObjectBytes>")]`).
-/
import Verif.Model.Setup

namespace Verif

/-- `T: CanonicalSerialize + CanonicalDeserialize` in one fixed mode (compressed or uncompressed):
`ser` is the written byte string, `de` reads from the front of the remaining input and returns the
value and the unread rest; `none` stands for any `SerializationError`.
What the derives at src/keygen.rs:27-36,43-46,57-60,68-71,91-94,117-120,146-149, src/encryption.rs:36-39,
src/setup.rs:20-23,32-35 and src/saver_groth16.rs:29-32 use. -/
structure Ark (α : Type) where
  ser : α → List UInt8
  de : List UInt8 → Option (α × List UInt8)

/-- little-endian value of a byte string (inverse of `bytesLE`).
Used by the encodings that src/serde_utils.rs:14-33 writes and reads. -/
def leValue : List UInt8 → ℕ
  | [] => 0
  | x :: xs => x.toNat + 256 * leValue xs

/-- `reader.read_exact(&mut [u8; k])` on a slice. Used by the encodings that src/serde_utils.rs:14-33 reads. -/
def readExact (k : ℕ) (bs : List UInt8) : Option (List UInt8 × List UInt8) :=
  if bs.length < k then none else some (bs.take k, bs.drop k)

/-- `u64` in `ark-serialize`: 8 bytes, little endian (the length prefix of a `Vec`).
Used by the derives on types with vectors, e.g. src/keygen.rs:68-71. -/
def arkU64De (bs : List UInt8) : Option (ℕ × List UInt8) := do
  let (a, rest) ← readExact 8 bs
  return (leValue a, rest)

/-- A prime field element in `ark-ff`: `ceil(MODULUS_BIT_SIZE / 8)` bytes, little endian; a value that
is not below the modulus is rejected (`from_bigint` returns `None`).
Used by the derives at src/keygen.rs:27-39,43-46. -/
def arkField (K : FieldCfg) : Ark K.F where
  ser x := bytesLE ((K.modBits + 7) / 8) (intoBigint x)
  de bs := do
    let (a, rest) ← readExact ((K.modBits + 7) / 8) bs
    if leValue a < K.p then some ((leValue a : ℕ), rest) else none

/-- `n` successive elements, the loop of `Vec::deserialize_with_mode` in `ark-serialize`.
Used by the derives on types with vectors, e.g. src/keygen.rs:68-71. -/
def arkDeMany {α : Type} (c : Ark α) : ℕ → List UInt8 → Option (List α × List UInt8)
  | 0, bs => some ([], bs)
  | n + 1, bs => do
    let (x, bs) ← c.de bs
    let (xs, bs) ← arkDeMany c n bs
    return (x :: xs, bs)

/-- `Vec<T>` in `ark-serialize`: length as `u64`, then the elements.
What the derives at src/keygen.rs:27-36,43-46,57-60,68-71,91-94,117-120,146-149, src/encryption.rs:36-39,
src/setup.rs:20-23,32-35 and src/saver_groth16.rs:29-32 use. -/
def arkVec {α : Type} (c : Ark α) : Ark (List α) where
  ser l := bytesLE 8 l.length ++ l.flatMap c.ser
  de bs := do
    let (n, bs) ← arkU64De bs
    arkDeMany c n bs

/-- The external encodings of the points of the engine (`E::G1Affine`, `E::G2Affine`,
`E::G2Prepared`).
What the derives at src/keygen.rs:27-36,43-46,57-60,68-71,91-94,117-120,146-149, src/encryption.rs:36-39,
src/setup.rs:20-23,32-35 and src/saver_groth16.rs:29-32 use. -/
structure Codecs (E : Engine) where
  g1 : Ark E.G1
  g2 : Ark E.G2
  g2p : Ark E.G2P

variable {E : Engine} (C : Codecs E)

/-! ### derived `CanonicalSerialize` / `CanonicalDeserialize`: the fields in declaration order -/

/-- derive on `SecretKey`, src/keygen.rs:26-39 -/
def arkSecretKey : Ark (SecretKey E) where
  ser k := (arkField E.fr).ser k.rho
  de bs := do
    let (rho, bs) ← (arkField E.fr).de bs
    return ({ rho := rho }, bs)

/-- derive on `SecretKeyST`, src/keygen.rs:42-53 -/
def arkSecretKeyST : Ark (SecretKeyST E) where
  ser k := (arkVec (arkField E.fr)).ser k.s ++ (arkVec (arkField E.fr)).ser k.t
  de bs := do
    let (s, bs) ← (arkVec (arkField E.fr)).de bs
    let (t, bs) ← (arkVec (arkField E.fr)).de bs
    return ({ s := s, t := t }, bs)

/-- derive on `P1share`, src/keygen.rs:56-64 -/
def arkP1share : Ark (P1share E) where
  ser k := C.g1.ser k.P_1
  de bs := do
    let (p, bs) ← C.g1.de bs
    return ({ P_1 := p }, bs)

/-- derive on `FEncryptionKeyPartial`, src/keygen.rs:67-87 -/
def arkPartialKey : Ark (FEncryptionKeyPartial E) where
  ser k := C.g1.ser k.X_0 ++ (arkVec C.g1).ser k.X ++ (arkVec C.g1).ser k.Y ++ (arkVec C.g2).ser k.Z
    ++ C.g1.ser k.P_2
  de bs := do
    let (X_0, bs) ← C.g1.de bs
    let (X, bs) ← (arkVec C.g1).de bs
    let (Y, bs) ← (arkVec C.g1).de bs
    let (Z, bs) ← (arkVec C.g2).de bs
    let (P_2, bs) ← C.g1.de bs
    return ({ X_0 := X_0, X := X, Y := Y, Z := Z, P_2 := P_2 }, bs)

/-- derive on `EncryptionKey`, src/keygen.rs:90-113 -/
def arkEncryptionKey : Ark (EncryptionKey E) where
  ser k := C.g1.ser k.X_0 ++ (arkVec C.g1).ser k.X ++ (arkVec C.g1).ser k.Y ++ (arkVec C.g2).ser k.Z
    ++ C.g1.ser k.P_1 ++ C.g1.ser k.P_2
  de bs := do
    let (X_0, bs) ← C.g1.de bs
    let (X, bs) ← (arkVec C.g1).de bs
    let (Y, bs) ← (arkVec C.g1).de bs
    let (Z, bs) ← (arkVec C.g2).de bs
    let (P_1, bs) ← C.g1.de bs
    let (P_2, bs) ← C.g1.de bs
    return ({ X_0 := X_0, X := X, Y := Y, Z := Z, P_1 := P_1, P_2 := P_2 }, bs)

/-- derive on `FEncryptionKeyDest`, src/keygen.rs:116-125 -/
def arkDestKey : Ark (FEncryptionKeyDest E) where
  ser k := C.g1.ser k.pk
  de bs := do
    let (p, bs) ← C.g1.de bs
    return ({ pk := p }, bs)

/-- derive on `DecryptionKey`, src/keygen.rs:145-159 -/
def arkDecryptionKey : Ark (DecryptionKey E) where
  ser k := C.g2.ser k.V_0 ++ (arkVec C.g2).ser k.V_1 ++ (arkVec C.g2).ser k.V_2
  de bs := do
    let (V_0, bs) ← C.g2.de bs
    let (V_1, bs) ← (arkVec C.g2).de bs
    let (V_2, bs) ← (arkVec C.g2).de bs
    return ({ V_0 := V_0, V_1 := V_1, V_2 := V_2 }, bs)

/-- derive on `Ciphertext`, src/encryption.rs:35-46 -/
def arkCiphertext : Ark (Ciphertext E) where
  ser k := C.g1.ser k.X_r ++ (arkVec C.g1).ser k.enc_chunks ++ C.g1.ser k.commitment
  de bs := do
    let (x, bs) ← C.g1.de bs
    let (c, bs) ← (arkVec C.g1).de bs
    let (p, bs) ← C.g1.de bs
    return ({ X_r := x, enc_chunks := c, commitment := p }, bs)

/-- derive on `EncryptionGens`, src/setup.rs:19-28 -/
def arkEncryptionGens : Ark (EncryptionGens E) where
  ser k := C.g1.ser k.G ++ C.g2.ser k.H
  de bs := do
    let (g, bs) ← C.g1.de bs
    let (h, bs) ← C.g2.de bs
    return ({ G := g, H := h }, bs)

/-- derive on `PreparedEncryptionGens`, src/setup.rs:31-40; `E::G1Prepared` wraps an affine point. -/
def arkPreparedEncryptionGens : Ark (PreparedEncryptionGens E) where
  ser k := C.g1.ser k.G ++ C.g2p.ser k.H
  de bs := do
    let (g, bs) ← C.g1.de bs
    let (h, bs) ← C.g2p.de bs
    return ({ G := g, H := h }, bs)

/-- derive on `ChunkedCommitmentGens`, src/setup.rs:68-77 -/
def arkCommitmentGens {A : Type} (c : Ark A) : Ark (ChunkedCommitmentGens A) where
  ser k := c.ser k.G ++ c.ser k.H
  de bs := do
    let (g, bs) ← c.de bs
    let (h, bs) ← c.de bs
    return ({ G := g, H := h }, bs)

/-- derive on `ChunkedCommitment`, src/commitment.rs:42-49 -/
def arkChunkedCommitment {A : Type} (c : Ark A) : Ark (ChunkedCommitment A) where
  ser k := c.ser k.comm ++ (arkVec c).ser k.key
  de bs := do
    let (g, bs) ← c.de bs
    let (h, bs) ← (arkVec c).de bs
    return ({ comm := g, key := h }, bs)

/-- derive on `ark_groth16::VerifyingKey`. Part of the type at src/saver_groth16.rs:32-39. -/
def arkVerifyingKey : Ark (VerifyingKey E) where
  ser k := C.g1.ser k.alpha_g1 ++ C.g2.ser k.beta_g2 ++ C.g2.ser k.gamma_g2 ++ C.g2.ser k.delta_g2
    ++ (arkVec C.g1).ser k.gamma_abc_g1
  de bs := do
    let (a, bs) ← C.g1.de bs
    let (b, bs) ← C.g2.de bs
    let (g, bs) ← C.g2.de bs
    let (d, bs) ← C.g2.de bs
    let (l, bs) ← (arkVec C.g1).de bs
    return ({ alpha_g1 := a, beta_g2 := b, gamma_g2 := g, delta_g2 := d, gamma_abc_g1 := l }, bs)

/-- derive on `ark_groth16::ProvingKey`. Part of the type at src/saver_groth16.rs:32-39. -/
def arkGroth16ProvingKey : Ark (Groth16ProvingKey E) where
  ser k := (arkVerifyingKey C).ser k.vk ++ C.g1.ser k.beta_g1 ++ C.g1.ser k.delta_g1
    ++ (arkVec C.g1).ser k.a_query ++ (arkVec C.g1).ser k.b_g1_query ++ (arkVec C.g2).ser k.b_g2_query
    ++ (arkVec C.g1).ser k.h_query ++ (arkVec C.g1).ser k.l_query
  de bs := do
    let (vk, bs) ← (arkVerifyingKey C).de bs
    let (b, bs) ← C.g1.de bs
    let (d, bs) ← C.g1.de bs
    let (q1, bs) ← (arkVec C.g1).de bs
    let (q2, bs) ← (arkVec C.g1).de bs
    let (q3, bs) ← (arkVec C.g2).de bs
    let (q4, bs) ← (arkVec C.g1).de bs
    let (q5, bs) ← (arkVec C.g1).de bs
    return ({ vk := vk, beta_g1 := b, delta_g1 := d, a_query := q1, b_g1_query := q2,
              b_g2_query := q3, h_query := q4, l_query := q5 }, bs)

/-- derive on `saver_groth16::ProvingKey`, src/saver_groth16.rs:28-39 -/
def arkProvingKey : Ark (ProvingKey E) where
  ser k := (arkGroth16ProvingKey C).ser k.pk ++ C.g1.ser k.gamma_g1
  de bs := do
    let (pk, bs) ← (arkGroth16ProvingKey C).de bs
    let (g, bs) ← C.g1.de bs
    return ({ pk := pk, gamma_g1 := g }, bs)

/-- `usize` in `ark-serialize`: written as a `u64`, 8 bytes little endian, and read back as one.
Simplification: a 64-bit target, where the conversion to `usize` cannot lose bits.
Used by the derive at src/utils.rs:91-101. -/
def arkUsize : Ark ℕ where
  ser n := bytesLE 8 n
  de := arkU64De

/-- derive on `WindowTable`, src/utils.rs:90-100 -/
def arkWindowTable {G : Type} (c : Ark G) : Ark (WindowTable G) where
  ser w := arkUsize.ser w.scalarSize ++ arkUsize.ser w.windowSize ++ arkUsize.ser w.outerc ++
    (arkVec (arkVec c)).ser w.table
  de bs := do
    let (a, bs) ← arkUsize.de bs
    let (b, bs) ← arkUsize.de bs
    let (o, bs) ← arkUsize.de bs
    let (t, bs) ← (arkVec (arkVec c)).de bs
    return ({ scalarSize := a, windowSize := b, outerc := o, table := t }, bs)

/-! ### the serde layer -/

/-- The part of serde's data model used by the crate, as a value tree (what a self-describing format
such as JSON carries): unsigned numbers, sequences and maps with string keys.
What `Serializer`s and `Deserializer`s at src/serde_utils.rs:14-33 and the derives of `Serialize`, e.g.
src/keygen.rs:91-94, see. -/
inductive SVal where
  | num (n : ℕ)
  | seq (l : List SVal)
  | map (kvs : List (String × SVal))

/-- `u8::deserialize`. Called for the bytes at src/serde_utils.rs:25-33. -/
def SVal.asU8 : SVal → Option UInt8
  | .num n => if n < 256 then some (UInt8.ofNat n) else none
  | _ => none

/-- A byte vector `Vec<u8>` as a serde value. Written at src/serde_utils.rs:14-24. -/
def SVal.bytes (bs : List UInt8) : SVal := .seq (bs.map fun b => .num b.toNat)

/-- `Vec<u8>::deserialize`. Called at src/serde_utils.rs:25-33. -/
def SVal.asBytes : SVal → Option (List UInt8)
  | .seq vs => vs.mapM SVal.asU8
  | _ => none

/-- `AsCanonical::serialize`, src/serde_utils.rs:14-24 -/
def asCanonicalSer {α : Type} (c : Ark α) (x : α) : SVal := SVal.bytes (c.ser x)

/-- `AsCanonical::deserialize`, src/serde_utils.rs:25-32: `T::deserialize_compressed(y.as_slice())`
does not look at the bytes it has not read. -/
def asCanonicalDe {α : Type} (c : Ark α) (v : SVal) : Option α := do
  let y ← v.asBytes
  let (x, _) ← c.de y
  return x

/-- `#[serde_as(as = "Vec<ArkObjectBytes>")]`, serialization (src/serde_utils.rs:35-45 per element) -/
def vecCanonicalSer {α : Type} (c : Ark α) (xs : List α) : SVal := .seq (xs.map (asCanonicalSer c))

/-- `#[serde_as(as = "Vec<ArkObjectBytes>")]`, deserialization (src/serde_utils.rs:46-56 per element) -/
def vecCanonicalDe {α : Type} (c : Ark α) : SVal → Option (List α)
  | .seq vs => vs.mapM (asCanonicalDe c)
  | _ => none

/-- The value of one named field in a map: an absent or a duplicate field is an error.
Used by the derives of `Deserialize`, e.g. src/keygen.rs:91-94. -/
def SVal.field (kvs : List (String × SVal)) (name : String) : Option SVal :=
  match kvs.filter (fun kv => kv.1 == name) with
  | [kv] => some kv.2
  | _ => none

/-- `#[derive(Deserialize)]` on a struct with the given field names: accepts a map (unknown keys are
ignored) or a sequence of exactly that many values. Used by the derives, e.g. src/keygen.rs:91-94. -/
def SVal.fields (names : List String) : SVal → Option (List SVal)
  | .map kvs => names.mapM (SVal.field kvs)
  | .seq vs => if vs.length = names.length then some vs else none
  | .num _ => none

/-- A type with the serde impls derived for it. E.g. the derives at src/keygen.rs:91-94. -/
structure Serde (α : Type) where
  enc : α → SVal
  dec : SVal → Option α

/-- serde derive on the newtype `SecretKey`, src/keygen.rs:26-39 -/
def serdeSecretKey : Serde (SecretKey E) where
  enc k := asCanonicalSer (arkField E.fr) k.rho
  dec v := do
    let rho ← asCanonicalDe (arkField E.fr) v
    return { rho := rho }

/-- serde derive on `SecretKeyST`, src/keygen.rs:42-53 -/
def serdeSecretKeyST : Serde (SecretKeyST E) where
  enc k := .map [("s", vecCanonicalSer (arkField E.fr) k.s), ("t", vecCanonicalSer (arkField E.fr) k.t)]
  dec v := do
    match ← v.fields ["s", "t"] with
    | [s, t] => do
      let s ← vecCanonicalDe (arkField E.fr) s
      let t ← vecCanonicalDe (arkField E.fr) t
      return { s := s, t := t }
    | _ => none

/-- serde derive on `P1share`, src/keygen.rs:56-64 -/
def serdeP1share : Serde (P1share E) where
  enc k := .map [("P_1", asCanonicalSer C.g1 k.P_1)]
  dec v := do
    match ← v.fields ["P_1"] with
    | [p] => do
      let p ← asCanonicalDe C.g1 p
      return { P_1 := p }
    | _ => none

/-- serde derive on `FEncryptionKeyPartial`, src/keygen.rs:67-87 -/
def serdePartialKey : Serde (FEncryptionKeyPartial E) where
  enc k := .map [("X_0", asCanonicalSer C.g1 k.X_0), ("X", vecCanonicalSer C.g1 k.X),
    ("Y", vecCanonicalSer C.g1 k.Y), ("Z", vecCanonicalSer C.g2 k.Z),
    ("P_2", asCanonicalSer C.g1 k.P_2)]
  dec v := do
    match ← v.fields ["X_0", "X", "Y", "Z", "P_2"] with
    | [X_0, X, Y, Z, P_2] => do
      let X_0 ← asCanonicalDe C.g1 X_0
      let X ← vecCanonicalDe C.g1 X
      let Y ← vecCanonicalDe C.g1 Y
      let Z ← vecCanonicalDe C.g2 Z
      let P_2 ← asCanonicalDe C.g1 P_2
      return { X_0 := X_0, X := X, Y := Y, Z := Z, P_2 := P_2 }
    | _ => none

/-- serde derive on `EncryptionKey`, src/keygen.rs:90-113 -/
def serdeEncryptionKey : Serde (EncryptionKey E) where
  enc k := .map [("X_0", asCanonicalSer C.g1 k.X_0), ("X", vecCanonicalSer C.g1 k.X),
    ("Y", vecCanonicalSer C.g1 k.Y), ("Z", vecCanonicalSer C.g2 k.Z),
    ("P_1", asCanonicalSer C.g1 k.P_1), ("P_2", asCanonicalSer C.g1 k.P_2)]
  dec v := do
    match ← v.fields ["X_0", "X", "Y", "Z", "P_1", "P_2"] with
    | [X_0, X, Y, Z, P_1, P_2] => do
      let X_0 ← asCanonicalDe C.g1 X_0
      let X ← vecCanonicalDe C.g1 X
      let Y ← vecCanonicalDe C.g1 Y
      let Z ← vecCanonicalDe C.g2 Z
      let P_1 ← asCanonicalDe C.g1 P_1
      let P_2 ← asCanonicalDe C.g1 P_2
      return { X_0 := X_0, X := X, Y := Y, Z := Z, P_1 := P_1, P_2 := P_2 }
    | _ => none

/-- serde derive on `FEncryptionKeyDest`, src/keygen.rs:116-125 -/
def serdeDestKey : Serde (FEncryptionKeyDest E) where
  enc k := .map [("pk", asCanonicalSer C.g1 k.pk)]
  dec v := do
    match ← v.fields ["pk"] with
    | [p] => do
      let p ← asCanonicalDe C.g1 p
      return { pk := p }
    | _ => none

/-- serde derive on `DecryptionKey`, src/keygen.rs:145-159 -/
def serdeDecryptionKey : Serde (DecryptionKey E) where
  enc k := .map [("V_0", asCanonicalSer C.g2 k.V_0), ("V_1", vecCanonicalSer C.g2 k.V_1),
    ("V_2", vecCanonicalSer C.g2 k.V_2)]
  dec v := do
    match ← v.fields ["V_0", "V_1", "V_2"] with
    | [V_0, V_1, V_2] => do
      let V_0 ← asCanonicalDe C.g2 V_0
      let V_1 ← vecCanonicalDe C.g2 V_1
      let V_2 ← vecCanonicalDe C.g2 V_2
      return { V_0 := V_0, V_1 := V_1, V_2 := V_2 }
    | _ => none

/-- serde derive on `Ciphertext`, src/encryption.rs:35-46 -/
def serdeCiphertext : Serde (Ciphertext E) where
  enc k := .map [("X_r", asCanonicalSer C.g1 k.X_r), ("enc_chunks", vecCanonicalSer C.g1 k.enc_chunks),
    ("commitment", asCanonicalSer C.g1 k.commitment)]
  dec v := do
    match ← v.fields ["X_r", "enc_chunks", "commitment"] with
    | [x, c, p] => do
      let x ← asCanonicalDe C.g1 x
      let c ← vecCanonicalDe C.g1 c
      let p ← asCanonicalDe C.g1 p
      return { X_r := x, enc_chunks := c, commitment := p }
    | _ => none

/-- serde derive on `EncryptionGens`, src/setup.rs:19-28 -/
def serdeEncryptionGens : Serde (EncryptionGens E) where
  enc k := .map [("G", asCanonicalSer C.g1 k.G), ("H", asCanonicalSer C.g2 k.H)]
  dec v := do
    match ← v.fields ["G", "H"] with
    | [g, h] => do
      let g ← asCanonicalDe C.g1 g
      let h ← asCanonicalDe C.g2 h
      return { G := g, H := h }
    | _ => none

/-- serde derive on `PreparedEncryptionGens`, src/setup.rs:31-40 -/
def serdePreparedEncryptionGens : Serde (PreparedEncryptionGens E) where
  enc k := .map [("G", asCanonicalSer C.g1 k.G), ("H", asCanonicalSer C.g2p k.H)]
  dec v := do
    match ← v.fields ["G", "H"] with
    | [g, h] => do
      let g ← asCanonicalDe C.g1 g
      let h ← asCanonicalDe C.g2p h
      return { G := g, H := h }
    | _ => none

/-- serde derive on `ChunkedCommitmentGens`, src/setup.rs:68-77 -/
def serdeCommitmentGens {A : Type} (c : Ark A) : Serde (ChunkedCommitmentGens A) where
  enc k := .map [("G", asCanonicalSer c k.G), ("H", asCanonicalSer c k.H)]
  dec v := do
    match ← v.fields ["G", "H"] with
    | [g, h] => do
      let g ← asCanonicalDe c g
      let h ← asCanonicalDe c h
      return { G := g, H := h }
    | _ => none

/-- serde derive on the tuple struct `ChunkedCommitment`, src/commitment.rs:42-49: a sequence of two
values (a tuple struct does not accept a map). -/
def serdeChunkedCommitment {A : Type} (c : Ark A) : Serde (ChunkedCommitment A) where
  enc k := .seq [asCanonicalSer c k.comm, vecCanonicalSer c k.key]
  dec v := do
    match v with
    | .seq [g, h] => do
      let g ← asCanonicalDe c g
      let h ← vecCanonicalDe c h
      return { comm := g, key := h }
    | _ => none

/-- `usize::deserialize` (64-bit target). Used by the derive at src/utils.rs:91-101. -/
def SVal.asUsize : SVal → Option ℕ
  | .num n => if n < 2 ^ 64 then some n else none
  | _ => none

/-- `#[serde_as(as = "Vec<Vec<ArkObjectBytes>>")]`, serialization (src/serde_utils.rs:35-45 per
element) -/
def vecVecCanonicalSer {α : Type} (c : Ark α) (xs : List (List α)) : SVal :=
  .seq (xs.map (vecCanonicalSer c))

/-- `#[serde_as(as = "Vec<Vec<ArkObjectBytes>>")]`, deserialization (src/serde_utils.rs:46-56 per
element) -/
def vecVecCanonicalDe {α : Type} (c : Ark α) : SVal → Option (List (List α))
  | .seq vs => vs.mapM (vecCanonicalDe c)
  | _ => none

/-- serde derive on `WindowTable`, src/utils.rs:89-100 -/
def serdeWindowTable {G : Type} (c : Ark G) : Serde (WindowTable G) where
  enc w := .map [("scalar_size", .num w.scalarSize), ("window_size", .num w.windowSize),
    ("outerc", .num w.outerc), ("table", vecVecCanonicalSer c w.table)]
  dec v := do
    match ← v.fields ["scalar_size", "window_size", "outerc", "table"] with
    | [a, b, o, t] => do
      let a ← a.asUsize
      let b ← b.asUsize
      let o ← o.asUsize
      let t ← vecVecCanonicalDe c t
      return { scalarSize := a, windowSize := b, outerc := o, table := t }
    | _ => none

/-- serde derive on `saver_groth16::ProvingKey`, src/saver_groth16.rs:28-39 -/
def serdeProvingKey : Serde (ProvingKey E) where
  enc k := .map [("pk", asCanonicalSer (arkGroth16ProvingKey C) k.pk),
    ("gamma_g1", asCanonicalSer C.g1 k.gamma_g1)]
  dec v := do
    match ← v.fields ["pk", "gamma_g1"] with
    | [pk, g] => do
      let pk ← asCanonicalDe (arkGroth16ProvingKey C) pk
      let g ← asCanonicalDe C.g1 g
      return { pk := pk, gamma_g1 := g }
    | _ => none

end Verif
