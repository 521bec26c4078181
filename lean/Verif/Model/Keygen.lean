/-
Model of src/keygen.rs.  Affine conversions (`into_affine`, `normalize_batch`) are identities
because affine and projective points are identified.
-/
import Verif.Model.Utils
import Verif.Model.Groth16Types

namespace Verif

/-- `EncryptionGens`, src/setup.rs:23-28 (defined here because keygen needs it). -/
structure EncryptionGens (E : Engine) where
  G : E.G1
  H : E.G2

/-- `PreparedEncryptionGens`, src/setup.rs:35-40; `G1Prepared` wraps an affine point. -/
structure PreparedEncryptionGens (E : Engine) where
  G : E.G1
  H : E.G2P

/-- `From<EncryptionGens> for PreparedEncryptionGens`, src/setup.rs:58-65. -/
def EncryptionGens.prepare {E : Engine} (g : EncryptionGens E) : PreparedEncryptionGens E where
  G := g.G
  H := E.prep g.H

/-- `SecretKey`, src/keygen.rs:39. -/
structure SecretKey (E : Engine) where
  rho : E.Fr

/-- `SecretKeyST`, src/keygen.rs:46-53. -/
structure SecretKeyST (E : Engine) where
  s : List E.Fr
  t : List E.Fr

/-- `P1share`, src/keygen.rs:60-64. -/
@[ext] structure P1share (E : Engine) where
  P_1 : E.G1

/-- `FEncryptionKeyPartial`, src/keygen.rs:71-87. -/
@[ext] structure FEncryptionKeyPartial (E : Engine) where
  X_0 : E.G1
  X : List E.G1
  Y : List E.G1
  Z : List E.G2
  P_2 : E.G1

/-- `EncryptionKey`, src/keygen.rs:94-113. -/
@[ext] structure EncryptionKey (E : Engine) where
  X_0 : E.G1
  X : List E.G1
  Y : List E.G1
  Z : List E.G2
  P_1 : E.G1
  P_2 : E.G1

/-- `FEncryptionKeyDest`, src/keygen.rs:120-125. -/
structure FEncryptionKeyDest (E : Engine) where
  pk : E.G1

/-- `PreparedEncryptionKey`, src/keygen.rs:129-142. -/
structure PreparedEncryptionKey (E : Engine) where
  X_0 : E.G1
  X : List E.G1
  Y : List E.G1
  Z : List E.G2P
  P_1 : E.G1
  P_2 : E.G1

/-- `DecryptionKey`, src/keygen.rs:149-159. -/
structure DecryptionKey (E : Engine) where
  V_0 : E.G2
  V_1 : List E.G2
  V_2 : List E.G2

/-- `PreparedDecryptionKey`, src/keygen.rs:163-170. -/
structure PreparedDecryptionKey (E : Engine) where
  V_0 : E.G2P
  V_1 : List E.G2P
  V_2 : List E.G2P

variable {E : Engine}

/-- `From<EncryptionKey> for PreparedEncryptionKey`, src/keygen.rs:228-241. -/
def EncryptionKey.prepare (ek : EncryptionKey E) : PreparedEncryptionKey E where
  X_0 := ek.X_0
  X := ek.X
  Y := ek.Y
  Z := ek.Z.map E.prep
  P_1 := ek.P_1
  P_2 := ek.P_2

/-- `From<DecryptionKey> for PreparedDecryptionKey`, src/keygen.rs:243-255. -/
def DecryptionKey.prepare (dk : DecryptionKey E) : PreparedDecryptionKey E where
  V_0 := E.prep dk.V_0
  V_1 := dk.V_1.map E.prep
  V_2 := dk.V_2.map E.prep

/-- Body of `supported_chunks_count` for encryption keys, src/keygen.rs:174-183 (macro
`impl_enc_key_funcs`, expanded for both key types), as a function of the three lengths. -/
def encKeyChunks (lenX lenY lenZ : ℕ) : Res UInt8 :=
  if lenY ≠ lenX then .err (.malformedEncryptionKey lenY lenX)
  else if lenZ ≠ lenX + 1 then .err (.malformedEncryptionKey lenZ lenX)
  else .ok (UInt8.ofNat lenX)

/-- `EncryptionKey::supported_chunks_count`, src/keygen.rs:174-183,224-226. -/
def EncryptionKey.supportedChunksCount (ek : EncryptionKey E) : Res UInt8 :=
  encKeyChunks ek.X.length ek.Y.length ek.Z.length

/-- `PreparedEncryptionKey::supported_chunks_count`, src/keygen.rs:174-183,257-259. -/
def PreparedEncryptionKey.supportedChunksCount (ek : PreparedEncryptionKey E) : Res UInt8 :=
  encKeyChunks ek.X.length ek.Y.length ek.Z.length

/-- `EncryptionKey::validate`, src/keygen.rs:185-188. -/
def EncryptionKey.validate (ek : EncryptionKey E) : Res Unit := do
  let _ ← ek.supportedChunksCount
  return ()

/-- `PreparedEncryptionKey::validate`, src/keygen.rs:185-188. -/
def PreparedEncryptionKey.validate (ek : PreparedEncryptionKey E) : Res Unit := do
  let _ ← ek.supportedChunksCount
  return ()

/-- `EncryptionKey::commitment_key`, src/keygen.rs:190-194. -/
def EncryptionKey.commitmentKey (ek : EncryptionKey E) : List E.G1 := ek.Y ++ [ek.P_1]

/-- `PreparedEncryptionKey::commitment_key`, src/keygen.rs:190-194. -/
def PreparedEncryptionKey.commitmentKey (ek : PreparedEncryptionKey E) : List E.G1 :=
  ek.Y ++ [ek.P_1]

/-- Body of `supported_chunks_count` for decryption keys, src/keygen.rs:200-206. -/
def decKeyChunks (len1 len2 : ℕ) : Res UInt8 :=
  if len2 ≠ len1 then .err (.malformedDecryptionKey len2 len1)
  else .ok (UInt8.ofNat len1)

/-- `DecryptionKey::supported_chunks_count`, src/keygen.rs:200-206,261-262. -/
def DecryptionKey.supportedChunksCount (dk : DecryptionKey E) : Res UInt8 :=
  decKeyChunks dk.V_1.length dk.V_2.length

/-- `PreparedDecryptionKey::supported_chunks_count`, src/keygen.rs:200-206,275-276. -/
def PreparedDecryptionKey.supportedChunksCount (dk : PreparedDecryptionKey E) : Res UInt8 :=
  decKeyChunks dk.V_1.length dk.V_2.length

/-- `DecryptionKey::validate`, src/keygen.rs:208-211. -/
def DecryptionKey.validate (dk : DecryptionKey E) : Res Unit := do
  let _ ← dk.supportedChunksCount
  return ()

/-- `PreparedDecryptionKey::validate`, src/keygen.rs:208-211. -/
def PreparedDecryptionKey.validate (dk : PreparedDecryptionKey E) : Res Unit := do
  let _ ← dk.supportedChunksCount
  return ()

/-- `let chunk_max_val = (1 << chunk_bit_size) - 1;` of src/keygen.rs:288, an `i32` by integer
fallback.  Checked builds panic for a shift by 32 or more and for `b = 31` (`i32::MIN - 1`);
unchecked builds mask the shift amount and wrap (for `b = 31` to `i32::MAX = 2^31 - 1`). -/
def chunkMaxI32 (chk : Bool) (b : UInt8) : Res ℕ :=
  if chk then (if b.toNat ≤ 30 then .ok (2 ^ b.toNat - 1) else .panic)
  else .ok (2 ^ (b.toNat % 32) - 1)

/-- Inner loop of `pairing_powers`, src/keygen.rs:296-301: `cur` is pushed, then `k` more times
`cur += g; push(cur)`. -/
def powersLoop {A : Type} [AddCommGroup A] (g : A) : A → ℕ → List A
  | cur, 0 => [cur]
  | cur, k + 1 => cur :: powersLoop g (cur + g) k

/-- `PreparedDecryptionKey::pairing_powers`, src/keygen.rs:282-305.  (`for _ in 1..max` runs
`max - 1` times, not at all for `max = 0`.) -/
def PreparedDecryptionKey.pairingPowers (chk : Bool) (dk : PreparedDecryptionKey E) (b : UInt8)
    (g_i : List E.G1) : Res (List (List E.GT)) := do
  let n ← dk.supportedChunksCount
  let maxVal ← chunkMaxI32 chk b
  mapRes (fun i => do
    let g ← idx g_i i
    let v ← idx dk.V_2 i
    let gv := E.pairP g v
    return powersLoop gv gv (maxVal - 1)) (List.range n.toNat)

/-- `DecryptionKey::pairing_powers`, src/keygen.rs:265-272. -/
def DecryptionKey.pairingPowers (chk : Bool) (dk : DecryptionKey E) (b : UInt8)
    (g_i : List E.G1) : Res (List (List E.GT)) :=
  dk.prepare.pairingPowers chk b g_i

/-- `pairing_powers_given_groth16_vk`, src/keygen.rs:213-220 (prepared key). -/
def PreparedDecryptionKey.pairingPowersGivenGroth16Vk (chk : Bool) (dk : PreparedDecryptionKey E)
    (b : UInt8) (vk : VerifyingKey E) : Res (List (List E.GT)) := do
  let g_i ← getGsForEncryption vk
  dk.pairingPowers chk b g_i

/-- `pairing_powers_given_groth16_vk`, src/keygen.rs:213-220 (unprepared key). -/
def DecryptionKey.pairingPowersGivenGroth16Vk (chk : Bool) (dk : DecryptionKey E)
    (b : UInt8) (vk : VerifyingKey E) : Res (List (List E.GT)) := do
  let g_i ← getGsForEncryption vk
  dk.pairingPowers chk b g_i

/-- `FkeygenPartial`, src/keygen.rs:310-358. Returns the RNG state too. -/
def fkeygenPartial (R : RngCore E) (st : R.σ) (b : UInt8) (gens : EncryptionGens E)
    (g_i : List E.G1) (delta_g gamma_g : E.G1) :
    Res ((SecretKeyST E × FEncryptionKeyPartial E) × R.σ) := do
  let n8 ← chunksCount E.fr b
  let n := n8.toNat
  if n > g_i.length then .err (.vectorShorterThanExpected g_i.length n)
  else do
    let (s, st) := R.frs n st
    let (t, st) := R.frs (n + 1) st
    let t_repr := t.map intoBigint
    let X ← multiplyFieldElems (K := E.fr) delta_g s
    let Y ← mapRes (fun i => do
      let g ← idx g_i i
      let k ← idx t_repr (i + 1)
      return mulBigint g k) (List.range n)
    let Z ← multiplyFieldElems (K := E.fr) gens.H t
    let P_2 := mulBigint gamma_g (intoBigint (K := E.fr) s.sum)
    return (({ s := s, t := t }, { X_0 := delta_g, X := X, Y := Y, Z := Z, P_2 := P_2 }), st)

/-- One of the inner loops of `combineEKs`, src/keygen.rs:372-380:
`for j in 0..a.len() { a[j] = a[j] + b[j] }`.  Simplification: iteration `j` reads and writes only
index `j`, so the in-place update is written as building the new vector. -/
def addInto {A : Type} [AddCommGroup A] (a b : List A) : Res (List A) :=
  mapRes (fun j => do
    let x ← idx a j
    let y ← idx b j
    return x + y) (List.range a.length)

/-- Body of the outer loop of `combineEKs`, src/keygen.rs:371-382. -/
def combineStep (ek ek' : FEncryptionKeyPartial E) : Res (FEncryptionKeyPartial E) := do
  let X ← addInto ek.X ek'.X
  let Y ← addInto ek.Y ek'.Y
  let Z ← addInto ek.Z ek'.Z
  return { ek with X := X, Y := Y, Z := Z, P_2 := ek.P_2 + ek'.P_2 }

/-- A loop over a list with an accumulator and a body that may fail.
The loops at src/keygen.rs:371-382 and 425-427. -/
def foldRes {α β : Type} (f : β → α → Res β) : β → List α → Res β
  | acc, [] => .ok acc
  | acc, a :: as => do
    let acc' ← f acc a
    foldRes f acc' as

/-- `combineEKs`, src/keygen.rs:361-393. -/
def combineEKs (gamma_g : E.G1) (eks : List (FEncryptionKeyPartial E)) :
    Res (FEncryptionKeyPartial E) := do
  let ek0 ← idx eks 0
  let ek ← foldRes combineStep ek0 eks.tail
  return { ek with P_2 := gamma_g + ek.P_2 }

/-- `genP1share`, src/keygen.rs:396-417. -/
def genP1share (ek : FEncryptionKeyPartial E) (sk : SecretKeyST E) : Res (P1share E) := do
  let t0 ← idx sk.t 0
  let delta_g_t := mulBigint ek.X_0 (intoBigint (K := E.fr) t0)
  let P_1_vec ← mapRes (fun j => do
    let x ← idx ek.X j
    let t ← idx sk.t (j + 1)
    return mulBigint x (intoBigint (K := E.fr) t)) (List.range ek.X.length)
  return { P_1 := P_1_vec.foldl (· + ·) delta_g_t }

/-- `combineP1share`, src/keygen.rs:419-434. -/
def combineP1share (shares : List (P1share E)) : Res (P1share E) := do
  let p0 ← idx shares 0
  return { P_1 := shares.tail.foldl (fun acc s => acc + s.P_1) p0.P_1 }

/-- `keygenFinal`, src/keygen.rs:437-452. -/
def keygenFinal (ek : FEncryptionKeyPartial E) (p1 : P1share E) : EncryptionKey E where
  X_0 := ek.X_0
  X := ek.X
  Y := ek.Y
  Z := ek.Z
  P_1 := p1.P_1
  P_2 := ek.P_2

/-- `Fkeygen_dest`, src/keygen.rs:455-472. -/
def fkeygenDest (R : RngCore E) (st : R.σ) (gens : EncryptionGens E) :
    Res ((SecretKey E × FEncryptionKeyDest E) × R.σ) :=
  let (rho, st) := R.fr st
  .ok (({ rho := rho }, { pk := mulBigint gens.G (intoBigint (K := E.fr) rho) }), st)

/-- `keygen`, src/keygen.rs:476-542. -/
def keygen (R : RngCore E) (st : R.σ) (b : UInt8) (gens : EncryptionGens E)
    (g_i : List E.G1) (delta_g gamma_g : E.G1) :
    Res ((SecretKey E × EncryptionKey E × DecryptionKey E) × R.σ) := do
  let n8 ← chunksCount E.fr b
  let n := n8.toNat
  if n > g_i.length then .err (.vectorShorterThanExpected g_i.length n)
  else do
    let (rho, st) := R.fr st
    let (s, st) := R.frs n st
    let (t, st) := R.frs (n + 1) st
    let (v, st) := R.frs n st
    let t_repr := t.map intoBigint
    let X ← multiplyFieldElems (K := E.fr) delta_g s
    let Y ← mapRes (fun i => do
      let g ← idx g_i i
      let k ← idx t_repr (i + 1)
      return mulBigint g k) (List.range n)
    let Z ← multiplyFieldElems (K := E.fr) gens.H t
    let t0 ← idx t 0
    let prods ← mapRes (fun j => do
      let x ← idx s j
      let y ← idx t (j + 1)
      return x * y) (List.range n)
    let P_1 := mulBigint delta_g (intoBigint (K := E.fr) (t0 + prods.sum))
    let P_2 := mulBigint gamma_g (intoBigint (K := E.fr) (1 + s.sum))
    let V_0 := mulBigint gens.H (intoBigint (K := E.fr) rho)
    let V_2 ← multiplyFieldElems (K := E.fr) V_0 v
    let V_1 ← multiplyFieldElems (K := E.fr) gens.H (List.zipWith (· * ·) s v)
    return (({ rho := rho },
      { X_0 := delta_g, X := X, Y := Y, Z := Z, P_1 := P_1, P_2 := P_2 },
      { V_0 := V_0, V_1 := V_1, V_2 := V_2 }), st)

end Verif
