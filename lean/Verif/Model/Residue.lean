/-
What the functions that handle secrets leave behind in freed heap memory.
-/
import Verif.Model.Protocol

namespace Verif
variable {E : Engine}

/-- The contents of a heap buffer at the moment it is given back to the allocator.  Dropping a `Vec` frees its buffer without
overwriting it; of the crate's types only `SecretKey` derives `ZeroizeOnDrop`, src/keygen.rs:28-39, and it owns no heap memory.
Simplification: only the buffers of the crate's own vectors that depend on secrets are recorded (not those of the dependencies,
such as the bits of a scalar in `windowed_mul`; not the stack), so that what is recorded is a lower bound. -/
inductive Buffer (E : Engine) where
  /-- of a `Vec<E::ScalarField>`, e.g. src/keygen.rs:331 -/
  | scalars (l : List E.Fr)
  /-- of a `Vec<BigInt>`, e.g. src/keygen.rs:334 -/
  | integers (l : List ℕ)
  /-- of a `Vec<CHUNK_TYPE>`, e.g. src/encryption.rs:319 -/
  | chunks (l : List UInt16)
  /-- of a `Vec<E::G1Affine>`, src/encryption.rs:486 -/
  | points (l : List E.G1)
  /-- of a `Vec<u8>`, src/utils.rs:31 -/
  | bytes (l : List UInt8)

/-- Dropping a party's secret key: `SecretKeyST` does not derive `ZeroizeOnDrop`, src/keygen.rs:43-53. -/
def SecretKeyST.freed (sk : SecretKeyST E) : List (Buffer E) := [.scalars sk.s, .scalars sk.t]

/-- `FkeygenPartial`, src/keygen.rs:310-358, with what it frees: `t_repr` (line 334); `s` and `t` are moved into the secret key. -/
def fkeygenPartialFreed (R : RngCore E) (st : R.σ) (b : UInt8) (gens : EncryptionGens E)
    (g_i : List E.G1) (delta_g gamma_g : E.G1) :
    Res (((SecretKeyST E × FEncryptionKeyPartial E) × List (Buffer E)) × R.σ) := do
  let n8 ← chunksCount E.fr b
  let n := n8.toNat
  if n > g_i.length then .err (.vectorShorterThanExpected g_i.length n)
  else do
    let (s, st) := R.frs n st
    let (t, st) := R.frs (n + 1) st
    let t_repr := t.map intoBigint
    let X ← multiplyFieldElems (K := E.fr) delta_g s
    let Y ← mapRes (fun i => do
      let g ← idx g_i i
      let k ← idx t_repr (i + 1)
      return mulBigint g k) (List.range n)
    let Z ← multiplyFieldElems (K := E.fr) gens.H t
    let P_2 := mulBigint gamma_g (intoBigint (K := E.fr) s.sum)
    return ((({ s := s, t := t }, { X_0 := delta_g, X := X, Y := Y, Z := Z, P_2 := P_2 }), [.integers t_repr]), st)

/-- `keygen`, src/keygen.rs:476-542, with what it frees: `t_repr` (line 505), `t`, `v` and the products `s_i v_i` collected at
lines 531-534.  `reuse` says whether that `collect` reuses the buffer of `s`, as the standard library is free to do (and does
in optimised builds); otherwise the buffer of `s` is freed as it is. -/
def keygenFreed (reuse : Bool) (R : RngCore E) (st : R.σ) (b : UInt8) (gens : EncryptionGens E)
    (g_i : List E.G1) (delta_g gamma_g : E.G1) :
    Res (((SecretKey E × EncryptionKey E × DecryptionKey E) × List (Buffer E)) × R.σ) := do
  let n8 ← chunksCount E.fr b
  let n := n8.toNat
  if n > g_i.length then .err (.vectorShorterThanExpected g_i.length n)
  else do
    let (rho, st) := R.fr st
    let (s, st) := R.frs n st
    let (t, st) := R.frs (n + 1) st
    let (v, st) := R.frs n st
    let t_repr := t.map intoBigint
    let X ← multiplyFieldElems (K := E.fr) delta_g s
    let Y ← mapRes (fun i => do
      let g ← idx g_i i
      let k ← idx t_repr (i + 1)
      return mulBigint g k) (List.range n)
    let Z ← multiplyFieldElems (K := E.fr) gens.H t
    let t0 ← idx t 0
    let prods ← mapRes (fun j => do
      let x ← idx s j
      let y ← idx t (j + 1)
      return x * y) (List.range n)
    let P_1 := mulBigint delta_g (intoBigint (K := E.fr) (t0 + prods.sum))
    let P_2 := mulBigint gamma_g (intoBigint (K := E.fr) (1 + s.sum))
    let V_0 := mulBigint gens.H (intoBigint (K := E.fr) rho)
    let V_2 ← multiplyFieldElems (K := E.fr) V_0 v
    let sv := List.zipWith (· * ·) s v
    let V_1 ← multiplyFieldElems (K := E.fr) gens.H sv
    return ((({ rho := rho },
      { X_0 := delta_g, X := X, Y := Y, Z := Z, P_1 := P_1, P_2 := P_2 },
      { V_0 := V_0, V_1 := V_1, V_2 := V_2 }),
      [.integers t_repr, .scalars t, .scalars v, .scalars sv] ++ if reuse then [] else [.scalars s]), st)

/-- `Encryption::encrypt_decomposed_message`, src/encryption.rs:353-389, with what it frees however it ends: the chunks, and
(if it gets that far) the vector `m` of the chunks and the randomness (lines 376-385). -/
def encryptDecomposedMessageFreed (R : RngCore E) (st : R.σ) (chunks : List UInt16)
    (ek : EncryptionKey E) (g_i : List E.G1) : Res ((List E.G1 × E.Fr) × R.σ) × List (Buffer E) :=
  match ek.supportedChunksCount with
  | .err e => (.err e, [.chunks chunks])
  | .panic => (.panic, [.chunks chunks])
  | .ok cnt =>
    let expected := cnt.toNat
    if chunks.length ≠ expected then (.err (.incompatibleEncryptionKey chunks.length expected), [.chunks chunks])
    else if chunks.length > g_i.length then
      (.err (.vectorShorterThanExpected chunks.length g_i.length), [.chunks chunks])
    else
      let (r, st) := R.fr st
      let r_repr := intoBigint (K := E.fr) r
      let m := chunks.map fun m_i => m_i.toNat
      (do
        let cs ← mapRes (fun i => do
          let x ← idx ek.X i
          let g ← idx g_i i
          let k ← idx m i
          return mulBigint x r_repr + mulBigint g k) (List.range ek.X.length)
        let psi := msmBigint ek.commitmentKey (m ++ [r_repr])
        return ((mulBigint ek.X_0 r_repr :: (cs ++ [psi]), r), st),
      [.chunks chunks, .integers (m ++ [r_repr])])

/-- `Encryption::encrypt`, src/encryption.rs:106-123, with what it frees however it ends: the bytes of the message
(src/utils.rs:31), and what `encrypt_decomposed_message` frees. -/
def encryptFreed (R : RngCore E) (st : R.σ) (m : E.Fr) (ek : EncryptionKey E) (g_i : List E.G1)
    (b : UInt8) : Res ((Ciphertext E × E.Fr) × R.σ) × List (Buffer E) :=
  let bytes := toBytesBE E.fr.limbs (intoBigint (K := E.fr) m)
  match decompose (K := E.fr) m b with
  | .err e => (.err e, [.bytes bytes])
  | .panic => (.panic, [.bytes bytes])
  | .ok decomposed =>
    let (res, freed) := encryptDecomposedMessageFreed R st decomposed ek g_i
    (do
      let ((ct, r), st) ← res
      let (X_r, ct) ← vecRemove ct 0
      let (commitment, ct) ← vecRemove ct (ct.length - 1)
      return (({ X_r := X_r, enc_chunks := ct, commitment := commitment }, r), st),
    .bytes bytes :: freed)

/-- What a loop `for i in l { v.push(f(i)?) }` has pushed to `v` when it ends or fails; src/encryption.rs:319-348 and 490-502. -/
def pushed {A B : Type} (f : A → Res B) : List A → List B
  | [] => []
  | a :: l => match f a with
    | .ok b => b :: pushed f l
    | _ => []

/-- `Encryption::decrypt`, src/encryption.rs:159-169 with 282-350 inlined, with what it frees however it ends: the chunks found
(src/encryption.rs:319). -/
def decryptFreed (chk : Bool) (c_0 : E.G1) (c : List E.G1) (sk : SecretKey E)
    (dk : PreparedDecryptionKey E) (g_i : List E.G1) (b : UInt8) : Res (E.Fr × E.G1) × List (Buffer E) :=
  let n := c.length
  match dk.supportedChunksCount with
  | .err e => (.err e, [])
  | .panic => (.panic, [])
  | .ok cnt =>
    if n ≠ cnt.toNat then (.err (.incompatibleDecryptionKey n cnt.toNat), [])
    else if n > g_i.length then (.err (.vectorShorterThanExpected n g_i.length), [])
    else
      let c_0_rho := mulBigint c_0 (intoBigint (K := E.fr) (-sk.rho))
      match chunkMaxU32 chk b with
      | .err e => (.err e, [])
      | .panic => (.panic, [])
      | .ok maxVal =>
        let f := fun i => do
          let ci ← idx c i
          let v2 ← idx dk.V_2 i
          let v1 ← idx dk.V_1 i
          let p ← E.multiPairing [ci, c_0_rho] [v2, v1]
          if p = 0 then Res.ok 0
          else do
            let g ← idx g_i i
            let g_i_v_i := E.pairP g v2
            solveDiscreteLog (UInt16.ofNat maxVal) g_i_v_i p
        (do
          let chunks ← mapRes f (List.range n)
          let m ← compose (K := E.fr) chk chunks b
          return (m, -c_0_rho),
        [.chunks (pushed f (List.range n))])

/-- `Encryption::decrypt_to_chunks_after_re_encryption`, src/encryption.rs:473-504, with what it frees however it ends: the
points `gi_mi` (lines 486-488), and the chunks found unless they are returned. -/
def decryptAfterReEncryptionFreed (chk : Bool) (c_0 : E.G1) (c : List E.G1) (sk : SecretKey E)
    (g_i : List E.G1) (b : UInt8) : Res (List UInt16) × List (Buffer E) :=
  let n := c.length
  if n > g_i.length then (.err (.vectorShorterThanExpected n g_i.length), [])
  else
    let c_0_rho := mulBigint c_0 (intoBigint (K := E.fr) (-sk.rho))
    let gi_mi := c.map fun x => x + c_0_rho
    match chunkMaxU32 chk b with
    | .err e => (.err e, [.points gi_mi])
    | .panic => (.panic, [.points gi_mi])
    | .ok maxVal =>
      let f := fun i => do
        let p ← idx gi_mi i
        if p = 0 then Res.ok 0
        else do
          let g ← idx g_i i
          solveDiscreteLog (UInt16.ofNat maxVal) g p
      match mapRes f (List.range n) with
      | .ok chunks => (.ok chunks, [.points gi_mi])
      | .err e => (.err e, [.points gi_mi, .chunks (pushed f (List.range n))])
      | .panic => (.panic, [.points gi_mi, .chunks (pushed f (List.range n))])

end Verif
