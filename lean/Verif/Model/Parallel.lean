/-
The crate with its default feature `parallel` (Cargo.toml:30,33): `cfg_iter!`/`cfg_into_iter!` are rayon's
parallel iterators, and `.map(f).collect::<Vec<_>>()` runs on a thread pool.  The rest of the model describes these
maps as `List.map`; this file models the pool and the functions that use it.
-/
import Verif.Model.Encryption
import Mathlib.Logic.Relation

namespace Verif

/-- State of a parallel `map(f).collect()`: the index ranges `[lo, hi)` still to be processed (each is a rayon job,
waiting or held by some worker thread), the slots of the result vector, and a ghost log of the items processed so
far (which call of the closure was made, in order).
The maps at src/keygen.rs:234,247,250,334,505 and src/encryption.rs:376,584. -/
structure PoolState (β : Type) where
  tasks : List (ℕ × ℕ)
  slots : List (Option β)
  log : List ℕ

/-- One step of the pool (rayon's `bridge_producer_consumer` and `collect_into_vec` on an indexed parallel
iterator): some worker splits a range at any inner point, or processes the first item of a range and writes the result
to that item's slot, or drops an empty range. Any task may be chosen at any moment, so all interleavings of any
number of threads, all splittings and all stealing orders are covered. Simplification: writing a slot is atomic.
The maps at src/keygen.rs:234,247,250,334,505 and src/encryption.rs:376,584. -/
inductive PoolStep {α β : Type} (f : α → β) (xs : List α) : PoolState β → PoolState β → Prop
  | split {pre post : List (ℕ × ℕ)} {lo mid hi : ℕ} {slots log} (h1 : lo < mid) (h2 : mid < hi) :
      PoolStep f xs ⟨pre ++ (lo, hi) :: post, slots, log⟩ ⟨pre ++ (lo, mid) :: (mid, hi) :: post, slots, log⟩
  | item {pre post : List (ℕ × ℕ)} {lo hi : ℕ} {slots log} {x : α} (h : lo < hi) (hx : xs[lo]? = some x) :
      PoolStep f xs ⟨pre ++ (lo, hi) :: post, slots, log⟩
        ⟨pre ++ (lo + 1, hi) :: post, slots.set lo (some (f x)), log ++ [lo]⟩
  | retire {pre post : List (ℕ × ℕ)} {lo : ℕ} {slots log} :
      PoolStep f xs ⟨pre ++ (lo, lo) :: post, slots, log⟩ ⟨pre ++ post, slots, log⟩

/-- The start: one task for the whole range, no slot written.
The maps at src/keygen.rs:234,247,250,334,505 and src/encryption.rs:376,584. -/
def poolInit {α : Type} (β : Type) (xs : List α) : PoolState β :=
  ⟨[(0, xs.length)], List.replicate xs.length none, []⟩

/-- `PoolRuns f xs S`: `S` is reached by some schedule.
The maps at src/keygen.rs:234,247,250,334,505 and src/encryption.rs:376,584. -/
def PoolRuns {α β : Type} (f : α → β) (xs : List α) (S : PoolState β) : Prop :=
  Relation.ReflTransGen (PoolStep f xs) (poolInit β xs) S

/-- `ys` is the vector some complete schedule collects.
The maps at src/keygen.rs:234,247,250,334,505 and src/encryption.rs:376,584. -/
def Collects {α β : Type} (f : α → β) (xs : List α) (ys : List β) : Prop :=
  ∃ S, PoolRuns f xs S ∧ S.tasks = [] ∧ S.slots = ys.map some

/-- A thread pool: what it collects at each call site is the outcome of some schedule, any at all.
The call sites are src/keygen.rs:234,247,250,334,505 and src/encryption.rs:376,584. -/
structure Pool where
  collect : ∀ {α β : Type}, ℕ → (α → β) → List α → List β
  scheduled : ∀ {α β : Type} (site : ℕ) (f : α → β) (xs : List α), Collects f xs (collect site f xs)

variable {E : Engine}

/-- `From<EncryptionKey> for PreparedEncryptionKey`, src/keygen.rs:228-241, with a thread pool. -/
def EncryptionKey.prepareOn (P : Pool) (ek : EncryptionKey E) : PreparedEncryptionKey E where
  X_0 := ek.X_0
  X := ek.X
  Y := ek.Y
  Z := P.collect 234 E.prep ek.Z
  P_1 := ek.P_1
  P_2 := ek.P_2

/-- `From<DecryptionKey> for PreparedDecryptionKey`, src/keygen.rs:243-255, with a thread pool. -/
def DecryptionKey.prepareOn (P : Pool) (dk : DecryptionKey E) : PreparedDecryptionKey E where
  V_0 := E.prep dk.V_0
  V_1 := P.collect 247 E.prep dk.V_1
  V_2 := P.collect 250 E.prep dk.V_2

/-- `FkeygenPartial`, src/keygen.rs:310-358, with a thread pool (line 334). -/
def fkeygenPartialOn (P : Pool) (R : RngCore E) (st : R.σ) (b : UInt8) (gens : EncryptionGens E)
    (g_i : List E.G1) (delta_g gamma_g : E.G1) :
    Res ((SecretKeyST E × FEncryptionKeyPartial E) × R.σ) := do
  let n8 ← chunksCount E.fr b
  let n := n8.toNat
  if n > g_i.length then .err (.vectorShorterThanExpected g_i.length n)
  else do
    let (s, st) := R.frs n st
    let (t, st) := R.frs (n + 1) st
    let t_repr := P.collect 334 (intoBigint (K := E.fr)) t
    let X ← multiplyFieldElems (K := E.fr) delta_g s
    let Y ← mapRes (fun i => do
      let g ← idx g_i i
      let k ← idx t_repr (i + 1)
      return mulBigint g k) (List.range n)
    let Z ← multiplyFieldElems (K := E.fr) gens.H t
    let P_2 := mulBigint gamma_g (intoBigint (K := E.fr) s.sum)
    return (({ s := s, t := t }, { X_0 := delta_g, X := X, Y := Y, Z := Z, P_2 := P_2 }), st)

/-- `keygen`, src/keygen.rs:476-542, with a thread pool (line 505). -/
def keygenOn (P : Pool) (R : RngCore E) (st : R.σ) (b : UInt8) (gens : EncryptionGens E)
    (g_i : List E.G1) (delta_g gamma_g : E.G1) :
    Res ((SecretKey E × EncryptionKey E × DecryptionKey E) × R.σ) := do
  let n8 ← chunksCount E.fr b
  let n := n8.toNat
  if n > g_i.length then .err (.vectorShorterThanExpected g_i.length n)
  else do
    let (rho, st) := R.fr st
    let (s, st) := R.frs n st
    let (t, st) := R.frs (n + 1) st
    let (v, st) := R.frs n st
    let t_repr := P.collect 505 (intoBigint (K := E.fr)) t
    let X ← multiplyFieldElems (K := E.fr) delta_g s
    let Y ← mapRes (fun i => do
      let g ← idx g_i i
      let k ← idx t_repr (i + 1)
      return mulBigint g k) (List.range n)
    let Z ← multiplyFieldElems (K := E.fr) gens.H t
    let t0 ← idx t 0
    let prods ← mapRes (fun j => do
      let x ← idx s j
      let y ← idx t (j + 1)
      return x * y) (List.range n)
    let P_1 := mulBigint delta_g (intoBigint (K := E.fr) (t0 + prods.sum))
    let P_2 := mulBigint gamma_g (intoBigint (K := E.fr) (1 + s.sum))
    let V_0 := mulBigint gens.H (intoBigint (K := E.fr) rho)
    let V_2 ← multiplyFieldElems (K := E.fr) V_0 v
    let V_1 ← multiplyFieldElems (K := E.fr) gens.H (List.zipWith (· * ·) s v)
    return (({ rho := rho },
      { X_0 := delta_g, X := X, Y := Y, Z := Z, P_1 := P_1, P_2 := P_2 },
      { V_0 := V_0, V_1 := V_1, V_2 := V_2 }), st)

/-- `Encryption::encrypt_decomposed_message`, src/encryption.rs:353-389, with a thread pool (line 376). -/
def encryptDecomposedMessageOn (P : Pool) (R : RngCore E) (st : R.σ) (chunks : List UInt16)
    (ek : EncryptionKey E) (g_i : List E.G1) : Res ((List E.G1 × E.Fr) × R.σ) := do
  let cnt ← ek.supportedChunksCount
  let expected := cnt.toNat
  if chunks.length ≠ expected then
    .err (.incompatibleEncryptionKey chunks.length expected)
  else if chunks.length > g_i.length then
    .err (.vectorShorterThanExpected chunks.length g_i.length)
  else do
    let (r, st) := R.fr st
    let r_repr := intoBigint (K := E.fr) r
    let m := P.collect 376 (fun m_i : UInt16 => m_i.toNat) chunks
    let cs ← mapRes (fun i => do
      let x ← idx ek.X i
      let g ← idx g_i i
      let k ← idx m i
      return mulBigint x r_repr + mulBigint g k) (List.range ek.X.length)
    let psi := msmBigint ek.commitmentKey (m ++ [r_repr])
    return ((mulBigint ek.X_0 r_repr :: (cs ++ [psi]), r), st)

/-- `get_g1_for_ciphertext_commitments_in_batch_pairing_checks`, src/encryption.rs:578-608, with a thread
pool (line 584). -/
def getG1ForBatchChecksOn (P : Pool) (cts : List (Ciphertext E)) (r_powers : List E.Fr) :
    Res (List E.G1) := do
  let ct0 ← idx cts 0
  let num := r_powers.length
  let r_repr := P.collect 584 (intoBigint (K := E.fr)) r_powers
  let bases0 ← mapRes (fun i => do
    let ct ← idx cts i
    return ct.X_r) (List.range num)
  let mids ← mapRes (fun j => do
    let bases ← mapRes (fun i => do
      let ct ← idx cts i
      idx ct.enc_chunks j) (List.range num)
    return msmBigint bases r_repr) (List.range ct0.enc_chunks.length)
  let basesN ← mapRes (fun i => do
    let ct ← idx cts i
    return ct.commitment) (List.range num)
  return [msmBigint bases0 r_repr] ++ mids ++ [-(msmBigint basesN r_repr)]

/-- `Encryption::verify_commitments_in_batch`, src/encryption.rs:252-279, with a thread pool. -/
def verifyCommitmentsInBatchOn (P : Pool) (cts : List (Ciphertext E)) (r_powers : List E.Fr)
    (ek : PreparedEncryptionKey E) (gens : PreparedEncryptionGens E) : Res Unit :=
  if r_powers.length ≠ cts.length then .panic
  else do
    let cnt ← ek.supportedChunksCount
    batchShapes cnt.toNat cts
    let a ← getG1ForBatchChecksOn P cts r_powers
    let b ← getG2ForCommitmentChecks ek gens
    let p ← E.multiPairing a b
    if p = 0 then .ok () else .err .invalidCommitment

end Verif
