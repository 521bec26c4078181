/-
Model of src/commitment.rs: chunked Pedersen commitments in any prime-order group `G` with scalar
field `K`.
-/
import Verif.Model.Utils

namespace Verif

/-- `ChunkedCommitmentGens`, src/setup.rs:72-77. -/
structure ChunkedCommitmentGens (A : Type) where
  G : A
  H : A

/-- `ChunkedCommitment`, src/commitment.rs:46-49: the commitment and the commitment key. -/
structure ChunkedCommitment (G : Type) where
  comm : G
  key : List G

variable (K : FieldCfg) {G : Type} [AddCommGroup G]

/-- `let radix = (1 << chunk_bit_size) as u64;`, src/commitment.rs:84.  The literal is an `i32` by
integer fallback; the cast to `u64` sign-extends, so `b = 31` gives `2^64 - 2^31`.  Checked builds
panic for `b >= 32`, unchecked builds mask the shift amount. -/
def radixOf (chk : Bool) (b : UInt8) : Res ℕ :=
  let asU64 (k : ℕ) : ℕ := if k = 31 then 2 ^ 64 - 2 ^ 31 else 2 ^ k
  if b.toNat < 32 then .ok (asU64 b.toNat)
  else if chk then .panic
  else .ok (asU64 (b.toNat % 32))

/-- Loop of `commitment_key_for_radix_power_of_2`, src/commitment.rs:117-124: `log2` doublings of
the last element per iteration; `cur` is the last element of `gs`, `k` the number of iterations
left, the result lists the elements in push order starting with `cur`. -/
def doublingChain (log2 : ℕ) : G → ℕ → List G
  | cur, 0 => [cur]
  | cur, k + 1 => cur :: doublingChain log2 (doubleN log2 cur) k

/-- `commitment_key_for_radix_power_of_2`, src/commitment.rs:109-127.  `trailing_zeros` of a power
of two is its binary logarithm; `for i in 1..chunks_count` runs `chunks_count - 1` times (not at
all for 0). -/
def commitmentKeyPow2 (g : G) (chunks : UInt8) (radix : ℕ) : List G :=
  (doublingChain (Nat.log 2 radix) g (chunks.toNat - 1)).reverse

/-- `commitment_key_for_radix_non_power_of_2`, src/commitment.rs:129-142. -/
def commitmentKeyNonPow2 (g : G) (chunks : UInt8) (radix : ℕ) : Res (List G) :=
  let radixF : K.F := (radix : ℕ)
  let factors := (List.range (chunks.toNat - 1)).map fun i => radixF ^ (chunks.toNat - (i + 1))
  multiplyFieldElems (K := K) g (factors ++ [1])

/-- `u64::is_power_of_two`. Called at src/commitment.rs:86. -/
def isPowerOfTwo (n : ℕ) : Bool := decide (n ≠ 0) && decide (2 ^ Nat.log 2 n = n)

/-- `ChunkedCommitment::commitment_key`, src/commitment.rs:83-94. -/
def commitmentKey (chk : Bool) (gens : ChunkedCommitmentGens G) (b : UInt8) : Res (List G) := do
  let radix ← radixOf chk b
  let chunks ← chunksCount K b
  let gs ← if isPowerOfTwo radix then Res.ok (commitmentKeyPow2 gens.G chunks radix)
    else commitmentKeyNonPow2 K gens.G chunks radix
  return gs ++ [gens.H]

/-- `ChunkedCommitment::get_values_to_commit`, src/commitment.rs:96-107. -/
def getValuesToCommit (m r : K.F) (b : UInt8) : Res (List ℕ) := do
  let d ← decompose (K := K) m b
  return (d.map fun x => x.toNat) ++ [intoBigint r]

/-- `ChunkedCommitment::new`, src/commitment.rs:56-68. -/
def ChunkedCommitment.new (chk : Bool) (m r : K.F) (b : UInt8) (gens : ChunkedCommitmentGens G) :
    Res (ChunkedCommitment G) := do
  let d ← getValuesToCommit K m r b
  let gs ← commitmentKey K chk gens b
  return { comm := msmBigint gs d, key := gs }

/-- `ChunkedCommitment::get_commitment_given_commitment_key`, src/commitment.rs:71-79. -/
def getCommitmentGivenCommitmentKey (m r : K.F) (b : UInt8) (commKey : List G) : Res G := do
  let d ← getValuesToCommit K m r b
  return msmBigint commKey d

end Verif
