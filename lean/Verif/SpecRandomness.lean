/-
Specification vocabulary for property C102: which randomness an operation uses.
-/
import Verif.Spec

namespace Verif
namespace Spec
variable {E : Engine}

/-- An operation that takes a source of randomness (of any kind) and its state. -/
abbrev Randomised (E : Engine) (α : Type) : Type 1 := (R : RngCore E) → R.σ → Res (α × R.σ)

/-- The operation reads exactly `k` scalars: there is one function of `k` scalars that gives its outcome for every source
of randomness, applied to the next `k` scalars of the source; and if the operation succeeds the source is left `k` scalars
further. -/
def ReadsScalars {α : Type} (k : ℕ) (op : Randomised E α) : Prop :=
  ∃ F : (Fin k → E.Fr) → Res α, ∀ (R : RngCore E) (st : R.σ),
    op R st = (F fun i => draw R st i) >>= fun a => .ok (a, after R st k)

/-- The operation reads between `lo` and `hi` scalars: a successful run leaves the source some number `k` of scalars
further, and on any other source that delivers the same `k` scalars it has the same outcome and leaves it also `k` scalars
further. -/
def ReadsBetween {α : Type} (lo hi : ℕ) (op : Randomised E α) : Prop :=
  ∀ (R : RngCore E) (st : R.σ) (a : α) (st' : R.σ), op R st = .ok (a, st') →
    ∃ k, lo ≤ k ∧ k ≤ hi ∧ st' = after R st k ∧
      ∀ (R' : RngCore E) (stR : R'.σ), (∀ i < k, draw R' stR i = draw R st i) →
        op R' stR = .ok (a, after R' stR k)

/-- `c - c'` component by component, with `m' i • g_i` added to component `i`. -/
def openedByReuse (c c' : List E.G1) (m' : List UInt16) (g_i : List E.G1) : List E.G1 :=
  (List.range c.length).map fun i => c.getD i 0 - c'.getD i 0 + (m'.getD i 0).toNat • g_i.getD i 0

/-- `c_i - r • X_i`: what anybody who knows the randomness `r` of an encryption can compute. -/
def openedByRandomness (ek : EncryptionKey E) (c : List E.G1) (r : E.Fr) : List E.G1 :=
  (List.range c.length).map fun i => c.getD i 0 - r • ek.X.getD i 0

/-- `c_i - (N * s_i) • X_r`: what a single party with secret vector `s` can compute. -/
def openedAlone (ct : Ciphertext E) (N : ℕ) (sk : SecretKeyST E) : List E.G1 :=
  (List.range ct.enc_chunks.length).map fun i => ct.enc_chunks.getD i 0 - (N * sk.s.getD i 0) • ct.X_r

end Spec
end Verif
