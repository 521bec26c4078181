/-
Small independent specification, used by the property theorems.  Nothing here refers to the
model's functions; only to numbers, field elements and group elements.
-/
import Verif.Model.Protocol
import Mathlib.Algebra.BigOperators.Group.Finset.Basic

namespace Verif

/-- `[f 0, ..., f (n-1)]` -/
def tab {α : Type} (n : ℕ) (f : ℕ → α) : List α := (List.range n).map f

namespace Spec

/-- The value of a digit list in base `base`, most significant digit first:
`d_0 * base^(n-1) + d_1 * base^(n-2) + ... + d_(n-1)`. -/
def positional (base : ℕ) (ds : List ℕ) : ℕ :=
  ∑ i ∈ Finset.range ds.length, ds.getD i 0 * base ^ (ds.length - 1 - i)

/-- The chunk bit sizes documented as supported (4, 8 and 16). -/
def Supported (b : UInt8) : Prop := b = 4 ∨ b = 8 ∨ b = 16

/-- The numeric values of a list of 16-bit chunks. -/
def nums (d : List UInt16) : List ℕ := d.map UInt16.toNat

/-- Ceiling division of the modulus bit length: the number of `b`-bit chunks needed for one field
element. -/
def chunksNeeded (K : FieldCfg) (b : ℕ) : ℕ := (K.modBits + b - 1) / b

/-! ### Random draws -/

/-- State of the generator after `k` scalar draws. -/
def after {E : Engine} (R : RngCore E) (st : R.σ) (k : ℕ) : R.σ := (fun s => (R.fr s).2)^[k] st

/-- The `k`-th scalar drawn from state `st` (counting from 0). -/
def draw {E : Engine} (R : RngCore E) (st : R.σ) (k : ℕ) : E.Fr := (R.fr (after R st k)).1

/-! ### SAVER keys and ciphertexts as mathematical objects

`n` is the number of chunks, `s, t, v, rho` the secrets, `g i` the public generators,
`D` the point called delta_g, `C` the point called gamma_g, `H` the G2 generator. -/

variable {E : Engine}

/-- Encryption key for secrets `s_0..s_(n-1)`, `t_0..t_n`:
`X_0 = D, X_i = s_i D, Y_i = t_(i+1) g_i, Z_i = t_i H, P_1 = (t_0 + sum s_i t_(i+1)) D,
P_2 = (1 + sum s_i) C`. -/
def encKey (n : ℕ) (s t : ℕ → E.Fr) (g : ℕ → E.G1) (D C : E.G1) (H : E.G2) : EncryptionKey E where
  X_0 := D
  X := tab n fun i => s i • D
  Y := tab n fun i => t (i + 1) • g i
  Z := tab (n + 1) fun i => t i • H
  P_1 := (t 0 + ∑ i ∈ Finset.range n, s i * t (i + 1)) • D
  P_2 := (1 + ∑ i ∈ Finset.range n, s i) • C

/-- One party's partial key: the same without `P_1`, and with `P_2 = (sum s_i) C`. -/
def partialKey (n : ℕ) (s t : ℕ → E.Fr) (g : ℕ → E.G1) (D C : E.G1) (H : E.G2) :
    FEncryptionKeyPartial E where
  X_0 := D
  X := tab n fun i => s i • D
  Y := tab n fun i => t (i + 1) • g i
  Z := tab (n + 1) fun i => t i • H
  P_2 := (∑ i ∈ Finset.range n, s i) • C

/-- Decryption key: `V_0 = rho H, V_1[i] = s_i v_i H, V_2[i] = rho v_i H`. -/
def decKey (n : ℕ) (rho : E.Fr) (s v : ℕ → E.Fr) (H : E.G2) : DecryptionKey E where
  V_0 := rho • H
  V_1 := tab n fun i => (s i * v i) • H
  V_2 := tab n fun i => (rho * v i) • H

/-- The SAVER ciphertext of the (integer) chunks `m_0, m_1, ...` with randomness `r`:
`X_r = r X_0, c_i = r X_i + m_i g_i, psi = sum m_i Y_i + r P_1`. -/
def cipher (ek : EncryptionKey E) (g : ℕ → E.G1) (m : ℕ → ℕ) (r : E.Fr) : Ciphertext E where
  X_r := r • ek.X_0
  enc_chunks := tab ek.X.length fun i => r • ek.X.getD i 0 + m i • g i
  commitment := (∑ i ∈ Finset.range ek.X.length, m i • ek.Y.getD i 0) + r • ek.P_1

/-- The vector form of a ciphertext used by the chunk-level API: `[X_r, c_1, ..., c_n, psi]`. -/
def flat (ct : Ciphertext E) : List E.G1 := ct.X_r :: (ct.enc_chunks ++ [ct.commitment])

/-- The shape condition of an encryption key (`Y` as long as `X`, `Z` one longer). -/
def WellFormed (ek : EncryptionKey E) : Prop :=
  ek.Y.length = ek.X.length ∧ ek.Z.length = ek.X.length + 1

/-- The pairing equation of the commitment check, with the plain (unprepared) pairing:
`e(c_0, Z_0) + sum e(c_i, Z_(i+1)) = e(psi, H)`. -/
def CommitmentEq (ek : EncryptionKey E) (H : E.G2) (c_0 : E.G1) (c : List E.G1) (psi : E.G1) :
    Prop :=
  E.e c_0 (ek.Z.getD 0 0) + ∑ i ∈ Finset.range c.length, E.e (c.getD i 0) (ek.Z.getD (i + 1) 0)
    = E.e psi H

/-- `i` is the least natural number with `i * g = p`, and it is at most `max`. -/
def IsLeastLog {A : Type} [AddCommGroup A] (g p : A) (max i : ℕ) : Prop :=
  i ≤ max ∧ i • g = p ∧ ∀ j < i, j • g ≠ p

/-- No natural number up to `max` is a discrete logarithm. -/
def NoLog {A : Type} [AddCommGroup A] (g p : A) (max : ℕ) : Prop := ∀ j ≤ max, j • g ≠ p

/-- The largest chunk value the discrete-logarithm search reaches for chunk size `b < 32`: values
are 16-bit, so at most `65535`; and the first candidate `1` is always tried. -/
def searchBound (b : ℕ) : ℕ := max 1 (min (2 ^ b - 1) 65535)

/-- The target-group value of chunk `i` under decryption, with the plain pairing:
`e(c_i, V_2[i]) - rho e(c_0, V_1[i])`. -/
def chunkValue (c_0 : E.G1) (c : List E.G1) (rho : E.Fr) (dk : DecryptionKey E) (i : ℕ) : E.GT :=
  E.e (c.getD i 0) (dk.V_2.getD i 0) - rho • E.e c_0 (dk.V_1.getD i 0)

/-- The base of the discrete logarithm of chunk `i`: `e(g_i, V_2[i])`. -/
def chunkBase (g_i : List E.G1) (dk : DecryptionKey E) (i : ℕ) : E.GT :=
  E.e (g_i.getD i 0) (dk.V_2.getD i 0)

/-- `ek` was produced by a successful run of `keygen`, or of the distributed key generation with
any number of parties, on these public parameters. -/
def FromSetup (ek : EncryptionKey E) (b : UInt8) (gens : EncryptionGens E) (g_i : List E.G1)
    (D C : E.G1) : Prop :=
  (∃ (R : RngCore E) (st st' : R.σ) (sk : SecretKey E) (dk : DecryptionKey E),
    keygen R st b gens g_i D C = .ok ((sk, ek, dk), st')) ∨
  (∃ (parties : List (Party E)) (sks : List (SecretKeyST E)),
    dkg parties b gens g_i D C = .ok (sks, ek))

end Spec
end Verif
