/-
C20 and C22 for chunk sizes of 31 and more in builds without overflow checks.
-/
import Verif.Props.Decrypt

namespace Verif
open Spec

variable {E : Engine}

/-- **C22** (builds without overflow checks) For every chunk size, `pairing_powers` gives the table for the chunk size modulo
32: the shift amount is masked. For 31 the wrap-around of the subtraction gives the full `2^31 - 1` entries. -/
theorem C22_unchecked (dk : DecryptionKey E) (b : UInt8) (g_i : List E.G1) :
    dk.pairingPowers false b g_i = dk.pairingPowers false (UInt8.ofNat (b.toNat % 32)) g_i ∧
    (dk.V_2.length = dk.V_1.length → dk.V_1.length % 256 ≤ g_i.length →
      dk.pairingPowers false b g_i = .ok (tab (dk.V_1.length % 256) fun i =>
        tab (max 1 (2 ^ (b.toNat % 32) - 1)) fun j => (j + 1) • chunkBase g_i dk i)) := by
  have h2 : (UInt8.ofNat (b.toNat % 32)).toNat = b.toNat % 32 := by simp; omega
  have hc : ∀ a : UInt8, chunkMaxI32 false a = .ok (2 ^ (a.toNat % 32) - 1) := by
    intro a
    unfold chunkMaxI32
    rw [if_neg (by simp)]
  have hlen1 : dk.prepare.V_1.length = dk.V_1.length := by simp [DecryptionKey.prepare]
  have hv2 : ∀ i < dk.V_2.length, idx dk.prepare.V_2 i = .ok (E.prep (dk.V_2.getD i 0)) := by
    intro i hi
    rw [idx_eq_ok]
    simp only [DecryptionKey.prepare, List.getElem?_map]
    rw [List.getElem?_eq_getElem hi]
    simp [List.getD_eq_getElem?_getD, List.getElem?_eq_getElem hi]
  have hcnt : (UInt8.ofNat dk.V_1.length).toNat = dk.V_1.length % 256 := by simp
  constructor
  · unfold DecryptionKey.pairingPowers PreparedDecryptionKey.pairingPowers
    rw [hc, hc, h2, Nat.mod_mod]
  · intro hw hg
    unfold DecryptionKey.pairingPowers PreparedDecryptionKey.pairingPowers
    rw [dkChunks_prepare, decKeyChunks_ok dk hw, hc]
    simp only [Res.ok_bind, hcnt]
    apply mapRes_range_ok
    intro i hi
    have : i < dk.V_1.length := lt_of_lt_of_le hi (Nat.mod_le _ _)
    rw [idx_ok 0 (show i < g_i.length by omega), hv2 i (by omega)]
    simp only [Res.ok_bind, Res.pure_eq, powersLoop_full, E.pairP_prep]
    rfl

/-- C22 unchecked for the key of `Fix`: asking for 36-bit chunks gives the table for 4-bit chunks -/
example : Fix.dk.pairingPowers false 36 Fix.gi = .ok (tab 4 fun i =>
    tab 15 fun j => (j + 1) • chunkBase Fix.gi Fix.dk i) :=
  (C22_unchecked Fix.dk 36 Fix.gi).2 (by decide +kernel) (by decide +kernel)

/-- **C20** (builds without overflow checks) For every chunk size, decryption to chunks does what it does for the chunk size
modulo 32. -/
theorem C20_unchecked (c_0 : E.G1) (c : List E.G1) (sk : SecretKey E) (dk : PreparedDecryptionKey E) (g_i : List E.G1)
    (b : UInt8) (pw : Option (List (List E.GT))) :
    decryptToChunksGivenPairingPowers false c_0 c sk dk g_i b pw =
      decryptToChunksGivenPairingPowers false c_0 c sk dk g_i (UInt8.ofNat (b.toNat % 32)) pw := by
  have h2 : (UInt8.ofNat (b.toNat % 32)).toNat = b.toNat % 32 := by simp; omega
  have : chunkMaxU32 false b = chunkMaxU32 false (UInt8.ofNat (b.toNat % 32)) := by
    unfold chunkMaxU32
    rw [h2, if_pos (Nat.mod_lt _ (by decide))]
    by_cases hb : b.toNat < 32
    · rw [if_pos hb, Nat.mod_eq_of_lt hb]
    · rw [if_neg hb]
      rfl
  unfold decryptToChunksGivenPairingPowers
  rw [this]

end Verif
