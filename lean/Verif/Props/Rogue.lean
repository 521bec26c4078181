/-
Property C68: one party that contributes last can take over distributed key generation.
-/
import Verif.Props.Aggregate
import Verif.SpecAgm
import Verif.Lemmas.SecGame
import Verif.Fixtures

namespace Verif
open Spec

variable {E : Engine}

namespace Rogue

/-- the combined key of the first round, for a last partial key of the right shape -/
theorem combine_last (parties : List (Party E)) (hne : parties ≠ []) (n : ℕ) (g : ℕ → E.G1) (D C : E.G1) (H : E.G2)
    (X Y : ℕ → E.G1) (Z : ℕ → E.G2) (P : E.G1) (X0 : E.G1) :
    combineEKs C ((parties.map fun P => partialKey n (partyS P) (partyT n P) g D C H) ++
        [⟨X0, tab n X, tab n Y, tab (n + 1) Z, P⟩]) = .ok
      { X_0 := D
        X := tab n fun i => sumS parties i • D + X i
        Y := tab n fun i => sumT n parties (i + 1) • g i + Y i
        Z := tab (n + 1) fun i => sumT n parties i • H + Z i
        P_2 := C + ((∑ i ∈ Finset.range n, sumS parties i) • C + P) } := by
  obtain ⟨Q, ps, rfl⟩ := List.exists_cons_of_ne_nil hne
  rw [List.map_cons, List.cons_append, combineEKs_eq]
  · rw [← List.cons_append, ← List.map_cons (f := fun P => partialKey n (partyS P) (partyT n P) g D C H)]
    simp only [List.map_append, List.map_map, List.sum_append, List.map_cons, List.map_nil, List.sum_cons,
      List.sum_nil, add_zero, Function.comp_def, partialKey, length_tab]
    rw [Res.ok.injEq]
    congr 1
    · apply tab_congr
      intro i hi
      simp only [getD_tab, hi, if_true]
      simp only [sumS, List.map_cons, List.sum_cons, add_smul, sum_map_smul]
    · apply tab_congr
      intro i hi
      simp only [getD_tab, hi, if_true]
      simp only [sumT, List.map_cons, List.sum_cons, add_smul, sum_map_smul]
    · apply tab_congr
      intro i hi
      simp only [getD_tab, hi, if_true]
      simp only [sumT, List.map_cons, List.sum_cons, add_smul, sum_map_smul]
    · simp only [sumS, List.map_cons, List.sum_cons, Finset.sum_add_distrib, add_smul, sum_map_smul,
        sum_map_finset]
  · intro e he
    rcases List.mem_append.mp he with he | he
    · obtain ⟨Q, _, rfl⟩ := List.mem_map.mp he
      simp [FEncryptionKeyPartial.Fits, partialKey]
    · rw [List.mem_singleton.mp he]
      simp [FEncryptionKeyPartial.Fits, partialKey]

/-- the honest parties' shares for a combined key with `X = tab n X` -/
theorem shares_eq (parties : List (Party E)) (n : ℕ) (D : E.G1) (X Y : ℕ → E.G1) (Z : ℕ → E.G2) (P : E.G1) :
    mapRes (fun sk => genP1share (⟨D, tab n X, tab n Y, tab (n + 1) Z, P⟩ : FEncryptionKeyPartial E) sk)
      (parties.map (partySK n)) = .ok (parties.map fun Q =>
        ⟨partyT n Q 0 • D + ∑ j ∈ Finset.range n, partyT n Q (j + 1) • X j⟩) := by
  rw [mapRes_ok (g := fun sk : SecretKeyST E => (⟨sk.t.getD 0 0 • D
      + ∑ j ∈ Finset.range n, sk.t.getD (j + 1) 0 • X j⟩ : P1share E)), List.map_map]
  · congr 1
    refine List.map_congr_left fun Q _ => ?_
    simp only [Function.comp_apply, partySK]
    congr 1
    rw [getD_tab (n + 1), if_pos (by omega)]
    congr 1
    refine Finset.sum_congr rfl fun j hj => ?_
    have := Finset.mem_range.mp hj
    rw [getD_tab (n + 1), if_pos (by omega)]
  · intro sk hsk
    obtain ⟨Q, _, rfl⟩ := List.mem_map.mp hsk
    rw [genP1share_eq (by simp [partySK])]
    simp only [length_tab]
    congr 3
    apply Finset.sum_congr rfl
    intro i hi
    rw [getD_tab n, if_pos (Finset.mem_range.mp hi)]

/-- the protocol with a rogue last party, for a partial key of the right shape -/
theorem dkgWithRogue_eq (parties : List (Party E)) (hne : parties ≠ []) {b n8 : UInt8}
    (gens : EncryptionGens E) (g_i : List E.G1) (D C : E.G1)
    (hn : chunksCount E.fr b = .ok n8) (hg : n8.toNat ≤ g_i.length)
    (rogueKey : List (FEncryptionKeyPartial E) → FEncryptionKeyPartial E)
    (rogueShare : FEncryptionKeyPartial E → List (P1share E) → P1share E)
    (X Y : ℕ → E.G1) (Z : ℕ → E.G2) (P X0 : E.G1)
    (hk : rogueKey (parties.map fun P => partialKey n8.toNat (partyS P) (partyT n8.toNat P)
      (fun i => g_i.getD i 0) D C gens.H) = ⟨X0, tab n8.toNat X, tab n8.toNat Y, tab (n8.toNat + 1) Z, P⟩) :
    dkgWithRogue parties rogueKey rogueShare b gens g_i D C = .ok
      { X_0 := D
        X := tab n8.toNat fun i => sumS parties i • D + X i
        Y := tab n8.toNat fun i => sumT n8.toNat parties (i + 1) • g_i.getD i 0 + Y i
        Z := tab (n8.toNat + 1) fun i => sumT n8.toNat parties i • gens.H + Z i
        P_2 := C + ((∑ i ∈ Finset.range n8.toNat, sumS parties i) • C + P)
        P_1 := (sumT n8.toNat parties 0 • D + ∑ j ∈ Finset.range n8.toNat,
            sumT n8.toNat parties (j + 1) • (sumS parties j • D + X j)) +
          (rogueShare
            { X_0 := D
              X := tab n8.toNat fun i => sumS parties i • D + X i
              Y := tab n8.toNat fun i => sumT n8.toNat parties (i + 1) • g_i.getD i 0 + Y i
              Z := tab (n8.toNat + 1) fun i => sumT n8.toNat parties i • gens.H + Z i
              P_2 := C + ((∑ i ∈ Finset.range n8.toNat, sumS parties i) • C + P) }
            (parties.map fun Q => ⟨partyT n8.toNat Q 0 • D + ∑ j ∈ Finset.range n8.toNat,
              partyT n8.toNat Q (j + 1) • (sumS parties j • D + X j)⟩)).P_1 } := by
  unfold dkgWithRogue
  rw [dkgRound1_eq parties gens g_i D C hn hg]
  generalize n8.toNat = n at hg hk ⊢
  simp only [Res.ok_bind, List.map_map, Function.comp_def]
  rw [hk, combine_last parties hne]
  simp only [Res.ok_bind]
  rw [show (parties.map fun x => partySK n x) = parties.map (partySK n) from rfl, shares_eq]
  simp only [Res.ok_bind]
  rw [combineP1share_eq (by simp)]
  simp only [Res.ok_bind, Res.pure_eq, keygenFinal, List.map_append, List.map_map, Function.comp_def,
    List.sum_append, List.map_cons, List.map_nil, List.sum_cons, List.sum_nil, add_zero, Res.ok.injEq]
  congr 2
  rw [sum_map_add, sum_map_finset, sum_map_smul]
  congr 1
  refine Finset.sum_congr rfl fun j _ => ?_
  rw [sum_map_smul]
  rfl

/-- what the last party submits to end with the secrets `s`: its own values minus those of the others -/
def key (n : ℕ) (s t : ℕ → E.Fr) (g : ℕ → E.G1) (D C : E.G1) (H : E.G2)
    (keys : List (FEncryptionKeyPartial E)) : FEncryptionKeyPartial E where
  X_0 := D
  X := tab n fun i => s i • D - (keys.map fun k => k.X.getD i 0).sum
  Y := tab n fun i => t (i + 1) • g i
  Z := tab (n + 1) fun i => t i • H
  P_2 := (∑ i ∈ Finset.range n, s i) • C - (keys.map fun k => k.P_2).sum

/-- its share in the second round (the one the protocol asks for) -/
def share (n : ℕ) (s t : ℕ → E.Fr) (D : E.G1) (_ : FEncryptionKeyPartial E) (_ : List (P1share E)) : P1share E :=
  ⟨t 0 • D + ∑ j ∈ Finset.range n, t (j + 1) • s j • D⟩

theorem takeover (parties : List (Party E)) (hne : parties ≠ []) {b n8 : UInt8}
    (gens : EncryptionGens E) (g_i : List E.G1) (D C : E.G1)
    (hn : chunksCount E.fr b = .ok n8) (hg : n8.toNat ≤ g_i.length) (s t : ℕ → E.Fr) :
    dkgWithRogue parties (key n8.toNat s t (fun i => g_i.getD i 0) D C gens.H) (share n8.toNat s t D)
      b gens g_i D C = .ok (encKey n8.toNat s (fun i => sumT n8.toNat parties i + t i)
        (fun i => g_i.getD i 0) D C gens.H) := by
  refine (dkgWithRogue_eq parties hne gens g_i D C hn hg _ _
    (fun i => s i • D - sumS parties i • D) (fun i => t (i + 1) • g_i.getD i 0) (fun i => t i • gens.H)
    ((∑ i ∈ Finset.range n8.toNat, s i) • C - (∑ i ∈ Finset.range n8.toNat, sumS parties i) • C) D ?_).trans
    (congrArg Res.ok ?_)
  · generalize n8.toNat = n
    simp only [key, List.map_map, Function.comp_def, partialKey]
    congr 1
    · refine tab_congr fun i hi => ?_
      simp only [getD_tab, if_pos hi]
      rw [sum_map_smul]
      rfl
    · rw [sum_map_smul, sum_map_finset]
      rfl
  · generalize n8.toNat = n
    unfold encKey
    simp only [add_sub_cancel, add_smul, share]
    congr 1
    · rw [Finset.sum_smul, ← add_assoc, add_right_comm (sumT n parties 0 • D), add_assoc,
        ← Finset.sum_add_distrib]
      congr 1
      refine Finset.sum_congr rfl fun j _ => ?_
      rw [mul_add, add_smul, smul_smul, smul_smul, mul_comm (s j), mul_comm (s j)]
    · rw [one_smul]

/-- every key of the honest form is an output of key generation for some draws -/
theorem from_keygen {b n8 : UInt8} (gens : EncryptionGens E) (g_i : List E.G1) (D C : E.G1)
    (hn : chunksCount E.fr b = .ok n8) (hg : n8.toNat ≤ g_i.length) (s T : ℕ → E.Fr) :
    FromSetup (encKey n8.toNat s T (fun i => g_i.getD i 0) D C gens.H) b gens g_i D C := by
  have hkey := keygen_eq (tape E) (fun j => if j < 1 + n8.toNat then s (j - 1) else T (j - (1 + n8.toNat)))
    gens g_i D C hn hg
  simp only [draw_tape] at hkey
  rw [Sec.encKey_congr' (s' := s) (t' := T) _ _ _ _ (fun i hi => ?_) (fun i hi => ?_)] at hkey
  · exact Or.inl ⟨tape E, _, _, _, _, hkey⟩
  · rw [if_pos (by omega)]
    congr 1
    omega
  · rw [if_neg (by omega)]
    congr 1
    omega

end Rogue

open Rogue in
/-- **C68** (rogue partial key) For every number of chunks and all scalars `s` there is a strategy of the
last party, depending only on `s` and published values, such that whatever the other parties are: key
generation ends with a key that honest key generation could have produced (so it passes every check and its
ciphertexts verify), and everybody who knows `s` reads all ciphertexts: `c_i - s_i X_r = m_i g_i`. -/
theorem C68_rogue_partial_key (b n : UInt8) (hn : chunksCount E.fr b = .ok n) (gens : EncryptionGens E)
    (g_i : List E.G1) (hg : n.toNat ≤ g_i.length) (D C : E.G1) (s : ℕ → E.Fr) :
    ∃ (rogueKey : List (FEncryptionKeyPartial E) → FEncryptionKeyPartial E)
      (rogueShare : FEncryptionKeyPartial E → List (P1share E) → P1share E),
      ∀ parties : List (Party E), parties ≠ [] →
        ∃ ek, dkgWithRogue parties rogueKey rogueShare b gens g_i D C = .ok ek ∧
          FromSetup ek b gens g_i D C ∧
          (∀ (R : RngCore E) (st : R.σ) (chunks : List UInt16), chunks.length = n.toNat →
            ∃ ct r st', encryptDecomposedMessage R st chunks ek g_i = .ok ((flat ct, r), st')) ∧
          ∀ (R : RngCore E) (st st' : R.σ) (chunks : List UInt16) (ct : Ciphertext E) (r : E.Fr),
            encryptDecomposedMessage R st chunks ek g_i = .ok ((flat ct, r), st') →
            ct.verifyCommitment ek.prepare gens.prepare = .ok () ∧
            ∀ i < n.toNat, ct.enc_chunks.getD i 0 - s i • ct.X_r =
              ((nums chunks).getD i 0) • g_i.getD i 0 := by
  refine ⟨key n.toNat s 0 (fun i => g_i.getD i 0) D C gens.H, share n.toNat s 0 D, fun parties hne =>
    ⟨_, takeover parties hne gens g_i D C hn hg s 0, from_keygen gens g_i D C hn hg _ _,
      fun R st chunks hl => ?_, fun R st st' chunks ct r henc => ?_⟩⟩
  · exact ⟨_, _, _, encryptDecomposed_ok R st chunks _ g_i (by simp [WellFormed, encKey])
      (by simpa [encKey] using n.toNat_lt) (by simpa [encKey] using hl) (by simpa [encKey] using hg)⟩
  obtain ⟨-, -, -, -, hv, -, -⟩ := encryptDecomposed_inv henc
  have hct := flat_inj hv
  refine ⟨?_, fun i hi => ?_⟩
  · rw [hct]
    exact cipher_verifies _ _ _ _ _ _ _ _ _
  · rw [hct]
    simp only [cipher, encKey, length_tab]
    rw [getD_tab, if_pos hi, getD_tab, if_pos hi, smul_comm (s i)]
    show _ + _ - _ = _
    rw [add_sub_cancel_left]

open Rogue in
/-- **C68** (rogue share) Even with an honest partial key (made from any scalars `s`, `t`) the last party can, by
its share of the second round alone, remove the randomness from the commitments of all ciphertexts: `P_1`
becomes zero, and whatever the encryptor draws, the published commitment is `Σ m_i Y_i`, a function of the message
and the public key; so guesses of the message can be tested. -/
theorem C68_rogue_share (b n : UInt8) (hn : chunksCount E.fr b = .ok n) (gens : EncryptionGens E)
    (g_i : List E.G1) (hg : n.toNat ≤ g_i.length) (D C : E.G1) (s t : ℕ → E.Fr) :
    ∃ rogueShare : FEncryptionKeyPartial E → List (P1share E) → P1share E,
      ∀ parties : List (Party E), parties ≠ [] →
        ∃ ek, dkgWithRogue parties (fun _ => partialKey n.toNat s t (fun i => g_i.getD i 0) D C gens.H)
            rogueShare b gens g_i D C = .ok ek ∧
          ek.P_1 = 0 ∧
          (∀ (R : RngCore E) (st : R.σ) (chunks : List UInt16), chunks.length = n.toNat →
            ∃ ct r st', encryptDecomposedMessage R st chunks ek g_i = .ok ((flat ct, r), st')) ∧
          ∀ (R : RngCore E) (st st' : R.σ) (chunks : List UInt16) (ct : Ciphertext E) (r : E.Fr),
            encryptDecomposedMessage R st chunks ek g_i = .ok ((flat ct, r), st') →
            ct.commitment = ∑ i ∈ Finset.range n.toNat, ((nums chunks).getD i 0) • ek.Y.getD i 0 := by
  refine ⟨fun _ shares => ⟨-(shares.map fun x => x.P_1).sum⟩, fun parties hne => ?_⟩
  have h := dkgWithRogue_eq parties hne gens g_i D C hn hg
    (fun _ => partialKey n.toNat s t (fun i => g_i.getD i 0) D C gens.H)
    (fun _ shares => ⟨-(shares.map fun x => x.P_1).sum⟩) _ _ _ _ _ rfl
  have h0 : ∀ ek : EncryptionKey E, ek.X.length = n.toNat → ek.P_1 = 0 →
      ∀ (R : RngCore E) (st st' : R.σ) (chunks : List UInt16) (ct : Ciphertext E) (r : E.Fr),
        encryptDecomposedMessage R st chunks ek g_i = .ok ((flat ct, r), st') →
        ct.commitment = ∑ i ∈ Finset.range n.toNat, ((nums chunks).getD i 0) • ek.Y.getD i 0 := by
    intro ek hX hP R st st' chunks ct r henc
    obtain ⟨-, -, -, -, hv, -, -⟩ := encryptDecomposed_inv henc
    rw [flat_inj hv]
    simp only [cipher, hX, hP, smul_zero, add_zero]
  have hP : ∀ X : ℕ → E.G1, (sumT n.toNat parties 0 • D + ∑ j ∈ Finset.range n.toNat,
        sumT n.toNat parties (j + 1) • X j) + -((parties.map fun Q => (⟨partyT n.toNat Q 0 • D
          + ∑ j ∈ Finset.range n.toNat, partyT n.toNat Q (j + 1) • X j⟩ : P1share E)).map fun x => x.P_1).sum
        = 0 := by
    intro X
    simp only [List.map_map, Function.comp_def]
    rw [sum_map_add, sum_map_finset, sum_map_smul, ← sub_eq_add_neg, sub_eq_zero]
    congr 1
    refine Finset.sum_congr rfl fun j _ => ?_
    rw [sum_map_smul]
    rfl
  exact ⟨_, h, hP _, fun R st chunks hl => ⟨_, _, _, encryptDecomposed_ok R st chunks _ g_i
    (by simp [WellFormed]) (by simpa using n.toNat_lt) (by simpa using hl) (by simpa using hg)⟩,
    h0 _ (length_tab _ _) (hP _)⟩

/-- the hypotheses are met: one honest party and a rogue one that wants the secrets `5, 6, 7, 8`; it decrypts
the ciphertext of `Fix.m1` -/
example : ∃ (rk : List (FEncryptionKeyPartial Fix.E) → FEncryptionKeyPartial Fix.E)
    (rs : FEncryptionKeyPartial Fix.E → List (P1share Fix.E) → P1share Fix.E)
    (ek : EncryptionKey Fix.E) (ct : Ciphertext Fix.E) (r : Fix.E.Fr) (st' : (listRng Fix.E).σ),
    dkgWithRogue [⟨listRng Fix.E, Fix.st⟩] rk rs 16 Fix.gens Fix.gi Fix.D Fix.C = .ok ek ∧
    encryptDecomposedMessage (listRng Fix.E) Fix.st1 Fix.m1 ek Fix.gi = .ok ((flat ct, r), st') ∧
    ct.verifyCommitment ek.prepare Fix.gens.prepare = .ok () ∧
    ct.enc_chunks.getD 2 0 - (show Fix.E.Fr from (7 : Fix.F)) • ct.X_r = (300 : ℕ) • (show Fix.E.G1 from (11 : Fix.F)) := by
  obtain ⟨rk, rs, h⟩ := C68_rogue_partial_key (E := Fix.E) 16 4 Fix.count Fix.gens Fix.gi (by decide) Fix.D Fix.C
    (fun i => ((i + 5 : ℕ) : Fix.F))
  obtain ⟨ek, hek, -, hex, hall⟩ := h [⟨listRng Fix.E, Fix.st⟩] (by simp)
  obtain ⟨ct, r, st', henc⟩ := hex (listRng Fix.E) Fix.st1 Fix.m1 (by decide)
  obtain ⟨hv, hd⟩ := hall _ _ _ _ _ _ henc
  refine ⟨rk, rs, ek, ct, r, st', hek, henc, hv, ?_⟩
  exact hd 2 (by decide)

example : ∃ (rs : FEncryptionKeyPartial Fix.E → List (P1share Fix.E) → P1share Fix.E)
    (ek : EncryptionKey Fix.E) (ct : Ciphertext Fix.E) (r : Fix.E.Fr) (st' : (listRng Fix.E).σ),
    dkgWithRogue [⟨listRng Fix.E, Fix.st⟩] (fun _ => partialKey 4 (fun _ => (1 : Fix.F)) (fun _ => (2 : Fix.F))
      (fun i => Fix.gi.getD i 0) Fix.D Fix.C Fix.gens.H) rs 16 Fix.gens Fix.gi Fix.D Fix.C = .ok ek ∧
    encryptDecomposedMessage (listRng Fix.E) Fix.st1 Fix.m1 ek Fix.gi = .ok ((flat ct, r), st') ∧
    ek.P_1 = 0 ∧ ct.commitment = ∑ i ∈ Finset.range 4, ((nums Fix.m1).getD i 0) • ek.Y.getD i 0 := by
  obtain ⟨rs, h⟩ := C68_rogue_share (E := Fix.E) 16 4 Fix.count Fix.gens Fix.gi (by decide) Fix.D Fix.C
    (fun _ => (1 : Fix.F)) (fun _ => (2 : Fix.F))
  obtain ⟨ek, hek, h0, hex, hall⟩ := h [⟨listRng Fix.E, Fix.st⟩] (by simp)
  obtain ⟨ct, r, st', henc⟩ := hex (listRng Fix.E) Fix.st1 Fix.m1 (by decide)
  exact ⟨rs, ek, ct, r, st', hek, henc, h0, hall _ _ _ _ _ _ henc⟩

end Verif
