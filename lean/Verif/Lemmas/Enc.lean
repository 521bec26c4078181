/-
Normal forms of encryption and commitment verification.
-/
import Verif.Lemmas.Combine
import Verif.Lemmas.Bytes

namespace Verif
open Spec

variable {E : Engine}

theorem supportedChunks_eq (ek : EncryptionKey E) (h : WellFormed ek) :
    ek.supportedChunksCount = .ok (UInt8.ofNat ek.X.length) := by
  unfold EncryptionKey.supportedChunksCount
  rw [h.1, h.2, encKeyChunks_ok]

theorem supportedChunks_prepare (ek : EncryptionKey E) :
    ek.prepare.supportedChunksCount = ek.supportedChunksCount := by
  simp [PreparedEncryptionKey.supportedChunksCount, EncryptionKey.supportedChunksCount,
    EncryptionKey.prepare]

theorem supportedChunks_ok_iff (ek : EncryptionKey E) (n : UInt8) :
    ek.supportedChunksCount = .ok n ↔ WellFormed ek ∧ n = UInt8.ofNat ek.X.length := by
  unfold EncryptionKey.supportedChunksCount encKeyChunks WellFormed
  by_cases h1 : ek.Y.length = ek.X.length
  · by_cases h2 : ek.Z.length = ek.X.length + 1
    · simp [h1, h2, eq_comm]
    · simp [h1, h2]
  · simp [h1]

theorem msmBigint_tab (n : ℕ) {G : Type} [AddCommGroup G] (g : ℕ → G) (k : ℕ → ℕ) :
    msmBigint (tab n g) (tab n k) = ∑ i ∈ Finset.range n, k i • g i := by
  unfold msmBigint
  rw [zipWith_tab, sum_tab]

theorem msmBigint_append {G : Type} [AddCommGroup G] (a a' : List G) (k k' : List ℕ)
    (h : a.length = k.length) :
    msmBigint (a ++ a') (k ++ k') = msmBigint a k + msmBigint a' k' := by
  unfold msmBigint
  rw [List.zipWith_append h, List.sum_append]

theorem encryptDecomposed_ok (R : RngCore E) (st : R.σ) (chunks : List UInt16)
    (ek : EncryptionKey E) (g_i : List E.G1) (hw : WellFormed ek) (hn : ek.X.length < 256)
    (hc : chunks.length = ek.X.length) (hg : ek.X.length ≤ g_i.length) :
    encryptDecomposedMessage R st chunks ek g_i =
      .ok ((flat (cipher ek (fun i => g_i.getD i 0) (fun i => (nums chunks).getD i 0)
        (draw R st 0)), draw R st 0), after R st 1) := by
  have hcnt : (UInt8.ofNat ek.X.length).toNat = ek.X.length := by
    simp; omega
  unfold encryptDecomposedMessage
  rw [supportedChunks_eq ek hw, fr_eq R st]
  simp only [Res.ok_bind, hcnt]
  rw [if_neg (by simpa using hc), if_neg (by omega)]
  have hcs : mapRes (fun i => do
      let x ← idx ek.X i
      let g ← idx g_i i
      let k ← idx (chunks.map fun m_i => m_i.toNat) i
      return mulBigint x (intoBigint (K := E.fr) (draw R st 0)) + mulBigint g k)
      (List.range ek.X.length)
      = .ok (tab ek.X.length fun i => draw R st 0 • ek.X.getD i 0
          + (nums chunks).getD i 0 • g_i.getD i 0) := by
    apply mapRes_range_ok
    intro i hi
    rw [idx_ok 0 hi, idx_ok 0 (show i < g_i.length by omega),
      idx_ok 0 (show i < (chunks.map fun m_i => m_i.toNat).length by simp; omega)]
    simp only [Res.ok_bind, Res.pure_eq, intoBigint_smul]
    rfl
  rw [hcs]
  simp only [Res.ok_bind, Res.pure_eq, intoBigint_smul]
  unfold flat cipher
  simp only
  congr 5
  congr 1
  unfold EncryptionKey.commitmentKey
  rw [msmBigint_append _ _ _ _ (by simp [hw.1, hc])]
  congr 1
  · rw [eq_tab hw.1 0, eq_tab (l := chunks.map fun m_i => m_i.toNat) (n := ek.X.length)
      (by simpa using hc) 0, msmBigint_tab]
    apply Finset.sum_congr rfl
    intro i hi
    rw [getD_tab, if_pos (Finset.mem_range.mp hi)]
    rfl
  · simp only [msmBigint, List.zipWith_cons_cons, List.zipWith_nil_left, List.sum_cons,
      List.sum_nil, add_zero]
    exact intoBigint_smul ek.P_1 (draw R st 0)

/-- splitting the vector as `encrypt` does -/
theorem split_flat (ct : Ciphertext E) :
    (do
      let (X_r, v) ← vecRemove (flat ct) 0
      let (commitment, v) ← vecRemove v (v.length - 1)
      return ({ X_r := X_r, enc_chunks := v, commitment := commitment } : Ciphertext E))
      = Res.ok ct := by
  unfold flat vecRemove
  simp only [List.getElem?_cons_zero, List.eraseIdx_cons_zero, Res.ok_bind, List.length_append,
    List.length_singleton, Nat.add_sub_cancel]
  rw [List.getElem?_append_right le_rfl]
  simp only [Nat.sub_self, List.getElem?_cons_zero, Res.ok_bind, Res.pure_eq]
  rw [List.eraseIdx_append_of_length_le le_rfl]
  simp

theorem encrypt_eq (R : RngCore E) (st : R.σ) (m : E.Fr) (ek : EncryptionKey E) (g_i : List E.G1)
    (b : UInt8) {d : List UInt16} (hd : decompose (K := E.fr) m b = .ok d) :
    encrypt R st m ek g_i b = (do
      let ((v, r), st) ← encryptDecomposedMessage R st d ek g_i
      let (X_r, v) ← vecRemove v 0
      let (commitment, v) ← vecRemove v (v.length - 1)
      return (({ X_r := X_r, enc_chunks := v, commitment := commitment }, r), st)) := by
  unfold encrypt
  rw [hd]
  rfl

theorem encrypt_ok (R : RngCore E) (st : R.σ) (m : E.Fr) (ek : EncryptionKey E) (g_i : List E.G1)
    (b : UInt8) {d : List UInt16} (hd : decompose (K := E.fr) m b = .ok d)
    (hw : WellFormed ek) (hn : ek.X.length < 256)
    (hc : d.length = ek.X.length) (hg : ek.X.length ≤ g_i.length) :
    encrypt R st m ek g_i b =
      .ok ((cipher ek (fun i => g_i.getD i 0) (fun i => (nums d).getD i 0) (draw R st 0),
        draw R st 0), after R st 1) := by
  rw [encrypt_eq R st m ek g_i b hd, encryptDecomposed_ok R st d ek g_i hw hn hc hg]
  have := split_flat (cipher ek (fun i => g_i.getD i 0) (fun i => (nums d).getD i 0) (draw R st 0))
  simp only [Res.ok_bind]
  simp only [Res.bind_eq_ok] at this ⊢
  obtain ⟨⟨x, v⟩, h1, ⟨c, v'⟩, h2, h3⟩ := this
  refine ⟨(x, v), h1, (c, v'), h2, ?_⟩
  simp only [Res.pure_eq, Res.ok.injEq] at h3 ⊢
  rw [h3]

/-! ### Commitment verification -/

theorem sum_pairP (n : ℕ) (a : ℕ → E.G1) (b : ℕ → E.G2) :
    (List.zipWith E.pairP (tab n a) (tab n fun i => E.prep (b i))).sum
      = ∑ i ∈ Finset.range n, E.e (a i) (b i) := by
  rw [zipWith_tab, sum_tab]
  apply Finset.sum_congr rfl
  intro i _
  rw [E.pairP_prep]

/-- The check with prepared key and generators, in all cases, by the plain pairing. -/
theorem verify_eq (c_0 : E.G1) (c : List E.G1) (psi : E.G1) (ek : EncryptionKey E)
    (gens : EncryptionGens E) (hw : WellFormed ek) (hn : ek.X.length < 256) :
    verifyCiphertextCommitment c_0 c psi ek.prepare gens.prepare =
      if c.length ≠ ek.X.length then .err (.incompatibleEncryptionKey c.length ek.X.length)
      else if E.e c_0 (ek.Z.getD 0 0)
          + ∑ i ∈ Finset.range c.length, E.e (c.getD i 0) (ek.Z.getD (i + 1) 0) = E.e psi gens.H
        then .ok () else .err .invalidCommitment := by
  have hcnt : (UInt8.ofNat ek.X.length).toNat = ek.X.length := by
    simp; omega
  unfold verifyCiphertextCommitment
  rw [supportedChunks_prepare, supportedChunks_eq ek hw]
  simp only [Res.ok_bind, hcnt]
  split
  · rfl
  · rename_i hc
    have hc : c.length = ek.X.length := by simpa using hc
    have hz : ek.Z = tab (c.length + 1) fun i => ek.Z.getD i 0 := eq_tab (by rw [hw.2, hc]) 0
    have hz' : ek.prepare.Z = tab (c.length + 1) fun i => E.prep (ek.Z.getD i 0) := by
      have : ek.prepare.Z = ek.Z.map E.prep := rfl
      rw [this]
      conv_lhs => rw [hz]
      rw [map_tab]
    unfold getG2ForCommitmentChecks
    rw [hz', idx_tab, if_pos (by omega)]
    simp only [Res.ok_bind, Res.pure_eq, tail_tab, Nat.add_sub_cancel]
    unfold getG1ForCommitmentChecks Engine.multiPairing
    rw [if_pos (by simp)]
    simp only [Res.ok_bind]
    have hsum : (List.zipWith E.pairP ([c_0] ++ c ++ [-psi])
        ([E.prep (ek.Z.getD 0 0)] ++ (tab c.length fun i => E.prep (ek.Z.getD (i + 1) 0))
          ++ [gens.prepare.H])).sum
        = E.e c_0 (ek.Z.getD 0 0)
          + ∑ i ∈ Finset.range c.length, E.e (c.getD i 0) (ek.Z.getD (i + 1) 0)
          - E.e psi gens.H := by
      rw [List.zipWith_append (by simp), List.sum_append, List.zipWith_append (by simp),
        List.sum_append]
      conv_lhs =>
        enter [1, 2, 1, 2]
        rw [eq_tab (l := c) rfl 0]
      rw [sum_pairP]
      simp only [List.zipWith_cons_cons, List.zipWith_nil_left, List.sum_cons, List.sum_nil,
        add_zero, EncryptionGens.prepare, E.pairP_prep, map_neg, LinearMap.neg_apply]
      rw [sub_eq_add_neg]
    rw [hsum]
    congr 1
    exact propext sub_eq_zero

end Verif
