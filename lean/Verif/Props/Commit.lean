/-
Properties C37 to C41 and the commitment part of C03: chunked Pedersen commitments.
-/
import Verif.Lemmas.Enc
import Verif.Props.Encrypt
import Verif.Model.Setup

namespace Verif
open Spec

variable (K : FieldCfg) {G : Type} [AddCommGroup G] [Module (ZMod K.p) G]

/-- the commitment-key vector `[radix^(n-1) g, ..., radix g, g]` -/
def Spec.powersKey (radix n : ℕ) (g : G) : List G := tab n fun i => radix ^ (n - 1 - i) • g

theorem reverse_tab {α : Type} (n : ℕ) (f : ℕ → α) :
    (tab n f).reverse = tab n fun i => f (n - 1 - i) := by
  apply List.ext_getElem?
  intro i
  by_cases hi : i < n
  · rw [List.getElem?_reverse (by simpa using hi), getElem?_tab, getElem?_tab, length_tab,
      if_pos (by omega), if_pos hi]
  · rw [List.getElem?_eq_none (by simp; omega), List.getElem?_eq_none (by simp; omega)]

omit [Module (ZMod K.p) G] in
theorem doublingChain_eq (l : ℕ) (g : G) (k : ℕ) :
    doublingChain l g k = tab (k + 1) fun i => 2 ^ (l * i) • g := by
  induction k generalizing g with
  | zero => simp [doublingChain, tab]
  | succ k ih =>
    rw [doublingChain, ih, tab_succ (k + 1)]
    congr 1
    · simp
    · apply tab_congr
      intro i _
      rw [doubleN_eq, smul_smul, ← pow_add, Nat.mul_succ]

omit [Module (ZMod K.p) G] in
theorem commitmentKeyPow2_eq (g : G) (n : UInt8) (hn : n ≠ 0) (l : ℕ) :
    commitmentKeyPow2 g n (2 ^ l) = powersKey (2 ^ l) n.toNat g := by
  have h0 : n.toNat ≠ 0 := fun h => hn (UInt8.toNat_inj.mp (by simpa using h))
  unfold commitmentKeyPow2 powersKey
  rw [doublingChain_eq, reverse_tab, Nat.log_pow (by norm_num)]
  rw [show n.toNat - 1 + 1 = n.toNat by omega]
  apply tab_congr
  intro i _
  rw [← pow_mul]

theorem commitmentKeyNonPow2_eq (g : G) (n : UInt8) (hn : n ≠ 0) (radix : ℕ) :
    commitmentKeyNonPow2 K g n radix = .ok (powersKey radix n.toNat g) := by
  have h0 : n.toNat ≠ 0 := fun h => hn (UInt8.toNat_inj.mp (by simpa using h))
  unfold commitmentKeyNonPow2 powersKey
  rw [multiplyFieldElems_eq]
  congr 1
  obtain ⟨k, hk⟩ : ∃ k, n.toNat = k + 1 := ⟨n.toNat - 1, by omega⟩
  rw [hk, tab_succ_last]
  simp only [List.map_append, List.map_map, List.map_cons, List.map_nil, Nat.add_sub_cancel]
  congr 1
  · unfold tab
    apply List.map_congr_left
    intro i hi
    have hi := List.mem_range.mp hi
    simp only [Function.comp_apply]
    rw [← Nat.cast_pow, Nat.cast_smul_eq_nsmul, show k + 1 - (i + 1) = k - i by omega]
  · simp

/-! ### C38 -/

/-- **C38** both key algorithms compute `[radix^(n-1) g, ..., radix g, g]`: repeated doubling for a
radix that is a power of two, field exponentiation for every radix; so they agree. -/
theorem C38_key_algorithms (g : G) (n : UInt8) (hn : n ≠ 0) (b : ℕ) (radix : ℕ) :
    commitmentKeyPow2 g n (2 ^ b) = powersKey (2 ^ b) n.toNat g ∧
    commitmentKeyNonPow2 K g n radix = .ok (powersKey radix n.toNat g) ∧
    commitmentKeyNonPow2 K g n (2 ^ b) = .ok (commitmentKeyPow2 g n (2 ^ b)) := by
  refine ⟨commitmentKeyPow2_eq g n hn b, commitmentKeyNonPow2_eq K g n hn radix, ?_⟩
  rw [commitmentKeyNonPow2_eq K g n hn, commitmentKeyPow2_eq g n hn b]

omit [Module (ZMod K.p) G] in
theorem isPowerOfTwo_pow (b : ℕ) : isPowerOfTwo (2 ^ b) = true := by
  unfold isPowerOfTwo
  rw [Nat.log_pow (by norm_num)]
  simp

omit [Module (ZMod K.p) G] in
/-- **C38** for `1 ≤ b ≤ 30` the commitment key is that list, with radix `2^b` and
`chunks_count` entries, followed by `H`. -/
theorem C38_commitment_key (chk : Bool) (gens : ChunkedCommitmentGens G) (b n : UInt8)
    (hb : b.toNat ≤ 30) (hn : chunksCount K b = .ok n) (hn0 : n ≠ 0) :
    commitmentKey K chk gens b = .ok (powersKey (2 ^ b.toNat) n.toNat gens.G ++ [gens.H]) := by
  have hr : radixOf chk b = .ok (2 ^ b.toNat) := by
    unfold radixOf
    dsimp only
    rw [if_pos (by omega), if_neg (by omega)]
  unfold commitmentKey
  rw [hr, hn]
  simp only [Res.ok_bind, isPowerOfTwo_pow, if_true, Res.pure_eq]
  rw [commitmentKeyPow2_eq gens.G n hn0]

/-! ### C41 -/

/-- **C41** the radix of `commitment_key` for every chunk size `≥ 31`: at 31 the `i32` is negative
and sign-extends, the key is built for radix `2^64 - 2^31`; from 32 on checked builds abort and
unchecked ones use the radix of `b mod 32`; `b = 0` aborts. -/
theorem C41_radix (gens : ChunkedCommitmentGens G) :
    (∀ chk n, chunksCount K 31 = .ok n → n ≠ 0 → commitmentKey K chk gens 31
      = .ok (powersKey (2 ^ 64 - 2 ^ 31) n.toNat gens.G ++ [gens.H])) ∧
    (∀ b : UInt8, 32 ≤ b.toNat → commitmentKey K true gens b = .panic) ∧
    (∀ b n : UInt8, 32 ≤ b.toNat → chunksCount K b = .ok n → n ≠ 0 →
      commitmentKey K false gens b = .ok (powersKey
        (if b.toNat % 32 = 31 then 2 ^ 64 - 2 ^ 31 else 2 ^ (b.toNat % 32)) n.toNat gens.G
        ++ [gens.H])) ∧
    (∀ chk, commitmentKey K chk gens 0 = .panic) := by
  have hnp : isPowerOfTwo (2 ^ 64 - 2 ^ 31) = false := by
    unfold isPowerOfTwo
    have : Nat.log 2 (2 ^ 64 - 2 ^ 31) = 63 := by
      rw [Nat.log_eq_iff (by norm_num)]
      norm_num
    rw [this]
    norm_num
  refine ⟨?_, ?_, ?_, ?_⟩
  · intro chk n hn hn0
    have hr : radixOf chk 31 = .ok (2 ^ 64 - 2 ^ 31) := by
      unfold radixOf
      dsimp only
      rw [if_pos (by decide), if_pos (by decide)]
    unfold commitmentKey
    rw [hr, hn]
    simp only [Res.ok_bind]
    rw [if_neg (by rw [hnp]; simp), commitmentKeyNonPow2_eq K gens.G n hn0]
    rfl
  · intro b hb
    unfold commitmentKey radixOf
    dsimp only
    rw [if_neg (by omega), if_pos rfl]
    rfl
  · intro b n hb hn hn0
    have hr : radixOf false b
        = .ok (if b.toNat % 32 = 31 then 2 ^ 64 - 2 ^ 31 else 2 ^ (b.toNat % 32)) := by
      unfold radixOf
      dsimp only
      rw [if_neg (by omega), if_neg (by simp)]
    unfold commitmentKey
    rw [hr, hn]
    simp only [Res.ok_bind]
    by_cases h31 : b.toNat % 32 = 31
    · simp only [h31, if_true]
      rw [if_neg (by rw [hnp]; simp), commitmentKeyNonPow2_eq K gens.G n hn0]
      rfl
    · simp only [h31, if_false]
      rw [if_pos (isPowerOfTwo_pow _), commitmentKeyPow2_eq gens.G n hn0]
      rfl
  · intro chk
    unfold commitmentKey
    have hr : radixOf chk 0 = .ok 1 := by
      unfold radixOf
      dsimp only
      rw [if_pos (by decide), if_neg (by decide)]
      rfl
    rw [hr, C04_chunks_count_zero]
    rfl

/-- for BLS12-381 the chunk count at 31 bits is 9, so the wrong radix is used 8 times -/
example : chunksCount blsFr 31 = .ok 9 := by
  unfold chunksCount
  rw [blsFr_modBits]
  decide

/-! ### C03 -/

omit [Module (ZMod K.p) G] in
/-- **C03** the commitment functions reject every unsupported chunk size. -/
theorem C03_commitment_rejects (chk : Bool) (m r : K.F) (b : UInt8)
    (gens : ChunkedCommitmentGens G) (key : List G) (hb : ¬ Supported b) :
    ChunkedCommitment.new K chk m r b gens = .err (.unexpectedBase b) ∧
    getCommitmentGivenCommitmentKey K m r b key = .err (.unexpectedBase b) := by
  unfold ChunkedCommitment.new getCommitmentGivenCommitmentKey getValuesToCommit
  rw [(C03_unsupported_rejected K b hb).1 m]
  exact ⟨rfl, rfl⟩

/-! ### C37 -/

theorem supported_le (b : UInt8) (hb : Supported b) : b.toNat ≤ 30 ∧ b.toNat ≠ 0 ∧ b ≠ 0 ∧
    b.toNat ≤ 16 := by
  rcases hb with rfl | rfl | rfl <;> decide

omit [Module (ZMod K.p) G] in
theorem msm_powersKey (radix : ℕ) (d : List ℕ) (g : G) :
    msmBigint (powersKey radix d.length g) d = positional radix d • g := by
  unfold powersKey positional
  conv_lhs => rw [eq_tab (l := d) rfl 0]
  rw [length_tab, msmBigint_tab, Finset.sum_smul]
  refine Finset.sum_congr rfl fun i _ => ?_
  rw [smul_smul]

theorem chunked_new_eq (chk : Bool) (m r : K.F) (b n : UInt8) (gens : ChunkedCommitmentGens G)
    (hb : Supported b) (hn : chunksCount K b = .ok n) (hlen : 64 * K.limbs / b.toNat = n.toNat) :
    ChunkedCommitment.new K chk m r b gens = .ok
      { comm := m • gens.G + r • gens.H
        key := powersKey (2 ^ b.toNat) n.toNat gens.G ++ [gens.H] } := by
  obtain ⟨d, h1, h2, h3, h4⟩ := decompose_spec m hb
  obtain ⟨hb1, hb2, hb3, hb4⟩ := supported_le b hb
  have hn0 : n ≠ 0 := by
    rintro rfl
    have hl : 0 < K.limbs := by
      rcases Nat.eq_zero_or_pos K.limbs with h | h
      · have := K.p_lt
        rw [h] at this
        have := K.prime.two_le
        simp at *
        omega
      · exact h
    have h64 : 64 / b.toNat ≠ 0 := by
      rcases hb with rfl | rfl | rfl <;> decide
    have h5 : 64 / b.toNat ≤ 64 * K.limbs / b.toNat := Nat.div_le_div_right (by omega)
    rw [hlen] at h5
    simp at h5
    omega
  unfold ChunkedCommitment.new getValuesToCommit
  rw [h1, C38_commitment_key K chk gens b n hb1 hn hn0]
  simp only [Res.ok_bind, Res.pure_eq]
  congr 2
  have hd : (d.map fun x => x.toNat) = nums d := rfl
  rw [hd, ← hlen, ← h2]
  have hl : d.length = (nums d).length := by simp [nums]
  rw [msmBigint_append _ _ _ _ (by simp [powersKey, nums])]
  rw [hl, msm_powersKey, h4]
  congr 1
  · exact mulBigint_intoBigint (K := K) gens.G m
  · simp only [msmBigint, List.zipWith_cons_cons, List.zipWith_nil_left, List.sum_cons,
      List.sum_nil, add_zero]
    exact mulBigint_intoBigint (K := K) gens.H r

/-- **C37** When decomposition length and chunk count agree, `ChunkedCommitment::new` is the plain
Pedersen commitment `m G + r H` to the whole message, and computing the commitment from the
returned key, or from `commitment_key`, gives the same value. -/
theorem C37_commits_to_message (chk : Bool) (m r : K.F) (b n : UInt8)
    (gens : ChunkedCommitmentGens G) (hb : Supported b) (hn : chunksCount K b = .ok n)
    (hlen : 64 * K.limbs / b.toNat = n.toNat) :
    ∃ key, ChunkedCommitment.new K chk m r b gens = .ok ⟨m • gens.G + r • gens.H, key⟩ ∧
      commitmentKey K chk gens b = .ok key ∧
      getCommitmentGivenCommitmentKey K m r b key = .ok (m • gens.G + r • gens.H) := by
  have h := chunked_new_eq K chk m r b n gens hb hn hlen
  refine ⟨_, h, ?_⟩
  unfold ChunkedCommitment.new at h
  obtain ⟨d, hd, h⟩ := Res.bind_eq_ok.mp h
  obtain ⟨gs, hg, h⟩ := Res.bind_eq_ok.mp h
  simp only [Res.pure_eq, Res.ok.injEq, ChunkedCommitment.mk.injEq] at h
  obtain ⟨h1, h2⟩ := h
  subst h2
  refine ⟨hg, ?_⟩
  unfold getCommitmentGivenCommitmentKey
  rw [hd]
  simp only [Res.ok_bind, Res.pure_eq, h1]

/-- **C37** with generators from `ChunkedCommitmentGens::new_using_rng`: they are the next two points the
random source yields, and commitments are Pedersen commitments to these two points. -/
theorem C37_random_generators {E : Engine} (R : RngCore E) (st st1 st2 : R.σ) (P Q : E.G1)
    (hP : R.g1 st = (P, st1)) (hQ : R.g1 st1 = (Q, st2)) (b n : UInt8) (hb : Supported b)
    (hn : chunksCount E.fr b = .ok n) (hlen : 64 * E.fr.limbs / b.toNat = n.toNat) :
    ∃ gens, ChunkedCommitmentGens.newUsingRng R st = (gens, st2) ∧
      ∀ (chk : Bool) (m r : E.Fr), ∃ key,
        ChunkedCommitment.new E.fr chk m r b gens = .ok ⟨m • P + r • Q, key⟩ := by
  refine ⟨⟨P, Q⟩, ?_, ?_⟩
  · unfold ChunkedCommitmentGens.newUsingRng
    simp only [hP, hQ]
  · intro chk m r
    obtain ⟨key, h, -⟩ := C37_commits_to_message E.fr chk m r b n ⟨P, Q⟩ hb hn hlen
    exact ⟨key, h⟩

/-- **C37** on BLS12-381 this is the case at every supported chunk size. -/
theorem C37_bls12_381 {G : Type} [AddCommGroup G] [Module (ZMod blsFr.p) G] (chk : Bool)
    (m r : blsFr.F) (b : UInt8) (gens : ChunkedCommitmentGens G) (hb : Supported b) :
    ∃ key, ChunkedCommitment.new blsFr chk m r b gens = .ok ⟨m • gens.G + r • gens.H, key⟩ := by
  obtain ⟨n, hn⟩ : ∃ n, chunksCount blsFr b = .ok n := by
    unfold chunksCount
    rw [if_neg (supported_le b hb).2.1]
    exact ⟨_, rfl⟩
  have hlen : 64 * blsFr.limbs / b.toNat = n.toNat :=
    (decomp_len_eq_iff blsFr b n hb hn).mpr (C05_bls12_381 b hb)
  obtain ⟨key, h, -⟩ := C37_commits_to_message blsFr chk m r b n gens hb hn hlen
  exact ⟨key, h⟩

/-! ### C39 -/

/-- **C39** homomorphic: the sum of two commitments is the commitment to the sums. -/
theorem C39_homomorphic (chk : Bool) (m r m' r' : K.F) (b n : UInt8)
    (gens : ChunkedCommitmentGens G) (hb : Supported b) (hn : chunksCount K b = .ok n)
    (hlen : 64 * K.limbs / b.toNat = n.toNat) :
    ∃ c c' key, ChunkedCommitment.new K chk m r b gens = .ok ⟨c, key⟩ ∧
      ChunkedCommitment.new K chk m' r' b gens = .ok ⟨c', key⟩ ∧
      ChunkedCommitment.new K chk (m + m') (r + r') b gens = .ok ⟨c + c', key⟩ := by
  refine ⟨_, _, _, chunked_new_eq K chk m r b n gens hb hn hlen,
    chunked_new_eq K chk m' r' b n gens hb hn hlen, ?_⟩
  rw [chunked_new_eq K chk (m + m') (r + r') b n gens hb hn hlen]
  congr 2
  rw [add_smul, add_smul]
  abel

/-- **C39** binding: two openings of one commitment with different messages yield the discrete
logarithm of `H` to base `G`. -/
theorem C39_binding (chk : Bool) (m r m' r' : K.F) (b n : UInt8)
    (gens : ChunkedCommitmentGens G) (hb : Supported b) (hn : chunksCount K b = .ok n)
    (hlen : 64 * K.limbs / b.toNat = n.toNat) (hG : gens.G ≠ 0)
    (heq : ChunkedCommitment.new K chk m r b gens = ChunkedCommitment.new K chk m' r' b gens)
    (hm : m ≠ m') : r ≠ r' ∧ gens.H = ((m - m') / (r' - r)) • gens.G := by
  rw [chunked_new_eq K chk m r b n gens hb hn hlen,
    chunked_new_eq K chk m' r' b n gens hb hn hlen] at heq
  simp only [Res.ok.injEq, ChunkedCommitment.mk.injEq, and_true] at heq
  have hrel : (m - m') • gens.G = (r' - r) • gens.H := by
    rw [sub_smul, sub_smul, sub_eq_sub_iff_add_eq_add, heq]
    abel
  have hr : r ≠ r' := by
    rintro rfl
    rw [sub_self, zero_smul] at hrel
    rcases smul_eq_zero.mp hrel with h | h
    · exact hm (sub_eq_zero.mp h)
    · exact hG h
  refine ⟨hr, ?_⟩
  have h0 : r' - r ≠ 0 := sub_ne_zero.mpr hr.symm
  rw [div_eq_inv_mul, ← smul_smul, hrel, smul_smul, inv_mul_cancel₀ h0, one_smul]

/-- **C39** hiding: if `G` is a multiple of `H ≠ 0`, then for every message every element of the
span of `H` is the commitment for exactly one blinding. -/
theorem C39_perfectly_hiding (chk : Bool) (m : K.F) (b n : UInt8)
    (gens : ChunkedCommitmentGens G) (hb : Supported b) (hn : chunksCount K b = .ok n)
    (hlen : 64 * K.limbs / b.toNat = n.toNat) (hH : gens.H ≠ 0) (x : K.F)
    (hGH : gens.G = x • gens.H) (y : K.F) :
    ∃! r, ∃ key, ChunkedCommitment.new K chk m r b gens = .ok ⟨y • gens.H, key⟩ := by
  refine ⟨y - m * x, ⟨powersKey (2 ^ b.toNat) n.toNat gens.G ++ [gens.H], ?_⟩, ?_⟩
  · rw [chunked_new_eq K chk m _ b n gens hb hn hlen, hGH, smul_smul, ← add_smul]
    congr 3
    ring
  · rintro r ⟨key, h⟩
    rw [chunked_new_eq K chk m r b n gens hb hn hlen] at h
    simp only [Res.ok.injEq, ChunkedCommitment.mk.injEq] at h
    have h1 := h.1
    rw [hGH, smul_smul, ← add_smul] at h1
    have h2 : (m * x + r - y) • gens.H = 0 := by rw [sub_smul, h1, sub_self]
    rcases smul_eq_zero.mp h2 with h3 | h3
    · linear_combination h3
    · exact absurd h3 hH

/-- the hypotheses of C37 to C39 are met by 16-bit chunks over the Goldilocks field -/
example (m r : goldFr.F) : ∃ key, ChunkedCommitment.new goldFr true m r 16
      (⟨2, 3⟩ : ChunkedCommitmentGens (ZMod goldFr.p)) =
    .ok ⟨m • (2 : ZMod goldFr.p) + r • (3 : ZMod goldFr.p), key⟩ := by
  obtain ⟨key, h, -⟩ := C37_commits_to_message goldFr true m r 16 4
    (⟨2, 3⟩ : ChunkedCommitmentGens (ZMod goldFr.p)) (Or.inr (Or.inr rfl)) Fix.count (by decide +kernel)
  exact ⟨key, h⟩

/-- `C37_random_generators` on a source that yields the points 5 and 7 -/
example (m r : Fix.E.Fr) : ∃ gens st2,
    ChunkedCommitmentGens.newUsingRng (listRng Fix.E) ([], [(5 : Fix.F), (7 : Fix.F)], []) = (gens, st2) ∧
    ∃ key, ChunkedCommitment.new Fix.E.fr true m r 16 gens
      = .ok ⟨m • (show Fix.E.G1 from (5 : Fix.F)) + r • (show Fix.E.G1 from (7 : Fix.F)), key⟩ := by
  obtain ⟨gens, h1, h2⟩ := C37_random_generators (listRng Fix.E) ([], [(5 : Fix.F), (7 : Fix.F)], [])
    ([], [(7 : Fix.F)], []) ([], [], []) (5 : Fix.F) (7 : Fix.F) rfl rfl 16 4 (Or.inr (Or.inr rfl)) Fix.count
    (by decide +kernel)
  exact ⟨gens, _, h1, h2 true m r⟩

/-! ### C40 -/

/-- the leading chunks of a decomposition that is longer than needed are zero -/
theorem decompose_leading_zero (m : K.F) (b n : UInt8) (hb : Supported b)
    (hn : chunksCount K b = .ok n) (hfit : chunksNeeded K b.toNat ≤ 255) (d : List UInt16)
    (hd : decompose m b = .ok d) (i : ℕ) (hi : i + n.toNat < d.length) :
    (nums d).getD i 0 = 0 := by
  obtain ⟨d', h1, h2, h3, h4⟩ := decompose_spec m hb
  rw [hd] at h1
  injection h1 with h1
  subst h1
  obtain ⟨hb1, hb2, hb3, hb4⟩ := supported_le b hb
  obtain ⟨n', hn', hcov, -⟩ := C04_chunks_count_least K b hb3 hfit
  rw [hn] at hn'
  injection hn' with hn'
  subst hn'
  by_contra hne
  have hlt : m.val < 2 ^ K.modBits := val_lt_two_pow m
  have hle : m.val < (2 ^ b.toNat) ^ n.toNat := by
    rw [← pow_mul, mul_comm]
    exact lt_of_lt_of_le hlt (Nat.pow_le_pow_right (by norm_num) hcov)
  have hterm : (nums d).getD i 0 * (2 ^ b.toNat) ^ ((nums d).length - 1 - i)
      ≤ positional (2 ^ b.toNat) (nums d) := by
    unfold positional
    exact Finset.single_le_sum (f := fun i => (nums d).getD i 0 * (2 ^ b.toNat) ^ ((nums d).length - 1 - i))
      (fun _ _ => Nat.zero_le _) (Finset.mem_range.mpr (by simp [nums]; omega))
  have hpow : (2 ^ b.toNat) ^ n.toNat ≤ (2 ^ b.toNat) ^ ((nums d).length - 1 - i) := by
    apply Nat.pow_le_pow_right (Nat.pow_pos (by norm_num))
    simp [nums]; omega
  have h6 : 1 * (2 ^ b.toNat) ^ ((nums d).length - 1 - i)
      ≤ (nums d).getD i 0 * (2 ^ b.toNat) ^ ((nums d).length - 1 - i) :=
    Nat.mul_le_mul_right _ (by omega)
  rw [h4] at hterm
  omega

omit [Module (ZMod K.p) G] in
/-- **C40** On a field where the decomposition is longer than `chunks_count`, the constructor
succeeds, but the blinding is not used at all: the commitment is
`sum_(i<n) d_i 2^(b(n-1-i)) G + d_n H` for the chunks `d` of the message. -/
theorem C40_misaligned (chk : Bool) (m : K.F) (b n : UInt8) (gens : ChunkedCommitmentGens G)
    (hb : Supported b) (hn : chunksCount K b = .ok n) (hn0 : n ≠ 0)
    (hlen : n.toNat < 64 * K.limbs / b.toNat) :
    ∃ d c key, decompose m b = .ok d ∧
      c = positional (2 ^ b.toNat) ((nums d).take n.toNat) • gens.G
        + (nums d).getD n.toNat 0 • gens.H ∧
      ∀ r, ChunkedCommitment.new K chk m r b gens = .ok ⟨c, key⟩ := by
  obtain ⟨d, h1, h2, h3, h4⟩ := decompose_spec m hb
  obtain ⟨hb1, hb2, hb3, hb4⟩ := supported_le b hb
  refine ⟨d, _, powersKey (2 ^ b.toNat) n.toNat gens.G ++ [gens.H], h1, rfl, ?_⟩
  intro r
  unfold ChunkedCommitment.new getValuesToCommit
  rw [h1, C38_commitment_key K chk gens b n hb1 hn hn0]
  simp only [Res.ok_bind, Res.pure_eq]
  congr 2
  have hd : (d.map fun x => x.toNat) = nums d := rfl
  have hl : (nums d).length = d.length := by simp [nums]
  rw [hd]
  have hsplit : nums d ++ [intoBigint r] = (nums d).take n.toNat
      ++ ((nums d).getD n.toNat 0 :: ((nums d).drop (n.toNat + 1) ++ [intoBigint r])) := by
    rw [List.getD_eq_getElem?_getD, List.getElem?_eq_getElem (by omega), Option.getD_some]
    have h := List.take_append_drop n.toNat (nums d)
    rw [List.drop_eq_getElem_cons (by omega)] at h
    rw [← List.cons_append, ← List.append_assoc, h]
  rw [hsplit, msmBigint_append _ _ _ _ (by simp [powersKey]; omega)]
  congr 1
  · have h5 : ((nums d).take n.toNat).length = n.toNat := by rw [List.length_take]; omega
    have h6 := msm_powersKey (2 ^ b.toNat) ((nums d).take n.toNat) gens.G
    rw [h5] at h6
    exact h6
  · simp only [msmBigint, List.zipWith_cons_cons, List.zipWith_nil_left, List.sum_cons,
      List.sum_nil, add_zero]

omit [Module (ZMod K.p) G] in
/-- **C40** If the decomposition is even more than twice as long, every message has the same
commitment, the neutral element: the commitment binds nothing. -/
theorem C40_constant_commitment (chk : Bool) (m r : K.F) (b n : UInt8)
    (gens : ChunkedCommitmentGens G) (hb : Supported b) (hn : chunksCount K b = .ok n)
    (hn0 : n ≠ 0) (hfit : chunksNeeded K b.toNat ≤ 255)
    (hlen : 2 * n.toNat < 64 * K.limbs / b.toNat) :
    ∃ key, ChunkedCommitment.new K chk m r b gens = .ok ⟨0, key⟩ := by
  obtain ⟨d, c, key, h1, h2, h3⟩ := C40_misaligned K chk m b n gens hb hn hn0 (by omega)
  have hdl : d.length = 64 * K.limbs / b.toNat := by
    obtain ⟨d', h1', h2', -⟩ := decompose_spec m hb
    rw [h1] at h1'
    injection h1' with h1'
    rw [h1', h2']
  have hz := fun i hi => decompose_leading_zero K m b n hb hn hfit d h1 i hi
  refine ⟨key, ?_⟩
  rw [h3 r, h2, hz n.toNat (by omega)]
  have : positional (2 ^ b.toNat) ((nums d).take n.toNat) = 0 := by
    unfold positional
    apply Finset.sum_eq_zero
    intro i hi
    have hi : i < n.toNat := by
      have := Finset.mem_range.mp hi
      rw [List.length_take] at this
      omega
    have : ((nums d).take n.toNat).getD i 0 = (nums d).getD i 0 := by
      rw [List.getD_eq_getElem?_getD, List.getElem?_take, if_pos hi, List.getD_eq_getElem?_getD]
    rw [this, hz i (by omega), Nat.zero_mul]
  rw [this, zero_smul, zero_smul, add_zero]

/-- a 7-bit field in one limb with 8-bit chunks: one chunk by `chunks_count`, eight by `decompose` -/
example : chunksCount smallFr 8 = .ok 1 ∧ chunksNeeded smallFr (8 : UInt8).toNat ≤ 255 ∧
    2 * (1 : UInt8).toNat < 64 * smallFr.limbs / (8 : UInt8).toNat := by
  unfold chunksCount chunksNeeded
  rw [smallFr_modBits]
  decide

end Verif
