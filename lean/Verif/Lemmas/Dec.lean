/-
Discrete-logarithm searches and decryption.
-/
import Verif.Lemmas.Enc

namespace Verif
open Spec

section dlog
variable {A : Type} [AddCommGroup A] [DecidableEq A]

theorem dlogLoop_spec (g p : A) (k j : ℕ) :
    (∃ i, j ≤ i ∧ i < j + k ∧ i • g = p ∧ (∀ i', j ≤ i' → i' < i → i' • g ≠ p) ∧
      dlogLoop g p ((j - 1) • g) j k = .ok (UInt16.ofNat i)) ∨
    ((∀ i, j ≤ i → i < j + k → i • g ≠ p) ∧
      dlogLoop g p ((j - 1) • g) j k = .err .couldNotFindDiscreteLog) ∨ j = 0 := by
  induction k generalizing j with
  | zero =>
    right; left
    exact ⟨fun i h1 h2 => by omega, rfl⟩
  | succ k ih =>
    by_cases hj : j = 0
    · exact .inr (.inr hj)
    have hcur : (j - 1) • g + g = j • g := by
      conv_rhs => rw [show j = (j - 1) + 1 by omega, add_smul, one_smul]
    simp only [dlogLoop, hcur]
    by_cases h : j • g = p
    · left
      refine ⟨j, le_rfl, by omega, h, fun i' h1 h2 => by omega, ?_⟩
      rw [if_pos h]
    · rw [if_neg h]
      have hstep := ih (j + 1)
      rw [Nat.add_sub_cancel] at hstep
      rcases hstep with ⟨i, h1, h2, h3, h4, h5⟩ | ⟨h1, h2⟩ | h0
      · left
        refine ⟨i, by omega, by omega, h3, ?_, h5⟩
        intro i' hi1 hi2
        rcases Nat.eq_or_lt_of_le hi1 with rfl | hlt
        · exact h
        · exact h4 i' hlt hi2
      · right; left
        refine ⟨?_, h2⟩
        intro i hi1 hi2
        rcases Nat.eq_or_lt_of_le hi1 with rfl | hlt
        · exact h
        · exact h1 i hlt (by omega)
      · omega

/-- `solve_discrete_log` for `p ≠ 0`: the least logarithm in `1..=max(maxVal,1)`, or the error. -/
theorem solveDiscreteLog_spec (maxVal : UInt16) (g p : A) (hp : p ≠ 0) :
    (∃ i, IsLeastLog g p (max maxVal.toNat 1) i ∧
      solveDiscreteLog maxVal g p = .ok (UInt16.ofNat i)) ∨
    (NoLog g p (max maxVal.toNat 1) ∧
      solveDiscreteLog maxVal g p = .err .couldNotFindDiscreteLog) := by
  have h0 : (0 : ℕ) • g ≠ p := by rw [zero_smul]; exact fun h => hp h.symm
  unfold solveDiscreteLog
  by_cases h : p = g
  · left
    refine ⟨1, ⟨by omega, by rw [one_smul, h], ?_⟩, ?_⟩
    · intro j hj
      have : j = 0 := by omega
      subst this; exact h0
    · rw [if_pos h]; rfl
  · rw [if_neg h]
    have h1 : (1 : ℕ) • g ≠ p := by rw [one_smul]; exact fun h' => h h'.symm
    have hs := dlogLoop_spec g p (maxVal.toNat - 1) 2
    have e : (2 - 1) • g = g := by simp
    rw [e] at hs
    rcases hs with ⟨i, a1, a2, a3, a4, a5⟩ | ⟨a1, a2⟩ | a
    · left
      refine ⟨i, ⟨by omega, a3, ?_⟩, a5⟩
      intro j hj
      rcases Nat.lt_or_ge j 2 with hj2 | hj2
      · interval_cases j <;> assumption
      · exact a4 j hj2 hj
    · right
      refine ⟨?_, a2⟩
      intro j hj
      rcases Nat.lt_or_ge j 2 with hj2 | hj2
      · interval_cases j <;> assumption
      · exact a1 j hj2 (by omega)
    · omega

omit [DecidableEq A] in
theorem IsLeastLog.unique {g p : A} {M i j : ℕ} (hi : IsLeastLog g p M i)
    (hj : IsLeastLog g p M j) : i = j := by
  rcases Nat.lt_trichotomy i j with h | h | h
  · exact absurd hi.2.1 (hj.2.2 i h)
  · exact h
  · exact absurd hj.2.1 (hi.2.2 j h)

omit [DecidableEq A] in
theorem IsLeastLog.not_noLog {g p : A} {M i : ℕ} (hi : IsLeastLog g p M i) : ¬ NoLog g p M :=
  fun h => h i hi.1 hi.2.1

/-- what a chunk position decrypts to: the zero shortcut followed by the search -/
def chunkSearch (maxVal : UInt16) (g p : A) : Res UInt16 :=
  if p = 0 then .ok 0 else solveDiscreteLog maxVal g p

theorem chunkSearch_spec (maxVal : UInt16) (g p : A) :
    (∃ i, IsLeastLog g p (max maxVal.toNat 1) i ∧
      chunkSearch maxVal g p = .ok (UInt16.ofNat i)) ∨
    (NoLog g p (max maxVal.toNat 1) ∧
      chunkSearch maxVal g p = .err .couldNotFindDiscreteLog) := by
  unfold chunkSearch
  by_cases hp : p = 0
  · left
    refine ⟨0, ⟨by omega, by rw [zero_smul, hp], fun j hj => by omega⟩, ?_⟩
    rw [if_pos hp]; rfl
  · rw [if_neg hp]
    exact solveDiscreteLog_spec maxVal g p hp

theorem chunkSearch_ok_iff (maxVal : UInt16) (g p : A) (x : UInt16) :
    chunkSearch maxVal g p = .ok x ↔ IsLeastLog g p (max maxVal.toNat 1) x.toNat := by
  have hmax : max maxVal.toNat 1 < 65536 := by
    have := maxVal.toNat_lt
    omega
  rcases chunkSearch_spec maxVal g p with ⟨i, h1, h2⟩ | ⟨h1, h2⟩
  · rw [h2]
    have hi : i < 65536 := lt_of_le_of_lt h1.1 hmax
    have hn : (UInt16.ofNat i).toNat = i := by simp; omega
    constructor
    · intro h
      injection h with h
      rw [← h, hn]; exact h1
    · intro h
      have := IsLeastLog.unique h1 h
      rw [this]
      simp
  · rw [h2]
    constructor
    · intro h; cases h
    · intro h; exact absurd h1 (IsLeastLog.not_noLog h)

theorem chunkSearch_err_iff (maxVal : UInt16) (g p : A) (e : SaverError) :
    chunkSearch maxVal g p = .err e ↔
      e = .couldNotFindDiscreteLog ∧ NoLog g p (max maxVal.toNat 1) := by
  rcases chunkSearch_spec maxVal g p with ⟨i, h1, h2⟩ | ⟨h1, h2⟩
  · rw [h2]
    constructor
    · intro h; cases h
    · rintro ⟨_, h⟩; exact absurd h (IsLeastLog.not_noLog h1)
  · rw [h2]
    constructor
    · intro h
      injection h with h
      exact ⟨h.symm, h1⟩
    · rintro ⟨rfl, _⟩; rfl

theorem chunkSearch_ne_panic (maxVal : UInt16) (g p : A) : chunkSearch maxVal g p ≠ .panic := by
  rcases chunkSearch_spec maxVal g p with ⟨i, h1, h2⟩ | ⟨h1, h2⟩ <;> rw [h2] <;> simp

/-- search through a table row whose entries are the multiples of `g` -/
theorem powersSearch_spec (powers : List (List A)) (i : ℕ) (row : List A) (g p : A)
    (hrow : powers[i]? = some row) (k j0 : ℕ) (hlen : j0 + k ≤ row.length)
    (hent : ∀ j < row.length, row[j]? = some ((j + 1) • g)) :
    (∃ l, j0 < l ∧ l ≤ j0 + k ∧ l • g = p ∧ (∀ l', j0 < l' → l' < l → l' • g ≠ p) ∧
      powersSearch powers i p j0 k = .ok (UInt16.ofNat l)) ∨
    ((∀ l, j0 < l → l ≤ j0 + k → l • g ≠ p) ∧
      powersSearch powers i p j0 k = .err .couldNotFindDiscreteLog) := by
  induction k generalizing j0 with
  | zero =>
    right
    exact ⟨fun l h1 h2 => by omega, rfl⟩
  | succ k ih =>
    have hidx : idx powers i = .ok row := idx_eq_ok.mpr hrow
    have hx : idx row j0 = .ok ((j0 + 1) • g) := idx_eq_ok.mpr (hent j0 (by omega))
    simp only [powersSearch, hidx, Res.ok_bind]
    rw [if_neg (by omega), hx]
    simp only [Res.ok_bind]
    by_cases h : (j0 + 1) • g = p
    · left
      refine ⟨j0 + 1, by omega, by omega, h, fun l' h1 h2 => by omega, ?_⟩
      rw [if_pos h]
      congr 1
      exact (UInt16.ofNat_add j0 1).symm
    · rw [if_neg h]
      rcases ih (j0 + 1) (by omega) with ⟨l, h1, h2, h3, h4, h5⟩ | ⟨h1, h2⟩
      · left
        refine ⟨l, by omega, by omega, h3, ?_, h5⟩
        intro l' hl1 hl2
        rcases Nat.eq_or_lt_of_le (show j0 + 1 ≤ l' by omega) with rfl | hlt
        · exact h
        · exact h4 l' hlt hl2
      · right
        refine ⟨?_, h2⟩
        intro l hl1 hl2
        rcases Nat.eq_or_lt_of_le (show j0 + 1 ≤ l by omega) with rfl | hlt
        · exact h
        · exact h1 l hlt (by omega)

omit [DecidableEq A] in
theorem powersLoop_eq (g : A) (k j : ℕ) :
    powersLoop g ((j + 1) • g) k = tab (k + 1) fun i => (j + i + 1) • g := by
  induction k generalizing j with
  | zero => simp [powersLoop, tab]
  | succ k ih =>
    rw [powersLoop, tab_succ]
    have : (j + 1) • g + g = (j + 1 + 1) • g := by rw [add_smul (j + 1), one_smul]
    rw [this, ih (j + 1)]
    congr 1
    apply tab_congr
    intro i _
    congr 1
    omega

/-- table search and direct search agree when the table holds the multiples of `g` -/
theorem table_search_eq (powers : List (List A)) (i : ℕ) (maxVal : UInt16) (g p : A)
    (N : ℕ) (hN : maxVal.toNat ≤ N)
    (hM : 1 ≤ maxVal.toNat) (hp : p ≠ 0) (hi : i < powers.length)
    (hrow : powers[i]? = some (tab N fun j => (j + 1) • g)) :
    solveDiscreteLogUsingPairingPowers i maxVal p powers = solveDiscreteLog maxVal g p := by
  unfold solveDiscreteLogUsingPairingPowers
  rw [if_neg (by omega)]
  have hs := powersSearch_spec powers i _ g p hrow maxVal.toNat 0 (by simpa using hN)
    (by
      intro j hj
      rw [length_tab] at hj
      rw [getElem?_tab, if_pos hj])
  have hmx : max maxVal.toNat 1 = maxVal.toNat := by omega
  have h0 : (0 : ℕ) • g ≠ p := by rw [zero_smul]; exact fun h => hp h.symm
  rcases hs with ⟨l, h1, h2, h3, h4, h5⟩ | ⟨h1, h2⟩
  · have hl : IsLeastLog g p (max maxVal.toNat 1) l := by
      refine ⟨by omega, h3, ?_⟩
      intro j hj
      rcases Nat.eq_zero_or_pos j with rfl | hj0
      · exact h0
      · exact h4 j hj0 hj
    rcases solveDiscreteLog_spec maxVal g p hp with ⟨i', a1, a2⟩ | ⟨a1, a2⟩
    · rw [h5, a2, IsLeastLog.unique hl a1]
    · exact absurd a1 (IsLeastLog.not_noLog hl)
  · have hl : NoLog g p (max maxVal.toNat 1) := by
      intro j hj
      rcases Nat.eq_zero_or_pos j with rfl | hj0
      · exact h0
      · exact h1 j hj0 (by omega)
    rcases solveDiscreteLog_spec maxVal g p hp with ⟨i', a1, a2⟩ | ⟨a1, a2⟩
    · exact absurd hl (IsLeastLog.not_noLog a1)
    · rw [h2, a2]

end dlog

section mapRes
variable {β : Type}

/-- if every position either succeeds or fails with the one error `e`, the loop succeeds iff all
positions do, and otherwise returns `e` -/
theorem mapRes_range_ok_or_err {f : ℕ → Res β} {n : ℕ} {e : SaverError}
    (h : ∀ i < n, (∃ x, f i = .ok x) ∨ f i = .err e) :
    (∀ bs, mapRes f (List.range n) = .ok bs ↔
      bs.length = n ∧ ∀ i < n, ∃ b, bs[i]? = some b ∧ f i = .ok b) ∧
    (∀ e', mapRes f (List.range n) = .err e' ↔ e' = e ∧ ∃ i < n, f i = .err e) ∧
    mapRes f (List.range n) ≠ .panic := by
  refine ⟨fun bs => mapRes_range_eq_ok_iff, ?_⟩
  by_cases hex : ∃ i < n, f i = .err e
  · have herr : mapRes f (List.range n) = .err e := by
      classical
      let k := Nat.find hex
      have hk : k < n ∧ f k = .err e := Nat.find_spec hex
      have hlt : ∀ j < k, ∃ b, f j = .ok b := by
        intro j hj
        rcases h j (by omega) with h1 | h1
        · exact h1
        · exact absurd ⟨by omega, h1⟩ (Nat.find_min hex hj)
      have hsplit : List.range n = List.range k ++ (k :: List.range' (k + 1) (n - k - 1)) := by
        rw [List.range_eq_range', List.range_eq_range', ← List.range'_succ]
        have e1 : n - k - 1 + 1 = n - k := by omega
        rw [e1]
        have := List.range'_append (s := 0) (m := k) (n := n - k) (step := 1)
        simp only [Nat.one_mul, Nat.zero_add] at this
        rw [this]
        congr 1
        omega
      rw [hsplit]
      exact mapRes_err (fun x hx => hlt x (by simpa using hx)) hk.2
    rw [herr]
    refine ⟨?_, by simp⟩
    intro e'
    constructor
    · intro h; injection h with h; exact ⟨h.symm, hex⟩
    · rintro ⟨rfl, _⟩; rfl
  · have hall : ∀ i < n, ∃ x, f i = .ok x := by
      intro i hi
      rcases h i hi with h1 | h1
      · exact h1
      · exact absurd ⟨i, hi, h1⟩ hex
    have hok : ∃ bs, mapRes f (List.range n) = .ok bs := by
      clear h hex
      induction n with
      | zero => exact ⟨[], rfl⟩
      | succ n ih =>
        obtain ⟨bs, hbs⟩ := ih (fun i hi => hall i (by omega))
        obtain ⟨x, hx⟩ := hall n (by omega)
        refine ⟨bs ++ [x], ?_⟩
        rw [List.range_succ, mapRes_append, hbs]
        simp [mapRes, hx]
    obtain ⟨bs, hbs⟩ := hok
    rw [hbs]
    refine ⟨?_, by simp⟩
    intro e'
    constructor
    · intro h; cases h
    · rintro ⟨_, h⟩; exact absurd h hex

theorem mapRes_range_panic_first {f : ℕ → Res β} {n i : ℕ} (hi : i < n) (h : f i = .panic)
    (hb : ∀ j < i, ∃ x, f j = .ok x) : mapRes f (List.range n) = .panic := by
  have hsplit : List.range n = List.range i ++ (i :: List.range' (i + 1) (n - i - 1)) := by
    rw [List.range_eq_range', List.range_eq_range', ← List.range'_succ]
    have e1 : n - i - 1 + 1 = n - i := by omega
    rw [e1]
    have := List.range'_append (s := 0) (m := i) (n := n - i) (step := 1)
    simp only [Nat.one_mul, Nat.zero_add] at this
    rw [this]
    congr 1
    omega
  rw [hsplit]
  exact mapRes_panic (fun x hx => hb x (by simpa using hx)) h

theorem mapRes_range_err_inv {f : ℕ → Res β} {n : ℕ} {e : SaverError}
    (h : mapRes f (List.range n) = .err e) :
    ∃ i < n, f i = .err e ∧ ∀ j < i, ∃ x, f j = .ok x := by
  induction n with
  | zero => cases h
  | succ n ih =>
    rw [List.range_succ, mapRes_append] at h
    cases hm : mapRes f (List.range n) with
    | ok bs =>
      rw [hm] at h
      refine ⟨n, by omega, ?_, ?_⟩
      · cases hn : f n with
        | ok x => simp [mapRes, hn] at h
        | err e' => simp [mapRes, hn] at h; rw [h]
        | panic => simp [mapRes, hn] at h
      · intro j hj
        obtain ⟨b, _, hb⟩ := (mapRes_range_eq_ok_iff.mp hm).2 j hj
        exact ⟨b, hb⟩
    | err e' =>
      rw [hm] at h
      simp at h
      obtain ⟨i, hi, a, b⟩ := ih (by rw [hm, h])
      exact ⟨i, by omega, a, b⟩
    | panic => rw [hm] at h; simp at h

end mapRes

variable {E : Engine}

theorem chunkMaxU32_eq (chk : Bool) {b : UInt8} (hb : b.toNat < 32) :
    chunkMaxU32 chk b = .ok (2 ^ b.toNat - 1) := by
  unfold chunkMaxU32
  rw [if_pos hb]

theorem maxVal_searchBound {b : ℕ} :
    max (UInt16.ofNat (2 ^ b - 1)).toNat 1 = searchBound b := by
  unfold searchBound
  have h2 := Nat.two_pow_pos b
  rcases Nat.lt_or_ge b 16 with h | h
  · have : 2 ^ b < 2 ^ 16 := Nat.pow_lt_pow_right (by norm_num) h
    simp
    omega
  · obtain ⟨k, rfl⟩ := Nat.exists_eq_add_of_le h
    rw [pow_add] at *
    have hk := Nat.two_pow_pos k
    have : (UInt16.ofNat (2 ^ 16 * 2 ^ k - 1)).toNat = 65535 := by
      simp
      omega
    rw [this]
    omega

theorem searchBound_eq {b : ℕ} (h1 : 1 ≤ b) (h2 : b ≤ 16) : searchBound b = 2 ^ b - 1 := by
  have : 2 ^ b ≤ 2 ^ 16 := Nat.pow_le_pow_right (by norm_num) h2
  have h3 : 2 ^ 1 ≤ 2 ^ b := Nat.pow_le_pow_right (by norm_num) h1
  unfold searchBound
  omega

theorem searchBound_lt (b : ℕ) : searchBound b < 65536 := by
  unfold searchBound
  omega

theorem maxVal16 {b : ℕ} (hb : b ≤ 16) : (UInt16.ofNat (2 ^ b - 1)).toNat = 2 ^ b - 1 := by
  have : 2 ^ b ≤ 2 ^ 16 := Nat.pow_le_pow_right (by norm_num) hb
  have h2 := Nat.two_pow_pos b
  simp
  omega

theorem two_pow_ge {b : ℕ} (hb : 1 ≤ b) : 2 ≤ 2 ^ b := by
  calc 2 = 2 ^ 1 := by norm_num
    _ ≤ 2 ^ b := Nat.pow_le_pow_right (by norm_num) hb

theorem decKeyChunks_ok (dk : DecryptionKey E) (h : dk.V_2.length = dk.V_1.length) :
    dk.supportedChunksCount = .ok (UInt8.ofNat dk.V_1.length) := by
  unfold DecryptionKey.supportedChunksCount decKeyChunks
  rw [if_neg (by simpa using h)]

theorem dkChunks_prepare (dk : DecryptionKey E) :
    dk.prepare.supportedChunksCount = dk.supportedChunksCount := by
  simp [PreparedDecryptionKey.supportedChunksCount, DecryptionKey.supportedChunksCount,
    DecryptionKey.prepare]

/-- Decryption with an optional table, by the plain pairing. -/
theorem decryptGiven_eq (chk : Bool) (c_0 : E.G1) (c : List E.G1) (sk : SecretKey E)
    (dk : DecryptionKey E) (g_i : List E.G1) (b : UInt8) (hb : b.toNat < 32)
    (hw : dk.V_2.length = dk.V_1.length) (hc : c.length = dk.V_1.length % 256)
    (hg : c.length ≤ g_i.length) (powers : Option (List (List E.GT))) :
    decryptToChunksGivenPairingPowers chk c_0 c sk dk.prepare g_i b powers = (do
      let chunks ← mapRes (fun i =>
        if chunkValue c_0 c sk.rho dk i = 0 then .ok 0
        else if (powers.getD []).isEmpty then solveDiscreteLog (UInt16.ofNat (2 ^ b.toNat - 1))
          (E.e (g_i.getD i 0) (dk.V_2.getD i 0)) (chunkValue c_0 c sk.rho dk i)
        else solveDiscreteLogUsingPairingPowers i (UInt16.ofNat (2 ^ b.toNat - 1))
          (chunkValue c_0 c sk.rho dk i) (powers.getD []))
        (List.range c.length)
      return (chunks, sk.rho • c_0)) := by
  unfold decryptToChunksGivenPairingPowers
  rw [dkChunks_prepare, decKeyChunks_ok dk hw]
  have hcnt : (UInt8.ofNat dk.V_1.length).toNat = dk.V_1.length % 256 := by simp
  simp only [Res.ok_bind, hcnt, chunkMaxU32_eq chk hb]
  rw [if_neg (by simpa using hc), if_neg (by omega)]
  have hle : c.length ≤ dk.V_1.length := by rw [hc]; exact Nat.mod_le _ _
  simp only [intoBigint_smul, neg_smul, neg_neg]
  congr 1
  apply mapRes_congr
  intro i hi
  have hi' : i < c.length := List.mem_range.mp hi
  rw [idx_ok 0 hi']
  have hv2 : idx dk.prepare.V_2 i = .ok (E.prep (dk.V_2.getD i 0)) := by
    rw [idx_eq_ok]
    simp only [DecryptionKey.prepare, List.getElem?_map]
    rw [List.getElem?_eq_getElem (by omega)]
    simp [List.getD_eq_getElem?_getD, List.getElem?_eq_getElem (show i < dk.V_2.length by omega)]
  have hv1 : idx dk.prepare.V_1 i = .ok (E.prep (dk.V_1.getD i 0)) := by
    rw [idx_eq_ok]
    simp only [DecryptionKey.prepare, List.getElem?_map]
    rw [List.getElem?_eq_getElem (by omega)]
    simp [List.getD_eq_getElem?_getD, List.getElem?_eq_getElem (show i < dk.V_1.length by omega)]
  rw [hv2, hv1]
  simp only [Res.ok_bind, Engine.multiPairing, List.length_cons, List.length_nil, if_true,
    List.zipWith_cons_cons, List.zipWith_nil_left, List.sum_cons, List.sum_nil, add_zero,
    E.pairP_prep, map_neg, LinearMap.neg_apply, map_smul, LinearMap.smul_apply]
  rw [← sub_eq_add_neg]
  rw [idx_ok 0 (show i < g_i.length by omega)]
  rfl

/-- Decryption without table, by the plain pairing and `chunkSearch`. -/
theorem decryptToChunks_eq (chk : Bool) (c_0 : E.G1) (c : List E.G1) (sk : SecretKey E)
    (dk : DecryptionKey E) (g_i : List E.G1) (b : UInt8) (hb : b.toNat < 32)
    (hw : dk.V_2.length = dk.V_1.length) (hc : c.length = dk.V_1.length % 256)
    (hg : c.length ≤ g_i.length) :
    decryptToChunks chk c_0 c sk dk.prepare g_i b = (do
      let chunks ← mapRes (fun i => chunkSearch (UInt16.ofNat (2 ^ b.toNat - 1))
        (E.e (g_i.getD i 0) (dk.V_2.getD i 0)) (chunkValue c_0 c sk.rho dk i))
        (List.range c.length)
      return (chunks, sk.rho • c_0)) := by
  unfold decryptToChunks
  rw [decryptGiven_eq chk c_0 c sk dk g_i b hb hw hc hg none]
  rfl

end Verif
