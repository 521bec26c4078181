/-
Properties C01, C02, C03 (utils part), C04, C06: chunk decomposition (src/utils.rs:19-86).
-/
import Verif.Lemmas.Bytes
import Verif.Instances
import Mathlib.NumberTheory.LucasLehmer

namespace Verif
open Spec

theorem decompose_spec {K : FieldCfg} (m : K.F) {b : UInt8} (hb : Supported b) :
    ∃ d, decompose m b = .ok d ∧ d.length = 64 * K.limbs / b.toNat ∧
      (∀ x ∈ d, x.toNat < 2 ^ b.toNat) ∧ positional (2 ^ b.toNat) (nums d) = m.val := by
  rcases hb with rfl | rfl | rfl
  · refine ⟨_, rfl, ?_, ?_, ?_⟩
    · rw [length_nibbles, length_toBytesBE]
      show _ = 64 * K.limbs / 4
      omega
    · intro x hx
      simp only [List.mem_flatMap, List.mem_cons, List.not_mem_nil, or_false] at hx
      obtain ⟨y, _, h | h⟩ := hx
      · subst h
        have := y.toNat_lt
        rw [hi_nibble]
        show _ < 16
        omega
      · subst h
        rw [lo_nibble]
        show _ < 16
        omega
    · rw [positional_eq_horner]
      show horner 16 0 _ = _
      rw [nums, horner_nibbles, horner_toBytesBE]
  · refine ⟨_, rfl, ?_, ?_, ?_⟩
    · rw [List.length_map, length_toBytesBE]
      show _ = 64 * K.limbs / 8
      omega
    · intro x hx
      simp only [List.mem_map] at hx
      obtain ⟨y, _, h⟩ := hx
      subst h
      have := y.toNat_lt
      show _ < 256
      simpa using this
    · rw [positional_eq_horner]
      show horner 256 0 _ = _
      rw [nums, List.map_map, ← horner_toBytesBE m]
      rfl
  · refine ⟨_, rfl, ?_, ?_, ?_⟩
    · rw [length_pairs (4 * K.limbs) _ (by rw [length_toBytesBE]; ring)]
      show _ = 64 * K.limbs / 16
      omega
    · intro x _
      exact x.toNat_lt
    · rw [positional_eq_horner]
      show horner 65536 0 _ = _
      rw [nums, horner_pairs (4 * K.limbs) _ (by rw [length_toBytesBE]; ring), horner_toBytesBE]

theorem compose_spec {K : FieldCfg} (chk : Bool) {d : List UInt16} {b : UInt8} (hb : Supported b)
    (heven : b = 4 → 2 ∣ d.length) (hd : ∀ x ∈ d, x.toNat < 2 ^ b.toNat) :
    compose (K := K) chk d b = .ok ((positional (2 ^ b.toNat) (nums d) : ℕ) : K.F) := by
  rcases hb with rfl | rfl | rfl
  · obtain ⟨k, hk⟩ := heven rfl
    obtain ⟨bs, h1, h2⟩ := nibblePairs_horner chk k d hk hd
    have : ¬ d.length % 2 = 1 := by omega
    unfold compose
    rw [if_pos rfl, if_neg this, h1]
    rw [positional_eq_horner]
    show Res.ok _ = Res.ok _
    rw [fromBeBytesModOrder, bytesValue_eq, h2]
    rfl
  · unfold compose
    rw [if_neg (by decide), if_pos rfl, positional_eq_horner]
    rw [fromBeBytesModOrder, bytesValue_eq, horner_bytes_of_u16 d hd]
    rfl
  · unfold compose
    rw [if_neg (by decide), if_neg (by decide), if_pos rfl, positional_eq_horner]
    rw [fromBeBytesModOrder, bytesValue_eq, horner_split]
    rfl

/-- **C01** `compose(decompose(m, b), b) = Ok(m)` for every field, element and supported size, in
checked and unchecked builds. -/
theorem C01_decompose_compose_roundtrip (K : FieldCfg) (m : K.F) (b : UInt8) (hb : Supported b) :
    ∃ d, decompose m b = .ok d ∧ ∀ chk, compose chk d b = .ok m := by
  obtain ⟨d, h1, h2, h3, h4⟩ := decompose_spec m hb
  refine ⟨d, h1, fun chk => ?_⟩
  rw [compose_spec chk hb ?_ h3, h4, ZMod.natCast_zmod_val]
  rintro rfl
  rw [h2]
  show 2 ∣ 64 * K.limbs / 4
  omega

example : ∃ d, decompose (K := blsFr) (12345678901234567890 : ZMod blsFr.p) 16 = .ok d ∧
    ∀ chk, compose chk d 16 = .ok (12345678901234567890 : ZMod blsFr.p) :=
  C01_decompose_compose_roundtrip blsFr _ 16 (.inr (.inr rfl))

/-- **C02** `decompose` succeeds on the supported sizes with exactly `64 * limbs / b` chunks, each
below `2^b`, whose big-endian value is the canonical representative of the element; and it is the
only chunk list of that length with these properties. -/
theorem C02_decompose_positional (K : FieldCfg) (m : K.F) (b : UInt8) (hb : Supported b) :
    ∃ d, decompose m b = .ok d ∧
      d.length = 64 * K.limbs / b.toNat ∧
      (∀ x ∈ d, x.toNat < 2 ^ b.toNat) ∧
      positional (2 ^ b.toNat) (nums d) = m.val ∧
      (∀ d' : List UInt16, d'.length = 64 * K.limbs / b.toNat →
        (∀ x ∈ d', x.toNat < 2 ^ b.toNat) →
        positional (2 ^ b.toNat) (nums d') = m.val → d' = d) := by
  obtain ⟨d, h1, h2, h3, h4⟩ := decompose_spec m hb
  refine ⟨d, h1, h2, h3, h4, fun d' h2' h3' h4' => ?_⟩
  have : nums d' = nums d := by
    apply horner_inj (base := 2 ^ b.toNat)
    · simp [nums, h2, h2']
    · intro x hx
      simp only [nums, List.mem_map] at hx
      obtain ⟨y, hy, rfl⟩ := hx
      exact h3' y hy
    · intro x hx
      simp only [nums, List.mem_map] at hx
      obtain ⟨y, hy, rfl⟩ := hx
      exact h3 y hy
    · rw [← positional_eq_horner, ← positional_eq_horner, h4, h4']
  exact List.map_injective_iff.mpr (fun x y h => UInt16.toNat_inj.mp h) this

/-- **C02** two different field elements never share a decomposition. -/
theorem C02_decompose_injective (K : FieldCfg) (m m' : K.F) (b : UInt8) (hb : Supported b)
    (h : decompose m b = decompose m' b) : m = m' := by
  obtain ⟨d, h1, _, _, h4⟩ := decompose_spec m hb
  obtain ⟨d', h1', _, _, h4'⟩ := decompose_spec m' hb
  rw [h1, h1'] at h
  injection h with h
  subst h
  exact ZMod.val_injective _ (h4.symm.trans h4')

example : ∃ d, decompose (K := smallFr) (77 : ZMod smallFr.p) 4 = .ok d ∧ d.length = 16 ∧
    positional 16 (nums d) = 77 := by
  obtain ⟨d, h1, h2, _, h4, _⟩ := C02_decompose_positional smallFr 77 4 (.inl rfl)
  exact ⟨d, h1, h2, h4⟩

/-- **C03** for every chunk size other than 4, 8, 16 both functions return `UnexpectedBase(b)` on
every input. -/
theorem C03_unsupported_rejected (K : FieldCfg) (b : UInt8) (hb : ¬ Supported b) :
    (∀ m : K.F, decompose m b = .err (.unexpectedBase b)) ∧
    (∀ (chk : Bool) (d : List UInt16), compose (K := K) chk d b = .err (.unexpectedBase b)) := by
  simp only [Supported, not_or] at hb
  obtain ⟨h4, h8, h16⟩ := hb
  constructor
  · intro m
    simp [decompose, h4, h8, h16]
  · intro chk d
    simp [compose, h4, h8, h16]

example : ¬ Supported 5 := by unfold Supported; decide
example : ¬ Supported 0 := by unfold Supported; decide

theorem nibblePairs_ne_err (chk : Bool) : ∀ (k : ℕ) (d : List UInt16) (e : SaverError),
    d.length ≤ k → nibblePairs chk d ≠ .err e := by
  intro k
  induction k with
  | zero =>
    intro d e h
    have : d = [] := List.length_eq_zero_iff.mp (by omega)
    subst this
    simp [nibblePairs]
  | succ k ih =>
    intro d e h
    match d, h with
    | [], _ => simp [nibblePairs]
    | [x], _ => simp [nibblePairs]
    | x :: y :: rest, h =>
      have := ih rest
      simp only [nibblePairs]
      split
      · simp
      · cases hr : nibblePairs chk rest with
        | ok _ => simp
        | panic => simp
        | err e' => exact absurd hr (ih rest e' (by simp at h; omega))

/-- **C03** the complete list of error results of `compose`: an unsupported size, or an odd number
of 4-bit chunks. -/
theorem C03_compose_errors_exactly (K : FieldCfg) (chk : Bool) (d : List UInt16) (b : UInt8)
    (e : SaverError) :
    compose (K := K) chk d b = .err e ↔
      (¬ Supported b ∧ e = .unexpectedBase b) ∨
      (b = 4 ∧ ¬ 2 ∣ d.length ∧ e = .invalidDecomposition) := by
  by_cases h4 : b = 4
  · subst h4
    have hs : Supported 4 := .inl rfl
    simp only [hs, not_true_eq_false, false_and, false_or, true_and]
    unfold compose
    rw [if_pos rfl]
    by_cases ho : d.length % 2 = 1
    · rw [if_pos ho]
      constructor
      · intro h
        injection h with h
        exact ⟨by omega, h.symm⟩
      · rintro ⟨_, rfl⟩; rfl
    · rw [if_neg ho]
      constructor
      · intro h
        cases hn : nibblePairs chk d with
        | ok _ => rw [hn] at h; simp at h
        | panic => rw [hn] at h; simp at h
        | err e' => exact absurd hn (nibblePairs_ne_err chk _ d e' le_rfl)
      · rintro ⟨h, _⟩; omega
  · simp only [h4, false_and, or_false]
    by_cases h8 : b = 8
    · subst h8
      simp [compose, Supported]
    · by_cases h16 : b = 16
      · subst h16
        simp [compose, Supported]
      · rw [(C03_unsupported_rejected K b (by simp [Supported, h4, h8, h16])).2 chk d]
        simp only [Supported, h4, h8, h16, or_self, not_false_eq_true, true_and]
        constructor
        · intro h; injection h with h; exact h.symm
        · rintro rfl; rfl

/-- **C04** for a nonzero chunk size needing at most 255 chunks, `chunks_count` returns the least
`n` with `n * b >= bit length of the modulus`. -/
theorem C04_chunks_count_least (K : FieldCfg) (b : UInt8) (hb : b ≠ 0)
    (hfit : chunksNeeded K b.toNat ≤ 255) :
    ∃ n, chunksCount K b = .ok n ∧ K.modBits ≤ n.toNat * b.toNat ∧
      ∀ k, K.modBits ≤ k * b.toNat → n.toNat ≤ k := by
  have hb0 : b.toNat ≠ 0 := fun h => hb (UInt8.toNat_inj.mp (by simpa using h))
  unfold chunksNeeded at hfit
  refine ⟨_, if_neg hb0, ?_, ?_⟩
  all_goals
    have hn : (UInt8.ofNat ((K.modBits + b.toNat - 1) / b.toNat)).toNat
        = (K.modBits + b.toNat - 1) / b.toNat := by
      simp; omega
    rw [hn]
  · have := Nat.div_add_mod (K.modBits + b.toNat - 1) b.toNat
    have h2 := Nat.mod_lt (K.modBits + b.toNat - 1) (Nat.pos_of_ne_zero hb0)
    rw [Nat.mul_comm] at this
    omega
  · intro k hk
    apply Nat.le_of_lt_succ
    rw [Nat.div_lt_iff_lt_mul (Nat.pos_of_ne_zero hb0), Nat.succ_mul]
    have := Nat.pos_of_ne_zero hb0
    omega

/-- **C04** `b = 0` aborts (division by zero). -/
theorem C04_chunks_count_zero (K : FieldCfg) : chunksCount K 0 = .panic := by
  simp [chunksCount]

/-- **C04** when more than 255 chunks are needed, the `u8` conversion silently truncates and the
returned count does not cover the field. -/
theorem C04_chunks_count_truncates (K : FieldCfg) (b : UInt8) (hb : b ≠ 0)
    (hbig : 255 < chunksNeeded K b.toNat) :
    ∃ n, chunksCount K b = .ok n ∧ n.toNat = chunksNeeded K b.toNat % 256 ∧
      n.toNat * b.toNat < K.modBits := by
  have hb0 : b.toNat ≠ 0 := fun h => hb (UInt8.toNat_inj.mp (by simpa using h))
  have hn : (UInt8.ofNat ((K.modBits + b.toNat - 1) / b.toNat)).toNat
      = chunksNeeded K b.toNat % 256 := by
    simp [chunksNeeded]
  refine ⟨_, if_neg hb0, hn, ?_⟩
  rw [hn]
  have h1 : chunksNeeded K b.toNat % 256 < 256 := Nat.mod_lt _ (by norm_num)
  have h2 : (chunksNeeded K b.toNat % 256 + 1) ≤ chunksNeeded K b.toNat := by omega
  have h3 := Nat.mul_le_mul_right b.toNat h2
  have h4 : chunksNeeded K b.toNat * b.toNat ≤ K.modBits + b.toNat - 1 :=
    Nat.div_mul_le_self _ _
  have := Nat.pos_of_ne_zero hb0
  rw [Nat.add_mul] at h3
  omega

/-- a 521-bit field (Mersenne prime), as an example where the truncation happens -/
def mersenneFr : FieldCfg where
  p := mersenne 521
  prime := lucas_lehmer_sufficiency _ (by simp) (by norm_num)
  limbs := 9
  p_lt := by unfold mersenne; exact lt_of_lt_of_le (Nat.sub_lt (by norm_num) (by norm_num))
              (Nat.pow_le_pow_right (by norm_num) (by norm_num))

theorem mersenneFr_modBits : mersenneFr.modBits = 521 := by
  have h1 : mersenne 521 < 2 ^ 521 := by decide +kernel
  have h2 : 2 ^ 520 ≤ mersenne 521 := by decide +kernel
  show Nat.size (mersenne 521) = 521
  have a := Nat.size_le.mpr h1
  have b := Nat.lt_size.mpr h2
  omega

example : 255 < chunksNeeded mersenneFr (2 : UInt8).toNat := by
  simp [chunksNeeded, mersenneFr_modBits]
example : chunksNeeded blsFr (16 : UInt8).toNat ≤ 255 := by
  simp [chunksNeeded, blsFr_modBits]

/-- **C06** on in-range chunks (an even number of them for `b = 4`) `compose` returns the
positional value reduced modulo the field order. -/
theorem C06_compose_positional (K : FieldCfg) (chk : Bool) (d : List UInt16) (b : UInt8)
    (hb : Supported b) (heven : b = 4 → 2 ∣ d.length) (hd : ∀ x ∈ d, x.toNat < 2 ^ b.toNat) :
    compose (K := K) chk d b = .ok ((positional (2 ^ b.toNat) (nums d) : ℕ) : K.F) :=
  compose_spec chk hb heven hd

example : compose (K := smallFr) true [1, 2, 3, 4] 4 = .ok ((0x1234 : ℕ) : ZMod 101) := by
  rw [C06_compose_positional smallFr true [1, 2, 3, 4] 4 (.inl rfl) (fun _ => ⟨2, rfl⟩)
    (by decide)]
  rfl

theorem horner_add (base : ℕ) (x y : List ℕ) (h : x.length = y.length) :
    horner base 0 (List.zipWith (· + ·) x y) = horner base 0 x + horner base 0 y := by
  induction x generalizing y with
  | nil => cases y <;> simp_all [horner]
  | cons a x ih =>
    cases y with
    | nil => simp at h
    | cons c y =>
      simp only [List.length_cons, Nat.add_right_cancel_iff] at h
      simp only [List.zipWith_cons_cons, horner_cons]
      rw [horner_acc, ih y h, horner_acc base (0 * base + a), horner_acc base (0 * base + c) y]
      simp only [List.length_zipWith, h, Nat.min_self]
      ring

/-- **C06** `compose` is additive for chunk-wise sums that stay below `2^b`. -/
theorem C06_compose_additive (K : FieldCfg) (chk : Bool) (d d' : List UInt16) (b : UInt8)
    (hb : Supported b) (heven : b = 4 → 2 ∣ d.length) (hlen : d.length = d'.length)
    (hsum : ∀ i < d.length, (nums d).getD i 0 + (nums d').getD i 0 < 2 ^ b.toNat) :
    ∃ x y, compose (K := K) chk d b = .ok x ∧ compose (K := K) chk d' b = .ok y ∧
      compose (K := K) chk (List.zipWith (· + ·) d d') b = .ok (x + y) := by
  have getn : ∀ (l : List UInt16) (i : ℕ) (h : i < l.length), (nums l).getD i 0 = l[i].toNat := by
    intro l i h
    simp [nums, List.getD_eq_getElem?_getD, List.getElem?_eq_getElem h]
  have hd : ∀ x ∈ d, x.toNat < 2 ^ b.toNat := by
    intro x hx
    obtain ⟨i, hi, rfl⟩ := List.getElem_of_mem hx
    have := hsum i hi
    rw [getn d i hi] at this
    omega
  have hd' : ∀ x ∈ d', x.toNat < 2 ^ b.toNat := by
    intro x hx
    obtain ⟨i, hi, rfl⟩ := List.getElem_of_mem hx
    have := hsum i (by omega)
    rw [getn d' i hi] at this
    omega
  have hb16 : (2 : ℕ) ^ b.toNat ≤ 65536 := by
    rcases hb with rfl | rfl | rfl <;> decide
  have hadd : ∀ i (hi : i < d.length) (hi' : i < d'.length),
      (d[i] + d'[i]).toNat = d[i].toNat + d'[i].toNat := by
    intro i hi hi'
    have := hsum i hi
    rw [getn d i hi, getn d' i hi'] at this
    rw [UInt16.toNat_add]
    exact Nat.mod_eq_of_lt (by omega)
  have hnums : nums (List.zipWith (· + ·) d d') = List.zipWith (· + ·) (nums d) (nums d') := by
    apply List.ext_getElem
    · simp [nums]
    · intro i h1 h2
      simp only [nums, List.getElem_map, List.getElem_zipWith]
      apply hadd
  have hz : ∀ x ∈ List.zipWith (· + ·) d d', x.toNat < 2 ^ b.toNat := by
    intro x hx
    obtain ⟨i, hi, rfl⟩ := List.getElem_of_mem hx
    simp only [List.length_zipWith, lt_min_iff] at hi
    have := hsum i hi.1
    rw [getn d i hi.1, getn d' i hi.2] at this
    rw [List.getElem_zipWith, hadd i hi.1 hi.2]
    exact this
  refine ⟨_, _, compose_spec chk hb heven hd, compose_spec chk hb (by rw [← hlen]; exact heven) hd',
    ?_⟩
  rw [compose_spec chk hb (by simpa [← hlen] using heven) hz, hnums, positional_eq_horner,
    horner_add _ _ _ (by simp [nums, hlen]), Nat.cast_add, positional_eq_horner,
    positional_eq_horner]

example : ∀ i < [3, 4].length,
    (nums [3, 4]).getD i 0 + (nums [5, 6]).getD i 0 < 2 ^ (4 : UInt8).toNat := by decide

/-- **C06** exact behaviour of the 8-bit case on arbitrary chunks: only the low byte of every
chunk counts, carries are dropped. -/
theorem C06_compose_8_drops_carries (K : FieldCfg) (chk : Bool) (d : List UInt16) :
    compose (K := K) chk d 8
      = .ok ((positional 256 ((nums d).map (· % 256)) : ℕ) : K.F) := by
  unfold compose
  rw [if_neg (by decide), if_pos rfl, positional_eq_horner, fromBeBytesModOrder, bytesValue_eq]
  simp [nums, List.map_map, Function.comp_def]

/-- **C06** for 4-bit chunks out of range: `compose` on an even number of chunks, written as pairs.
In checked builds it aborts exactly when some pair's `u16` addition `(x << 4) + y` overflows; otherwise,
and always in unchecked builds, only the low byte of `16 x + y` of every pair is used. -/
theorem C06_compose_4_exact (K : FieldCfg) (chk : Bool) (ps : List (UInt16 × UInt16)) :
    ((chk = true ∧ ∃ p ∈ ps, 65536 ≤ 16 * p.1.toNat % 65536 + p.2.toNat) →
      compose (K := K) chk (ps.flatMap fun p => [p.1, p.2]) 4 = .panic) ∧
    (¬ (chk = true ∧ ∃ p ∈ ps, 65536 ≤ 16 * p.1.toNat % 65536 + p.2.toNat) →
      compose (K := K) chk (ps.flatMap fun p => [p.1, p.2]) 4 =
        .ok ((positional 256 (ps.map fun p => (16 * p.1.toNat + p.2.toNat) % 256) : ℕ) : K.F)) := by
  have hsh : ∀ x : UInt16, (x <<< 4).toNat = 16 * x.toNat % 65536 := by
    intro x
    rw [UInt16.toNat_shiftLeft]
    have : (4 : UInt16).toNat % 16 = 4 := by decide
    rw [this, Nat.shiftLeft_eq, mul_comm]
  have hlen : (ps.flatMap fun p => [p.1, p.2]).length % 2 ≠ 1 := by
    induction ps with
    | nil => simp
    | cons p ps ih => simp only [List.flatMap_cons, List.length_append, List.length_cons,
        List.length_nil] at ih ⊢; omega
  have hnib : ((chk = true ∧ ∃ p ∈ ps, 65536 ≤ 16 * p.1.toNat % 65536 + p.2.toNat) →
      nibblePairs chk (ps.flatMap fun p => [p.1, p.2]) = .panic) ∧
    (¬ (chk = true ∧ ∃ p ∈ ps, 65536 ≤ 16 * p.1.toNat % 65536 + p.2.toNat) →
      nibblePairs chk (ps.flatMap fun p => [p.1, p.2]) =
        .ok (ps.map fun p : UInt16 × UInt16 => (((p.1 <<< 4) + p.2 : UInt16)).toUInt8)) := by
    clear hlen
    induction ps with
    | nil => simp [nibblePairs]
    | cons p ps ih =>
      have hcons : nibblePairs chk ((p :: ps).flatMap fun p => [p.1, p.2]) =
          if chk && decide (65536 ≤ (p.1 <<< 4).toNat + p.2.toNat) then .panic
          else (do
            let bs ← nibblePairs chk (ps.flatMap fun p => [p.1, p.2])
            return ((p.1 <<< 4) + p.2).toUInt8 :: bs) := rfl
      rw [hcons, hsh]
      cases chk with
      | false =>
        have := ih.2 (by simp)
        simp [this]
      | true =>
        by_cases h1 : 65536 ≤ 16 * p.1.toNat % 65536 + p.2.toNat
        · simp [h1]
        · by_cases h2 : ∃ p ∈ ps, 65536 ≤ 16 * p.1.toNat % 65536 + p.2.toNat
          · have := ih.1 ⟨rfl, h2⟩
            constructor
            · intro _
              simp [h1, this]
            · intro h
              exact absurd ⟨rfl, by obtain ⟨q, hq, h2⟩ := h2; exact ⟨q, by simp [hq], h2⟩⟩ h
          · have := ih.2 (fun h => h2 h.2)
            constructor
            · rintro ⟨-, q, hq, h⟩
              rcases List.mem_cons.mp hq with rfl | hq
              · exact absurd h h1
              · exact absurd ⟨q, hq, h⟩ h2
            · intro _
              simp [h1, this]
  have hval : bytesValue (ps.map fun p : UInt16 × UInt16 => (((p.1 <<< 4) + p.2 : UInt16)).toUInt8) =
      positional 256 (ps.map fun p => (16 * p.1.toNat + p.2.toNat) % 256) := by
    rw [positional_eq_horner, bytesValue_eq, List.map_map]
    congr 1
    apply List.map_congr_left
    intro p _
    simp only [Function.comp_apply, UInt16.toNat_toUInt8, UInt16.toNat_add, hsh]
    omega
  unfold compose
  rw [if_pos rfl, if_neg hlen]
  constructor
  · intro h
    rw [hnib.1 h]
    rfl
  · intro h
    rw [hnib.2 h]
    simp only [Res.ok_bind, Res.pure_eq, fromBeBytesModOrder, hval]

example : compose (K := blsFr) true ([(4095, 16)].flatMap fun p => [p.1, p.2]) 4 = .panic :=
  (C06_compose_4_exact blsFr true [(4095, 16)]).1 ⟨rfl, (4095, 16), by simp, by decide⟩

/-- **C06** consequence: in every field with more than 300 elements the chunk-wise sum of the
decompositions of two values can compose to something other than the sum. -/
theorem C06_lost_carry (K : FieldCfg) (chk : Bool) (hp : 300 < K.p) :
    ∃ (d d' : List UInt16) (x y z : K.F), (∀ c ∈ d ++ d', c.toNat < 2 ^ 8) ∧
      compose chk d 8 = .ok x ∧ compose chk d' 8 = .ok y ∧
      compose chk (List.zipWith (· + ·) d d') 8 = .ok z ∧ z ≠ x + y := by
  refine ⟨[200], [100], _, _, _, by decide, C06_compose_8_drops_carries K chk _,
    C06_compose_8_drops_carries K chk _, C06_compose_8_drops_carries K chk _, ?_⟩
  have e1 : positional 256 ((nums (List.zipWith (· + ·) [200] [100])).map (· % 256)) = 44 := by
    decide
  have e2 : positional 256 ((nums [200]).map (· % 256)) = 200 := by decide
  have e3 : positional 256 ((nums [100]).map (· % 256)) = 100 := by decide
  rw [e1, e2, e3, ← Nat.cast_add]
  intro h
  rw [ZMod.natCast_eq_natCast_iff] at h
  have := Nat.ModEq.eq_of_lt_of_lt h (by omega) hp
  omega

example : 300 < blsFr.p := by decide +kernel

end Verif
