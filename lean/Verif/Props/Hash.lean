/-
Property C50: try-and-increment hashing and label-derived generators.
-/
import Verif.Model.Setup
import Verif.Lemmas.Basic
import Verif.Lemmas.Bytes
import Verif.Instances

namespace Verif

namespace Spec

/-- ASCII bytes of a string. -/
def ascii (s : String) : List UInt8 := s.toList.map fun c => UInt8.ofNat c.toNat

/-- The eight bytes of `k` modulo `2^64`, least significant first. -/
def le8 (k : ℕ) : List UInt8 := tab 8 fun i => UInt8.ofNat (k / 256 ^ i % 256)

/-- The digest input of attempt `k`: the bytes themselves for attempt 0, then
`bytes || "-attempt-" || le64(k)`. -/
def attemptInput (bytes : List UInt8) (k : ℕ) : List UInt8 :=
  if k = 0 then bytes else bytes ++ ascii "-attempt-" ++ le8 k

/-- `c` comes from attempt `k`, and all earlier attempts failed. -/
def FirstSuccess {C : Type} (digest : List UInt8 → List UInt8)
    (fromBytes : List UInt8 → Option C) (bytes : List UInt8) (k : ℕ) (c : C) : Prop :=
  fromBytes (digest (attemptInput bytes k)) = some c ∧
    ∀ j < k, fromBytes (digest (attemptInput bytes j)) = none

end Spec
open Spec

theorem attemptTag_eq : attemptTag = ascii "-attempt-" := by decide
theorem labelG_eq : labelG = ascii " : G" := by decide
theorem labelH_eq : labelH = ascii " : H" := by decide

theorem bytesLE_tab (len n : ℕ) :
    bytesLE len n = tab len fun i => UInt8.ofNat (n / 256 ^ i % 256) := by
  induction len generalizing n with
  | zero => rfl
  | succ k ih =>
    rw [tab_succ, bytesLE, ih]
    congr 1
    · simp
    · apply tab_congr
      intro i _
      rw [pow_succ', Nat.div_div_eq_div_mul]

theorem leBytes64_eq (j : UInt64) : leBytes64 j = le8 j.toNat := bytesLE_tab 8 _

theorem le8_mod (k : ℕ) : le8 (k % 2 ^ 64) = le8 k := by
  unfold le8
  apply tab_congr
  intro i hi
  congr 1
  have h : 2 ^ 64 = 256 ^ i * (256 * 256 ^ (7 - i)) := by
    rw [← pow_succ', ← pow_add, show i + (7 - i + 1) = 8 by omega]
    norm_num
  rw [h, Nat.mod_mul_right_div_self, Nat.mod_mul_right_mod]

section
variable {C : Type} (chk : Bool) (digest : List UInt8 → List UInt8)
  (fromBytes : List UInt8 → Option C) (bytes : List UInt8)

theorem loop_input (k : ℕ) :
    bytes ++ attemptTag ++ leBytes64 (UInt64.ofNat (k + 1)) = attemptInput bytes (k + 1) := by
  unfold attemptInput
  rw [if_neg (by omega), attemptTag_eq, leBytes64_eq]
  congr 1
  rw [show (UInt64.ofNat (k + 1)).toNat = (k + 1) % 2 ^ 64 by simp]
  exact le8_mod _

/-- one step of the loop -/
theorem tryLoop_step (fuel k : ℕ) (hk : chk = true → k + 1 < 2 ^ 64 - 1) :
    tryLoop chk digest fromBytes bytes (fuel + 1) (UInt64.ofNat (k + 1)) none =
      tryLoop chk digest fromBytes bytes fuel (UInt64.ofNat (k + 2))
        (fromBytes (digest (attemptInput bytes (k + 1)))) := by
  rw [tryLoop, loop_input]
  rw [if_neg]
  · congr 1
    rw [show k + 2 = (k + 1) + 1 by omega, UInt64.ofNat_add (k + 1) 1]
    rfl
  · intro h
    simp only [Bool.and_eq_true, decide_eq_true_eq] at h
    have h1 := hk h.1
    have h2 : (UInt64.ofNat (k + 1)).toNat = k + 1 := by
      simp only [UInt64.toNat_ofNat']
      omega
    omega

theorem tryLoop_none (fuel k : ℕ) (hfail : ∀ j < k + 1 + fuel, k < j →
      fromBytes (digest (attemptInput bytes j)) = none)
    (hk : chk = true → k + fuel < 2 ^ 64 - 1) :
    tryLoop chk digest fromBytes bytes fuel (UInt64.ofNat (k + 1)) none = none := by
  induction fuel generalizing k with
  | zero => rfl
  | succ f ih =>
    rw [tryLoop_step chk digest fromBytes bytes f k (fun h => by have := hk h; omega),
      hfail (k + 1) (by omega) (by omega)]
    exact ih (k + 1) (fun j h1 h2 => hfail j (by omega) (by omega))
      (fun h => by have := hk h; omega)

theorem tryLoop_hit (fuel k d : ℕ) (c : C) (hd : d < fuel)
    (hs : fromBytes (digest (attemptInput bytes (k + 1 + d))) = some c)
    (hfail : ∀ j < k + 1 + d, k < j → fromBytes (digest (attemptInput bytes j)) = none)
    (hk : chk = true → k + 1 + d < 2 ^ 64 - 1) :
    tryLoop chk digest fromBytes bytes fuel (UInt64.ofNat (k + 1)) none = some (.ok c) := by
  induction d generalizing k fuel with
  | zero =>
    obtain ⟨f, rfl⟩ : ∃ f, fuel = f + 1 := ⟨fuel - 1, by omega⟩
    rw [tryLoop_step chk digest fromBytes bytes f k (fun h => by have := hk h; omega)]
    simp only [Nat.add_zero] at hs
    rw [hs]
    cases f <;> rfl
  | succ d ih =>
    obtain ⟨f, rfl⟩ : ∃ f, fuel = f + 1 := ⟨fuel - 1, by omega⟩
    rw [tryLoop_step chk digest fromBytes bytes f k (fun h => by have := hk h; omega),
      hfail (k + 1) (by omega) (by omega)]
    apply ih f (k + 1) (by omega)
    · rw [← hs]; congr 3; omega
    · intro j h1 h2; exact hfail j (by omega) (by omega)
    · intro h; have := hk h; omega

/-- **C50** the hash-to-group and hash-to-field loops return the result of the first successful
attempt, after exactly that many iterations and not before; in checked builds provided it is found
before the 64-bit attempt counter overflows. -/
theorem C50_first_success (k : ℕ) (c : C) (h : FirstSuccess digest fromBytes bytes k c)
    (hk : chk = true → k < 2 ^ 64 - 1) (fuel : ℕ) :
    (k ≤ fuel → tryAndIncr chk digest fromBytes fuel bytes = some (.ok c)) ∧
    (fuel < k → tryAndIncr chk digest fromBytes fuel bytes = none) := by
  obtain ⟨hs, hf⟩ := h
  have h0 : attemptInput bytes 0 = bytes := rfl
  unfold tryAndIncr
  cases k with
  | zero =>
    rw [h0] at hs
    rw [hs]
    refine ⟨fun _ => by cases fuel <;> rfl, fun h => by omega⟩
  | succ k =>
    have hz := hf 0 (by omega)
    rw [h0] at hz
    rw [hz]
    constructor
    · intro hle
      exact tryLoop_hit chk digest fromBytes bytes fuel 0 k c (by omega)
        (by rw [← hs]; congr 3; omega) (fun j h1 h2 => hf j (by omega))
        (fun h => by have := hk h; omega)
    · intro hlt
      exact tryLoop_none chk digest fromBytes bytes fuel 0 (fun j h1 h2 => hf j (by omega))
        (fun h => by have := hk h; omega)

theorem tryLoop_panic (fuel k : ℕ) (hk1 : k < 2 ^ 64 - 1)
    (hfail : ∀ j < 2 ^ 64 - 1, k < j → fromBytes (digest (attemptInput bytes j)) = none)
    (hfuel : 2 ^ 64 - 1 ≤ k + fuel) :
    tryLoop true digest fromBytes bytes fuel (UInt64.ofNat (k + 1)) none = some .panic := by
  induction fuel generalizing k with
  | zero => omega
  | succ f ih =>
    by_cases hlast : k + 1 = 2 ^ 64 - 1
    · rw [tryLoop]
      rw [if_pos]
      rw [hlast]
      decide
    · rw [tryLoop_step true digest fromBytes bytes f k (fun _ => by omega),
        hfail (k + 1) (by omega) (by omega)]
      exact ih (k + 1) (by omega) (fun j h1 h2 => hfail j h1 (by omega)) (by omega)

/-- **C50** conversely, a returned value is the one of the first successful attempt; an error is
never returned; and when no attempt succeeds the function runs forever in unchecked builds and
aborts in checked builds, when the attempt counter overflows. -/
theorem C50_only_first_success :
    (∀ fuel c, tryAndIncr chk digest fromBytes fuel bytes = some (.ok c) →
      ∃ k ≤ fuel, FirstSuccess digest fromBytes bytes k c) ∧
    (∀ fuel e, tryAndIncr chk digest fromBytes fuel bytes ≠ some (.err e)) ∧
    ((∀ k, fromBytes (digest (attemptInput bytes k)) = none) →
      (∀ fuel, tryAndIncr false digest fromBytes fuel bytes = none) ∧
      (∀ fuel, 2 ^ 64 - 1 ≤ fuel → tryAndIncr true digest fromBytes fuel bytes = some .panic)) := by
  have h0 : attemptInput bytes 0 = bytes := rfl
  have key : ∀ fuel r, tryAndIncr chk digest fromBytes fuel bytes = some r →
      (∃ k ≤ fuel, ∃ c, r = .ok c ∧ FirstSuccess digest fromBytes bytes k c) ∨ r = .panic := by
    intro fuel r h
    by_cases hex : ∃ k c, k ≤ fuel ∧ (chk = true → k < 2 ^ 64 - 1) ∧
        FirstSuccess digest fromBytes bytes k c
    · obtain ⟨k, c, hk, hk2, hF⟩ := hex
      rw [(C50_first_success chk digest fromBytes bytes k c hF hk2 fuel).1 hk] at h
      cases h
      exact Or.inl ⟨k, hk, c, rfl, hF⟩
    · push Not at hex
      have hall : ∀ k, k ≤ fuel → (chk = true → k < 2 ^ 64 - 1) →
          fromBytes (digest (attemptInput bytes k)) = none := by
        intro k
        induction k using Nat.strong_induction_on with
        | _ k ih =>
          intro hk hk2
          cases hv : fromBytes (digest (attemptInput bytes k)) with
          | none => rfl
          | some c =>
            exact absurd ⟨hv, fun j hj => ih j hj (by omega)
              (fun h => by have := hk2 h; omega)⟩ (hex k c hk hk2)
      have hz := hall 0 (by omega) (fun _ => by norm_num)
      rw [h0] at hz
      unfold tryAndIncr at h
      rw [hz] at h
      by_cases hov : chk = true ∧ 2 ^ 64 - 1 ≤ fuel
      · obtain ⟨rfl, hf⟩ := hov
        have := tryLoop_panic digest fromBytes bytes fuel 0 (by norm_num)
          (fun j h1 _ => hall j (by omega) (fun _ => h1)) (by omega)
        rw [show (1 : UInt64) = UInt64.ofNat (0 + 1) from rfl, this] at h
        cases h
        exact Or.inr rfl
      · have hb : chk = true → fuel < 2 ^ 64 - 1 := fun hc => by
          by_contra hcon
          exact hov ⟨hc, by omega⟩
        have := tryLoop_none chk digest fromBytes bytes fuel 0
          (fun j h1 _ => hall j (by omega) (fun hc => by have := hb hc; omega))
          (fun hc => by have := hb hc; omega)
        rw [show (1 : UInt64) = UInt64.ofNat (0 + 1) from rfl, this] at h
        cases h
  refine ⟨?_, ?_, ?_⟩
  · intro fuel c h
    rcases key fuel _ h with ⟨k, hk, c', hc, hF⟩ | h
    · cases hc; exact ⟨k, hk, hF⟩
    · cases h
  · intro fuel e h
    rcases key fuel _ h with ⟨k, hk, c', hc, hF⟩ | h
    · cases hc
    · cases h
  · intro hall
    have hz := hall 0
    rw [h0] at hz
    constructor
    · intro fuel
      unfold tryAndIncr
      rw [hz]
      exact tryLoop_none false digest fromBytes bytes fuel 0 (fun j _ _ => hall j) (by simp)
    · intro fuel hf
      unfold tryAndIncr
      rw [hz]
      exact tryLoop_panic digest fromBytes bytes fuel 0 (by norm_num) (fun j _ _ => hall j)
        (by omega)

end

/-! ### generators from a label -/

/-- **C50** `EncryptionGens::new` returns the cofactor-cleared first successes for
`label || " : G"` and `label || " : H"`. -/
theorem C50_encryption_gens {E : Engine} (chk : Bool) (digest : List UInt8 → List UInt8)
    (h1 : HashCurve E.G1) (h2 : HashCurve E.G2) (label : List UInt8) (k1 k2 : ℕ) (c1 : h1.Point)
    (c2 : h2.Point)
    (f1 : FirstSuccess digest h1.fromRandomBytes (label ++ ascii " : G") k1 c1)
    (f2 : FirstSuccess digest h2.fromRandomBytes (label ++ ascii " : H") k2 c2)
    (hk : chk = true → k1 < 2 ^ 64 - 1 ∧ k2 < 2 ^ 64 - 1) (fuel : ℕ) :
    (k1 ≤ fuel → k2 ≤ fuel → EncryptionGens.new chk digest h1 h2 fuel label =
      some (.ok ⟨h1.clearCofactor c1, h2.clearCofactor c2⟩)) ∧
    (fuel < max k1 k2 → EncryptionGens.new chk digest h1 h2 fuel label = none) := by
  have a1 := C50_first_success chk digest h1.fromRandomBytes _ k1 c1 f1 (fun h => (hk h).1) fuel
  have a2 := C50_first_success chk digest h2.fromRandomBytes _ k2 c2 f2 (fun h => (hk h).2) fuel
  unfold EncryptionGens.new groupElemFromTryAndIncr
  rw [labelG_eq, labelH_eq]
  constructor
  · intro hk1 hk2
    rw [a1.1 hk1, a2.1 hk2]
    rfl
  · intro hlt
    rcases Nat.lt_or_ge fuel k1 with h | h
    · rw [a1.2 h]; rfl
    · rw [a1.1 h, a2.2 (by omega)]; rfl

/-- **C50** `ChunkedCommitmentGens::new`, the same. -/
theorem C50_commitment_gens {G : Type} (chk : Bool) (digest : List UInt8 → List UInt8)
    (hc : HashCurve G) (label : List UInt8) (k1 k2 : ℕ) (c1 c2 : hc.Point)
    (f1 : FirstSuccess digest hc.fromRandomBytes (label ++ ascii " : G") k1 c1)
    (f2 : FirstSuccess digest hc.fromRandomBytes (label ++ ascii " : H") k2 c2)
    (hk : chk = true → k1 < 2 ^ 64 - 1 ∧ k2 < 2 ^ 64 - 1) (fuel : ℕ) :
    (k1 ≤ fuel → k2 ≤ fuel → ChunkedCommitmentGens.new chk digest hc fuel label =
      some (.ok ⟨hc.clearCofactor c1, hc.clearCofactor c2⟩)) ∧
    (fuel < max k1 k2 → ChunkedCommitmentGens.new chk digest hc fuel label = none) := by
  have a1 := C50_first_success chk digest hc.fromRandomBytes _ k1 c1 f1 (fun h => (hk h).1) fuel
  have a2 := C50_first_success chk digest hc.fromRandomBytes _ k2 c2 f2 (fun h => (hk h).2) fuel
  unfold ChunkedCommitmentGens.new groupElemFromTryAndIncr
  rw [labelG_eq, labelH_eq]
  constructor
  · intro hk1 hk2
    rw [a1.1 hk1, a2.1 hk2]
    rfl
  · intro hlt
    rcases Nat.lt_or_ge fuel k1 with h | h
    · rw [a1.2 h]; rfl
    · rw [a1.1 h, a2.2 (by omega)]; rfl

theorem le8_inj {j k : ℕ} (h : le8 j = le8 k) (hj : j < 2 ^ 64) (hk : k < 2 ^ 64) : j = k := by
  have e : ∀ n : ℕ, n < 2 ^ 64 → horner 256 0 ((le8 n).reverse.map UInt8.toNat) = n := by
    intro n hn
    have := horner_bytesLE 8 n
    rw [bytesLE_tab] at this
    exact this.trans (Nat.mod_eq_of_lt (by simpa using hn))
  rw [← e j hj, ← e k hk, h]

theorem length_attempt_ne {bytes : List UInt8} {k : ℕ} (hk : k ≠ 0) :
    (attemptInput bytes k).length = bytes.length + 17 := by
  unfold attemptInput
  rw [if_neg hk]
  simp only [List.length_append, le8, length_tab]
  rw [show (ascii "-attempt-").length = 9 by decide]

/-- **C50** the digest inputs of different attempts on the same bytes are different (up to the
counter's range). -/
theorem C50_attempts_distinct (bytes : List UInt8) (j k : ℕ) (hj : j < 2 ^ 64) (hk : k < 2 ^ 64)
    (hjk : j ≠ k) : attemptInput bytes j ≠ attemptInput bytes k := by
  intro h
  by_cases h0 : j = 0
  · have hl := congrArg List.length h
    rw [length_attempt_ne (show k ≠ 0 by omega), h0, attemptInput, if_pos rfl] at hl
    omega
  · by_cases h1 : k = 0
    · have hl := congrArg List.length h
      rw [length_attempt_ne h0, h1, attemptInput, if_pos rfl] at hl
      omega
    · unfold attemptInput at h
      rw [if_neg h0, if_neg h1] at h
      exact hjk (le8_inj (List.append_cancel_left h) hj hk)

/-- **C50** domain separation: the digest inputs determine the label (of any length), which of the two
generators is derived, and the attempt, for all attempts below `2^56`.  So the digest inputs used
for `G` and `H`, or for different labels, never coincide. -/
theorem C50_domain_separation (label label' : List UInt8) (s s' : String)
    (hs : s = " : G" ∨ s = " : H") (hs' : s' = " : G" ∨ s' = " : H") (j k : ℕ)
    (hj : j < 2 ^ 56) (hk : k < 2 ^ 56)
    (h : attemptInput (label ++ ascii s) j = attemptInput (label' ++ ascii s') k) :
    label = label' ∧ s = s' ∧ j = k := by
  have hlen : ∀ s : String, s = " : G" ∨ s = " : H" → (ascii s).length = 4 := by
    rintro s (rfl | rfl) <;> decide
  have htag : ∀ s s' : String, (s = " : G" ∨ s = " : H") → (s' = " : G" ∨ s' = " : H") →
      ascii s = ascii s' → s = s' := by
    rintro s s' (rfl | rfl) (rfl | rfl) h
    · rfl
    · exact absurd h (by decide)
    · exact absurd h (by decide)
    · rfl
  have strip : ∀ x y : List UInt8, x ++ ascii s = y ++ ascii s' → x = y ∧ s = s' := by
    intro x y hxy
    obtain ⟨a, b⟩ := List.append_inj' hxy (by rw [hlen s hs, hlen s' hs'])
    exact ⟨a, htag s s' hs hs' b⟩
  -- the last byte of a later attempt is zero, the last byte of a first attempt is 'G' or 'H'
  have last0 : ∀ (s : String) (x : List UInt8), s = " : G" ∨ s = " : H" →
      (x ++ ascii s).getLast? = some 71 ∨ (x ++ ascii s).getLast? = some 72 := by
    rintro s x (rfl | rfl)
    · left; rw [List.getLast?_append]; rfl
    · right; rw [List.getLast?_append]; rfl
  have lastK : ∀ (x : List UInt8) (n : ℕ), n ≠ 0 → n < 2 ^ 56 →
      (attemptInput x n).getLast? = some 0 := by
    intro x n hn hn2
    unfold attemptInput
    rw [if_neg hn, List.getLast?_append]
    have : (le8 n).getLast? = some 0 := by
      unfold le8 tab
      rw [List.range_succ, List.map_append, List.getLast?_append]
      have : n / 256 ^ 7 = 0 := Nat.div_eq_of_lt (by norm_num; exact hn2)
      simp only [List.map_cons, List.map_nil, this]
      rfl
    rw [this]
    rfl
  by_cases h0 : j = 0
  · by_cases h1 : k = 0
    · subst h0; subst h1
      simp only [attemptInput, if_true] at h
      obtain ⟨a, b⟩ := strip _ _ h
      exact ⟨a, b, rfl⟩
    · subst h0
      have hl := congrArg List.getLast? h
      rw [lastK _ k h1 hk] at hl
      simp only [attemptInput, if_true] at hl
      rcases last0 s label hs with h | h <;> rw [h] at hl <;> exact absurd hl (by decide)
  · by_cases h1 : k = 0
    · subst h1
      have hl := congrArg List.getLast? h
      rw [lastK _ j h0 hj] at hl
      simp only [attemptInput, if_true] at hl
      rcases last0 s' label' hs' with h | h <;> rw [h] at hl <;> exact absurd hl (by decide)
    · unfold attemptInput at h
      rw [if_neg h0, if_neg h1] at h
      obtain ⟨a, b⟩ := List.append_inj' h (by simp [le8])
      obtain ⟨a', -⟩ := List.append_inj' a rfl
      obtain ⟨c, d⟩ := strip _ _ a'
      exact ⟨c, d, le8_inj b (by omega) (by omega)⟩

/-- **C50** (limit of the above) the underlying hash functions do not separate inputs from attempts:
if the first attempt on `bytes` fails and the second succeeds, then `bytes` and the different byte
string `bytes || "-attempt-" || le64(1)` are hashed to the same value. -/
theorem C50_raw_collision {C : Type} (chk : Bool) (digest : List UInt8 → List UInt8)
    (fromBytes : List UInt8 → Option C) (bytes : List UInt8) (c : C)
    (h : FirstSuccess digest fromBytes bytes 1 c) (fuel : ℕ) (hf : 1 ≤ fuel) :
    let bytes' := bytes ++ ascii "-attempt-" ++ [1, 0, 0, 0, 0, 0, 0, 0]
    bytes' ≠ bytes ∧ tryAndIncr chk digest fromBytes fuel bytes = some (.ok c) ∧
      tryAndIncr chk digest fromBytes fuel bytes' = some (.ok c) := by
  intro bytes'
  have e : attemptInput bytes 1 = bytes' := by
    unfold attemptInput
    rw [if_neg (by omega)]
    show _ = bytes ++ ascii "-attempt-" ++ _
    congr 1
  refine ⟨?_, (C50_first_success chk digest fromBytes bytes 1 c h (by norm_num) fuel).1 hf, ?_⟩
  · intro hc
    have := congrArg List.length hc
    rw [← e, length_attempt_ne (by omega)] at this
    omega
  · have h1 := h.1
    rw [e] at h1
    exact (C50_first_success chk digest fromBytes bytes' 0 c ⟨h1, by omega⟩ (by norm_num) fuel).1
      (by omega)

/-- Example: a "digest" that is the identity and a decoder that accepts inputs ending in 2; the label
is empty, and both generators come from attempt 2. -/
example : EncryptionGens.new (E := Engine.scalar smallFr) true id
    ⟨ℕ, fun l => if l.getD (l.length - 8) 0 = 2 then some l.length else none,
      fun n => (n : ZMod smallFr.p)⟩
    ⟨ℕ, fun l => if l.getD (l.length - 8) 0 = 2 then some 5 else none,
      fun n => (n : ZMod smallFr.p)⟩ 7 [] =
    some (.ok ⟨(21 : ZMod smallFr.p), (5 : ZMod smallFr.p)⟩) := by
  refine (C50_encryption_gens (E := Engine.scalar smallFr) true id
    ⟨ℕ, fun l => if l.getD (l.length - 8) 0 = 2 then some l.length else none,
      fun n => (n : ZMod smallFr.p)⟩
    ⟨ℕ, fun l => if l.getD (l.length - 8) 0 = 2 then some 5 else none,
      fun n => (n : ZMod smallFr.p)⟩ [] 2 2 (21 : ℕ) (5 : ℕ) ?_ ?_
    (by norm_num) 7).1 (by norm_num) (by norm_num)
  · constructor
    · decide
    · intro j hj
      interval_cases j <;> decide
  · constructor
    · decide
    · intro j hj
      interval_cases j <;> decide

end Verif
