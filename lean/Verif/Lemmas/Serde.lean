/-
Lemmas on the serialization layer.
-/
import Verif.Model.Serde
import Verif.Lemmas.Bytes
import Verif.Lemmas.Basic

namespace Verif

theorem leValue_bytesLE (len n : ℕ) : leValue (bytesLE len n) = n % 256 ^ len := by
  induction len generalizing n with
  | zero => simp [bytesLE, leValue, Nat.mod_one]
  | succ k ih =>
    simp only [bytesLE, leValue, ih]
    have : (UInt8.ofNat (n % 256)).toNat = n % 256 := by simp
    rw [this, pow_succ, Nat.mul_comm (256 ^ k) 256, Nat.mod_mul]

theorem bytesLE_leValue (l : List UInt8) : bytesLE l.length (leValue l) = l := by
  induction l with
  | nil => rfl
  | cons x xs ih =>
    have hx : x.toNat < 256 := x.toNat_lt
    simp only [List.length_cons, bytesLE, leValue]
    have h1 : (x.toNat + 256 * leValue xs) % 256 = x.toNat := by omega
    have h2 : (x.toNat + 256 * leValue xs) / 256 = leValue xs := by omega
    rw [h1, h2, ih, UInt8.ofNat_toNat]

theorem readExact_append {k : ℕ} {a : List UInt8} (h : a.length = k) (rest : List UInt8) :
    readExact k (a ++ rest) = some (a, rest) := by
  subst h
  unfold readExact
  rw [if_neg (by simp)]
  simp

/-- A reader looks at and consumes a prefix of its input. -/
def PrefixLocal {α : Type} (de : List UInt8 → Option (α × List UInt8)) : Prop :=
  ∀ bs a rest, de bs = some (a, rest) →
    ∃ used, bs = used ++ rest ∧ ∀ r, de (used ++ r) = some (a, r)

theorem PrefixLocal.pure {α : Type} (a : α) : PrefixLocal (fun bs => some (a, bs)) := by
  intro bs a' rest h
  cases h
  exact ⟨[], by simp, fun r => by simp⟩

theorem PrefixLocal.bind {α β : Type} {f : List UInt8 → Option (α × List UInt8)}
    {g : α → List UInt8 → Option (β × List UInt8)} (hf : PrefixLocal f) (hg : ∀ a, PrefixLocal (g a)) :
    PrefixLocal (fun bs => (f bs).bind fun p => g p.1 p.2) := by
  intro bs b rest h
  obtain ⟨⟨a, r1⟩, h1, h2⟩ := Option.bind_eq_some_iff.mp h
  obtain ⟨u1, rfl, k1⟩ := hf _ _ _ h1
  obtain ⟨u2, h3, k2⟩ := hg a _ _ _ h2
  simp only at h3
  subst h3
  refine ⟨u1 ++ u2, by simp, fun r => ?_⟩
  simp only [List.append_assoc, k1, Option.bind_some, k2]

theorem PrefixLocal.bind' {α β : Type} {f : List UInt8 → Option (α × List UInt8)}
    {k : α × List UInt8 → Option (β × List UInt8)} (hf : PrefixLocal f)
    (hk : ∀ a, PrefixLocal (fun bs => k (a, bs))) : PrefixLocal (fun bs => (f bs).bind k) :=
  hf.bind (g := fun a bs => k (a, bs)) hk

theorem readExact_local (k : ℕ) : PrefixLocal (readExact k) := by
  intro bs a rest h
  unfold readExact at h
  split at h
  · cases h
  · rename_i hl
    simp only [Option.some.injEq, Prod.mk.injEq] at h
    obtain ⟨rfl, rfl⟩ := h
    exact ⟨bs.take k, by simp, fun r => readExact_append (by simp; omega) r⟩

theorem arkU64De_local : PrefixLocal arkU64De := by
  have := (readExact_local 8).bind (g := fun a bs => some (leValue a, bs)) (fun a => .pure _)
  exact this

theorem arkField_local (K : FieldCfg) : PrefixLocal (arkField K).de := by
  have := (readExact_local ((K.modBits + 7) / 8)).bind
    (g := fun a bs => if leValue a < K.p then some (((leValue a : ℕ) : K.F), bs) else none) (fun a => by
      by_cases h : leValue a < K.p
      · simp only [if_pos h]; exact .pure _
      · simp only [if_neg h]; intro _ _ _ h; cases h)
  exact this

theorem arkDeMany_local {α : Type} {c : Ark α} (hc : PrefixLocal c.de) (n : ℕ) :
    PrefixLocal (arkDeMany c n) := by
  induction n with
  | zero => exact .pure _
  | succ n ih =>
    exact hc.bind (g := fun x bs => (arkDeMany c n bs).bind fun p => some (x :: p.1, p.2))
      (fun x => ih.bind (g := fun xs bs => some (x :: xs, bs)) (fun xs => .pure _))

theorem arkVec_local {α : Type} {c : Ark α} (hc : PrefixLocal c.de) : PrefixLocal (arkVec c).de :=
  arkU64De_local.bind (g := fun n bs => arkDeMany c n bs) (fun n => arkDeMany_local hc n)

/-! ### round trips -/

theorem arkField_roundtrip (K : FieldCfg) (x : K.F) (rest : List UInt8) :
    (arkField K).de ((arkField K).ser x ++ rest) = some (x, rest) := by
  have hx : x.val < K.p := ZMod.val_lt x
  have hp : K.p < 256 ^ ((K.modBits + 7) / 8) := by
    have h1 : K.p < 2 ^ K.modBits := Nat.lt_size_self K.p
    rw [show (256 : ℕ) = 2 ^ 8 by norm_num, ← pow_mul]
    exact h1.trans_le (Nat.pow_le_pow_right (by norm_num) (by omega))
  have hv : leValue (bytesLE ((K.modBits + 7) / 8) (intoBigint x)) = x.val := by
    rw [leValue_bytesLE]
    exact Nat.mod_eq_of_lt (hx.trans hp)
  simp only [arkField]
  rw [readExact_append (by simp)]
  simp only [Option.bind_eq_bind, Option.bind_some, hv, if_pos hx]
  rw [ZMod.natCast_zmod_val]

theorem arkU64_roundtrip {n : ℕ} (hn : n < 2 ^ 64) (rest : List UInt8) :
    arkU64De (bytesLE 8 n ++ rest) = some (n, rest) := by
  unfold arkU64De
  rw [readExact_append (by simp)]
  simp only [Option.bind_eq_bind, Option.bind_some, leValue_bytesLE]
  rw [Nat.mod_eq_of_lt (by norm_num at hn ⊢; exact hn)]
  rfl

theorem arkVec_roundtrip {α : Type} {c : Ark α}
    (hc : ∀ x rest, c.de (c.ser x ++ rest) = some (x, rest)) (l : List α) (hl : l.length < 2 ^ 64)
    (rest : List UInt8) : (arkVec c).de ((arkVec c).ser l ++ rest) = some (l, rest) := by
  have many : ∀ l : List α, arkDeMany c l.length (l.flatMap c.ser ++ rest) = some (l, rest) := by
    intro l
    induction l with
    | nil => rfl
    | cons x xs ih =>
      simp only [List.length_cons, arkDeMany, List.flatMap_cons, List.append_assoc, hc,
        Option.bind_eq_bind, Option.bind_some, ih]
      rfl
  simp only [arkVec, List.append_assoc]
  rw [arkU64_roundtrip hl]
  simp only [Option.bind_eq_bind, Option.bind_some]
  exact many l

/-! ### the serde layer -/

theorem asU8_num (b : UInt8) : (SVal.num b.toNat).asU8 = some b := by
  have : b.toNat < 256 := b.toNat_lt
  simp only [SVal.asU8, if_pos this, UInt8.ofNat_toNat]

theorem asBytes_bytes (bs : List UInt8) : (SVal.bytes bs).asBytes = some bs := by
  unfold SVal.bytes SVal.asBytes
  induction bs with
  | nil => rfl
  | cons b bs ih =>
    simp only [List.map_cons, List.mapM_cons, asU8_num, Option.bind_eq_bind, Option.bind_some] at ih ⊢
    rw [ih]
    rfl

theorem asCanonicalDe_bytes {α : Type} {c : Ark α} {x : α} {bs rest : List UInt8}
    (h : c.de bs = some (x, rest)) : asCanonicalDe c (SVal.bytes bs) = some x := by
  unfold asCanonicalDe
  simp only [asBytes_bytes, Option.bind_eq_bind, Option.bind_some, h]
  rfl

theorem mapM_some {α β : Type} {f : α → Option β} {g : α → β} {l : List α}
    (h : ∀ a ∈ l, f a = some (g a)) : l.mapM f = some (l.map g) := by
  induction l with
  | nil => rfl
  | cons a as ih =>
    simp only [List.mapM_cons, h a (by simp), Option.bind_eq_bind, Option.bind_some,
      ih (fun x hx => h x (by simp [hx])), List.map_cons]
    rfl

end Verif
