/-
Property C53, continued: exactly which serde values are read as keys, generators and commitments.
-/
import Verif.Props.Serde

set_option linter.unusedSimpArgs false

namespace Verif
open Spec

namespace Spec

/-- `v` carries the values `vals` for the fields `names`: it is the sequence of these values, or a map in which
every one of the fields occurs exactly once, with its value (and anything else under other names). -/
def Carries (names : List String) (v : SVal) (vals : List SVal) : Prop :=
  (v = .seq vals ∧ vals.length = names.length) ∨ ∃ kvs, v = .map kvs ∧
    List.Forall₂ (fun name w => kvs.filter (fun kv => kv.1 = name) = [(name, w)]) names vals

/-- `v` is a byte vector that starts with an encoding of `x` -/
def ReadsAs {α : Type} (c : Ark α) (v : SVal) (x : α) : Prop :=
  ∃ bs r, v = SVal.bytes bs ∧ c.de bs = some (x, r)

/-- `v` is a sequence of such byte vectors -/
def ReadsAsList {α : Type} (c : Ark α) (v : SVal) (l : List α) : Prop :=
  ∃ vs, v = .seq vs ∧ List.Forall₂ (ReadsAs c) vs l

end Spec

section
variable {E : Engine} (C : Codecs E)

theorem readsAs_iff {α : Type} (c : Ark α) (v : SVal) (x : α) : asCanonicalDe c v = some x ↔ ReadsAs c v x := by
  unfold asCanonicalDe ReadsAs
  simp only [Option.bind_eq_bind, Option.bind_eq_some_iff, Option.pure_def, Option.some.injEq]
  constructor
  · rintro ⟨bs, hb, ⟨y, r⟩, hd, rfl⟩
    exact ⟨bs, r, (asBytes_iff v bs).mp hb, hd⟩
  · rintro ⟨bs, r, hb, hd⟩
    exact ⟨bs, (asBytes_iff v bs).mpr hb, ⟨x, r⟩, hd, rfl⟩

theorem mapM_forall₂ {α β : Type} (f : α → Option β) (vs : List α) (l : List β) :
    vs.mapM f = some l ↔ List.Forall₂ (fun v x => f v = some x) vs l := by
  induction vs generalizing l with
  | nil =>
    constructor
    · intro h
      simp at h
      subst h
      exact .nil
    · intro h
      cases h
      rfl
  | cons v vs ih =>
    rw [List.mapM_cons]
    simp only [Option.bind_eq_bind, Option.bind_eq_some_iff, Option.pure_def, Option.some.injEq]
    constructor
    · rintro ⟨y, hy, ys, hys, rfl⟩
      exact .cons hy ((ih ys).mp hys)
    · intro h
      cases h with
      | cons h1 h2 => exact ⟨_, h1, _, (ih _).mpr h2, rfl⟩

theorem readsAsList_iff {α : Type} (c : Ark α) (v : SVal) (l : List α) :
    vecCanonicalDe c v = some l ↔ ReadsAsList c v l := by
  unfold ReadsAsList
  cases v with
  | num n => simp [vecCanonicalDe]
  | map n => simp [vecCanonicalDe]
  | seq vs =>
    simp only [vecCanonicalDe, mapM_forall₂, readsAs_iff, SVal.seq.injEq]
    constructor
    · exact fun h => ⟨vs, rfl, h⟩
    · rintro ⟨_, rfl, h⟩
      exact h

theorem carries_iff (names : List String) (v : SVal) (vals : List SVal) :
    SVal.fields names v = some vals ↔ Carries names v vals := by
  unfold Carries
  cases v with
  | num n => simp [SVal.fields]
  | seq vs =>
    simp only [SVal.fields, SVal.seq.injEq, reduceCtorEq, false_and, exists_false, or_false]
    constructor
    · intro h
      split at h
      · rename_i he
        cases h
        exact ⟨rfl, he⟩
      · cases h
    · rintro ⟨rfl, h⟩
      rw [if_pos h]
  | map kvs =>
    simp only [SVal.fields, mapM_forall₂, field_iff, reduceCtorEq, false_and, false_or, SVal.map.injEq]
    constructor
    · exact fun h => ⟨kvs, rfl, h⟩
    · rintro ⟨_, rfl, h⟩
      exact h

/-- reading one, two, ... fields -/
theorem carries_length {names : List String} {v : SVal} {vals : List SVal} (h : Carries names v vals) :
    vals.length = names.length := by
  rcases h with ⟨-, h⟩ | ⟨kvs, -, h⟩
  · exact h
  · exact h.length_eq.symm

/-- **C53** exactly which serde values are read as a secret key, the secrets of a participant, the share of `P_1`,
a partial or complete encryption key, the key of a destination, and a decryption key. -/
theorem C53_keys_read_exactly (v : SVal) :
    (∀ k, (serdeSecretKey (E := E)).dec v = some k ↔ ReadsAs (arkField E.fr) v k.rho) ∧
    (∀ k, (serdeSecretKeyST (E := E)).dec v = some k ↔ ∃ s t, Carries ["s", "t"] v [s, t] ∧
      ReadsAsList (arkField E.fr) s k.s ∧ ReadsAsList (arkField E.fr) t k.t) ∧
    (∀ k, (serdeP1share C).dec v = some k ↔ ∃ p, Carries ["P_1"] v [p] ∧ ReadsAs C.g1 p k.P_1) ∧
    (∀ k, (serdePartialKey C).dec v = some k ↔ ∃ x0 x y z p2, Carries ["X_0", "X", "Y", "Z", "P_2"] v [x0, x, y, z, p2] ∧
      ReadsAs C.g1 x0 k.X_0 ∧ ReadsAsList C.g1 x k.X ∧ ReadsAsList C.g1 y k.Y ∧ ReadsAsList C.g2 z k.Z ∧
      ReadsAs C.g1 p2 k.P_2) ∧
    (∀ k, (serdeEncryptionKey C).dec v = some k ↔ ∃ x0 x y z p1 p2,
      Carries ["X_0", "X", "Y", "Z", "P_1", "P_2"] v [x0, x, y, z, p1, p2] ∧
      ReadsAs C.g1 x0 k.X_0 ∧ ReadsAsList C.g1 x k.X ∧ ReadsAsList C.g1 y k.Y ∧ ReadsAsList C.g2 z k.Z ∧
      ReadsAs C.g1 p1 k.P_1 ∧ ReadsAs C.g1 p2 k.P_2) ∧
    (∀ k, (serdeDestKey C).dec v = some k ↔ ∃ p, Carries ["pk"] v [p] ∧ ReadsAs C.g1 p k.pk) ∧
    (∀ k, (serdeDecryptionKey C).dec v = some k ↔ ∃ v0 v1 v2, Carries ["V_0", "V_1", "V_2"] v [v0, v1, v2] ∧
      ReadsAs C.g2 v0 k.V_0 ∧ ReadsAsList C.g2 v1 k.V_1 ∧ ReadsAsList C.g2 v2 k.V_2) := by
  refine ⟨?_, ?_, ?_, ?_, ?_, ?_, ?_⟩
  · intro k
    unfold serdeSecretKey
    simp only [Option.bind_eq_bind, Option.bind_eq_some_iff, Option.pure_def, Option.some.injEq, readsAs_iff]
    constructor
    · rintro ⟨a, h, rfl⟩
      exact h
    · exact fun h => ⟨_, h, rfl⟩
  · intro k
    constructor
    · intro h
      unfold serdeSecretKeyST at h
      simp only [Option.bind_eq_bind, Option.bind_eq_some_iff] at h
      obtain ⟨fs, hfs, h⟩ := h
      split at h
      · simp only [Option.bind_eq_some_iff, Option.pure_def, Option.some.injEq, readsAs_iff, readsAsList_iff] at h
        obtain ⟨a, h1, b, h2, rfl⟩ := h
        exact ⟨_, _, (carries_iff _ _ _).mp hfs, h1, h2⟩
      · cases h
    · rintro ⟨_, _, h, h1, h2⟩
      simp only [← carries_iff, ← readsAs_iff, ← readsAsList_iff] at h h1 h2
      simp [serdeSecretKeyST, h, h1, h2]
  · intro k
    constructor
    · intro h
      unfold serdeP1share at h
      simp only [Option.bind_eq_bind, Option.bind_eq_some_iff] at h
      obtain ⟨fs, hfs, h⟩ := h
      split at h
      · simp only [Option.bind_eq_some_iff, Option.pure_def, Option.some.injEq, readsAs_iff, readsAsList_iff] at h
        obtain ⟨a, h1, rfl⟩ := h
        exact ⟨_, (carries_iff _ _ _).mp hfs, h1⟩
      · cases h
    · rintro ⟨_, h, h1⟩
      simp only [← carries_iff, ← readsAs_iff, ← readsAsList_iff] at h h1
      simp [serdeP1share, h, h1]
  · intro k
    constructor
    · intro h
      unfold serdePartialKey at h
      simp only [Option.bind_eq_bind, Option.bind_eq_some_iff] at h
      obtain ⟨fs, hfs, h⟩ := h
      split at h
      · simp only [Option.bind_eq_some_iff, Option.pure_def, Option.some.injEq, readsAs_iff, readsAsList_iff] at h
        obtain ⟨a, h1, b, h2, c, h3, d, h4, e, h5, rfl⟩ := h
        exact ⟨_, _, _, _, _, (carries_iff _ _ _).mp hfs, h1, h2, h3, h4, h5⟩
      · cases h
    · rintro ⟨_, _, _, _, _, h, h1, h2, h3, h4, h5⟩
      simp only [← carries_iff, ← readsAs_iff, ← readsAsList_iff] at h h1 h2 h3 h4 h5
      simp [serdePartialKey, h, h1, h2, h3, h4, h5]
  · intro k
    constructor
    · intro h
      unfold serdeEncryptionKey at h
      simp only [Option.bind_eq_bind, Option.bind_eq_some_iff] at h
      obtain ⟨fs, hfs, h⟩ := h
      split at h
      · simp only [Option.bind_eq_some_iff, Option.pure_def, Option.some.injEq, readsAs_iff, readsAsList_iff] at h
        obtain ⟨a, h1, b, h2, c, h3, d, h4, e, h5, g, h6, rfl⟩ := h
        exact ⟨_, _, _, _, _, _, (carries_iff _ _ _).mp hfs, h1, h2, h3, h4, h5, h6⟩
      · cases h
    · rintro ⟨_, _, _, _, _, _, h, h1, h2, h3, h4, h5, h6⟩
      simp only [← carries_iff, ← readsAs_iff, ← readsAsList_iff] at h h1 h2 h3 h4 h5 h6
      simp [serdeEncryptionKey, h, h1, h2, h3, h4, h5, h6]
  · intro k
    constructor
    · intro h
      unfold serdeDestKey at h
      simp only [Option.bind_eq_bind, Option.bind_eq_some_iff] at h
      obtain ⟨fs, hfs, h⟩ := h
      split at h
      · simp only [Option.bind_eq_some_iff, Option.pure_def, Option.some.injEq, readsAs_iff, readsAsList_iff] at h
        obtain ⟨a, h1, rfl⟩ := h
        exact ⟨_, (carries_iff _ _ _).mp hfs, h1⟩
      · cases h
    · rintro ⟨_, h, h1⟩
      simp only [← carries_iff, ← readsAs_iff, ← readsAsList_iff] at h h1
      simp [serdeDestKey, h, h1]
  · intro k
    constructor
    · intro h
      unfold serdeDecryptionKey at h
      simp only [Option.bind_eq_bind, Option.bind_eq_some_iff] at h
      obtain ⟨fs, hfs, h⟩ := h
      split at h
      · simp only [Option.bind_eq_some_iff, Option.pure_def, Option.some.injEq, readsAs_iff, readsAsList_iff] at h
        obtain ⟨a, h1, b, h2, c, h3, rfl⟩ := h
        exact ⟨_, _, _, (carries_iff _ _ _).mp hfs, h1, h2, h3⟩
      · cases h
    · rintro ⟨_, _, _, h, h1, h2, h3⟩
      simp only [← carries_iff, ← readsAs_iff, ← readsAsList_iff] at h h1 h2 h3
      simp [serdeDecryptionKey, h, h1, h2, h3]

/-- **C53** the same for generators, the proving key, and chunked commitments (a tuple struct: sequences of exactly
two values and no maps). -/
theorem C53_others_read_exactly (v : SVal) :
    (∀ k, (serdeEncryptionGens C).dec v = some k ↔ ∃ g h, Carries ["G", "H"] v [g, h] ∧
      ReadsAs C.g1 g k.G ∧ ReadsAs C.g2 h k.H) ∧
    (∀ k, (serdePreparedEncryptionGens C).dec v = some k ↔ ∃ g h, Carries ["G", "H"] v [g, h] ∧
      ReadsAs C.g1 g k.G ∧ ReadsAs C.g2p h k.H) ∧
    (∀ {A : Type} (c : Ark A) k, (serdeCommitmentGens c).dec v = some k ↔ ∃ g h, Carries ["G", "H"] v [g, h] ∧
      ReadsAs c g k.G ∧ ReadsAs c h k.H) ∧
    (∀ k, (serdeProvingKey C).dec v = some k ↔ ∃ p g, Carries ["pk", "gamma_g1"] v [p, g] ∧
      ReadsAs (arkGroth16ProvingKey C) p k.pk ∧ ReadsAs C.g1 g k.gamma_g1) ∧
    (∀ {A : Type} (c : Ark A) k, (serdeChunkedCommitment c).dec v = some k ↔ ∃ p l, v = .seq [p, l] ∧
      ReadsAs c p k.comm ∧ ReadsAsList c l k.key) := by
  refine ⟨?_, ?_, ?_, ?_, ?_⟩
  · intro k
    constructor
    · intro h
      unfold serdeEncryptionGens at h
      simp only [Option.bind_eq_bind, Option.bind_eq_some_iff] at h
      obtain ⟨fs, hfs, h⟩ := h
      split at h
      · simp only [Option.bind_eq_some_iff, Option.pure_def, Option.some.injEq, readsAs_iff, readsAsList_iff] at h
        obtain ⟨a, h1, b, h2, rfl⟩ := h
        exact ⟨_, _, (carries_iff _ _ _).mp hfs, h1, h2⟩
      · cases h
    · rintro ⟨_, _, h, h1, h2⟩
      simp only [← carries_iff, ← readsAs_iff, ← readsAsList_iff] at h h1 h2
      simp [serdeEncryptionGens, h, h1, h2]
  · intro k
    constructor
    · intro h
      unfold serdePreparedEncryptionGens at h
      simp only [Option.bind_eq_bind, Option.bind_eq_some_iff] at h
      obtain ⟨fs, hfs, h⟩ := h
      split at h
      · simp only [Option.bind_eq_some_iff, Option.pure_def, Option.some.injEq, readsAs_iff, readsAsList_iff] at h
        obtain ⟨a, h1, b, h2, rfl⟩ := h
        exact ⟨_, _, (carries_iff _ _ _).mp hfs, h1, h2⟩
      · cases h
    · rintro ⟨_, _, h, h1, h2⟩
      simp only [← carries_iff, ← readsAs_iff, ← readsAsList_iff] at h h1 h2
      simp [serdePreparedEncryptionGens, h, h1, h2]
  · intro A c k
    constructor
    · intro h
      unfold serdeCommitmentGens at h
      simp only [Option.bind_eq_bind, Option.bind_eq_some_iff] at h
      obtain ⟨fs, hfs, h⟩ := h
      split at h
      · simp only [Option.bind_eq_some_iff, Option.pure_def, Option.some.injEq, readsAs_iff, readsAsList_iff] at h
        obtain ⟨a, h1, b, h2, rfl⟩ := h
        exact ⟨_, _, (carries_iff _ _ _).mp hfs, h1, h2⟩
      · cases h
    · rintro ⟨_, _, h, h1, h2⟩
      simp only [← carries_iff, ← readsAs_iff, ← readsAsList_iff] at h h1 h2
      simp [serdeCommitmentGens, h, h1, h2]
  · intro k
    constructor
    · intro h
      unfold serdeProvingKey at h
      simp only [Option.bind_eq_bind, Option.bind_eq_some_iff] at h
      obtain ⟨fs, hfs, h⟩ := h
      split at h
      · simp only [Option.bind_eq_some_iff, Option.pure_def, Option.some.injEq, readsAs_iff, readsAsList_iff] at h
        obtain ⟨a, h1, b, h2, rfl⟩ := h
        exact ⟨_, _, (carries_iff _ _ _).mp hfs, h1, h2⟩
      · cases h
    · rintro ⟨_, _, h, h1, h2⟩
      simp only [← carries_iff, ← readsAs_iff, ← readsAsList_iff] at h h1 h2
      simp [serdeProvingKey, h, h1, h2]
  · intro A c k
    constructor
    · intro h
      unfold serdeChunkedCommitment at h
      dsimp only at h
      split at h
      · simp only [Option.bind_eq_bind, Option.bind_eq_some_iff, Option.pure_def, Option.some.injEq, readsAs_iff,
          readsAsList_iff] at h
        obtain ⟨a, h1, b, h2, rfl⟩ := h
        exact ⟨_, _, rfl, h1, h2⟩
      · cases h
    · rintro ⟨_, _, rfl, h1, h2⟩
      simp only [← readsAs_iff, ← readsAsList_iff] at h1 h2
      simp [serdeChunkedCommitment, h1, h2]

end

/-- On concrete values: a commitment is not read from a sequence of three values or from a map, and an encryption
key with its `P_1` missing is not read. -/
example (u w x : SVal) (kvs : List (String × SVal)) :
    (serdeChunkedCommitment (arkField smallFr)).dec (.seq [u, w, x]) = none ∧
    (serdeChunkedCommitment (arkField smallFr)).dec (.map kvs) = none ∧
    (serdeEncryptionKey (scalarCodecs smallFr)).dec (.map [("X_0", u), ("X", u), ("Y", w), ("Z", w), ("P_2", x)]) =
      none := by
  refine ⟨?_, ?_, ?_⟩
  · rw [Option.eq_none_iff_forall_ne_some]
    intro k h
    obtain ⟨p, l, h, -⟩ := ((C53_others_read_exactly (scalarCodecs smallFr) _).2.2.2.2 _ k).mp h
    simp at h
  · rw [Option.eq_none_iff_forall_ne_some]
    intro k h
    obtain ⟨p, l, h, -⟩ := ((C53_others_read_exactly (scalarCodecs smallFr) _).2.2.2.2 _ k).mp h
    cases h
  · rw [Option.eq_none_iff_forall_ne_some]
    intro k h
    obtain ⟨x0, y, z, t, p1, p2, h, -⟩ := ((C53_keys_read_exactly (scalarCodecs smallFr) _).2.2.2.2.1 k).mp h
    rcases h with ⟨h, -⟩ | ⟨kvs, h, hf⟩
    · cases h
    · cases h
      simp at hf

/-- Generators are read from a map with the fields in another order, an unknown field and trailing bytes. -/
example : (serdeEncryptionGens (scalarCodecs smallFr)).dec
    (.map [("H", SVal.bytes [5, 9]), ("comment", .num 3), ("G", SVal.bytes [77])]) =
      some (⟨(77 : ZMod smallFr.p), (5 : ZMod smallFr.p)⟩ : EncryptionGens (Engine.scalar smallFr)) := by
  have h := smallFr_modBits
  refine ((C53_others_read_exactly (scalarCodecs smallFr) _).1 _).mpr ⟨SVal.bytes [77], SVal.bytes [5, 9],
    Or.inr ⟨_, rfl, ?_⟩, ⟨[77], [], rfl, ?_⟩, ⟨[5, 9], [9], rfl, ?_⟩⟩
  · simp
  · show (arkField smallFr).de [77] = some _
    simp only [arkField, h]; rfl
  · show (arkField smallFr).de [5, 9] = some _
    simp only [arkField, h]; rfl

end Verif
