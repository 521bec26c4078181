/-
Property C70: every value has one canonical encoding, of predictable size.
-/
import Verif.Props.Serde

namespace Verif
open Spec

namespace Spec

/-- `x` has only one encoding: whatever bytes are read as `x` are its serialization (followed by the unread rest).
(For arkworks curves this is true of finite points; the point at infinity is read from several byte strings.) -/
def OneEncoding {α : Type} (c : Ark α) (x : α) : Prop :=
  ∀ bs rest, c.de bs = some (x, rest) → bs = c.ser x ++ rest

/-- all elements of a vector have only one encoding -/
def OneEncodings {α : Type} (c : Ark α) (l : List α) : Prop := ∀ x ∈ l, OneEncoding c x

/-- the points of a Groth16 proving key have only one encoding -/
def OneEncodingPk {E : Engine} (C : Codecs E) (k : Groth16ProvingKey E) : Prop :=
  OneEncoding C.g1 k.vk.alpha_g1 ∧ OneEncoding C.g2 k.vk.beta_g2 ∧ OneEncoding C.g2 k.vk.gamma_g2 ∧
  OneEncoding C.g2 k.vk.delta_g2 ∧ OneEncodings C.g1 k.vk.gamma_abc_g1 ∧ OneEncoding C.g1 k.beta_g1 ∧
  OneEncoding C.g1 k.delta_g1 ∧ OneEncodings C.g1 k.a_query ∧ OneEncodings C.g1 k.b_g1_query ∧
  OneEncodings C.g2 k.b_g2_query ∧ OneEncodings C.g1 k.h_query ∧ OneEncodings C.g1 k.l_query

/-- the 8-byte little-endian length prefix: byte `i` is the `i`-th base-256 digit -/
def lenPrefix (n : ℕ) : List UInt8 := tab 8 fun i => UInt8.ofNat (n / 256 ^ i % 256)

/-- a vector on the wire: length prefix, then the elements one after the other -/
def onWire {α : Type} (enc : α → List UInt8) (l : List α) : List UInt8 := lenPrefix l.length ++ (l.map enc).flatten

/-- a scalar on the wire: its canonical representative in little-endian bytes, as many as the modulus needs -/
def scalarOnWire (K : FieldCfg) (x : K.F) : List UInt8 :=
  tab ((K.modBits + 7) / 8) fun i => UInt8.ofNat (x.val / 256 ^ i % 256)

end Spec

variable {E : Engine} {C : Codecs E}

namespace Encod

theorem vec {α : Type} {c : Ark α} (l : List α) (h : OneEncodings c l) : OneEncoding (arkVec c) l := by
  have many : ∀ (l : List α) (n : ℕ) (bs rest : List UInt8), OneEncodings c l →
      arkDeMany c n bs = some (l, rest) → n = l.length ∧ bs = l.flatMap c.ser ++ rest := by
    intro l
    induction l with
    | nil =>
      intro n bs rest _ h
      cases n with
      | zero => cases h; simp
      | succ n =>
        simp only [arkDeMany, Option.bind_eq_bind, Option.bind_eq_some_iff, Option.pure_def,
          Option.some.injEq, Prod.mk.injEq] at h
        obtain ⟨_, _, _, _, h, _⟩ := h
        cases h
    | cons x xs ih =>
      intro n bs rest ho h
      cases n with
      | zero => cases h
      | succ n =>
        simp only [arkDeMany, Option.bind_eq_bind, Option.bind_eq_some_iff, Option.pure_def,
          Option.some.injEq, Prod.mk.injEq] at h
        obtain ⟨⟨y, b1⟩, h1, ⟨ys, b2⟩, h2, h3, h4⟩ := h
        simp only [List.cons.injEq] at h3 h4
        obtain ⟨rfl, rfl⟩ := h3
        subst h4
        obtain ⟨hn, hb⟩ := ih n b1 b2 (fun z hz => ho z (List.mem_cons_of_mem _ hz)) h2
        have h0 := ho y (List.mem_cons_self ..) _ _ h1
        refine ⟨by simp [hn], ?_⟩
        rw [h0, hb]
        simp
  intro bs rest hd
  simp only [arkVec, arkU64De, Option.bind_eq_bind, Option.bind_eq_some_iff, Option.pure_def,
    Option.some.injEq] at hd
  obtain ⟨⟨n, b1⟩, ⟨⟨a, b0⟩, h1, h2⟩, h3⟩ := hd
  cases h2
  unfold readExact at h1
  split at h1
  · cases h1
  · next hl =>
    simp only [Option.some.injEq, Prod.mk.injEq] at h1
    obtain ⟨rfl, rfl⟩ := h1
    obtain ⟨hn, hb⟩ := many l _ _ _ h h3
    have hlen : (bs.take 8).length = 8 := by simp; omega
    have e := bytesLE_leValue (bs.take 8)
    rw [hlen] at e
    simp only [arkVec]
    rw [← hn, e, List.append_assoc, ← hb, List.take_append_drop]

theorem scalar (K : FieldCfg) (x : K.F) : OneEncoding (arkField K) x := fun bs rest h =>
  C52_scalar_canonical K bs rest x h

theorem scalars (K : FieldCfg) (l : List K.F) : OneEncodings (arkField K) l := fun x _ => scalar K x

end Encod

/-- takes a derived reader apart -/
macro "enc_tac" h:ident : tactic => `(tactic|
  (simp only [Option.bind_eq_bind, Option.bind_eq_some_iff, Option.pure_def, Option.some.injEq, Prod.mk.injEq,
     Prod.exists] at $h:ident))

open Encod in
/-- **C70** (one encoding) The bytes accepted as a secret key, share, key, ciphertext, generator set, commitment or
proving key are exactly its serialization (followed by what the reader leaves), provided the points in it have
only one encoding: an encoding cannot be altered without changing the value. -/
theorem C70_one_encoding :
    (∀ k : SecretKey E, OneEncoding arkSecretKey k) ∧
    (∀ k : SecretKeyST E, OneEncoding arkSecretKeyST k) ∧
    (∀ k : P1share E, OneEncoding C.g1 k.P_1 → OneEncoding (arkP1share C) k) ∧
    (∀ k : FEncryptionKeyDest E, OneEncoding C.g1 k.pk → OneEncoding (arkDestKey C) k) ∧
    (∀ k : FEncryptionKeyPartial E, OneEncoding C.g1 k.X_0 → OneEncodings C.g1 k.X → OneEncodings C.g1 k.Y →
      OneEncodings C.g2 k.Z → OneEncoding C.g1 k.P_2 → OneEncoding (arkPartialKey C) k) ∧
    (∀ k : EncryptionKey E, OneEncoding C.g1 k.X_0 → OneEncodings C.g1 k.X → OneEncodings C.g1 k.Y →
      OneEncodings C.g2 k.Z → OneEncoding C.g1 k.P_1 → OneEncoding C.g1 k.P_2 →
      OneEncoding (arkEncryptionKey C) k) ∧
    (∀ k : DecryptionKey E, OneEncoding C.g2 k.V_0 → OneEncodings C.g2 k.V_1 → OneEncodings C.g2 k.V_2 →
      OneEncoding (arkDecryptionKey C) k) ∧
    (∀ ct : Ciphertext E, OneEncoding C.g1 ct.X_r → OneEncodings C.g1 ct.enc_chunks →
      OneEncoding C.g1 ct.commitment → OneEncoding (arkCiphertext C) ct) ∧
    (∀ k : EncryptionGens E, OneEncoding C.g1 k.G → OneEncoding C.g2 k.H → OneEncoding (arkEncryptionGens C) k) ∧
    (∀ k : ChunkedCommitmentGens E.G1, OneEncoding C.g1 k.G → OneEncoding C.g1 k.H →
      OneEncoding (arkCommitmentGens C.g1) k) ∧
    (∀ k : ChunkedCommitment E.G1, OneEncoding C.g1 k.comm → OneEncodings C.g1 k.key →
      OneEncoding (arkChunkedCommitment C.g1) k) ∧
    (∀ k : ProvingKey E, OneEncodingPk C k.pk → OneEncoding C.g1 k.gamma_g1 → OneEncoding (arkProvingKey C) k) := by
  refine ⟨?_, ?_, ?_, ?_, ?_, ?_, ?_, ?_, ?_, ?_, ?_, ?_⟩
  · intro k bs rest h
    simp only [arkSecretKey] at h ⊢
    enc_tac h
    obtain ⟨a, b1, h1, rfl, rfl⟩ := h
    exact scalar _ _ _ _ h1
  · intro k bs rest h
    simp only [arkSecretKeyST] at h ⊢
    enc_tac h
    obtain ⟨a, b1, h1, a2, b2, h2, rfl, rfl⟩ := h
    rw [vec _ (scalars _ _) _ _ h1, vec _ (scalars _ _) _ _ h2]
    simp
  · intro k e1 bs rest h
    simp only [arkP1share] at h ⊢
    enc_tac h
    obtain ⟨a, b1, h1, rfl, rfl⟩ := h
    exact e1 _ _ h1
  · intro k e1 bs rest h
    simp only [arkDestKey] at h ⊢
    enc_tac h
    obtain ⟨a, b1, h1, rfl, rfl⟩ := h
    exact e1 _ _ h1
  · intro k e1 e2 e3 e4 e5 bs rest h
    simp only [arkPartialKey] at h ⊢
    enc_tac h
    obtain ⟨a1, b1, h1, a2, b2, h2, a3, b3, h3, a4, b4, h4, a5, b5, h5, rfl, rfl⟩ := h
    rw [e1 _ _ h1, vec _ e2 _ _ h2, vec _ e3 _ _ h3, vec _ e4 _ _ h4, e5 _ _ h5]
    simp
  · intro k e1 e2 e3 e4 e5 e6 bs rest h
    simp only [arkEncryptionKey] at h ⊢
    enc_tac h
    obtain ⟨a1, b1, h1, a2, b2, h2, a3, b3, h3, a4, b4, h4, a5, b5, h5, a6, b6, h6, rfl, rfl⟩ := h
    rw [e1 _ _ h1, vec _ e2 _ _ h2, vec _ e3 _ _ h3, vec _ e4 _ _ h4, e5 _ _ h5, e6 _ _ h6]
    simp
  · intro k e1 e2 e3 bs rest h
    simp only [arkDecryptionKey] at h ⊢
    enc_tac h
    obtain ⟨a1, b1, h1, a2, b2, h2, a3, b3, h3, rfl, rfl⟩ := h
    rw [e1 _ _ h1, vec _ e2 _ _ h2, vec _ e3 _ _ h3]
    simp
  · intro k e1 e2 e3 bs rest h
    simp only [arkCiphertext] at h ⊢
    enc_tac h
    obtain ⟨a1, b1, h1, a2, b2, h2, a3, b3, h3, rfl, rfl⟩ := h
    rw [e1 _ _ h1, vec _ e2 _ _ h2, e3 _ _ h3]
    simp
  · intro k e1 e2 bs rest h
    simp only [arkEncryptionGens] at h ⊢
    enc_tac h
    obtain ⟨a1, b1, h1, a2, b2, h2, rfl, rfl⟩ := h
    rw [e1 _ _ h1, e2 _ _ h2]
    simp
  · intro k e1 e2 bs rest h
    simp only [arkCommitmentGens] at h ⊢
    enc_tac h
    obtain ⟨a1, b1, h1, a2, b2, h2, rfl, rfl⟩ := h
    rw [e1 _ _ h1, e2 _ _ h2]
    simp
  · intro k e1 e2 bs rest h
    simp only [arkChunkedCommitment] at h ⊢
    enc_tac h
    obtain ⟨a1, b1, h1, a2, b2, h2, rfl, rfl⟩ := h
    rw [e1 _ _ h1, vec _ e2 _ _ h2]
    simp
  · rintro k ⟨e1, e2, e3, e4, e5, e6, e7, e8, e9, e10, e11, e12⟩ e13 bs rest h
    simp only [arkProvingKey, arkGroth16ProvingKey, arkVerifyingKey] at h ⊢
    enc_tac h
    obtain ⟨pk, b13, ⟨vk, b5, ⟨a1, b1, h1, a2, b2, h2, a3, b3, h3, a4, b4, h4, a5, b5', h5, rfl, rfl⟩,
      a6, b6, h6, a7, b7, h7, a8, b8, h8, a9, b9, h9, a10, b10, h10, a11, b11, h11, a12, b12, h12, rfl, rfl⟩,
      a13, b13', h13, rfl, rfl⟩ := h
    rw [e1 _ _ h1, e2 _ _ h2, e3 _ _ h3, e4 _ _ h4, vec _ e5 _ _ h5, e6 _ _ h6, e7 _ _ h7, vec _ e8 _ _ h8,
      vec _ e9 _ _ h9, vec _ e10 _ _ h10, vec _ e11 _ _ h11, vec _ e12 _ _ h12, e13 _ _ h13]
    simp

theorem Encod.vec_length {α : Type} {c : Ark α} {len : ℕ} (h : ∀ x, (c.ser x).length = len) (l : List α) :
    ((arkVec c).ser l).length = 8 + l.length * len := by
  simp only [arkVec, List.length_append, length_bytesLE]
  congr 1
  induction l with
  | nil => simp
  | cons x xs ih => simp only [List.flatMap_cons, List.length_append, h, ih, List.length_cons]; ring

open Encod in
/-- **C70** (sizes) With points of `l1` and `l2` bytes and scalars of `lf = ⌈bits/8⌉` bytes, everything published
for `n` chunks has a size that depends on `n` alone: no size reveals anything about secrets or messages. -/
theorem C70_sizes (l1 l2 : ℕ) (h1 : ∀ x, (C.g1.ser x).length = l1) (h2 : ∀ x, (C.g2.ser x).length = l2) :
    (∀ k : SecretKey E, (arkSecretKey.ser k).length = (E.fr.modBits + 7) / 8) ∧
    (∀ (n : ℕ) (k : SecretKeyST E), k.s.length = n → k.t.length = n + 1 →
      (arkSecretKeyST.ser k).length = 16 + (2 * n + 1) * ((E.fr.modBits + 7) / 8)) ∧
    (∀ k : P1share E, ((arkP1share C).ser k).length = l1) ∧
    (∀ (n : ℕ) (k : FEncryptionKeyPartial E), k.X.length = n → k.Y.length = n → k.Z.length = n + 1 →
      ((arkPartialKey C).ser k).length = 24 + (2 * n + 2) * l1 + (n + 1) * l2) ∧
    (∀ (n : ℕ) (k : EncryptionKey E), k.X.length = n → k.Y.length = n → k.Z.length = n + 1 →
      ((arkEncryptionKey C).ser k).length = 24 + (2 * n + 3) * l1 + (n + 1) * l2) ∧
    (∀ (n : ℕ) (k : DecryptionKey E), k.V_1.length = n → k.V_2.length = n →
      ((arkDecryptionKey C).ser k).length = 16 + (2 * n + 1) * l2) ∧
    (∀ (n : ℕ) (ct : Ciphertext E), ct.enc_chunks.length = n →
      ((arkCiphertext C).ser ct).length = 8 + (n + 2) * l1) := by
  refine ⟨fun k => ?_, fun n k e1 e2 => ?_, fun k => h1 _, fun n k e1 e2 e3 => ?_, fun n k e1 e2 e3 => ?_,
    fun n k e1 e2 => ?_, fun n k e1 => ?_⟩
  · simp [arkSecretKey, arkField]
  · have hf : ∀ x, ((arkField E.fr).ser x).length = (E.fr.modBits + 7) / 8 := by simp [arkField]
    simp only [arkSecretKeyST, List.length_append, vec_length hf, e1, e2]
    ring
  · simp only [arkPartialKey, List.length_append, vec_length h1, vec_length h2, h1, e1, e2, e3]
    ring
  · simp only [arkEncryptionKey, List.length_append, vec_length h1, vec_length h2, h1, e1, e2, e3]
    ring
  · simp only [arkDecryptionKey, List.length_append, vec_length h2, h2, e1, e2]
    ring
  · simp only [arkCiphertext, List.length_append, vec_length h1, h1, e1]
    ring

theorem Encod.bytesLE_digits (len n : ℕ) : bytesLE len n = tab len fun i => UInt8.ofNat (n / 256 ^ i % 256) := by
  induction len generalizing n with
  | zero => rfl
  | succ k ih =>
    rw [tab_succ, bytesLE, ih]
    simp only [pow_zero, Nat.div_one, pow_succ', Nat.div_div_eq_div_mul]

theorem Encod.vec_layout {α : Type} (c : Ark α) (l : List α) : (arkVec c).ser l = onWire c.ser l := by
  simp only [arkVec, onWire, lenPrefix, Encod.bytesLE_digits, List.flatMap]

open Encod in
/-- **C70** (wire layout) The canonical encodings are the fields in the order of their declaration: scalars little
endian in `⌈bits/8⌉` bytes, vectors preceded by their length in 8 little-endian bytes, points as their own encoding;
nothing in between. -/
theorem C70_wire_layout :
    (∀ k : SecretKey E, arkSecretKey.ser k = scalarOnWire E.fr k.rho) ∧
    (∀ k : SecretKeyST E, arkSecretKeyST.ser k =
      onWire (scalarOnWire E.fr) k.s ++ onWire (scalarOnWire E.fr) k.t) ∧
    (∀ k : P1share E, (arkP1share C).ser k = C.g1.ser k.P_1) ∧
    (∀ k : FEncryptionKeyDest E, (arkDestKey C).ser k = C.g1.ser k.pk) ∧
    (∀ k : FEncryptionKeyPartial E, (arkPartialKey C).ser k = C.g1.ser k.X_0 ++ onWire C.g1.ser k.X ++
      onWire C.g1.ser k.Y ++ onWire C.g2.ser k.Z ++ C.g1.ser k.P_2) ∧
    (∀ k : EncryptionKey E, (arkEncryptionKey C).ser k = C.g1.ser k.X_0 ++ onWire C.g1.ser k.X ++
      onWire C.g1.ser k.Y ++ onWire C.g2.ser k.Z ++ C.g1.ser k.P_1 ++ C.g1.ser k.P_2) ∧
    (∀ k : DecryptionKey E, (arkDecryptionKey C).ser k = C.g2.ser k.V_0 ++ onWire C.g2.ser k.V_1 ++
      onWire C.g2.ser k.V_2) ∧
    (∀ ct : Ciphertext E, (arkCiphertext C).ser ct = C.g1.ser ct.X_r ++ onWire C.g1.ser ct.enc_chunks ++
      C.g1.ser ct.commitment) ∧
    (∀ k : EncryptionGens E, (arkEncryptionGens C).ser k = C.g1.ser k.G ++ C.g2.ser k.H) ∧
    (∀ k : PreparedEncryptionGens E, (arkPreparedEncryptionGens C).ser k = C.g1.ser k.G ++ C.g2p.ser k.H) ∧
    (∀ k : ChunkedCommitmentGens E.G1, (arkCommitmentGens C.g1).ser k = C.g1.ser k.G ++ C.g1.ser k.H) ∧
    (∀ k : ChunkedCommitment E.G1, (arkChunkedCommitment C.g1).ser k = C.g1.ser k.comm ++
      onWire C.g1.ser k.key) ∧
    (∀ k : ProvingKey E, (arkProvingKey C).ser k =
      C.g1.ser k.pk.vk.alpha_g1 ++ C.g2.ser k.pk.vk.beta_g2 ++ C.g2.ser k.pk.vk.gamma_g2 ++
      C.g2.ser k.pk.vk.delta_g2 ++ onWire C.g1.ser k.pk.vk.gamma_abc_g1 ++ C.g1.ser k.pk.beta_g1 ++
      C.g1.ser k.pk.delta_g1 ++ onWire C.g1.ser k.pk.a_query ++ onWire C.g1.ser k.pk.b_g1_query ++
      onWire C.g2.ser k.pk.b_g2_query ++ onWire C.g1.ser k.pk.h_query ++ onWire C.g1.ser k.pk.l_query ++
      C.g1.ser k.gamma_g1) := by
  have hf : (arkField E.fr).ser = scalarOnWire E.fr := by
    funext x
    simp only [arkField, scalarOnWire, bytesLE_digits, intoBigint]
  refine ⟨fun k => ?_, fun k => ?_, fun k => rfl, fun k => rfl, fun k => ?_, fun k => ?_, fun k => ?_, fun k => ?_,
    fun k => rfl, fun k => rfl, fun k => rfl, fun k => ?_, fun k => ?_⟩
  · rw [← hf]; rfl
  · simp only [arkSecretKeyST, vec_layout, hf]
  · simp only [arkPartialKey, vec_layout]
  · simp only [arkEncryptionKey, vec_layout]
  · simp only [arkDecryptionKey, vec_layout]
  · simp only [arkCiphertext, vec_layout]
  · simp only [arkChunkedCommitment, vec_layout]
  · simp only [arkProvingKey, arkGroth16ProvingKey, arkVerifyingKey, vec_layout, List.append_assoc]

/-- **C70** (serde layout) With a self-describing format, structs are maps with the declared field names in order;
scalars and points are their canonical bytes, vectors of points are sequences of such; the newtype `SecretKey` is just
its scalar and `ChunkedCommitment` a pair. -/
theorem C70_serde_layout :
    (∀ k : SecretKey E, serdeSecretKey.enc k = SVal.bytes (scalarOnWire E.fr k.rho)) ∧
    (∀ k : SecretKeyST E, serdeSecretKeyST.enc k = .map
      [("s", .seq (k.s.map fun x => SVal.bytes (scalarOnWire E.fr x))),
       ("t", .seq (k.t.map fun x => SVal.bytes (scalarOnWire E.fr x)))]) ∧
    (∀ k : P1share E, (serdeP1share C).enc k = .map [("P_1", SVal.bytes (C.g1.ser k.P_1))]) ∧
    (∀ k : FEncryptionKeyPartial E, (serdePartialKey C).enc k = .map
      [("X_0", SVal.bytes (C.g1.ser k.X_0)), ("X", .seq (k.X.map fun x => SVal.bytes (C.g1.ser x))),
       ("Y", .seq (k.Y.map fun x => SVal.bytes (C.g1.ser x))), ("Z", .seq (k.Z.map fun x => SVal.bytes (C.g2.ser x))),
       ("P_2", SVal.bytes (C.g1.ser k.P_2))]) ∧
    (∀ k : EncryptionKey E, (serdeEncryptionKey C).enc k = .map
      [("X_0", SVal.bytes (C.g1.ser k.X_0)), ("X", .seq (k.X.map fun x => SVal.bytes (C.g1.ser x))),
       ("Y", .seq (k.Y.map fun x => SVal.bytes (C.g1.ser x))), ("Z", .seq (k.Z.map fun x => SVal.bytes (C.g2.ser x))),
       ("P_1", SVal.bytes (C.g1.ser k.P_1)), ("P_2", SVal.bytes (C.g1.ser k.P_2))]) ∧
    (∀ k : FEncryptionKeyDest E, (serdeDestKey C).enc k = .map [("pk", SVal.bytes (C.g1.ser k.pk))]) ∧
    (∀ k : DecryptionKey E, (serdeDecryptionKey C).enc k = .map
      [("V_0", SVal.bytes (C.g2.ser k.V_0)), ("V_1", .seq (k.V_1.map fun x => SVal.bytes (C.g2.ser x))),
       ("V_2", .seq (k.V_2.map fun x => SVal.bytes (C.g2.ser x)))]) ∧
    (∀ ct : Ciphertext E, (serdeCiphertext C).enc ct = .map
      [("X_r", SVal.bytes (C.g1.ser ct.X_r)),
       ("enc_chunks", .seq (ct.enc_chunks.map fun x => SVal.bytes (C.g1.ser x))),
       ("commitment", SVal.bytes (C.g1.ser ct.commitment))]) ∧
    (∀ k : EncryptionGens E, (serdeEncryptionGens C).enc k = .map
      [("G", SVal.bytes (C.g1.ser k.G)), ("H", SVal.bytes (C.g2.ser k.H))]) ∧
    (∀ k : PreparedEncryptionGens E, (serdePreparedEncryptionGens C).enc k = .map
      [("G", SVal.bytes (C.g1.ser k.G)), ("H", SVal.bytes (C.g2p.ser k.H))]) ∧
    (∀ k : ChunkedCommitmentGens E.G1, (serdeCommitmentGens C.g1).enc k = .map
      [("G", SVal.bytes (C.g1.ser k.G)), ("H", SVal.bytes (C.g1.ser k.H))]) ∧
    (∀ k : ChunkedCommitment E.G1, (serdeChunkedCommitment C.g1).enc k = .seq
      [SVal.bytes (C.g1.ser k.comm), .seq (k.key.map fun x => SVal.bytes (C.g1.ser x))]) ∧
    (∀ k : ProvingKey E, (serdeProvingKey C).enc k = .map
      [("pk", SVal.bytes ((arkGroth16ProvingKey C).ser k.pk)), ("gamma_g1", SVal.bytes (C.g1.ser k.gamma_g1))]) := by
  have hf : (arkField E.fr).ser = scalarOnWire E.fr := by
    funext x
    exact (C70_wire_layout (C := C)).1 ⟨x⟩
  refine ⟨fun k => ?_, fun k => ?_, fun k => rfl, fun k => rfl, fun k => rfl, fun k => rfl, fun k => rfl,
    fun k => rfl, fun k => rfl, fun k => rfl, fun k => rfl, fun k => rfl, fun k => rfl⟩
  · rw [← hf]
    rfl
  · rw [← hf]
    rfl

/-- the hypotheses are met: all elements of the scalar engine have one encoding, of 32 bytes -/
example (ct : Ciphertext (Engine.scalar blsFr)) (h : ct.enc_chunks.length = 16) :
    OneEncoding (arkCiphertext (scalarCodecs blsFr)) ct ∧
    ((arkCiphertext (scalarCodecs blsFr)).ser ct).length = 584 := by
  have hb := blsFr_modBits
  have hl : ∀ x : blsFr.F, ((arkField blsFr).ser x).length = 32 := by
    intro x
    simp [arkField, hb]
  exact ⟨(C70_one_encoding (C := scalarCodecs blsFr)).2.2.2.2.2.2.2.1 ct (Encod.scalar blsFr _)
    (Encod.scalars blsFr _) (Encod.scalar blsFr _),
    (C70_sizes (C := scalarCodecs blsFr) 32 32 hl hl).2.2.2.2.2.2 16 ct h⟩

end Verif
