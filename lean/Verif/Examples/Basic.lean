/-
Concrete, non-trivial cases meeting the hypotheses of those theorems of `Verif.Props` (C02 - C59) that are not
already applied in an `example` beside them. Every `example` below is an application of the named theorem to
concrete data, so the kernel checks that the hypotheses are met.
-/
import Verif.Props.Chunking
import Verif.Props.Commit
import Verif.Props.Keys
import Verif.Props.Encrypt
import Verif.Props.Decrypt
import Verif.Props.ReEncrypt
import Verif.Props.Batch
import Verif.Props.Aggregate
import Verif.Props.Hash
import Verif.Props.Leak
import Verif.Props.Verified
import Verif.Props.Serde
import Verif.Props.Fresh
import Verif.Props.Gadgets
import Verif.Props.Circuit
import Verif.Props.Encoding

namespace Verif
namespace Ex
open Spec
noncomputable section

/-! ### chunking -/

example (m m' : blsFr.F) (h : decompose (K := blsFr) m 8 = decompose m' 8) : m = m' :=
  C02_decompose_injective blsFr m m' 8 (.inr (.inl rfl)) h

example : (∀ m : blsFr.F, decompose m 5 = .err (.unexpectedBase 5)) ∧
    (∀ (chk : Bool) (d : List UInt16), compose (K := blsFr) chk d 5 = .err (.unexpectedBase 5)) :=
  C03_unsupported_rejected blsFr 5 (by unfold Supported; decide)

example (m r : blsFr.F) := C03_commitment_rejects (K := blsFr) (G := ZMod blsFr.p) true m r 32 ⟨2, 3⟩ [5, 7]
  (by unfold Supported; decide)

example := C03_encrypt_rejects (listRng Fix.E) Fix.st1 (65541 : Fix.F) Fix.ek Fix.gi 15 (by unfold Supported; decide)

example := C04_chunks_count_least blsFr 16 (by decide) (by simp [chunksNeeded, blsFr_modBits])

example := C04_chunks_count_truncates mersenneFr 2 (by decide) (by simp [chunksNeeded, mersenneFr_modBits])

example := C05_encrypt_fresh_key Fix.ek 16 Fix.gens Fix.gi Fix.D Fix.C Fix.fromSetup (.inr (.inr rfl)) (listRng Fix.E)
  Fix.st1 (1000000000000000000 : Fix.F)

example := C05_bls12_381 8 (.inr (.inl rfl))

example := C05_fails_521 16 (.inr (.inr rfl))

example := C06_compose_additive blsFr true [3, 4] [5, 6] 4 (.inl rfl) (fun _ => ⟨1, rfl⟩) rfl (by decide)

example := C06_lost_carry blsFr true (by decide +kernel)

/-! ### keys -/

example := C07_fkeygenPartial (listRng Fix.E) Fix.st 16 4 Fix.gens Fix.gi Fix.D Fix.C Fix.count

example := C08_keygen_pairing_equations (listRng Fix.E) Fix.st _ 16 Fix.gens Fix.gi Fix.D Fix.C Fix.sk Fix.ek Fix.dk
  Fix.keygen_ok

example := C09_dkg_equals_keygen Fix.parties (List.cons_ne_nil _ _) 16 4 Fix.gens Fix.gi Fix.D Fix.C Fix.count
  (by decide +kernel)

/-- two partial keys -/
def pk1 : FEncryptionKeyPartial Fix.E := ⟨(17 : Fix.F), ([1, 2] : List Fix.F), ([3, 4] : List Fix.F),
  ([5, 6, 7] : List Fix.F), (8 : Fix.F)⟩
def pk2 : FEncryptionKeyPartial Fix.E := ⟨(17 : Fix.F), ([9, 10] : List Fix.F), ([11, 12] : List Fix.F),
  ([13, 14, 15] : List Fix.F), (16 : Fix.F)⟩

theorem pk_shapes : ∀ e ∈ [pk1, pk2], e.X_0 = Fix.D ∧ e.X.length = 2 ∧ e.Y.length = 2 ∧ e.Z.length = 3 := by
  intro e he
  simp only [List.mem_cons, List.not_mem_nil, or_false] at he
  rcases he with rfl | rfl <;> exact ⟨rfl, rfl, rfl, rfl⟩

example : combineEKs Fix.C [pk1, pk2] = combineEKs Fix.C [pk2, pk1] :=
  C10_combineEKs_order Fix.C [pk1, pk2] [pk2, pk1] (List.Perm.swap _ _ _) Fix.D 2 2 3 pk_shapes

example := C10_combineP1share_order (E := Fix.E) [⟨(3 : Fix.F)⟩, ⟨(4 : Fix.F)⟩] [⟨(4 : Fix.F)⟩, ⟨(3 : Fix.F)⟩]
  (List.Perm.swap _ _ _)

example := C10_dkg_order Fix.parties Fix.parties.reverse (List.reverse_perm _).symm 16 Fix.gens Fix.gi Fix.D Fix.C

example := C11_combineEKs_ignores_extra Fix.C pk1 pk2 [] [pk2] ([1] : List Fix.F) ([] : List Fix.F) ([2, 3] : List Fix.F)
  ⟨le_refl _, le_refl _, le_refl _⟩

example (s t : ℕ → Fix.E.Fr) := C12_additive_sharing Fix.parties 16 4 Fix.gens Fix.gi Fix.D Fix.C Fix.count
  (by decide +kernel) (by decide +kernel) (by decide +kernel) s t

/-! ### encryption and its verification -/

example := C14_encrypt_splits (listRng Fix.E) Fix.st1 (65541 : Fix.F) Fix.ek Fix.gi 16 (.inr (.inr rfl))

theorem Z_eq : ∀ i < Fix.ek.X.length + 1,
    Fix.ek.Z.getD i 0 = (show Fix.E.Fr from ([1, 3, 5, 7, 9] : List Fix.F).getD i 0) • Fix.gens.H := by
  intro i hi
  have hi : i < 5 := hi
  interval_cases i <;> decide +kernel

theorem ct1_ok : Fix.ct1.verifyCommitment Fix.ek.prepare Fix.gens.prepare = .ok () := by
  unfold Ciphertext.verifyCommitment
  decide +kernel

example := C16_tamper_detected Fix.ek Fix.gens (fun i => ([1, 3, 5, 7, 9] : List Fix.F).getD i 0) Fix.wf (by decide +kernel)
  (by exact (by decide +kernel : (3 : Fix.F) ≠ 0)) Z_eq Fix.ct1.X_r Fix.ct1.enc_chunks Fix.ct1.commitment ct1_ok

example := C16_hypotheses_honest Fix.ek 16 Fix.gens Fix.gi Fix.D Fix.C Fix.fromSetup

/-! ### decryption -/

example := C20_decrypt_cases true Fix.ct1.X_r Fix.ct1.enc_chunks Fix.sk Fix.dk Fix.gi 16 (by decide)

example := C20_bound 12 (by decide) (by decide)

example := C24_decrypt_by_pairing true Fix.ct1.X_r Fix.ct1.enc_chunks Fix.sk Fix.dk.prepare Fix.dk.prepare Fix.gi 16 none
  rfl rfl (fun i x y hx hy a => by rw [hx] at hy; cases hy; rfl) (fun i x y hx hy a => by rw [hx] at hy; cases hy; rfl)

/-! ### aggregation and re-encryption -/

example := C32_comm_assoc (E := Fix.E) (1 : Fix.F) (2 : Fix.F) (3 : Fix.F) ([4, 5] : List Fix.F) ([6, 7] : List Fix.F)
  ([8, 9] : List Fix.F) rfl rfl

example := C32_order_independent (E := Fix.E) [(([4, 5] : List Fix.F), (1 : Fix.F)), (([6, 7] : List Fix.F), (2 : Fix.F))]
  [(([6, 7] : List Fix.F), (2 : Fix.F)), (([4, 5] : List Fix.F), (1 : Fix.F))] 2 (by
    intro s hs
    simp only [List.mem_cons, List.not_mem_nil, or_false] at hs
    rcases hs with rfl | rfl <;> rfl) (List.Perm.swap _ _ _)

example : reEncryptAll Fix.gens Fix.dct1.X_r Fix.dct1.enc_chunks Fix.ekd Fix.rp =
    reEncryptAll Fix.gens Fix.dct1.X_r Fix.dct1.enc_chunks Fix.ekd Fix.rp.reverse :=
  C32_reencryption_order Fix.gens Fix.dct1.X_r Fix.dct1.enc_chunks Fix.ekd Fix.rp Fix.rp.reverse
    (List.reverse_perm _).symm (by
      intro P hP
      simp only [Fix.rp, List.mem_cons, List.not_mem_nil, or_false] at hP
      rcases hP with rfl | rfl <;> decide)

example := C34_constant_multipliers_unsound Fix.ct1 Fix.ek Fix.gens Fix.wf (by decide +kernel)
  (by exact (by decide +kernel : (3 : Fix.F) ≠ 0)) ct1_ok (5 : Fix.F)
  (by exact (by decide +kernel : (5 : Fix.F) ≠ 0))

example := C36_larger_bound_same (E := Fix.E) true (1 : Fix.F) ([13, -2] : List Fix.F) ⟨(-2 : Fix.F)⟩
  ([5, 7] : List Fix.F) 4 16 (by decide) (by decide) [3, 0] (by decide +kernel)

/-! ### commitments -/

example (m r : blsFr.F) := C37_bls12_381 (G := ZMod blsFr.p) true m r 16 ⟨2, 3⟩ (.inr (.inr rfl))

example := C38_key_algorithms (K := blsFr) (G := ZMod blsFr.p) (5 : ZMod blsFr.p) 16 (by decide) 16

example := C38_commitment_key (K := goldFr) true (⟨2, 3⟩ : ChunkedCommitmentGens (ZMod goldFr.p)) 16 4 (by decide)
  Fix.count (by decide)

example (m r m' r' : goldFr.F) := C39_homomorphic (K := goldFr) true m r m' r' 16 4
  (⟨2, 3⟩ : ChunkedCommitmentGens (ZMod goldFr.p)) (.inr (.inr rfl)) Fix.count (by decide +kernel)

/-- two openings of one commitment exist (`H = G`), and they differ in the randomness -/
example : ((4 : goldFr.F) ≠ (3 : goldFr.F)) ∧
    (⟨2, 2⟩ : ChunkedCommitmentGens (ZMod goldFr.p)).H = (((3 : goldFr.F) - 4) / ((3 : goldFr.F) - 4)) •
      (⟨2, 2⟩ : ChunkedCommitmentGens (ZMod goldFr.p)).G :=
  C39_binding (K := goldFr) true (3 : goldFr.F) (4 : goldFr.F) (4 : goldFr.F) (3 : goldFr.F) 16 4
    (⟨2, 2⟩ : ChunkedCommitmentGens (ZMod goldFr.p)) (.inr (.inr rfl)) Fix.count (by decide +kernel)
    (by exact (by decide +kernel : (2 : Fix.F) ≠ 0)) (by
      rw [chunked_new_eq goldFr true (3 : goldFr.F) (4 : goldFr.F) 16 4 _ (.inr (.inr rfl)) Fix.count (by decide +kernel),
        chunked_new_eq goldFr true (4 : goldFr.F) (3 : goldFr.F) 16 4 _ (.inr (.inr rfl)) Fix.count (by decide +kernel)]
      rw [← add_smul, ← add_smul, add_comm (3 : goldFr.F)]) (by exact (by decide +kernel : (3 : Fix.F) ≠ 4))

example (m y : goldFr.F) := C39_perfectly_hiding (K := goldFr) true m 16 4 (⟨2, 1⟩ : ChunkedCommitmentGens (ZMod goldFr.p))
  (.inr (.inr rfl)) Fix.count (by decide +kernel) (by exact (by decide +kernel : (1 : Fix.F) ≠ 0)) (2 : goldFr.F)
  (by exact (by decide +kernel : (2 : Fix.F) = (2 : Fix.F) • (1 : Fix.F))) y

theorem count_small : chunksCount smallFr 8 = .ok 1 := by
  unfold chunksCount
  rw [smallFr_modBits]
  decide

example (m : smallFr.F) := C40_misaligned (K := smallFr) true m 8 1 (⟨2, 3⟩ : ChunkedCommitmentGens (ZMod smallFr.p))
  (.inr (.inl rfl)) count_small (by decide) (by decide)

example (m r : smallFr.F) : ∃ key, ChunkedCommitment.new smallFr true m r 8
    (⟨2, 3⟩ : ChunkedCommitmentGens (ZMod smallFr.p)) = .ok ⟨0, key⟩ :=
  C40_constant_commitment (K := smallFr) true m r 8 1 (⟨2, 3⟩ : ChunkedCommitmentGens (ZMod smallFr.p))
    (.inr (.inl rfl)) count_small (by decide) (by simp [chunksNeeded, smallFr_modBits]) (by decide)

/-! ### circuit -/

/-- `C42_sound` and `C44_value_independent`: a circuit over BLS12-381 with three 4-bit values, its constraint system
and a satisfying assignment -/
example : ∃ (c : BitsizeCheckCircuit blsFr) (cs : CS blsFr.F), c.generateConstraints (CS.new false) = .ok cs ∧
    0 < cs.cons.length ∧ ∀ i < 3, (checked c (assign cs.inst) (assign cs.wit) i).val < 2 ^ 4 := by
  let c : BitsizeCheckCircuit blsFr := ⟨4, 3, some [3, 15, 0], true⟩
  have hb : c.required_bit_size.toNat ≤ blsFr.modBits := by rw [blsFr_modBits]; decide
  obtain ⟨cs, h, h1, -⟩ := C43_complete c [3, 15, 0] rfl hb
  have hsat : Satisfies (assign cs.inst) (assign cs.wit) cs.cons := by
    refine h1.mpr ?_
    intro v hv
    have h3 : (3 : blsFr.F).val = 3 := by decide +kernel
    have h15 : (15 : blsFr.F).val = 15 := by decide +kernel
    have h0 : (0 : blsFr.F).val = 0 := by decide +kernel
    simp only [List.mem_cons, List.not_mem_nil, or_false] at hv
    show v.val < 2 ^ 4
    rcases hv with rfl | rfl | rfl <;> omega
  -- the same circuit with other values
  let c' : BitsizeCheckCircuit blsFr := ⟨4, 3, some [7, 100, 2], true⟩
  obtain ⟨cs', h', -, -⟩ := C43_complete c' [7, 100, 2] rfl hb
  have hsame := C44_value_independent c c' false false cs cs' rfl rfl rfl h h'
  refine ⟨c, cs, h, ?_, fun i hi => C42_sound c false cs h _ _ hsat i hi⟩
  rw [hsame.1]
  obtain ⟨cs2, h2, -, h3, -⟩ := (C44_shape c' false).1 (Or.inr rfl) hb
  rw [h'] at h2
  cases h2
  rw [h3]
  rw [blsFr_modBits]
  decide

example := C42_gadget_lc (F := ℚ) (fun _ => 1) (fun k => if k = 1 then 0 else 1) rfl (.is (.wit 1) (some false))

example := C42_gadget_pack (F := ℚ) (fun _ => 1) (fun k => if k = 1 then 0 else 1) rfl
  [.is (.wit 0) (some true), .is (.wit 1) (some false), .const true]

example := C42_gadget_or (F := ℚ) (CS.new false) _ (.is (.wit 0) (some true)) (.is (.wit 1) (some false)) _ rfl

example := C42_gadget_or_value (F := ℚ) (CS.new false) rfl (.wit 0) (.wit 1) (some true) (some false)

example := C49_lagrange_interpolates (F := ℚ) ⟨2, -1, by norm_num, IsPrimitiveRoot.neg_one 0 (by norm_num)⟩ 5
  Polynomial.X (by simp)

/-! ### generators from hashing -/

/-- a curve on which exactly the second attempt succeeds -/
def ok2 (l : List UInt8) : Option ℕ := if l.getD (l.length - 8) 0 = 2 then some l.length else none

theorem first2 : FirstSuccess id ok2 [] 2 (17 : ℕ) := by
  constructor
  · decide
  · intro j hj
    interval_cases j <;> decide

example := C50_first_success true id ok2 [] 2 17 first2 (by norm_num) 7

def curve2 : HashCurve (ZMod smallFr.p) := ⟨ℕ, ok2, fun n => (n : ZMod smallFr.p)⟩

example := C50_commitment_gens true id curve2 [] 2 2 (21 : ℕ) (21 : ℕ)
  (by
    constructor
    · show ok2 (id (attemptInput ([] ++ ascii " : G") 2)) = some 21
      decide
    · intro j hj
      show ok2 _ = none
      interval_cases j <;> decide)
  (by
    constructor
    · show ok2 (id (attemptInput ([] ++ ascii " : H") 2)) = some 21
      decide
    · intro j hj
      show ok2 _ = none
      interval_cases j <;> decide) (by norm_num) 7

example := C50_attempts_distinct [1, 2, 3] 0 5 (by norm_num) (by norm_num) (by norm_num)

example (label' : List UInt8) (s' : String) (hs' : s' = " : G" ∨ s' = " : H") (k : ℕ) (hk : k < 2 ^ 56)
    (h : attemptInput ([65, 66] ++ ascii " : H") 3 = attemptInput (label' ++ ascii s') k) :=
  C50_domain_separation [65, 66] label' " : H" s' (.inr rfl) hs' 3 k (by norm_num) hk h

/-- a curve on which exactly the first attempt with a counter succeeds -/
def ok1 (l : List UInt8) : Option ℕ := if l.getD (l.length - 8) 0 = 1 then some l.length else none

example := C50_raw_collision true id ok1 [] 17 (by
    constructor
    · decide
    · intro j hj
      interval_cases j; decide) 7 (by norm_num)

/-! ### encodings -/

example (bs rest : List UInt8) (x : blsFr.F) (h : (arkField blsFr).de bs = some (x, rest)) :=
  C52_scalar_canonical blsFr bs rest x h

example := C52_encryption_keys (scalarCodecs_lawful blsFr)
example := C52_shares_decryption_keys_ciphertexts (scalarCodecs_lawful blsFr)
example := C52_generators_commitments (scalarCodecs_lawful blsFr)
example := C52_proving_key (scalarCodecs_lawful blsFr)

example := C53_trailing_bytes (arkField blsFr) (fun _ => True) (fun x _ rest => arkField_roundtrip blsFr x rest)
  (77 : ZMod blsFr.p) trivial [1, 2, 3]

/-- fields in another order, an additional field and junk after the points -/
example (v : SVal) (ct : Ciphertext (Engine.scalar blsFr)) : (serdeCiphertext (scalarCodecs blsFr)).dec
    (.map [("commitment", SVal.bytes ((scalarCodecs blsFr).g1.ser ct.commitment ++ [4, 5])), ("note", v),
      ("enc_chunks", .seq (ct.enc_chunks.zipIdx.map fun p => SVal.bytes ((scalarCodecs blsFr).g1.ser p.1 ++ [7]))),
      ("X_r", SVal.bytes ((scalarCodecs blsFr).g1.ser ct.X_r ++ [9]))]) = some ct :=
  C53_ciphertext_encodings (scalarCodecs_lawful blsFr) ct (fun _ => [7]) [9] [4, 5] [("note", v)] _
    (by
      intro kv hkv
      rcases List.mem_singleton.mp hkv with rfl
      simp)
    (by
      refine List.Perm.symm ?_
      refine (List.reverse_perm _).symm.trans ?_
      exact List.Perm.swap _ _ _)

example := C53_malformed_decryption_key (scalarCodecs_lawful blsFr)
  ⟨(1 : ZMod blsFr.p), ([2, 3] : List (ZMod blsFr.p)), ([4] : List (ZMod blsFr.p))⟩
  ⟨by simp [Fits], by simp [Fits]⟩ (by simp)

example (R' : RngCore Fix.E) (st' st1' : R'.σ) (m' : Fix.E.Fr) (ct ct' : Ciphertext Fix.E) (st1 : (listRng Fix.E).σ)
    (r r' : Fix.E.Fr) (h : encrypt (listRng Fix.E) Fix.st1 (65541 : Fix.F) Fix.ek Fix.gi 16 = .ok ((ct, r), st1))
    (h' : encrypt R' st' m' Fix.ek Fix.gi 16 = .ok ((ct', r'), st1'))
    (e1 : ct.X_r = ct'.X_r) (e2 : ct.enc_chunks = ct'.enc_chunks) :
    (65541 : Fix.F) = m' ∧ r = r' ∧ ct.commitment = ct'.commitment :=
  C57_injective_messages (listRng Fix.E) R' Fix.st1 _ st' st1' (65541 : Fix.F) m' Fix.ek Fix.gi 16 (.inr (.inr rfl)) ct ct'
    r r' h h' (by exact (by decide +kernel : (17 : Fix.F) ≠ 0)) Fix.gi_ne (by decide +kernel) e1 e2

end
end Ex
end Verif
