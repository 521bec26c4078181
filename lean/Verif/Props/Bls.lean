/-
Property C95: how often a setup delivers, and all guarantees in numbers for BLS12-381.
-/
import Verif.SpecBls
import Verif.Props.Candidates
import Verif.Props.ChosenCiphertextNeeded
import Verif.InstancesFft

namespace Verif
open Spec Agm

section
variable {E : Engine}

section
variable (T : FftCfg E.Fr) (b n : UInt8) (hb : Supported b) (hn : chunksCount E.fr b = .ok n)
    (hbm : b.toNat ≤ E.fr.modBits)
    (hal : 64 * E.fr.limbs < E.fr.modBits + b.toNat ∧ chunksNeeded E.fr b.toNat ≤ 255)
    (gens : EncryptionGens E) (hG : gens.G ≠ 0) (hH : gens.H ≠ 0) (d : EvalDomain E.Fr)
    (hd : T.newDomain (n.toNat * constraintsPerValue E.fr.modBits b.toNat + (n.toNat + 1)) = some d)
include hb hn hbm hal hG hH hd

/-- **C95** the correctness error: of the `p^K` choices of the setup's draws, those on which the setup fails, or on
which *some* message, for *some* randomness of the encryptor, is not delivered (proved, verified and decrypted to
itself), are at most `(size + 2 n + 3) p^(K-1)`. -/
theorem C95_correctness_error (hp : d.size < E.fr.p) (F : ℕ) (hF : 0 < F) (K : ℕ) (hK : 7 + 3 * n.toNat ≤ K) :
    {x : Fin K → E.Fr | ¬ Delivers T F b gens (tapeOf x)}.ncard ≤ (d.size + 2 * n.toNat + 3) * E.fr.p ^ (K - 1) := by
  classical
  obtain ⟨B1, h1, hset⟩ := Cca.setups T b n hb hn hbm hal gens hH d hd hp K hK
  obtain ⟨B2, h2, hdeg⟩ := Cca.degenerate T b n hb hn hbm hal gens hG hH d hd K hK
  have hsub : {x : Fin K → E.Fr | ¬ Delivers T F b gens (tapeOf x)} ⊆ (((B1 ∪ B2 : Finset _)) : Set (Fin K → E.Fr)) := by
    intro x hx
    by_contra hmem
    rw [Finset.mem_coe, Finset.mem_union, not_or] at hmem
    obtain ⟨pk, sk, ek, dk, f', hs⟩ := hset x hmem.1
    have hnd := hdeg x hmem.2 pk sk ek dk f' hs
    have hs' : setupForGroth16 T (tape E) F (tapeOf x) b gens = .ok ((pk, sk, ek, dk), f') := by
      rw [C92_more_candidates T (tape E) 1 F (by omega) (tapeOf x) b gens (by rw [hs]; intro h; cases h), hs]
    refine hx ⟨pk, sk, ek, dk, f', hs', fun chk R st m => ?_⟩
    obtain ⟨ct, r, proof, nu, st2, e1, e2, e3, -⟩ := C54_pipeline T (tape E) F (tapeOf x) f' b hb hal gens pk sk ek dk
      hs' hnd.1 hnd.2 chk R st m
    exact ⟨ct, r, proof, nu, st2, e1, e2, e3⟩
  refine (Set.ncard_le_ncard hsub (Set.toFinite _)).trans ?_
  rw [Set.ncard_coe_finset]
  refine (Finset.card_union_le _ _).trans ((Nat.add_le_add h1 h2).trans (le_of_eq ?_))
  ring

end

namespace Spec.OnBls

variable {T : FftCfg E.Fr}

theorem modBits (h : OnBls E T) : E.fr.modBits = 255 := by rw [h.field, blsFr_modBits]

theorem prime (h : OnBls E T) : E.fr.p = blsR := by rw [h.field]; rfl

theorem limbs (h : OnBls E T) : E.fr.limbs = 4 := by rw [h.field]; rfl

theorem bits (h : OnBls E T) {b : UInt8} (hb : Supported b) : b.toNat ≤ E.fr.modBits := by
  rw [h.modBits]
  rcases hb with rfl | rfl | rfl <;> decide

theorem aligned (h : OnBls E T) {b : UInt8} (hb : Supported b) :
    64 * E.fr.limbs < E.fr.modBits + b.toNat ∧ chunksNeeded E.fr b.toNat ≤ 255 := by
  rw [h.field]
  exact C05_bls12_381 b hb

theorem pow2 {k N : ℕ} {s m : ℕ} (hs : s = 2 ^ k) (h1 : N ≤ s) (h2 : s < 2 * N) (h3 : 2 ^ m < 2 * N)
    (h4 : N ≤ 2 ^ m) : s = 2 ^ m := by
  subst hs
  rcases Nat.lt_trichotomy k m with h | h | h
  · have : 2 ^ (k + 1) ≤ 2 ^ m := Nat.pow_le_pow_right (by omega) h
    rw [pow_succ] at this
    omega
  · rw [h]
  · have : 2 ^ (m + 1) ≤ 2 ^ k := Nat.pow_le_pow_right (by omega) h
    rw [pow_succ] at this
    omega

end Spec.OnBls

/-- **C95** the parameters on BLS12-381, for every supported chunk size `b`: there are `256 / b` chunks, the
decomposition of every message has that many, the circuit of the proofs exists and has `511 - b` constraints per chunk,
and its evaluation domain exists and has `2^17 / b` points. -/
theorem C95_bls_parameters (T : FftCfg E.Fr) (hE : OnBls E T) (b : UInt8) (hb : Supported b) :
    ∃ n d, chunksCount E.fr b = .ok n ∧ n.toNat * b.toNat = 256 ∧
      (∀ m : E.Fr, ∃ ds, decompose (K := E.fr) m b = .ok ds ∧ ds.length = n.toNat) ∧
      (∃ c0 cs, BitsizeCheckCircuit.new (K := E.fr) b none none true = .ok c0 ∧
        c0.generateConstraints (CS.new true) = .ok cs ∧ cs.cons.length = n.toNat * (511 - b.toNat) ∧
        cs.numInst = n.toNat + 1) ∧
      constraintsPerValue E.fr.modBits b.toNat = 511 - b.toNat ∧
      T.newDomain (n.toNat * constraintsPerValue E.fr.modBits b.toNat + (n.toNat + 1)) = some d ∧
      d.size * b.toNat = 2 ^ 17 := by
  have hcpv : constraintsPerValue E.fr.modBits b.toNat = 511 - b.toNat := by
    rw [hE.modBits]
    rcases hb with rfl | rfl | rfl <;> rfl
  have hcount : ∃ n, chunksCount E.fr b = .ok n ∧ n.toNat * b.toNat = 256 ∧
      ∃ m, 2 ^ m * b.toNat = 2 ^ 17 ∧ n.toNat * (511 - b.toNat) + (n.toNat + 1) ≤ 2 ^ m ∧
        2 ^ m < 2 * (n.toNat * (511 - b.toNat) + (n.toNat + 1)) := by
    rw [hE.field]
    rcases hb with rfl | rfl | rfl
    · exact ⟨64, chunksCount_bls4, rfl, 15, by decide, by decide, by decide⟩
    · exact ⟨32, chunksCount_bls8, rfl, 14, by decide, by decide, by decide⟩
    · exact ⟨16, chunksCount_bls16, rfl, 13, by decide, by decide, by decide⟩
  obtain ⟨n, hn, hnb, m, hm, hle, hlt⟩ := hcount
  have h17 : 2 ^ m ≤ 2 ^ 32 := by
    have : 1 ≤ b.toNat := by rcases hb with rfl | rfl | rfl <;> decide
    calc 2 ^ m ≤ 2 ^ m * b.toNat := Nat.le_mul_of_pos_right _ this
      _ = 2 ^ 17 := hm
      _ ≤ 2 ^ 32 := by norm_num
  obtain ⟨d, k, hd, hk, h1, h2⟩ := hE.radix2 (n.toNat * (511 - b.toNat) + (n.toNat + 1)) (by omega) (by omega)
  obtain ⟨c0, cs, hc0, hcs, hI, hC, -⟩ := setup_shape hn (hE.bits hb)
  refine ⟨n, d, hn, hnb, ?_, ⟨c0, cs, hc0, hcs, by rw [hC, hcpv], hI⟩, hcpv, by rw [hcpv]; exact hd, ?_⟩
  · intro x
    obtain ⟨ds, e1, e2, -⟩ := C02_decompose_positional E.fr x b hb
    refine ⟨ds, e1, ?_⟩
    rw [e2]
    exact (decomp_len_eq_iff E.fr b n hb hn).mpr (hE.aligned hb)
  · rw [OnBls.pow2 hk h1 h2 hlt hle, hm]

namespace Spec.OnBls

/-- what the theorems about BLS12-381 need of the parameters -/
theorem small {T : FftCfg E.Fr} (hE : OnBls E T) {b : UInt8} (hb : Supported b) :
    ∃ n d, chunksCount E.fr b = .ok n ∧
      T.newDomain (n.toNat * constraintsPerValue E.fr.modBits b.toNat + (n.toNat + 1)) = some d ∧
      n.toNat * b.toNat = 256 ∧ n.toNat ≤ 64 ∧ d.size ≤ 2 ^ 15 ∧ 2 ^ 13 ≤ d.size := by
  obtain ⟨n, d, hn, hnb, -, -, -, hd, hs⟩ := C95_bls_parameters T hE b hb
  refine ⟨n, d, hn, hd, hnb, ?_⟩
  rcases hb with rfl | rfl | rfl
  · have h4 : (4 : UInt8).toNat = 4 := rfl
    rw [h4] at hnb hs
    omega
  · have h4 : (8 : UInt8).toNat = 8 := rfl
    rw [h4] at hnb hs
    omega
  · have h4 : (16 : UInt8).toNat = 16 := rfl
    rw [h4] at hnb hs
    omega

theorem scale {c w p K N : ℕ} (h : w * c ≤ p) (hK : 1 ≤ K) (hN : N ≤ c * p ^ (K - 1)) : w * N ≤ p ^ K := by
  obtain ⟨k, rfl⟩ : ∃ k, K = k + 1 := ⟨K - 1, by omega⟩
  calc w * N ≤ w * (c * p ^ k) := Nat.mul_le_mul_left _ hN
    _ = (w * c) * p ^ k := by ring
    _ ≤ p * p ^ k := Nat.mul_le_mul_right _ h
    _ = p ^ (k + 1) := by ring

end Spec.OnBls

/-- **C95** on BLS12-381 a setup fails, or some message is not delivered with its keys, on at most one in `2^239` of
the choices of its draws. -/
theorem C95_bls_correctness (T : FftCfg E.Fr) (hE : OnBls E T) (b n : UInt8) (hb : Supported b)
    (hn : chunksCount E.fr b = .ok n) (gens : EncryptionGens E) (hG : gens.G ≠ 0) (hH : gens.H ≠ 0) (F : ℕ)
    (hF : 0 < F) (K : ℕ) (hK : 7 + 3 * n.toNat ≤ K) :
    2 ^ 239 * {x : Fin K → E.Fr | ¬ Delivers T F b gens (tapeOf x)}.ncard ≤ E.fr.p ^ K := by
  obtain ⟨n', d, hn', hd, -, hn64, hs, -⟩ := hE.small hb
  obtain rfl : n' = n := by rw [hn] at hn'; cases hn'; rfl
  have hp : E.fr.p = blsR := hE.prime
  have h15 : 2 ^ 239 * (2 ^ 15 + 2 * 64 + 3) ≤ blsR := by decide +kernel
  refine OnBls.scale ?_ (by omega) (C95_correctness_error T b n' hb hn (hE.bits hb) (hE.aligned hb) gens hG hH d hd ?_ F hF K hK)
  · refine le_trans (Nat.mul_le_mul_left _ ?_) (h15.trans (le_of_eq hp.symm))
    omega
  · exact lt_of_le_of_lt hs (lt_of_lt_of_le (by decide +kernel : 2 ^ 15 < blsR) (le_of_eq hp.symm))

/-- **C95** on BLS12-381 an algebraic prover that asks `Q` questions about the published elements gets something
accepted that is not an encryption of chunks below `2^b` on at most `Q + 1` in `2^237` of the choices of the draws. -/
theorem C95_bls_soundness (T : FftCfg E.Fr) (hE : OnBls E T) (b n : UInt8) (hb : Supported b)
    (hn : chunksCount E.fr b = .ok n) (gens : EncryptionGens E) (hG : gens.G ≠ 0) (hH : gens.H ≠ 0) (F : ℕ)
    (hF : 0 < F) (A : Prover E (Strategy E.Fr)) :
    2 ^ 237 * {g : Fin (7 + 3 * n.toNat) → E.Fr | OutcomeF F T b gens A (tapeOf g) (fun pk ek ct proof =>
      Accepted gens pk ek ct proof ∧ ¬ ∃ (m : ℕ → ℕ) (r : E.Fr),
        (∀ i < n.toNat, m i < 2 ^ b.toNat ∧ m i < E.fr.p) ∧ Encrypts pk ek m r ct)}.ncard ≤
      (A.questions + 1) * E.fr.p ^ (7 + 3 * n.toNat) := by
  obtain ⟨n', d, hn', hd, -, hn64, hs, -⟩ := hE.small hb
  obtain rfl : n' = n := by rw [hn] at hn'; cases hn'; rfl
  have hp : E.fr.p = blsR := hE.prime
  have h := C92_adaptive_soundness T b n' hn (hE.bits hb) gens hG hH d hd F hF A
  have h17 : 2 ^ 237 * (4 * 2 ^ 15 + 5) ≤ blsR := by decide +kernel
  have hc : 2 ^ 237 * (4 * d.size + 5) ≤ E.fr.p :=
    le_trans (Nat.mul_le_mul_left _ (by omega)) (h17.trans (le_of_eq hp.symm))
  refine (Nat.mul_le_mul_left _ h).trans ?_
  have e : (A.questions + 1) * (3 * d.size + 5) + d.size ≤ (A.questions + 1) * (4 * d.size + 5) := by
    have : d.size ≤ (A.questions + 1) * d.size := Nat.le_mul_of_pos_left _ (by omega)
    calc _ ≤ (A.questions + 1) * (3 * d.size + 5) + (A.questions + 1) * d.size := Nat.add_le_add_left this _
      _ = _ := by ring
  calc 2 ^ 237 * (((A.questions + 1) * (3 * d.size + 5) + d.size) * E.fr.p ^ (6 + 3 * n'.toNat))
      ≤ 2 ^ 237 * (((A.questions + 1) * (4 * d.size + 5)) * E.fr.p ^ (6 + 3 * n'.toNat)) :=
        Nat.mul_le_mul_left _ (Nat.mul_le_mul_right _ e)
    _ = (A.questions + 1) * ((2 ^ 237 * (4 * d.size + 5)) * E.fr.p ^ (6 + 3 * n'.toNat)) := by ring
    _ ≤ (A.questions + 1) * (E.fr.p * E.fr.p ^ (6 + 3 * n'.toNat)) :=
        Nat.mul_le_mul_left _ (Nat.mul_le_mul_right _ hc)
    _ = _ := by rw [show 7 + 3 * n'.toNat = (6 + 3 * n'.toNat) + 1 by omega, pow_succ']

/-- **C95** on BLS12-381 an adversary that asks at most `Q` questions and has at most `D` ciphertexts opened, guesses
"right" in the one chosen-ciphertext game at most `Q + D + 1` in `2^238` of the draws more often than in the other. -/
theorem C95_bls_secrecy (T : FftCfg E.Fr) (hE : OnBls E T) (b n : UInt8) (hb : Supported b)
    (hn : chunksCount E.fr b = .ok n) (gens : EncryptionGens E) (hG : gens.G ≠ 0) (hH : gens.H ≠ 0) (F : ℕ)
    (hF : 0 < F) (chk : Bool) (A : CcaAdversary E) (Q D C : ℕ) (hA : A.AtMost Q D C) (K : ℕ)
    (hK : 7 + 3 * n.toNat + 3 * C ≤ K) (side : Bool) :
    2 ^ 238 * rightGuessesCcaF F ⟨true, true⟩ K side T chk b gens A ≤
      2 ^ 238 * rightGuessesCcaF F ⟨true, true⟩ K (!side) T chk b gens A + (Q + D + 1) * E.fr.p ^ K := by
  obtain ⟨n', d, hn', hd, -, hn64, hs, hs'⟩ := hE.small hb
  obtain rfl : n' = n := by rw [hn] at hn'; cases hn'; rfl
  have hp : E.fr.p = blsR := hE.prime
  have h := C92_chosen_ciphertexts T b n' hb hn (hE.bits hb) (hE.aligned hb) gens hG hH d hd F hF chk A Q D C hA K hK side
  have h17 : 2 ^ 238 * (3 * 2 ^ 15 + 6) ≤ blsR := by decide +kernel
  have hc : 2 ^ 238 * (3 * d.size + 6) ≤ E.fr.p :=
    le_trans (Nat.mul_le_mul_left _ (by omega)) (h17.trans (le_of_eq hp.symm))
  refine (Nat.mul_le_mul_left _ h).trans ?_
  rw [Nat.mul_add]
  refine Nat.add_le_add_left ?_ _
  have e : (Q + D) * (3 * d.size + 6) + (2 * n'.toNat + 1) + 2 * d.size ≤ (Q + D + 1) * (3 * d.size + 6) := by
    have h13 : (2 : ℕ) ^ 13 = 8192 := by norm_num
    rw [Nat.add_mul (Q + D) 1]
    omega
  obtain ⟨k, rfl⟩ : ∃ k, K = k + 1 := ⟨K - 1, by omega⟩
  rw [Nat.add_sub_cancel]
  calc 2 ^ 238 * (((Q + D) * (3 * d.size + 6) + (2 * n'.toNat + 1) + 2 * d.size) * E.fr.p ^ k)
      ≤ 2 ^ 238 * (((Q + D + 1) * (3 * d.size + 6)) * E.fr.p ^ k) :=
        Nat.mul_le_mul_left _ (Nat.mul_le_mul_right _ e)
    _ = (Q + D + 1) * ((2 ^ 238 * (3 * d.size + 6)) * E.fr.p ^ k) := by ring
    _ ≤ (Q + D + 1) * (E.fr.p * E.fr.p ^ k) := Nat.mul_le_mul_left _ (Nat.mul_le_mul_right _ hc)
    _ = _ := by rw [pow_succ']

end

/-- The hypotheses are met by the model's own BLS12-381 domains (with the field itself as groups). -/
theorem C95_instance : OnBls (Engine.scalar blsFr) blsFft where
  field := rfl
  radix2 := by
    intro N h1 h2
    have hc : Nat.clog 2 N ≤ 32 := Nat.clog_le_of_le_pow h2
    refine ⟨blsDomain (Nat.clog 2 N) hc, Nat.clog 2 N, ?_, rfl, Nat.le_pow_clog (by norm_num) N, ?_⟩
    · exact dif_pos hc
    · show 2 ^ Nat.clog 2 N < 2 * N
      rcases Nat.eq_or_lt_of_le h1 with h | h
      · rw [← h]; norm_num
      · have := Nat.pow_pred_clog_lt_self (b := 2) (by norm_num) h
        have hpos : 0 < Nat.clog 2 N := Nat.clog_pos (by norm_num) h
        obtain ⟨k, hk⟩ : ∃ k, Nat.clog 2 N = k + 1 := ⟨_, (Nat.succ_pred_eq_of_pos hpos).symm⟩
        rw [hk] at this ⊢
        rw [pow_succ]
        simp only [Nat.pred_succ] at this
        omega

/-- With 16-bit chunks, at most one in `2^239` of the choices of the 55 draws of a setup does not deliver. -/
example : 2 ^ 239 * {x : Fin 55 → ZMod blsFr.p | ¬ Delivers (E := Engine.scalar blsFr) blsFft 1 16
    ⟨(1 : ZMod blsFr.p), (2 : ZMod blsFr.p)⟩ (tapeOf (E := Engine.scalar blsFr) x)}.ncard ≤ blsFr.p ^ 55 :=
  C95_bls_correctness (E := Engine.scalar blsFr) blsFft C95_instance 16 16 (.inr (.inr rfl)) chunksCount_bls16 _
    (by decide +kernel) (by decide +kernel) 1 (by omega) 55 (by decide)

end Verif
