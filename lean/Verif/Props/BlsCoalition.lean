/-
Property C97: the guarantees for distributed keys in numbers on BLS12-381.
-/
import Verif.Props.Bls
import Verif.Props.ReGameNeeded
import Verif.Props.MalleableDkg
import Verif.Props.AdaptiveRange
import Verif.Props.SecrecyDkg

namespace Verif
open Spec Agm

section
variable {E : Engine}

namespace Spec.OnBls

theorem scaleMany {c w p k q N : ℕ} (h : w * c ≤ p) (hN : N ≤ q * c * p ^ k) : w * N ≤ q * p ^ (k + 1) :=
  calc w * N ≤ w * (q * c * p ^ k) := Nat.mul_le_mul_left _ hN
    _ = q * ((w * c) * p ^ k) := by ring
    _ ≤ q * (p * p ^ k) := Nat.mul_le_mul_left _ (Nat.mul_le_mul_right _ h)
    _ = q * p ^ (k + 1) := by rw [pow_succ']

theorem bound {T : FftCfg E.Fr} (hE : OnBls E T) {s : ℕ} (hs : s ≤ 2 ^ 15) : 2 ^ 238 * (3 * s + 6) ≤ E.fr.p := by
  have h17 : 2 ^ 238 * (3 * 2 ^ 15 + 6) ≤ blsR := by decide +kernel
  have hp : E.fr.p = blsR := hE.prime
  exact le_trans (Nat.mul_le_mul_left _ (by omega)) (h17.trans (le_of_eq hp.symm))

end Spec.OnBls

variable (T : FftCfg E.Fr) (hE : OnBls E T) (b n : UInt8) (hb : Supported b) (hn : chunksCount E.fr b = .ok n)
  (gens : EncryptionGens E) (hG : gens.G ≠ 0) (hH : gens.H ≠ 0) (others1 others2 : List (Party E))

include hE hb hn hG hH

/-- **C97** (secrecy) On BLS12-381, whatever the SRS (its trapdoors may be known) and the other parties: a coalition of all
parties but one that asks `Q` questions guesses "right" in the one game at most `Q` in `2^252` of the honest draws more
often than in the other. -/
theorem C97_bls_coalition_secrecy (R : RngCore E) (fuel : ℕ) (st st' : R.σ) (c0 : BitsizeCheckCircuit E.fr)
    (pk : ProvingKey E) (hc0 : BitsizeCheckCircuit.new (K := E.fr) b none none true = .ok c0)
    (hsrs : generateSrs T R fuel st c0.generateConstraints gens = .ok (pk, st')) (chk : Bool)
    (pub1 : List E.G1) (pub2 : List E.G2) (A : Adversary E E.Fr) (K : ℕ)
    (hK : 2 * n.toNat + 1 + 3 * A.challenges ≤ K) (side : Bool) :
    2 ^ 252 * rightGuessesDkgWithProof K side T chk b gens pk others1 others2 pub1 pub2 A ≤
      2 ^ 252 * rightGuessesDkgWithProof K (!side) T chk b gens pk others1 others2 pub1 pub2 A +
        A.questions * E.fr.p ^ K := by
  have h := C67_coalition_with_proofs T R fuel st st' b n hb hn (hE.aligned hb) c0 gens pk hc0 hsrs hG hH chk others1
    others2 pub1 pub2 A K hK side
  have hp : E.fr.p = blsR := hE.prime
  have h5 : 2 ^ 252 * 5 ≤ E.fr.p := (by decide +kernel : 2 ^ 252 * 5 ≤ blsR).trans (le_of_eq hp.symm)
  refine (Nat.mul_le_mul_left _ h).trans ?_
  rw [Nat.mul_add]
  refine Nat.add_le_add_left ?_ _
  obtain ⟨k, rfl⟩ : ∃ k, K = k + 1 := ⟨K - 1, by omega⟩
  rw [Nat.add_sub_cancel]
  exact OnBls.scaleMany h5 (le_of_eq (by ring))

/-- **C97** (knowledge soundness) On BLS12-381 an adaptive coalition of all parties but one that asks `Q` questions gets
something accepted that is not an encryption of chunks below `2^b` under the joint key on at most `Q + 1` in `2^238` of the
choices of the draws of `generate_srs` and the honest party. -/
theorem C97_bls_coalition_soundness (A : Prover E (Strategy E.Fr)) :
    2 ^ 238 * {g : Fin (6 + 2 * n.toNat) → E.Fr | DkgOutcome T b gens others1 others2 A (tapeOf g)
      (fun pk ek ct proof => Accepted gens pk ek ct proof ∧ ¬ ∃ (m : ℕ → ℕ) (r : E.Fr),
        (∀ i < n.toNat, m i < 2 ^ b.toNat ∧ m i < E.fr.p) ∧ Encrypts pk ek m r ct)}.ncard ≤
      (A.questions + 1) * E.fr.p ^ (6 + 2 * n.toNat) := by
  obtain ⟨n', d, hn', hd, -, hn64, hs, hs'⟩ := hE.small hb
  obtain rfl : n' = n := by rw [hn] at hn'; cases hn'; rfl
  have h := C75_adaptive_coalition_soundness T b n' hn (hE.bits hb) gens hG hH d hd others1 others2 A
  have hc := hE.bound hs
  rw [show 6 + 2 * n'.toNat = (5 + 2 * n'.toNat) + 1 by omega]
  rw [show 6 + 2 * n'.toNat = (5 + 2 * n'.toNat) + 1 by omega] at h
  refine OnBls.scaleMany (c := 3 * d.size + 6) hc (h.trans ?_)
  exact Nat.mul_le_mul_right _ (Nat.mul_le_mul_left _ (by omega))

/-- **C97** (range proof) On BLS12-381 a prover that knows the secrets of all parties and asks `Q` questions gets a range
proof accepted for the SAVER ciphertext of field elements that are not all below `2^b` on at most `Q + 1` in `2^238` of the
choices of the draws of `generate_srs`. -/
theorem C97_bls_range (parties : List (Party E)) (hne : parties ≠ []) (A : Prover E (RangeChoice E.Fr)) :
    2 ^ 238 * {g : Fin 5 → E.Fr | DkgRangeOutcome T b gens parties A (tapeOf g)
      (fun m => ∃ i < n.toNat, 2 ^ b.toNat ≤ (m i).val)}.ncard ≤ (A.questions + 1) * E.fr.p ^ 5 := by
  obtain ⟨n', d, hn', hd, -, hn64, hs, hs'⟩ := hE.small hb
  obtain rfl : n' = n := by rw [hn] at hn'; cases hn'; rfl
  have h := C76_adaptive_range_all_parties T b n' hn (hE.bits hb) gens hG hH d hd parties hne A
  have hc := hE.bound hs
  refine OnBls.scaleMany (c := 3 * d.size + 6) hc (h.trans ?_)
  exact Nat.mul_le_mul_right _ (Nat.mul_le_mul_left _ (by omega))

/-- **C97** (non-malleability) On BLS12-381, for every adaptive coalition of all parties but one that sees the ciphertexts and
proofs of `q` honest users and asks `Q` questions: there are chunks and a scalar, or a user and a scalar, such that whatever
the honest messages are, it gets something else accepted than the encryption of these chunks, or than that user's
ciphertext re-randomised by this scalar, on at most `Q + 1` in `2^238` of the choices of the draws. -/
theorem C97_bls_non_malleable (chk : Bool) (q : ℕ) (A : Prover E (Strategy E.Fr)) :
    (∃ (m : ℕ → ℕ) (r : E.Fr), (∀ i < n.toNat, m i < 2 ^ b.toNat ∧ m i < E.fr.p) ∧
      ∀ (ms : List E.Fr), ms.length = q →
        2 ^ 238 * {g : Fin (6 + 2 * n.toNat + 3 * q) → E.Fr | NmDkgOutcome T chk b gens others1 others2 ms A (tapeOf g)
          (fun pk ek _ ct proof => Accepted gens pk ek ct proof ∧ ¬ Encrypts pk ek m r ct)}.ncard ≤
        (A.questions + 1) * E.fr.p ^ (6 + 2 * n.toNat + 3 * q)) ∨
    ∃ (j : ℕ) (u : E.Fr), j < q ∧
      ∀ (ms : List E.Fr), ms.length = q →
        2 ^ 238 * {g : Fin (6 + 2 * n.toNat + 3 * q) → E.Fr | NmDkgOutcome T chk b gens others1 others2 ms A (tapeOf g)
          (fun pk ek l ct proof => Accepted gens pk ek ct proof ∧ ¬ Rerandomises ek l j u ct)}.ncard ≤
        (A.questions + 1) * E.fr.p ^ (6 + 2 * n.toNat + 3 * q) := by
  obtain ⟨n', d, hn', hd, -, hn64, hs, hs'⟩ := hE.small hb
  obtain rfl : n' = n := by rw [hn] at hn'; cases hn'; rfl
  have hc := hE.bound hs
  have e : 6 + 2 * n'.toNat + 3 * q = (5 + 2 * n'.toNat + 3 * q) + 1 := by omega
  rcases C90_adaptive_bound T b n' hb hn (hE.bits hb) (hE.aligned hb) gens hG hH d hd others1 others2 chk q A with
    ⟨m, r, hm, h⟩ | ⟨j, u, hj, h⟩
  · refine .inl ⟨m, r, hm, fun ms hms => ?_⟩
    exact (OnBls.scaleMany hc (h ms hms)).trans (le_of_eq (by rw [e]))
  · refine .inr ⟨j, u, hj, fun ms hms => ?_⟩
    exact (OnBls.scaleMany hc (h ms hms)).trans (le_of_eq (by rw [e]))

/-- **C97** (helping to re-encrypt) On BLS12-381 an adversary that controls all parties but one, asks at most `Q` questions and
obtains from the honest party its re-encryption shares of at most `D` verified ciphertexts, guesses "right" in the one game
at most `Q + D + 1` in `2^238` of the draws more often than in the other. -/
theorem C97_bls_reencryption (chk : Bool) (R : RngCore E) (st : R.σ) (A : ReAdversary E) (Q D C : ℕ)
    (hA : A.AtMost Q D C) (side : Bool) :
    2 ^ 238 * rightGuessesRe ⟨true, true⟩ (6 + 2 * n.toNat + 3 * C) side T chk b gens others1 others2 R st A ≤
      2 ^ 238 * rightGuessesRe ⟨true, true⟩ (6 + 2 * n.toNat + 3 * C) (!side) T chk b gens others1 others2 R st A +
      (Q + D + 1) * E.fr.p ^ (6 + 2 * n.toNat + 3 * C) := by
  obtain ⟨n', d, hn', hd, -, hn64, hs, hs'⟩ := hE.small hb
  obtain rfl : n' = n := by rw [hn] at hn'; cases hn'; rfl
  have hc := hE.bound hs
  have h := C94_verified_requests T b n' hb hn (hE.bits hb) (hE.aligned hb) gens hG hH d hd others1 others2 chk R st A
    Q D C hA side
  refine (Nat.mul_le_mul_left _ h).trans ?_
  rw [Nat.mul_add]
  refine Nat.add_le_add_left ?_ _
  have e : (Q + D) * (3 * d.size + 6) + (2 * n'.toNat + 1) ≤ (Q + D + 1) * (3 * d.size + 6) := by
    have h13 : (2 : ℕ) ^ 13 = 8192 := by norm_num
    rw [Nat.add_mul (Q + D) 1]
    omega
  refine (OnBls.scaleMany hc (Nat.mul_le_mul_right _ e)).trans (le_of_eq ?_)
  rw [show 6 + 2 * n'.toNat + 3 * C = (5 + 2 * n'.toNat + 3 * C) + 1 by omega]

/-- **C97** The games do not stop by themselves: on BLS12-381 an adversary that always guesses "right" does so on all but one
in `2^239` of the draws, in both games. -/
theorem C97_bls_no_abort (pol : Policy) (side chk : Bool) (R : RngCore E) (st : R.σ) (A : ReAdversary E)
    (hA : A.AlwaysRight) (C : ℕ) :
    2 ^ 239 * E.fr.p ^ (6 + 2 * n.toNat + 3 * C) ≤
      2 ^ 239 * rightGuessesRe pol (6 + 2 * n.toNat + 3 * C) side T chk b gens others1 others2 R st A +
        E.fr.p ^ (6 + 2 * n.toNat + 3 * C) := by
  obtain ⟨n', d, hn', hd, -, hn64, hs, hs'⟩ := hE.small hb
  obtain rfl : n' = n := by rw [hn] at hn'; cases hn'; rfl
  have hp : E.fr.p = blsR := hE.prime
  have hc : 2 ^ 239 * (d.size + 2) ≤ E.fr.p :=
    le_trans (Nat.mul_le_mul_left _ (by omega : d.size + 2 ≤ 2 ^ 15 + 2))
      ((by decide +kernel : 2 ^ 239 * (2 ^ 15 + 2) ≤ blsR).trans (le_of_eq hp.symm))
  have h := C94_no_abort T b n' hb hn (hE.bits hb) (hE.aligned hb) gens hG hH d hd others1 others2
    (lt_of_le_of_lt hs (lt_of_lt_of_le (by decide +kernel : 2 ^ 15 < blsR) (le_of_eq hp.symm))) pol side chk R st A hA C
  refine (Nat.mul_le_mul_left _ h).trans ?_
  rw [Nat.mul_add]
  refine Nat.add_le_add_left ?_ _
  refine (OnBls.scaleMany (q := 1) hc (le_of_eq (by rw [one_mul]))).trans (le_of_eq ?_)
  rw [one_mul, show 6 + 2 * n'.toNat + 3 * C = (5 + 2 * n'.toNat + 3 * C) + 1 by omega]

end

/-- The hypotheses are met: 8-bit chunks on the model's own BLS12-381 domains, a coalition of two parties. -/
example (o1 o2 : Party (Engine.scalar blsFr)) (A : Prover (Engine.scalar blsFr) (Strategy (Engine.scalar blsFr).Fr)) :
    2 ^ 238 * {g : Fin 70 → ZMod blsFr.p | DkgOutcome (E := Engine.scalar blsFr) blsFft 8
      ⟨(1 : ZMod blsFr.p), (2 : ZMod blsFr.p)⟩ [o1] [o2] A (tapeOf (E := Engine.scalar blsFr) g)
      (fun pk ek ct proof => Accepted ⟨(1 : ZMod blsFr.p), (2 : ZMod blsFr.p)⟩ pk ek ct proof ∧
        ¬ ∃ (m : ℕ → ℕ) (r : ZMod blsFr.p), (∀ i < 32, m i < 2 ^ 8 ∧ m i < blsFr.p) ∧
          Encrypts (E := Engine.scalar blsFr) pk ek m r ct)}.ncard ≤ (A.questions + 1) * blsFr.p ^ 70 :=
  C97_bls_coalition_soundness (E := Engine.scalar blsFr) blsFft C95_instance 8 32 (.inr (.inl rfl)) chunksCount_bls8 _
    (by decide +kernel) (by decide +kernel) [o1] [o2] A

end Verif
