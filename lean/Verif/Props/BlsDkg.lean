/-
Property C96: how often the SRS is good for the workflow of verified aggregation.
-/
import Verif.Props.Bls
import Verif.Props.Verified

namespace Verif
open Spec Agm

section
variable {E : Engine}

/-- **C96** the correctness error of verified aggregation: of the `p^K` choices of the draws of `generate_srs`, those
on which the SRS is not generated, or on which the workflow fails for *some* parties, destination, encryptors, chunks,
order of the parties or randomness of anybody, are at most `(size + n + 2) p^(K-1)`. -/
theorem C96_aggregation_error (T : FftCfg E.Fr) (b n : UInt8) (hb : b = 4 ∨ b = 8) (hn : chunksCount E.fr b = .ok n)
    (hbm : b.toNat ≤ E.fr.modBits) (gens : EncryptionGens E) (hG : gens.G ≠ 0) (d : EvalDomain E.Fr)
    (hd : T.newDomain (n.toNat * constraintsPerValue E.fr.modBits b.toNat + (n.toNat + 1)) = some d)
    (hp : d.size < E.fr.p) (hp' : 65535 < E.fr.p) (F : ℕ) (hF : 0 < F) (K : ℕ) (hK : 5 ≤ K) :
    {x : Fin K → E.Fr | ¬ Aggregates T F b n gens (tapeOf x)}.ncard ≤ (d.size + n.toNat + 2) * E.fr.p ^ (K - 1) := by
  classical
  have hb0 : b ≠ 0 := by rcases hb with rfl | rfl <;> decide
  obtain ⟨c0, N, hc0, hN, -, hcases⟩ := C49_srs_cases T (tape E) F (fun _ => (0 : E.Fr)) b hb0 hbm gens
  have hc0' : BitsizeCheckCircuit.new (K := E.fr) b (some n) none true = .ok c0 := by
    rw [← hc0]
    unfold BitsizeCheckCircuit.new
    rw [hn]
  have hnum : numValues c0 = n.toNat := by
    unfold BitsizeCheckCircuit.new at hc0
    rw [hn] at hc0
    cases hc0
    rfl
  let rows := constraintsPerValue E.fr.modBits b.toNat
  let B0 : Finset (Fin K → E.Fr) := Finset.univ.filter fun g =>
    d.vanishing (tapeOf g 4) * (tapeOf g 2 * tapeOf g 3) = 0
  let B1 : Finset (Fin K → E.Fr) := Finset.univ.filter fun g =>
    tapeOf g 1 ∈ badBetas n.toNat rows E.fr.modBits d.omega (tapeOf g 4)
  have h0 : B0.card ≤ (d.size + 2) * E.fr.p ^ (K - 1) := Nm.bad_count d hp K hK B0 fun g hg => (Finset.mem_filter.mp hg).2
  have h1 : B1.card ≤ n.toNat * E.fr.p ^ (K - 1) := by
    refine Cca.count_fiber (⟨1, by omega⟩ : Fin K) n.toNat B1
      (fun g => badBetas n.toNat rows E.fr.modBits d.omega (g ⟨4, by omega⟩)) (fun g => ?_) (fun g hg => ?_)
    · exact (Finset.card_image_le).trans (by simp)
    · have := (Finset.mem_filter.mp hg).2
      unfold tapeOf at this
      rw [dif_pos (by omega), dif_pos (by omega)] at this
      rw [Function.update_of_ne (by simp)]
      exact this
  have hsub : {x : Fin K → E.Fr | ¬ Aggregates T F b n gens (tapeOf x)} ⊆
      (((B0 ∪ B1 : Finset _)) : Set (Fin K → E.Fr)) := by
    intro x hx
    by_contra hmem
    rw [Finset.mem_coe, Finset.mem_union, not_or] at hmem
    have hne : d.vanishing (tapeOf x 4) * (tapeOf x 2 * tapeOf x 3) ≠ 0 := fun h =>
      hmem.1 (Finset.mem_filter.mpr ⟨Finset.mem_univ _, h⟩)
    have hv := left_ne_zero_of_mul hne
    have h2 := left_ne_zero_of_mul (right_ne_zero_of_mul hne)
    have h3 := right_ne_zero_of_mul (right_ne_zero_of_mul hne)
    obtain ⟨c0', N', hc0'', hN', -, hc⟩ := C49_srs_cases T (tape E) F (tapeOf x) b hb0 hbm gens
    rw [hc0] at hc0''
    cases hc0''
    have hdN : T.newDomain N' = some d := by rw [hN', hnum]; exact hd
    obtain ⟨pk, hsrs⟩ := (hc d hdN 0 hF (by rw [draw_tape]; exact hv) (by omega)).2 (by rw [draw_tape]; exact h2)
      (by rw [draw_tape]; exact h3)
    have ht : draw (tape E) (tapeOf x) (4 + 0) ^ d.size ≠ 1 := by
      rw [draw_tape]
      exact fun hc => hv (sub_eq_zero.mpr hc)
    have hz := (C55_zero_generators T (tape E) F (tapeOf x) _ b n hn c0 hc0 gens pk hsrs rows rfl d hd 0 ht
      (by omega)).1
    obtain ⟨-, -, -, -, hsetup, hlen, -⟩ := (C49_setup_consistent T (tape E) F (tapeOf x) b n hn gens c0 hc0).1 pk _ hsrs
    have hg : getGsForEncryption pk.pk.vk = .ok pk.pk.vk.gamma_abc_g1.tail := by
      unfold getGsForEncryption
      cases h : pk.pk.vk.gamma_abc_g1 with
      | nil => rw [h] at hlen; simp at hlen
      | cons a l => rfl
    have hgi : ∀ g ∈ pk.pk.vk.gamma_abc_g1.tail, g ≠ 0 := fun y hy h => by
      rcases hz.mp ⟨y, hy, h⟩ with h | h
      · exact hG h.2
      · rw [draw_tape, draw_tape] at h
        exact hmem.2 (Finset.mem_filter.mpr ⟨Finset.mem_univ _, h⟩)
    refine hx ⟨c0, pk, _, _, hc0', hsrs, hg, fun parties hpar => ?_⟩
    obtain ⟨sks, ek, hdkg, hsl, -⟩ := C09_dkg_equals_keygen parties hpar b n gens pk.pk.vk.gamma_abc_g1.tail
      pk.pk.delta_g1 pk.gamma_g1 hn (by rw [List.length_tail, hlen]; omega)
    refine ⟨sks, ek, hdkg, hsl, fun Rd std => ⟨_, _, _, rfl, fun encs hne hcount hencs rp hrp chk => ?_⟩⟩
    exact C56_verified_aggregation T (tape E) F (tapeOf x) _ b hb n hn c0 hc0' gens pk hsrs _ hg hgi hp' parties sks ek
      hdkg Rd std _ _ _ rfl encs hne hcount (fun e he => (hencs e he).1) (fun e he => (hencs e he).2) rp hrp chk
  refine (Set.ncard_le_ncard hsub (Set.toFinite _)).trans ?_
  rw [Set.ncard_coe_finset]
  refine (Finset.card_union_le _ _).trans ((Nat.add_le_add h0 h1).trans (le_of_eq ?_))
  ring

/-- **C96** on BLS12-381, with 4- or 8-bit chunks, the SRS is not generated or the workflow can fail for anybody on at
most one in `2^239` of the choices of the draws of `generate_srs`. -/
theorem C96_bls_aggregation (T : FftCfg E.Fr) (hE : OnBls E T) (b n : UInt8) (hb : b = 4 ∨ b = 8)
    (hn : chunksCount E.fr b = .ok n) (gens : EncryptionGens E) (hG : gens.G ≠ 0) (F : ℕ) (hF : 0 < F) (K : ℕ)
    (hK : 5 ≤ K) :
    2 ^ 239 * {x : Fin K → E.Fr | ¬ Aggregates T F b n gens (tapeOf x)}.ncard ≤ E.fr.p ^ K := by
  have hb' : Supported b := by rcases hb with h | h; exacts [.inl h, .inr (.inl h)]
  obtain ⟨n', d, hn', hd, -, hn64, hs, -⟩ := hE.small hb'
  obtain rfl : n' = n := by rw [hn] at hn'; cases hn'; rfl
  have hp : E.fr.p = blsR := hE.prime
  have h15 : 2 ^ 239 * (2 ^ 15 + 64 + 2) ≤ blsR := by decide +kernel
  refine OnBls.scale ?_ (by omega) (C96_aggregation_error T b n' hb hn (hE.bits hb') gens hG d hd ?_ ?_ F hF K hK)
  · refine le_trans (Nat.mul_le_mul_left _ ?_) (h15.trans (le_of_eq hp.symm))
    omega
  · exact lt_of_le_of_lt hs (lt_of_lt_of_le (by decide +kernel : 2 ^ 15 < blsR) (le_of_eq hp.symm))
  · exact lt_of_lt_of_le (by decide +kernel : 65535 < blsR) (le_of_eq hp.symm)

end

/-- The hypotheses are met on BLS12-381: with 8-bit chunks and the five draws up to the first candidate. -/
example : 2 ^ 239 * {x : Fin 5 → ZMod blsFr.p | ¬ Aggregates (E := Engine.scalar blsFr) blsFft 1 8 32
    ⟨(1 : ZMod blsFr.p), (2 : ZMod blsFr.p)⟩ (tapeOf (E := Engine.scalar blsFr) x)}.ncard ≤ blsFr.p ^ 5 :=
  C96_bls_aggregation (E := Engine.scalar blsFr) blsFft C95_instance 8 32 (.inr rfl) chunksCount_bls8 _
    (by decide +kernel) 1 (by omega) 5 (by decide)

end Verif
