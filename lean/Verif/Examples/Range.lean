/-
Concrete cases of the hypotheses of C63 and C72: honest provers of the range pass on almost all draws of the setup.
-/
import Verif.Examples.Games
import Verif.Props.SoundDkg
import Verif.Props.Bls
namespace Verif
namespace Ex
open Spec Agm SDkg Sec
noncomputable section

/-- of five draws the bad ones are few -/
theorem few5 {E : Engine} (d : EvalDomain E.Fr) (hbig : 4 * d.size + 9 ≤ E.fr.p) (P : (Fin 5 → E.Fr) → Prop)
    (h : ∀ g, d.vanishing (tapeOf g 4) * (tapeOf g 2 * tapeOf g 3) ≠ 0 → P g) :
    (3 * d.size + 5) * E.fr.p ^ 4 < {g | P g}.ncard := by
  classical
  let B : Finset (Fin 5 → E.Fr) := Finset.univ.filter fun g => d.vanishing (tapeOf g 4) * (tapeOf g 2 * tapeOf g 3) = 0
  have h0 : B.card ≤ (d.size + 2) * E.fr.p ^ (5 - 1) :=
    Nm.bad_count d (by omega) 5 (by omega) B fun g hg => (Finset.mem_filter.mp hg).2
  let A : Finset (Fin 5 → E.Fr) := Finset.univ.filter P
  have hA : {g | P g}.ncard = A.card := by
    rw [Set.ncard_eq_toFinset_card']
    congr 1
    ext g
    simp [A]
  have hcov : (Finset.univ : Finset (Fin 5 → E.Fr)) ⊆ A ∪ B := by
    intro g _
    by_cases hg : d.vanishing (tapeOf g 4) * (tapeOf g 2 * tapeOf g 3) = 0
    · exact Finset.mem_union_right _ (Finset.mem_filter.mpr ⟨Finset.mem_univ _, hg⟩)
    · exact Finset.mem_union_left _ (Finset.mem_filter.mpr ⟨Finset.mem_univ _, h g hg⟩)
  have hc := (Finset.card_le_card hcov).trans (Finset.card_union_le _ _)
  have hu : (Finset.univ : Finset (Fin 5 → E.Fr)).card = E.fr.p ^ 5 := by
    rw [Finset.card_univ, Fintype.card_fun, Fintype.card_fin]
    exact congrArg (· ^ 5) (ZMod.card _)
  rw [hu] at hc
  rw [hA]
  have h5 : E.fr.p ^ 5 = E.fr.p ^ 4 * E.fr.p := pow_succ _ _
  rw [h5] at hc
  rw [show 5 - 1 = 4 from rfl] at h0
  have hpos : 0 < E.fr.p ^ 4 := Nat.pow_pos (by omega)
  generalize A.card = a at hc ⊢
  generalize B.card = b at hc h0
  generalize E.fr.p ^ 4 = q at hc h0 hpos ⊢
  have h2 := Nat.mul_le_mul_left q hbig
  nlinarith

/-- an honest prover of the range, with any parties: its hypothesis is met by the chunks 1, ..., 8 -/
example : True := by
  obtain ⟨ka, kb, kc, hk⟩ := C72_honest_prover (E := Fix.E) goldFft 8 8 Fix.count8 Fix.bits8 Fix.gens Fix.dom8
    Fix.dom8_count (fun i => i + 1) small_m (show Fix.E.Fr from (5 : Fix.F))
  have := C72_range_error_all_parties (E := Fix.E) goldFft 8 8 Fix.count8 Fix.bits8 Fix.gens hG hH Fix.dom8 Fix.dom8_count
    o (by simp [o]) ka kb kc _ (show Fix.E.Fr from (5 : Fix.F)) (few5 Fix.dom8 big8 _ fun g hg => by
      obtain ⟨c0, cs, hc0, hcs, hI, hC, -⟩ := setup_shape (E := Fix.E) Fix.count8 Fix.bits8
      have h1 := left_ne_zero_of_mul hg
      have h2 := left_ne_zero_of_mul (right_ne_zero_of_mul hg)
      have h3 := right_ne_zero_of_mul (right_ne_zero_of_mul hg)
      have hgs := gs_of_srs cs Fix.dom8 (tapeOf g 4) (tapeOf g 0) (tapeOf g 1) (tapeOf g 2) (tapeOf g 3) Fix.gens.G
        Fix.gens.H (8 : UInt8).toNat hI
      have hkt := dkgTranscript_eq o (by simp [o]) Fix.gens _
        (srsKey cs Fix.dom8 (tapeOf g 4) (tapeOf g 0) (tapeOf g 1) (tapeOf g 2) (tapeOf g 3) Fix.gens.G
          Fix.gens.H).pk.delta_g1
        (srsKey cs Fix.dom8 (tapeOf g 4) (tapeOf g 0) (tapeOf g 1) (tapeOf g 2) (tapeOf g 3) Fix.gens.G
          Fix.gens.H).gamma_g1 Fix.count8
        (show (8 : UInt8).toNat ≤ (tab (8 : UInt8).toNat fun i => (mixAt cs (Fix.dom8.lagrange (tapeOf g 4)) (tapeOf g 0)
          (tapeOf g 1) (.inst (i + 1)) * (tapeOf g 2)⁻¹) • Fix.gens.G).length by simp)
      have hrun := dkg_run goldFft 8 8 Fix.count8 Fix.bits8 c0 hc0 cs hcs Fix.gens Fix.dom8 Fix.dom8_count (tapeOf g) h2 h3 h1 _
        rfl _ hgs _ _ _ _ hkt
      exact ⟨_, _, _, _, hrun, hk _ _ _ _ _ _ _ _ (by simp [o]) hrun⟩)
  trivial

/-- the same with one key holder -/
example (c0 : BitsizeCheckCircuit Fix.E.fr) (hc0 : BitsizeCheckCircuit.new (K := Fix.E.fr) 8 none none true = .ok c0) :
    True := by
  obtain ⟨ka, kb, kc, hk⟩ := C60_honest_prover (E := Fix.E) goldFft 8 8 Fix.count8 Fix.bits8 c0 hc0 Fix.gens Fix.dom8
    Fix.dom8_count (listRng Fix.E) Fix.st (fun _ => (show Fix.E.Fr from (5 : Fix.F))) (fun _ _ => by
      exact (by decide +kernel : (5 : Fix.F).val < 2 ^ 8)) (show Fix.E.Fr from (5 : Fix.F))
  have := C63_range_error (E := Fix.E) goldFft 8 8 Fix.count8 Fix.bits8 c0 hc0 Fix.gens hG hH Fix.dom8 Fix.dom8_count
    (listRng Fix.E) Fix.st ka kb kc _ (show Fix.E.Fr from (5 : Fix.F)) (few5 Fix.dom8 big8 _ fun g hg => by
      have h1 := left_ne_zero_of_mul hg
      have h2 := left_ne_zero_of_mul (right_ne_zero_of_mul hg)
      have h3 := right_ne_zero_of_mul (right_ne_zero_of_mul hg)
      obtain ⟨c0', N', hc0'', hN', -, hc⟩ := C49_srs_cases goldFft (tape Fix.E) 1 (tapeOf g) 8 (by decide) Fix.bits8 Fix.gens
      rw [hc0] at hc0''
      cases hc0''
      have hnum : numValues c0 = (8 : UInt8).toNat := by
        unfold BitsizeCheckCircuit.new at hc0
        rw [show chunksCount Fix.E.fr 8 = .ok 8 from Fix.count8] at hc0
        cases hc0
        rfl
      have hdN : goldFft.newDomain N' = some Fix.dom8 := by rw [hN', hnum]; exact Fix.dom8_count
      obtain ⟨pk, hsrs⟩ := (hc Fix.dom8 hdN 0 (by omega) (by rw [draw_tape]; exact h1) (by omega)).2
        (by rw [draw_tape]; exact h2) (by rw [draw_tape]; exact h3)
      obtain ⟨-, -, -, -, hsetup, hlen, -⟩ :=
        (C49_setup_consistent goldFft (tape Fix.E) 1 (tapeOf g) 8 8 Fix.count8 Fix.gens c0 hc0).1 pk _ hsrs
      have hgt : getGsForEncryption pk.pk.vk = .ok pk.pk.vk.gamma_abc_g1.tail := by
        unfold getGsForEncryption
        cases h : pk.pk.vk.gamma_abc_g1 with
        | nil => rw [h] at hlen; simp at hlen
        | cons a l => rfl
      obtain ⟨sk, ek, dk, st', hkg, -⟩ := (C07_keygen (E := Fix.E) (listRng Fix.E) Fix.st 8 8 Fix.gens pk.pk.vk.gamma_abc_g1.tail
        pk.pk.delta_g1 pk.gamma_g1 Fix.count8).1 (by rw [List.length_tail, hlen]; simp)
      exact ⟨_, _, _, _, _, _, _, hsrs, hgt, hkg, hk _ _ _ _ _ _ _ _ hsrs hgt hkg⟩)
  trivial

end
end Ex
end Verif
