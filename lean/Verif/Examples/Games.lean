/-
Concrete cases meeting the hypotheses of the theorems about strategies, provers and games (C60 - C99) that are not
already applied in an `example` beside them: 8-bit chunks over the Goldilocks field (a domain of 1024 points), and
BLS12-381. The adversaries are arbitrary; where a theorem asks for an adversary of a certain kind, a concrete one is given.
-/
import Verif.Props.DkgTapes
import Verif.Props.MaliciousAggregation
import Verif.Props.Delivery
import Verif.Props.BlsCoalition
import Verif.Props.ReEncOracle
import Verif.Props.ChosenCiphertextNu
import Verif.Props.Candidates
import Verif.Props.Error
import Verif.Props.MalleableError
import Verif.Props.AdaptiveMalleable
import Verif.Props.AdaptiveRange
import Verif.Props.AdaptiveDkg
import Verif.Props.Link
import Verif.Props.BlsDkg

namespace Verif
namespace Ex
open Spec
noncomputable section

theorem hG : Fix.gens.G ≠ 0 := Fix.gens_ne.1
theorem hH : Fix.gens.H ≠ 0 := Fix.gens_ne.2
theorem sup8 : Supported 8 := .inr (.inl rfl)

theorem dom8_lt : Fix.dom8.size < Fix.E.fr.p := by have := Fix.dom8_small; omega

/-- chunks below 256 -/
theorem small_m : ∀ i < (8 : UInt8).toNat, (fun i => i + 1) i < 2 ^ (8 : UInt8).toNat := by
  intro i hi
  rw [Fix.eight] at hi ⊢
  show i + 1 < 2 ^ 8
  omega

/-- an empty list of others on both sides, or one honest party each -/
def o : List (Party Fix.E) := [⟨listRng Fix.E, Fix.st⟩]

/-! ### C60 - C63: strategies -/

example (c0 : BitsizeCheckCircuit Fix.E.fr) (hc0 : BitsizeCheckCircuit.new (K := Fix.E.fr) 8 none none true = .ok c0)
    (r : Fix.E.Fr) := C60_honest_prover (E := Fix.E) goldFft 8 8 Fix.count8 Fix.bits8 c0 hc0 Fix.gens Fix.dom8 Fix.dom8_count
  (listRng Fix.E) Fix.st (fun i => (show Fix.E.Fr from ((i % 256 : ℕ) : Fix.F))) (by
    intro i _
    have h : ((i % 256 : ℕ) : Fix.F).val = i % 256 := by
      rw [ZMod.val_natCast, Nat.mod_eq_of_lt]
      exact lt_of_lt_of_le (Nat.mod_lt _ (by norm_num)) (by decide)
    show ((i % 256 : ℕ) : Fix.F).val < 2 ^ 8
    rw [h]
    exact Nat.mod_lt _ (by norm_num)) r


/-- a prover that encrypts the chunks 1, ..., 8 -/
example : True := by
  obtain ⟨S, hS⟩ := C61_honest_strategy (E := Fix.E) goldFft 8 8 Fix.count8 Fix.bits8 Fix.gens Fix.dom8 Fix.dom8_count
    (fun i => i + 1) small_m (show Fix.E.Fr from (5 : Fix.F))
  have := C61_knowledge_sound (E := Fix.E) goldFft 8 8 Fix.count8 Fix.bits8 Fix.gens hG hH Fix.dom8 Fix.dom8_count
    Fix.dom8_small S (fun f pk sk ek dk f' h => (hS (tape Fix.E) 1 f f' pk sk ek dk h).2)
  trivial

/-- the same prover passes on almost all draws -/
example (f pk sk ek dk f') (hset : setupForGroth16 goldFft (tape Fix.E) 1 f 8 Fix.gens = .ok ((pk, sk, ek, dk), f')) :
    True := by
  have hbig : 4 * Fix.dom8.size + 8 ≤ Fix.E.fr.p := by
    rw [show Fix.dom8.size = 2 ^ 10 from rfl]
    exact (by decide : 4 * 2 ^ 10 + 8 ≤ goldR)
  obtain ⟨S, -, h⟩ := C62_honest_fraction (E := Fix.E) goldFft 8 8 Fix.count8 Fix.bits8 Fix.gens
    Fix.gens_ne.1 Fix.gens_ne.2 Fix.dom8 Fix.dom8_count (by omega) (fun i => i + 1) small_m (5 : Fix.F)
  have := C62_all_or_few (E := Fix.E) goldFft 8 8 Fix.count8 Fix.bits8 Fix.gens hG hH Fix.dom8 Fix.dom8_count S (by
    generalize {g : Fin (7 + 3 * (8 : UInt8).toNat) → Fix.E.Fr | Accepts goldFft 8 Fix.gens S
      (tapeOf g)}.ncard = c at h ⊢
    rw [show 7 + 3 * (8 : UInt8).toNat = (6 + 3 * (8 : UInt8).toNat) + 1 from rfl, pow_succ] at h
    have hpos : 0 < Fix.E.fr.p ^ (6 + 3 * (8 : UInt8).toNat) := Nat.pow_pos (by omega)
    have h2 := Nat.mul_le_mul_left (Fix.E.fr.p ^ (6 + 3 * (8 : UInt8).toNat)) hbig
    nlinarith) f pk sk ek dk f' hset
  trivial

/-- 11 and 22, one encryption, one submission -/
def cca : CcaAdversary Fix.E :=
  .challenge (show Fix.E.Fr from (11 : Fix.F)) (show Fix.E.Fr from (22 : Fix.F))
    (.submit ⟨fun _ => 1, 8, fun _ _ => 0, fun _ => 1, fun _ => 0, fun _ => 0, fun _ => 0⟩ fun _ =>
      .ask (.first fun i => if i = 0 then 1 else 0) (.guess true) (.guess true))

theorem cca_atMost : cca.AtMost 1 1 1 := ⟨le_refl _, le_refl _, fun _ => ⟨le_refl _, trivial, trivial⟩⟩
theorem cca_right : cca.AlwaysRight := fun _ => ⟨rfl, rfl⟩

/-- 11 and 22, one encryption, one request -/
def rea : ReAdversary Fix.E :=
  .challenge (show Fix.E.Fr from (11 : Fix.F)) (show Fix.E.Fr from (22 : Fix.F))
    (.request ⟨fun _ => 1, 8, fun _ _ => 0, fun _ => 1, fun _ => 0, fun _ => 0, fun _ => 0⟩ (fun _ => 0) fun _ =>
      .ask (.first fun i => if i = 0 then 1 else 0) (.guess true) (.guess true))

theorem rea_atMost : rea.AtMost 1 1 1 := ⟨le_refl _, le_refl _, fun _ => ⟨le_refl _, trivial, trivial⟩⟩
theorem rea_right : rea.AlwaysRight := fun _ => ⟨rfl, rfl⟩

/-- the same on BLS12-381 -/
def ccaBls : CcaAdversary (Engine.scalar blsFr) :=
  .challenge (11 : ZMod blsFr.p) (22 : ZMod blsFr.p)
    (.submit ⟨fun _ => 1, 8, fun _ _ => 0, fun _ => 1, fun _ => 0, fun _ => 0, fun _ => 0⟩ fun _ =>
      .ask (.first fun i => if i = 0 then 1 else 0) (.guess true) (.guess true))

theorem ccaBls_atMost : ccaBls.AtMost 1 1 1 := ⟨le_refl _, le_refl _, fun _ => ⟨le_refl _, trivial, trivial⟩⟩

def reaBls : ReAdversary (Engine.scalar blsFr) :=
  .challenge (11 : ZMod blsFr.p) (22 : ZMod blsFr.p)
    (.request ⟨fun _ => 1, 8, fun _ _ => 0, fun _ => 1, fun _ => 0, fun _ => 0, fun _ => 0⟩ (fun _ => 0) fun _ =>
      .ask (.first fun i => if i = 0 then 1 else 0) (.guess true) (.guess true))

theorem reaBls_atMost : reaBls.AtMost 1 1 1 := ⟨le_refl _, le_refl _, fun _ => ⟨le_refl _, trivial, trivial⟩⟩
theorem reaBls_right : reaBls.AlwaysRight := fun _ => ⟨rfl, rfl⟩

/-! ### soundness of adaptive provers -/

example := C72_honest_prover (E := Fix.E) goldFft 8 8 Fix.count8 Fix.bits8 Fix.gens Fix.dom8 Fix.dom8_count (fun i => i + 1) small_m (show Fix.E.Fr from (5 : Fix.F))
example := C74_adaptive_soundness (E := Fix.E) goldFft 8 8 Fix.count8 Fix.bits8 Fix.gens hG hH Fix.dom8 Fix.dom8_count
example := C75_adaptive_coalition_soundness (E := Fix.E) goldFft 8 8 Fix.count8 Fix.bits8 Fix.gens hG hH Fix.dom8 Fix.dom8_count o o
example (A) (c0) (hc0) := C76_adaptive_range (E := Fix.E) goldFft 8 8 Fix.count8 Fix.bits8 Fix.gens hG hH Fix.dom8 Fix.dom8_count A c0 hc0
example (q) := C76_adaptive_honest (E := Fix.E) goldFft 8 8 Fix.count8 Fix.bits8 Fix.gens Fix.dom8 Fix.dom8_count o (by simp [o]) q
  (fun i => i + 1) (fun i => i + 1) small_m small_m (show Fix.E.Fr from (5 : Fix.F)) (show Fix.E.Fr from (6 : Fix.F))

/-! ### non-malleability -/

example := C81_rerandomiser_uniform (E := Fix.E) goldFft 8 8 sup8 Fix.count8 Fix.bits8 Fix.aligned8 Fix.gens hH Fix.dom8 Fix.dom8_count
  2 1 (by omega) (show Fix.E.Fr from (5 : Fix.F)) 1 0 one_ne_zero
example := C81_own_message (E := Fix.E) goldFft 8 8 Fix.count8 Fix.bits8 Fix.gens Fix.dom8 Fix.dom8_count (fun i => i + 1) small_m (show Fix.E.Fr from (5 : Fix.F))

/-- the re-randomiser of the second of two ciphertexts, whatever the messages -/
example : True := by
  obtain ⟨S, hS⟩ := C81_rerandomiser_uniform (E := Fix.E) goldFft 8 8 sup8 Fix.count8 Fix.bits8 Fix.aligned8 Fix.gens hH Fix.dom8 Fix.dom8_count
    2 1 (by omega) (show Fix.E.Fr from (5 : Fix.F)) 1 0 one_ne_zero
  have h1 := C81_unrelated (E := Fix.E) goldFft 8 8 sup8 Fix.count8 Fix.bits8 Fix.aligned8 Fix.gens hG hH Fix.dom8 Fix.dom8_count Fix.dom8_small true 2 S
    (fun ms hms f pk sk ek dk f' l f'' h h' => (hS ms hms (tape Fix.E) 1 f f' pk sk ek dk h true (tape Fix.E) f' f'' l h').2)
  have h2 := C81_plaintext (E := Fix.E) goldFft 8 8 sup8 Fix.count8 Fix.bits8 Fix.aligned8 Fix.gens hG hH Fix.dom8 Fix.dom8_count Fix.dom8_small true 2 S
    (fun ms hms f pk sk ek dk f' l f'' h h' => (hS ms hms (tape Fix.E) 1 f f' pk sk ek dk h true (tape Fix.E) f' f'' l h').2)
  trivial

theorem big8 : 4 * Fix.dom8.size + 9 ≤ Fix.E.fr.p := by
  rw [show Fix.dom8.size = 2 ^ 10 from rfl]
  exact (by decide : 4 * 2 ^ 10 + 9 ≤ goldR)

/-- the re-randomiser of the second of two ciphertexts is accepted on almost all draws -/
theorem many : ∃ S : Strategy Fix.E.Fr, ∀ ms : List Fix.E.Fr, ms.length = 2 →
    (3 * Fix.dom8.size + 6) * Fix.E.fr.p ^ (6 + 3 * (8 : UInt8).toNat + 3 * 2) <
    {g : Fin (7 + 3 * (8 : UInt8).toNat + 3 * 2) → Fix.E.Fr | NmAccepts goldFft true 8 Fix.gens ms S (tapeOf g)}.ncard := by
  obtain ⟨S, hS⟩ := C81_rerandomiser_uniform (E := Fix.E) goldFft 8 8 sup8 Fix.count8 Fix.bits8 Fix.aligned8 Fix.gens hH Fix.dom8 Fix.dom8_count
    2 1 (by omega) (show Fix.E.Fr from (5 : Fix.F)) 1 0 one_ne_zero
  refine ⟨S, fun ms hms => Nm.many_of_fraction big8 ?_⟩
  have h := C83_fraction (E := Fix.E) goldFft 8 8 sup8 Fix.count8 Fix.bits8 Fix.aligned8 Fix.gens hG hH Fix.dom8 Fix.dom8_count (by have := big8; omega) true ms S
    (fun f pk sk ek dk f' l f'' h h' => (hS ms hms (tape Fix.E) 1 f f' pk sk ek dk h true (tape Fix.E) f' f'' l h').2)
  obtain ⟨a, b, rfl⟩ := List.length_eq_two.mp hms
  exact h

example (f pk sk ek dk f' l f'')
    (hset : setupForGroth16 goldFft (tape Fix.E) 1 f 8 Fix.gens = .ok ((pk, sk, ek, dk), f'))
    (hl : encryptAll goldFft true (tape Fix.E) ek pk 8 [(show Fix.E.Fr from (11 : Fix.F)), (show Fix.E.Fr from (22 : Fix.F))] f' = .ok (l, f''))
    (hl' : encryptAll goldFft true (tape Fix.E) ek pk 8 [(show Fix.E.Fr from (22 : Fix.F)), (show Fix.E.Fr from (11 : Fix.F))] f' = .ok (l, f'')) : True := by
  obtain ⟨S, hS⟩ := many
  have h1 := C83_all_or_few (E := Fix.E) goldFft 8 8 sup8 Fix.count8 Fix.bits8 Fix.aligned8 Fix.gens hG hH Fix.dom8 Fix.dom8_count true [(show Fix.E.Fr from (11 : Fix.F)), (show Fix.E.Fr from (22 : Fix.F))] S (hS _ rfl)
    true f pk sk ek dk f' l f'' hset hl
  have h2 := C83_plaintext (E := Fix.E) goldFft 8 8 sup8 Fix.count8 Fix.bits8 Fix.aligned8 Fix.gens hG hH Fix.dom8 Fix.dom8_count true 2 S hS
  have h3 := C87_accepted_for_all_messages (E := Fix.E) goldFft 8 8 sup8 Fix.count8 Fix.bits8 Fix.aligned8 Fix.gens hG hH Fix.dom8 Fix.dom8_count true [(show Fix.E.Fr from (11 : Fix.F)), (show Fix.E.Fr from (22 : Fix.F))] S
    (hS _ rfl) [(show Fix.E.Fr from (22 : Fix.F)), (show Fix.E.Fr from (11 : Fix.F))] rfl true f pk sk ek dk f' l f'' hset hl'
  trivial

example : True := by
  obtain ⟨S, S', -, h⟩ := C87_adaptive_rerandomiser (E := Fix.E) goldFft 8 8 sup8 Fix.count8 Fix.bits8
    Fix.aligned8 Fix.gens hG hH Fix.dom8 Fix.dom8_count (by have := Fix.dom8_small; omega) true
    [(show Fix.E.Fr from (11 : Fix.F)), (show Fix.E.Fr from (22 : Fix.F))]
    (.first fun i => if i = 0 then 1 else 0) 1 (by decide) (show Fix.E.Fr from (5 : Fix.F))
    (show Fix.E.Fr from (6 : Fix.F))
  have hbig : 7 * Fix.dom8.size + 15 ≤ Fix.E.fr.p := by
    rw [show Fix.dom8.size = 2 ^ 10 from rfl]
    exact (by decide : 7 * 2 ^ 10 + 15 ≤ goldR)
  have := C87_adaptive_plaintext (E := Fix.E) goldFft 8 8 sup8 Fix.count8 Fix.bits8 Fix.aligned8 Fix.gens hG hH Fix.dom8
    Fix.dom8_count true [(show Fix.E.Fr from (11 : Fix.F)), (show Fix.E.Fr from (22 : Fix.F))]
    (.ask (.first fun i => if i = 0 then 1 else 0) (.output S) (.output S'))
    (Nm.many_of_fraction_ask (N := Fix.dom8.size) (p := Fix.E.fr.p) (k := 3 * (8 : UInt8).toNat) rfl hbig h)
  trivial

example := C87_adaptive_bound (E := Fix.E) goldFft 8 8 sup8 Fix.count8 Fix.bits8 Fix.aligned8 Fix.gens hG hH Fix.dom8 Fix.dom8_count true 2

/-! ### secrecy games -/

example := C88_no_abort (E := Fix.E) goldFft 8 8 sup8 Fix.count8 Fix.bits8 Fix.aligned8 Fix.gens hH Fix.dom8 Fix.dom8_count dom8_lt ⟨true, true⟩ true true cca cca_right 31 (by decide)
example := C90_adaptive_bound (E := Fix.E) goldFft 8 8 sup8 Fix.count8 Fix.bits8 Fix.aligned8 Fix.gens hG hH Fix.dom8 Fix.dom8_count o o true 2
example := C90_rerandomiser (E := Fix.E) goldFft 8 8 sup8 Fix.count8 Fix.bits8 Fix.aligned8 Fix.gens hH Fix.dom8 Fix.dom8_count 3 (by omega) 2 1 (by omega)
  (show Fix.E.Fr from (5 : Fix.F)) 1 0 one_ne_zero
example : setupForGroth16 goldFft (tape Fix.E) 100 (fun _ => (show Fix.E.Fr from (7 : Fix.F))) 8 Fix.gens =
    setupForGroth16 goldFft (tape Fix.E) 1 (fun _ => (show Fix.E.Fr from (7 : Fix.F))) 8 Fix.gens := by
  refine C92_more_candidates (E := Fix.E) goldFft (tape Fix.E) 1 100 (by omega)
    (fun _ => (show Fix.E.Fr from (7 : Fix.F))) 8 Fix.gens fun h => ?_
  have h1 := (C92_ends_iff (E := Fix.E) goldFft 8 8 Fix.count8 Fix.bits8 Fix.gens Fix.dom8 Fix.dom8_count (tape Fix.E) 1
    (fun _ => (show Fix.E.Fr from (7 : Fix.F)))).1.mp h 0 (by omega)
  rw [draw_tape] at h1
  exact absurd h1 (by decide +kernel : ¬ ((7 : Fix.F) ^ (2 ^ 10) - 1 = 0))
example := C92_transfer (E := Fix.E) goldFft 8 8 Fix.count8 Fix.bits8 Fix.gens Fix.dom8 Fix.dom8_count 5 1 100 (by omega) (by omega) (by omega)
example (c0) (hc0) := C92_transfer_srs (E := Fix.E) goldFft 8 8 Fix.count8 Fix.bits8 Fix.gens Fix.dom8 Fix.dom8_count c0 hc0 5 1 100 (by omega) (by omega) (by omega)
example := C92_transfer_dkg (E := Fix.E) goldFft 8 8 Fix.count8 Fix.bits8 Fix.gens Fix.dom8 Fix.dom8_count 5 1 100 (by omega) (by omega) (by omega) (fun _ => o)
example := C92_adaptive_soundness (E := Fix.E) goldFft 8 8 Fix.count8 Fix.bits8 Fix.gens hG hH Fix.dom8 Fix.dom8_count 100 (by omega)
example := C92_chosen_ciphertexts (E := Fix.E) goldFft 8 8 sup8 Fix.count8 Fix.bits8 Fix.aligned8 Fix.gens hG hH Fix.dom8 Fix.dom8_count 100 (by omega) true cca 1 1 1 cca_atMost 34 (by decide) true
example := C92_nu_handed_out (E := Fix.E) goldFft 8 8 sup8 Fix.count8 Fix.bits8 Fix.aligned8 Fix.gens hG hH Fix.dom8 Fix.dom8_count 100 (by omega) true cca 1 1 1 cca_atMost 34 (by decide) true
example := C94_no_abort (E := Fix.E) goldFft 8 8 sup8 Fix.count8 Fix.bits8 Fix.aligned8 Fix.gens hG hH Fix.dom8 Fix.dom8_count o o dom8_lt ⟨true, true⟩ true true (listRng Fix.E) Fix.st
  rea rea_right 1
example := C94_verification_needed (E := Fix.E) goldFft 8 8 sup8 Fix.count8 Fix.bits8 Fix.aligned8 Fix.gens hG hH Fix.dom8 Fix.dom8_count o o dom8_lt true (listRng Fix.E) Fix.st
  (show Fix.E.Fr from (11 : Fix.F)) (show Fix.E.Fr from (22 : Fix.F))
  (by intro h; exact absurd h (by decide +kernel : ¬ (11 : Fix.F) = 22))
example := C95_correctness_error (E := Fix.E) goldFft 8 8 sup8 Fix.count8 Fix.bits8 Fix.aligned8 Fix.gens hG hH Fix.dom8 Fix.dom8_count dom8_lt 100 (by omega) 31 (by decide)
example := C96_aggregation_error (E := Fix.E) goldFft 8 8 (.inr rfl) Fix.count8 Fix.bits8 Fix.gens hG Fix.dom8 Fix.dom8_count
  dom8_lt (by decide : 65535 < goldR) 100 (by omega) 5 (by omega)
example := C98_plaintext_bound (E := Fix.E) goldFft 8 8 sup8 Fix.count8 Fix.bits8 Fix.aligned8 Fix.gens hG hH Fix.dom8 Fix.dom8_count o o true 2
example := C99_transfer (E := Fix.E) goldFft 8 8 Fix.count8 Fix.bits8 Fix.gens Fix.dom8 Fix.dom8_count 100 (by omega) 2 3 (fun _ => o)
example := C99_coalition_soundness (E := Fix.E) goldFft 8 8 Fix.count8 Fix.bits8 Fix.gens hG hH Fix.dom8 Fix.dom8_count o o 100 (by omega) 99
example := C99_non_malleable (E := Fix.E) goldFft 8 8 sup8 Fix.count8 Fix.bits8 Fix.aligned8 Fix.gens hG hH Fix.dom8 Fix.dom8_count o o 100 (by omega) 99 true 2
example := C99_plaintext (E := Fix.E) goldFft 8 8 sup8 Fix.count8 Fix.bits8 Fix.aligned8 Fix.gens hG hH Fix.dom8 Fix.dom8_count o o 100 (by omega) 99 true 2
example := C99_verified_requests (E := Fix.E) goldFft 8 8 sup8 Fix.count8 Fix.bits8 Fix.aligned8 Fix.gens hG hH Fix.dom8 Fix.dom8_count o o 100 (by omega) 99 true (listRng Fix.E) Fix.st
  rea 1 1 1 rea_atMost true
example := C99_range (E := Fix.E) goldFft 8 8 Fix.count8 Fix.bits8 Fix.gens hG hH Fix.dom8 Fix.dom8_count 100 (by omega) 99 o (by simp [o])
example := C100_sums_one_candidate (E := Fix.E) goldFft 8 8 sup8 Fix.count8 Fix.bits8 Fix.aligned8 Fix.gens hG hH Fix.dom8 Fix.dom8_count o o true 2 3
example := C100_sums (E := Fix.E) goldFft 8 8 sup8 Fix.count8 Fix.bits8 Fix.aligned8 Fix.gens hG hH Fix.dom8 Fix.dom8_count o o 100 (by omega) 99 true 2 3
example := C100_batch (E := Fix.E) goldFft 8 8 sup8 Fix.count8 Fix.bits8 Fix.aligned8 Fix.gens hG hH Fix.dom8 Fix.dom8_count o o 100 (by omega) 99 true 2 3
example := C100_proofs_needed (E := Fix.E) goldFft 8 8 sup8 Fix.count8 Fix.bits8 Fix.aligned8 Fix.gens hH Fix.dom8 Fix.dom8_count o o true 2 1 (by omega)
  (show Fix.E.Fr from (7 : Fix.F))

/-! ### BLS12-381 -/

def ob : List (Party (Engine.scalar blsFr)) := [⟨tape (Engine.scalar blsFr), fun _ => (7 : ZMod blsFr.p)⟩]

example := C95_bls_parameters (E := Engine.scalar blsFr) blsFft C95_instance 8 (.inr (.inl rfl))
example := C95_bls_soundness (E := Engine.scalar blsFr) blsFft C95_instance 8 32 (.inr (.inl rfl)) chunksCount_bls8
    ⟨(1 : ZMod blsFr.p), (2 : ZMod blsFr.p)⟩ (by decide +kernel) (by decide +kernel) 100 (by omega)
example := C95_bls_secrecy (E := Engine.scalar blsFr) blsFft C95_instance 8 32 (.inr (.inl rfl)) chunksCount_bls8
    ⟨(1 : ZMod blsFr.p), (2 : ZMod blsFr.p)⟩ (by decide +kernel) (by decide +kernel) 100 (by omega) true
  ccaBls 1 1 1 ccaBls_atMost 106 (by decide) true
example (c0) (hc0 : BitsizeCheckCircuit.new (K := (Engine.scalar blsFr).fr) 8 none none true = .ok c0) (pk st')
    (hsrs : generateSrs blsFft (tape (Engine.scalar blsFr)) 1 (fun _ => (7 : ZMod blsFr.p)) c0.generateConstraints
      ⟨(1 : ZMod blsFr.p), (2 : ZMod blsFr.p)⟩ = .ok (pk, st')) :=
  C97_bls_coalition_secrecy (E := Engine.scalar blsFr) blsFft C95_instance 8 32 (.inr (.inl rfl)) chunksCount_bls8
    ⟨(1 : ZMod blsFr.p), (2 : ZMod blsFr.p)⟩ (by decide +kernel) (by decide +kernel) ob ob _ 1 _ _ c0 pk hc0 hsrs true [] []
    (.challenge (11 : ZMod blsFr.p) (22 : ZMod blsFr.p) (.guess true)) 68 (by decide) true
example := C97_bls_range (E := Engine.scalar blsFr) blsFft C95_instance 8 32 (.inr (.inl rfl)) chunksCount_bls8
    ⟨(1 : ZMod blsFr.p), (2 : ZMod blsFr.p)⟩ (by decide +kernel) (by decide +kernel) ob (by simp [ob])
example := C97_bls_non_malleable (E := Engine.scalar blsFr) blsFft C95_instance 8 32 (.inr (.inl rfl)) chunksCount_bls8
    ⟨(1 : ZMod blsFr.p), (2 : ZMod blsFr.p)⟩ (by decide +kernel) (by decide +kernel) ob ob true 2
example := C97_bls_reencryption (E := Engine.scalar blsFr) blsFft C95_instance 8 32 (.inr (.inl rfl)) chunksCount_bls8
    ⟨(1 : ZMod blsFr.p), (2 : ZMod blsFr.p)⟩ (by decide +kernel) (by decide +kernel) ob ob true
  (tape (Engine.scalar blsFr)) (fun _ => (7 : ZMod blsFr.p)) reaBls 1 1 1 reaBls_atMost true
example := C97_bls_no_abort (E := Engine.scalar blsFr) blsFft C95_instance 8 32 (.inr (.inl rfl)) chunksCount_bls8
    ⟨(1 : ZMod blsFr.p), (2 : ZMod blsFr.p)⟩ (by decide +kernel) (by decide +kernel) ob ob ⟨true, true⟩ true true
  (tape (Engine.scalar blsFr)) (fun _ => (7 : ZMod blsFr.p)) reaBls reaBls_right 1
example := C99_bls_reencryption (E := Engine.scalar blsFr) blsFft C95_instance 8 32 (.inr (.inl rfl)) chunksCount_bls8
    ⟨(1 : ZMod blsFr.p), (2 : ZMod blsFr.p)⟩ (by decide +kernel) (by decide +kernel) ob ob 100 (by omega) 99 true
  (tape (Engine.scalar blsFr)) (fun _ => (7 : ZMod blsFr.p)) reaBls 1 1 1 reaBls_atMost true

/-! ### the same chunks, opened -/

example := C93_opened_chunks (E := Fix.E) (G := Fix.E.G1) true 16 4 (.inr (.inr rfl)) Fix.count
  ((decomp_len_eq_iff Fix.E.fr 16 4 (Or.inr (Or.inr rfl)) Fix.count).mpr Fix.aligned)
  ⟨show Fix.E.G1 from (2 : Fix.F), show Fix.E.G1 from (5 : Fix.F)⟩ _
  (C38_commitment_key Fix.E.fr true ⟨show Fix.E.G1 from (2 : Fix.F), show Fix.E.G1 from (5 : Fix.F)⟩ 16 4 (by decide) Fix.count
    (by decide))

/-! ### delivery -/

example := C100_says Fix.parties 16 Fix.gens Fix.gi Fix.D Fix.C _ Fix.dek Fix.dkg_ok Fix.gi_ne 20 (by decide)
  [1, 2, 3, 65535] (by decide +kernel) (by decide +kernel) (show Fix.E.Fr from (5 : Fix.F))
example := C98_says Fix.parties 16 (.inr (.inr rfl)) Fix.gens Fix.gi Fix.D Fix.C _ Fix.dek Fix.dkg_ok Fix.gi_ne
  [1, 2, 3, 65535] (by decide +kernel) (by decide +kernel) (show Fix.E.Fr from (5 : Fix.F))
example : True := by
  obtain ⟨ct, r, st', h⟩ := (C05_encrypt_fresh_key Fix.dek 16 Fix.gens Fix.gi Fix.D Fix.C (.inr ⟨_, _, Fix.dkg_ok⟩)
    (.inr (.inr rfl)) (listRng Fix.E) Fix.st (show Fix.E.Fr from (123456789 : Fix.F))).1 (by decide +kernel)
  have := C98_says_rerandomised Fix.parties 16 (.inr (.inr rfl)) (by decide +kernel) Fix.gens Fix.gi Fix.D Fix.C _ Fix.dek
    Fix.dkg_ok Fix.gi_ne _ _ _ _ _ _ h (show Fix.E.Fr from (5 : Fix.F))
  trivial

end
end Ex
end Verif
