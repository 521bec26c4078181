/-
More concrete cases meeting the hypotheses of theorems that are not applied by name in an `example` beside them: every
`example` below is an application of the named theorem to concrete data, so the kernel checks that the hypotheses are met.
-/
import Verif.Props.Link
import Verif.Props.Delivered
import Verif.Props.Redelivered
import Verif.Props.Restart
import Verif.Props.Poll
import Verif.Props.OpenPoll
import Verif.Props.Whole
import Verif.Props.Liveness
import Verif.Props.ChosenCiphertextNeeded
import Verif.Props.Malleable
import Verif.Props.MalleableError
import Verif.Props.Error
import Verif.Props.Adaptive
import Verif.Props.AdaptiveDkg
import Verif.Props.Decrypt
import Verif.Props.Serde
import Verif.Props.WrongKey
import Verif.Examples.Games

namespace Verif
namespace Ex
open Spec
noncomputable section

/-! ### soundness: provers accepted on almost all draws, so that an extractor exists -/

example : True := by
  obtain ⟨S, -, h⟩ := C62_honest_fraction (E := Fix.E) goldFft 8 8 Fix.count8 Fix.bits8 Fix.gens hG hH Fix.dom8
    Fix.dom8_count dom8_lt (fun i => i + 1) small_m (5 : Fix.F)
  have := C62_knowledge_error (E := Fix.E) goldFft 8 8 Fix.count8 Fix.bits8 Fix.gens hG hH Fix.dom8 Fix.dom8_count S (by
    generalize {g : Fin (7 + 3 * (8 : UInt8).toNat) → Fix.E.Fr | Accepts goldFft 8 Fix.gens S
      (tapeOf g)}.ncard = c at h ⊢
    rw [show 7 + 3 * (8 : UInt8).toNat = (6 + 3 * (8 : UInt8).toNat) + 1 from rfl, pow_succ] at h
    have hpos : 0 < Fix.E.fr.p ^ (6 + 3 * (8 : UInt8).toNat) := Nat.pow_pos (by have := big8; omega)
    have h2 := Nat.mul_le_mul_left (Fix.E.fr.p ^ (6 + 3 * (8 : UInt8).toNat)) big8
    nlinarith)
  trivial

example : True := by
  obtain ⟨S, hS⟩ := C81_rerandomiser (E := Fix.E) goldFft 8 8 sup8 Fix.count8 Fix.bits8 Fix.aligned8
    Fix.gens hH Fix.dom8 Fix.dom8_count
    [(show Fix.E.Fr from (11 : Fix.F)), (show Fix.E.Fr from (22 : Fix.F))] 1 (by decide)
    (show Fix.E.Fr from (5 : Fix.F)) 1 0 one_ne_zero
  have := C81_non_malleable (E := Fix.E) goldFft 8 8 sup8 Fix.count8 Fix.bits8 Fix.aligned8 Fix.gens hG hH Fix.dom8
    Fix.dom8_count Fix.dom8_small true [(show Fix.E.Fr from (11 : Fix.F)), (show Fix.E.Fr from (22 : Fix.F))] S
    (fun f pk sk ek dk f' l f'' h1 h2 => (hS (tape Fix.E) 1 f f' pk sk ek dk h1 true (tape Fix.E) f' f'' l h2).2)
  trivial

example : True := by
  obtain ⟨S, hS⟩ := many
  have := C83_non_malleable (E := Fix.E) goldFft 8 8 sup8 Fix.count8 Fix.bits8 Fix.aligned8 Fix.gens hG hH Fix.dom8
    Fix.dom8_count true [(show Fix.E.Fr from (11 : Fix.F)), (show Fix.E.Fr from (22 : Fix.F))] S (hS _ rfl)
  trivial

example := C88_verification_needed (E := Fix.E) goldFft 8 8 sup8 Fix.count8 Fix.bits8 Fix.aligned8 Fix.gens hG hH Fix.dom8
  Fix.dom8_count Fix.dom8_small true (show Fix.E.Fr from (11 : Fix.F)) (show Fix.E.Fr from (22 : Fix.F))
  (show Fix.E.Fr from (1 : Fix.F))
  (by intro h; exact absurd h (by decide +kernel : ¬ (11 : Fix.F) = 22))
  ⟨[0, 0, 0, 0, 0, 0, 0, 11], [0, 0, 0, 0, 0, 0, 0, 1], [0, 0, 0, 0, 0, 0, 0, 12], by decide +kernel, by decide +kernel,
    by decide +kernel, by decide +kernel⟩
  ⟨[0, 0, 0, 0, 0, 0, 0, 22], [0, 0, 0, 0, 0, 0, 0, 1], [0, 0, 0, 0, 0, 0, 0, 23], by decide +kernel, by decide +kernel,
    by decide +kernel, by decide +kernel⟩
  (by intro h; exact absurd h (by decide +kernel : ¬ (1 : Fix.F) = 0))
  (by intro h; exact absurd h (by decide +kernel : ¬ (11 : Fix.F) + 1 = 22))
  (by intro h; exact absurd h (by decide +kernel : ¬ (22 : Fix.F) + 1 = 11))

/-! ### commitments -/

example := C93_adaptive (E := Fix.E) goldFft 8 8 sup8 Fix.count8 Fix.bits8 Fix.aligned8 Fix.gens hG hH Fix.dom8 Fix.dom8_count
example := C93_honest (E := Fix.E) goldFft 8 8 Fix.count8 Fix.bits8 Fix.gens Fix.dom8 Fix.dom8_count (fun i => i + 1) small_m
  (show Fix.E.Fr from (5 : Fix.F))
example := C93_reused_blinding_links (E := Fix.E) (G := Fix.E.G1) true 16 4 (.inr (.inr rfl)) Fix.count
  ((decomp_len_eq_iff Fix.E.fr 16 4 (Or.inr (Or.inr rfl)) Fix.count).mpr Fix.aligned)
  ⟨show Fix.E.G1 from (2 : Fix.F), show Fix.E.G1 from (5 : Fix.F)⟩ ⟨show Fix.E.G1 from (3 : Fix.F), show Fix.E.G1 from (5 : Fix.F)⟩
  (by intro h; exact absurd h (by decide +kernel : ¬ (2 : Fix.F) = 3)) rfl

/-! ### delivery -/

example := C105_aborts_iff (E := Fix.E) 16 4 Fix.count Fix.gens Fix.gi (by decide +kernel) Fix.D Fix.C
example (P : ℕ → Party Fix.E) := C106_any_delivery (E := Fix.E) 16 4 Fix.count Fix.gens Fix.gi (by decide +kernel) Fix.D Fix.C 3
  (by omega) P Rdl.exEnc Rdl.exLen Rdl.exDest [Rdl.exShare 0 0 0, Rdl.exShare 1 1 0, Rdl.exShare 2 0 1] (by decide) 0 0 true 16
  (by decide)

/-! ### histories -/

/-- Once the key is there (here after a history with crashes), it stays, whatever happens after it. -/
example (P Q : Party Fix.E) (U : Sys Fix.E) : ∃ T ek,
    SysRuns (scalarCodecs goldFr) 2 16 Fix.gens Fix.gi Fix.D Fix.C Sys.init T ∧
    T.finalKey (scalarCodecs goldFr) 2 Fix.C = some (.ok ek) ∧
    (SysRuns (scalarCodecs goldFr) 2 16 Fix.gens Fix.gi Fix.D Fix.C T U →
      U.finalKey (scalarCodecs goldFr) 2 Fix.C = some (.ok ek)) := by
  have hC := scalarCodecs_lawful goldFr
  have hg : (4 : UInt8).toNat ≤ Fix.gi.length := by decide +kernel
  obtain ⟨S, h1, h2, h3, h4⟩ := Rst.crashing_history hC 2 (by omega) 16 4 Fix.count Fix.gens Fix.gi hg Fix.D Fix.C P Q
  obtain ⟨T, ek, h5, h6⟩ := C107_no_deadlock hC 2 (by omega) 16 4 Fix.count Fix.gens Fix.gi hg Fix.D Fix.C S h1
  exact ⟨T, ek, Rst.trans h1 h5, h6, fun hU => C107_agreement hC 2 (by omega) 16 4 Fix.count Fix.gens Fix.gi hg Fix.D Fix.C T U
    (Rst.trans h1 h5) hU _ h6⟩

/-- The same of the result of a poll. -/
example (U : Poll) : ∃ T res, PollRuns Poll'.cfg Poll.init T ∧ T.outcome Poll'.cfg true Fix.skd 16 = some res ∧
    (PollRuns Poll'.cfg T U → U.outcome Poll'.cfg true Fix.skd 16 = some res) := by
  have hC := scalarCodecs_lawful goldFr
  obtain ⟨S, h1, h2, h3, h4⟩ := Poll'.crashing_history
  obtain ⟨T, res, done, a1, a2, a3, a4, a5⟩ := C108_no_deadlock (K := Poll'.cfg) hC (by decide) Fix.dkg_ok Fix.dest_ok true 16
    (by decide) S h1 (by simp [h2])
  exact ⟨T, res, Poll'.trans h1 a1, a3, fun hU => (C108_agreement (K := Poll'.cfg) hC (by decide) Fix.dkg_ok Fix.dest_ok true 16
    (by decide) T U (Poll'.trans h1 a1) hU res a3).1⟩

/-- A poll with a dishonest user, who puts something unreadable on the board: the facts of `C109_every_history`, and the
result stays. -/
example (U : Poll) : ∃ T res, OpenRuns Poll'.cfg (· = 1) Poll.init T ∧ T.outcome Poll'.cfg true Fix.skd 16 = some res ∧
    res ≠ .panic ∧ (OpenRuns Poll'.cfg (· = 1) T U → U.outcome Poll'.cfg true Fix.skd 16 = some res) := by
  have hC := scalarCodecs_lawful goldFr
  obtain ⟨hw, hX, hg⟩ := Poll'.facts (K := Poll'.cfg) Fix.dkg_ok
  have hm1 : Fix.m1.length = Fix.dek.X.length := by decide +kernel
  have he1 := encryptDecomposed_ok (listRng Fix.E) Fix.st1 Fix.m1 Fix.dek Fix.gi hw hX hm1 hg
  have r1 := OpenRuns.step (.refl Poll.init) (OpenStep.vote (K := Poll'.cfg) (bad := (· = 1)) 0 ⟨listRng Fix.E, Fix.st1⟩ Fix.m1
    _ _ _ (by decide) (by decide) he1)
  have r2 := OpenRuns.step r1 (OpenStep.post 1 [7, 7, 7] (by decide) rfl)
  obtain ⟨S2, r2, hcast, hb0⟩ : ∃ S2, OpenRuns Poll'.cfg (· = 1) Poll.init S2 ∧ S2.cast = [(0, Fix.m1)] ∧
    S2.ballots 0 ≠ none := ⟨_, r2, rfl, Option.some_ne_none _⟩
  obtain ⟨T, res, done, a1, a2, a3, a4, a5, -⟩ := C109_no_deadlock (K := Poll'.cfg) hC (by decide) Fix.dkg_ok Fix.dest_ok true
    16 (by decide) S2 r2 (Or.inr (Or.inl (by simp [hcast])))
  obtain ⟨cnt, h⟩ := C109_every_history (K := Poll'.cfg) hC (by decide) Fix.dkg_ok Fix.dest_ok true 16 (by decide) T
    (OPoll.trans r2 a1) res a4
  exact ⟨T, res, OPoll.trans r2 a1, a4, h.2.2.2.2.2.2.2, fun hU => (C109_agreement (K := Poll'.cfg) hC (by decide) Fix.dkg_ok
    Fix.dest_ok true 16 (by decide) T U (OPoll.trans r2 a1) hU res a4).1⟩

/-- The whole life cycle, with crashes. -/
example (P Q : Party Fix.E) (U : Whole Fix.E) :
    let A : Public Fix.E := ⟨scalarCodecs goldFr, 2, 2, 16, Fix.gens, Fix.gi, Fix.D, Fix.C, Fix.ekd⟩
    ∃ V res ek, WholeRuns A (fun _ => False) Whole.init V ∧ V.outcome A true Fix.skd 16 = some res ∧
      V.sys.finalKey A.codecs A.holders A.gamma_g = some (.ok ek) ∧
      (WholeRuns A (fun _ => False) V U → U.outcome A true Fix.skd 16 = some res) := by
  intro A
  have hC : LawfulCodecs A.codecs := scalarCodecs_lawful goldFr
  have hg : (4 : UInt8).toNat ≤ A.g_i.length := by decide +kernel
  obtain ⟨S, h1, h2, h3, h4⟩ := Rst.crashing_history hC 2 (by omega) 16 4 Fix.count Fix.gens Fix.gi hg Fix.D Fix.C P Q
  have hW : WholeRuns A (fun _ => False) Whole.init ⟨S, Poll.init⟩ := Whl.lift_sys h1
  obtain ⟨V, res, done, a1, a2, a3, a4, a5⟩ := C110_no_deadlock (A := A) hC (by decide) (by decide) Fix.count hg Fix.dest_ok
    true 16 (by decide) ⟨S, Poll.init⟩ hW 0 (by decide) (by simp) Fix.m1 rfl
  obtain ⟨R, sks, ek, cnt, h, -⟩ := C110_every_history (A := A) hC (by decide) (by decide) Fix.count hg Fix.dest_ok
    true 16 (by decide) V (Whl.trans hW a1) res a3
  exact ⟨V, res, ek, Whl.trans hW a1, a3, h, fun hU => (C110_agreement (A := A) hC (by decide) (by decide) Fix.count hg
    Fix.dest_ok true 16 (by decide) V U (Whl.trans hW a1) hU res a3).1⟩

example := C113_strong_fairness_needed (E := Fix.E) (scalarCodecs_lawful goldFr) 16 4 Fix.count Fix.gens Fix.gi
  (by decide +kernel) Fix.D Fix.C

end
end Ex
end Verif
