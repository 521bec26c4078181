/-
Property C101, continued: any number of candidates for the evaluation point, and numbers on BLS12-381.
-/
import Verif.Props.TallyNeeded
import Verif.Props.DkgTapes
import Verif.Props.BlsCoalition

namespace Verif
open Spec Agm

section
variable {E : Engine} (T : FftCfg E.Fr) (b n : UInt8) (hb : Supported b) (hn : chunksCount E.fr b = .ok n)
    (hbm : b.toNat ≤ E.fr.modBits)
    (hal : 64 * E.fr.limbs < E.fr.modBits + b.toNat ∧ chunksNeeded E.fr b.toNat ≤ 255)
    (gens : EncryptionGens E) (hG : gens.G ≠ 0) (hH : gens.H ≠ 0) (d : EvalDomain E.Fr)
    (hd : T.newDomain (n.toNat * constraintsPerValue E.fr.modBits b.toNat + (n.toNat + 1)) = some d)
    (others1 others2 : List (Party E)) (F : ℕ) (hF : 0 < F) (k : ℕ)

include hb hn hbm hal hG hH hd hF in
/-- **C101** The same with any number of candidates for the evaluation point of `generate_srs`, drawn from a tape of its own. -/
theorem C101_any_candidates (chk : Bool) (R : RngCore E) (st : R.σ) (A : TallyAdversary E) (Q D C : ℕ)
    (hA : A.AtMost Q D C) (side : Bool) :
    draws E (5 + k) (1 + 2 * n.toNat + 3 * C)
        (fun fs h => experimentTallyF F true side T chk b gens others1 others2 R st A fs h = true) ≤
      draws E (5 + k) (1 + 2 * n.toNat + 3 * C)
        (fun fs h => experimentTallyF F true (!side) T chk b gens others1 others2 R st A fs h = true) +
      ((Q + 2 * D) * (3 * d.size + 6) + (2 * n.toNat + 1) + 2 * d.size) * E.fr.p ^ (5 + k + 2 * n.toNat + 3 * C) := by
  have h := C101_sums_reveal_sums T b n hb hn hbm hal gens hG hH d hd others1 others2 chk R st A Q D C hA side
  have e : ∀ side, rightGuessesTally true (6 + 2 * n.toNat + 3 * C) side T chk b gens others1 others2 R st A =
      {x : Fin (5 + (1 + 2 * n.toNat + 3 * C)) → E.Fr |
        experimentTallyF 1 true side T chk b gens others1 others2 R st A (tapeOf x)
          (fun i => tapeOf x (5 + i)) = true}.ncard := fun side => by
    rw [show 5 + (1 + 2 * n.toNat + 3 * C) = 6 + 2 * n.toNat + 3 * C by omega]
    unfold rightGuessesTally
    rw [← Set.ncard_coe_finset]
    congr 1
    ext x
    simp only [Finset.coe_filter, Finset.mem_univ, true_and]
    unfold experimentTally experimentTallyF
    have e2 : ∀ m i : ℕ, 5 + (1 + 2 * m + i) = 6 + 2 * m + i := fun m i => by omega
    simp only [e2]
  have ht := fun side => C99_transfer T b n hn hbm gens d hd F hF k (1 + 2 * n.toNat + 3 * C) (crew others1 others2)
    (fun h r => (match r with
      | .ok (pk, keys, parts, ek) =>
        match partySecret b gens pk h with
        | .ok sk =>
          let start : World E R.σ := ⟨fun i => h (1 + 2 * ek.X.length + i), [], [], st⟩
          playTally true side T chk b ⟨gens, pk, keys, parts, ek⟩ sk R A start start
        | _ => false
      | _ => false) = true)
  have h1 := (ht side).1
  have h2 := (ht (!side)).2
  rw [e, e] at h
  have e3 : 4 + k + (1 + 2 * n.toNat + 3 * C) = 5 + k + 2 * n.toNat + 3 * C := by omega
  rw [e3] at h1 h2
  have h1' : draws E (5 + k) (1 + 2 * n.toNat + 3 * C)
        (fun fs h => experimentTallyF F true side T chk b gens others1 others2 R st A fs h = true) ≤
      {x : Fin (5 + (1 + 2 * n.toNat + 3 * C)) → E.Fr |
        experimentTallyF 1 true side T chk b gens others1 others2 R st A (tapeOf x)
          (fun i => tapeOf x (5 + i)) = true}.ncard * E.fr.p ^ k +
        d.size * E.fr.p ^ (5 + k + 2 * n.toNat + 3 * C) := h1
  have h2' : {x : Fin (5 + (1 + 2 * n.toNat + 3 * C)) → E.Fr |
        experimentTallyF 1 true (!side) T chk b gens others1 others2 R st A (tapeOf x)
          (fun i => tapeOf x (5 + i)) = true}.ncard * E.fr.p ^ k ≤
      draws E (5 + k) (1 + 2 * n.toNat + 3 * C)
        (fun fs h => experimentTallyF F true (!side) T chk b gens others1 others2 R st A fs h = true) +
        d.size * E.fr.p ^ (5 + k + 2 * n.toNat + 3 * C) := h2
  have h3 := Nat.mul_le_mul_right (E.fr.p ^ k) h
  have e4 : ∀ B : ℕ, B * E.fr.p ^ (5 + 2 * n.toNat + 3 * C) * E.fr.p ^ k =
      B * E.fr.p ^ (5 + k + 2 * n.toNat + 3 * C) := fun B => by
    rw [Nat.mul_assoc, ← pow_add]
    congr 2
    omega
  rw [Nat.add_mul, e4] at h3
  rw [Nat.add_mul _ (2 * d.size), Nat.mul_assoc 2]
  omega

end

section
variable {E : Engine} (T : FftCfg E.Fr) (hE : OnBls E T) (b n : UInt8) (hb : Supported b)
  (hn : chunksCount E.fr b = .ok n) (gens : EncryptionGens E) (hG : gens.G ≠ 0) (hH : gens.H ≠ 0)
  (others1 others2 : List (Party E)) (F : ℕ) (hF : 0 < F) (k : ℕ)

include hE hb hn hG hH hF in
/-- **C101** On BLS12-381, with any number of candidates, an adversary that asks at most `Q` questions and whose selections have
at most `D` entries guesses "right" in the one game at most `Q + 2 D + 1` in `2^237` of the draws more often than in the
other. -/
theorem C101_bls (chk : Bool) (R : RngCore E) (st : R.σ) (A : TallyAdversary E) (Q D C : ℕ)
    (hA : A.AtMost Q D C) (side : Bool) :
    2 ^ 237 * draws E (5 + k) (1 + 2 * n.toNat + 3 * C)
        (fun fs h => experimentTallyF F true side T chk b gens others1 others2 R st A fs h = true) ≤
      2 ^ 237 * draws E (5 + k) (1 + 2 * n.toNat + 3 * C)
        (fun fs h => experimentTallyF F true (!side) T chk b gens others1 others2 R st A fs h = true) +
      (Q + 2 * D + 1) * E.fr.p ^ (5 + k + (1 + 2 * n.toNat + 3 * C)) := by
  obtain ⟨n', d, hn', hd, -, hn64, hs, hs'⟩ := hE.small hb
  obtain rfl : n' = n := by rw [hn] at hn'; cases hn'; rfl
  have h17 : 2 ^ 237 * (4 * 2 ^ 15 + 6 + 64) ≤ blsR := by decide +kernel
  have hp : E.fr.p = blsR := hE.prime
  have hc : 2 ^ 237 * (4 * d.size + 6 + n'.toNat) ≤ E.fr.p :=
    le_trans (Nat.mul_le_mul_left _ (by omega)) (h17.trans (le_of_eq hp.symm))
  have h := C101_any_candidates T b n' hb hn (hE.bits hb) (hE.aligned hb) gens hG hH d hd others1 others2 F hF k chk R
    st A Q D C hA side
  refine (Nat.mul_le_mul_left _ h).trans ?_
  rw [Nat.mul_add]
  refine Nat.add_le_add_left ?_ _
  have e : (Q + 2 * D) * (3 * d.size + 6) + (2 * n'.toNat + 1) + 2 * d.size ≤
      (Q + 2 * D + 1) * (4 * d.size + 6 + n'.toNat) := by
    have h13 : (2 : ℕ) ^ 13 = 8192 := by norm_num
    have h1 : (Q + 2 * D) * (3 * d.size + 6) ≤ (Q + 2 * D) * (4 * d.size + 6 + n'.toNat) :=
      Nat.mul_le_mul_left _ (by omega)
    rw [Nat.add_mul (Q + 2 * D) 1]
    omega
  refine (OnBls.scaleMany hc (Nat.mul_le_mul_right _ e)).trans (le_of_eq ?_)
  rw [show 5 + k + (1 + 2 * n'.toNat + 3 * C) = (5 + k + 2 * n'.toNat + 3 * C) + 1 by omega]

end

section
open Fix

/-- A concrete adversary: two honest users swap their messages or not, the adversary asks for the sum of both ciphertexts
and of the first one alone, and asks one question. -/
def swapper : TallyAdversary E :=
  .vote (show E.Fr from (11 : F)) (show E.Fr from (22 : F)) <|
  .vote (show E.Fr from (22 : F)) (show E.Fr from (11 : F)) <|
  .tally [.user 0, .user 1] (fun _ => 0) fun _ => .tally [.user 0] (fun _ => 0) fun r =>
  if r.given then .guess true else .ask (.first fun i => if i = 0 then 1 else 0) (.guess true) (.guess false)

theorem swapper_atMost : swapper.AtMost 1 3 2 := by
  refine ⟨by omega, by omega, by simp, fun _ => ⟨by simp, fun r => ?_⟩⟩
  dsimp only
  split <;> simp [TallyAdversary.AtMost]

/-- The hypotheses of the main theorem are met: 8-bit chunks, two parties of the adversary, the adversary above. -/
example (o1 o2 : Party E) (chk side : Bool) :=
  C101_sums_reveal_sums (E := E) goldFft 8 8 (.inr (.inl rfl)) count8 bits8 aligned8 gens gens_ne.1 gens_ne.2 dom8
    dom8_count [o1] [o2] chk (listRng E) st swapper 1 3 2 swapper_atMost side

example (o1 o2 : Party E) (chk side : Bool) :=
  C101_any_candidates (E := E) goldFft 8 8 (.inr (.inl rfl)) count8 bits8 aligned8 gens gens_ne.1 gens_ne.2 dom8
    dom8_count [o1] [o2] 100 (by omega) 99 chk (listRng E) st swapper 1 3 2 swapper_atMost side

example (o1 o2 : Party E) (chk careful side : Bool) :=
  C101_no_abort (E := E) goldFft 8 8 (.inr (.inl rfl)) count8 bits8 aligned8 gens gens_ne.1 gens_ne.2 dom8
    dom8_count [o1] [o2] (by have := dom8_small; omega) careful side chk (listRng E) st
    (.vote (show E.Fr from (11 : F)) (show E.Fr from (22 : F)) (.tally [.user 0] (fun _ => 0) fun _ => .guess true))
    (fun _ => rfl) 1

example (o1 o2 : Party E) (chk : Bool) :=
  C101_copies_break_secrecy (E := E) goldFft 8 8 (.inr (.inl rfl)) count8 bits8 aligned8 gens gens_ne.1 gens_ne.2 dom8
    dom8_count [o1] [o2] (by have := dom8_small; omega) chk (listRng E) st (show E.Fr from (11 : F))
    (show E.Fr from (22 : F)) (by intro h; exact absurd h (by decide +kernel : ¬ (11 : F) = 22)) (show E.Fr from (5 : F))

theorem dec11 : decompose (K := E.fr) (show E.Fr from (11 : F)) 8 = .ok [0, 0, 0, 0, 0, 0, 0, 11] := by decide +kernel
theorem dec22 : decompose (K := E.fr) (show E.Fr from (22 : F)) 8 = .ok [0, 0, 0, 0, 0, 0, 0, 22] := by decide +kernel

/-- two honest users swap 11 and 22: handing out the share of the first user's ciphertext alone would tell the cases apart -/
example (o1 o2 : Party E) (chk : Bool) :=
  C101_care_needed (E := E) goldFft 8 8 (.inr (.inl rfl)) count8 bits8 aligned8 gens gens_ne.1 gens_ne.2 dom8
    dom8_count [o1] [o2] (by have := dom8_small; omega) chk (listRng E) st
    [((show E.Fr from (11 : F)), (show E.Fr from (22 : F))), ((show E.Fr from (22 : F)), (show E.Fr from (11 : F)))]
    [[0, 0, 0, 0, 0, 0, 0, 11], [0, 0, 0, 0, 0, 0, 0, 22]] [[0, 0, 0, 0, 0, 0, 0, 22], [0, 0, 0, 0, 0, 0, 0, 11]]
    (.cons dec11 (.cons dec22 .nil)) (.cons dec22 (.cons dec11 .nil)) [0] (by simp) 7 (by decide)
    (by intro h; exact absurd h (by decide +kernel : ¬ ((11 : ℕ) : F) = ((22 : ℕ) : F)))

/-- and the share of the sum of both is handed out -/
example (o1 o2 : Party E) (chk : Bool) (f : ℕ → E.Fr) (pk keys shares ek sk)
    (hset : setupForDkg goldFft (tape E) 1 f 8 gens ([o1] ++ ⟨tape E, fun i => f (5 + i)⟩ :: [o2]) = .ok (pk, keys, shares, ek))
    (hsk : partySecret 8 gens pk (fun i => f (5 + i)) = .ok sk) (l0 f0 l1 f1 he0 he1) :=
  C101_honest_sums_given (E := E) goldFft 8 8 (.inr (.inl rfl)) count8 bits8 aligned8 gens gens_ne.1 dom8
    dom8_count [o1] [o2] chk f pk keys shares ek sk hset hsk
    [((show E.Fr from (11 : F)), (show E.Fr from (22 : F))), ((show E.Fr from (22 : F)), (show E.Fr from (11 : F)))]
    l0 f0 l1 f1 he0 he1
    [[0, 0, 0, 0, 0, 0, 0, 11], [0, 0, 0, 0, 0, 0, 0, 22]] [[0, 0, 0, 0, 0, 0, 0, 22], [0, 0, 0, 0, 0, 0, 0, 11]]
    (.cons dec11 (.cons dec22 .nil)) (.cons dec22 (.cons dec11 .nil)) [0, 1] (by simp) (by simp)
    (by decide) (listRng E) st st [] [] (fun _ => 0)

/-- the same on BLS12-381 -/
example (o1 o2 : Party (Engine.scalar blsFr)) (chk side : Bool) :=
  C101_bls (E := Engine.scalar blsFr) blsFft C95_instance 8 32 (.inr (.inl rfl)) chunksCount_bls8
    ⟨(1 : ZMod blsFr.p), (2 : ZMod blsFr.p)⟩ (by decide +kernel) (by decide +kernel) [o1] [o2] 100 (by omega) 99 chk
    (tape (Engine.scalar blsFr)) (fun _ => (7 : ZMod blsFr.p))
    (.vote (11 : ZMod blsFr.p) (22 : ZMod blsFr.p) (.tally [.user 0] (fun _ => 0) fun _ => .guess true)) 0 1 1
    ⟨by omega, by simp, fun _ => trivial⟩ side

end
end Verif
