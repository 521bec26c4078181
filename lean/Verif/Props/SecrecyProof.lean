/-
Property C65: secrecy of ciphertexts that are published together with their proofs.
-/
import Verif.Lemmas.SecProof

namespace Verif
open Spec

variable {E : Engine}

open Sec in
/-- **C65** Publishing the proof does not weaken secrecy.  For every SRS for `b`-bit chunks (whoever generated it: nothing is assumed about its trapdoors, and the further
public points `pub1`, `pub2` may be computed from them), and every adaptive generic-group adversary that is
given the encryption key and the decryption key (but not the secret key) and receives ciphertexts with proofs
from `encrypt_with_proof`: among the `p^K` choices of the draws made by key generation and encryption, the
number of those on which it guesses "right" differs between the two games by at most `5 Q p^(K-1)`. -/
theorem C65_secrecy_with_proofs (T : FftCfg E.Fr) (R : RngCore E) (fuel : ℕ) (st st' : R.σ)
    (b n : UInt8) (hb : Supported b) (hn : chunksCount E.fr b = .ok n)
    (hal : 64 * E.fr.limbs < E.fr.modBits + b.toNat ∧ chunksNeeded E.fr b.toNat ≤ 255)
    (c0 : BitsizeCheckCircuit E.fr) (gens : EncryptionGens E) (pk : ProvingKey E)
    (hc0 : BitsizeCheckCircuit.new (K := E.fr) b none none true = .ok c0)
    (hsrs : generateSrs T R fuel st c0.generateConstraints gens = .ok (pk, st'))
    (hG : gens.G ≠ 0) (hH : gens.H ≠ 0) (chk : Bool) (pub1 : List E.G1) (pub2 : List E.G2)
    (A : Adversary E E.Fr) (K : ℕ) (hK : 2 + 3 * n.toNat + 3 * A.challenges ≤ K) (side : Bool) :
    rightGuessesWithProof K side T chk b gens pk pub1 pub2 A ≤
      rightGuessesWithProof K (!side) T chk b gens pk pub1 pub2 A + 5 * A.questions * E.fr.p ^ (K - 1) := by
  classical
  unfold rightGuessesWithProof
  obtain ⟨cs0, d, k, -, -, -, -, -, -, hdel, -, hpk⟩ := srs_inv_draws hsrs
  have hD : pk.pk.delta_g1 ≠ 0 := by
    rw [hpk]
    intro hc
    rcases smul_eq_zero.mp (show draw R st 3 • gens.G = 0 from hc) with h | h
    · exact hdel h
    · exact hG h
  -- if the parameters do not fit, both games end at once
  by_cases hgs : ∃ g_i, getGsForEncryption pk.pk.vk = .ok g_i ∧ n.toNat ≤ g_i.length
  swap
  · have hbad : ∀ right f, experimentWithProof right T chk b gens pk pub1 pub2 A f = false := by
      intro right f
      unfold experimentWithProof
      split
      · next g_i hg =>
          split
          · next h =>
              obtain ⟨n', h1, h2⟩ := keygen_ok_inv h
              rw [hn] at h1
              cases h1
              exact absurd ⟨g_i, hg, h2⟩ hgs
          · rfl
      · rfl
    simp [hbad]
  obtain ⟨g_i, hg, hgn⟩ := hgs
  choose mc x0 y0 hform using withProof_form T R fuel st st' b n hb hn hal c0 gens pk hc0 hsrs hH g_i hg
  have hplay : ∀ right (x : Fin K → E.Fr) (A : Adversary E E.Fr) (h : List E.Fr),
      playWithProof right T chk b pk (encKey n.toNat (fun i => tapeOf x (1 + i))
          (fun i => tapeOf x (1 + n.toNat + i)) (fun i => g_i.getD i 0) pk.pk.delta_g1 pk.gamma_g1 gens.H) A
        (fun i => tapeOf x (2 + 3 * n.toNat + (3 * h.length + i)))
        (tviewP1 n.toNat (fun i => g_i.getD i 0) gens (pk.pk.vk.gamma_abc_g1.getD 0 0) pk.pk.delta_g1 pk.gamma_g1
          (draw R st 0) (draw R st 1) (draw R st 2) (draw R st 3) mc x0 y0 pub1 (tapeOf x) h)
        (tviewP2 n.toNat (fun i => g_i.getD i 0) gens pk.pk.delta_g1 pk.gamma_g1 (draw R st 3) y0 pub2
          (tapeOf x) h) =
      run (fun _ => true) (fun h q (x : Fin K → E.Fr) => decide (q.Yes
        (tviewP1 n.toNat (fun i => g_i.getD i 0) gens (pk.pk.vk.gamma_abc_g1.getD 0 0) pk.pk.delta_g1 pk.gamma_g1
          (draw R st 0) (draw R st 1) (draw R st 2) (draw R st 3) mc x0 y0 pub1 (tapeOf x) h)
        (tviewP2 n.toNat (fun i => g_i.getD i 0) gens pk.pk.delta_g1 pk.gamma_g1 (draw R st 3) y0 pub2
          (tapeOf x) h))) right A h x := by
    intro right x A
    have hkey := keygen_eq (tape E) (tapeOf x) gens g_i pk.pk.delta_g1 pk.gamma_g1 hn hgn
    simp only [draw_tape] at hkey
    have hfrom : FromSetup (encKey n.toNat (fun i => tapeOf x (1 + i)) (fun i => tapeOf x (1 + n.toNat + i))
        (fun i => g_i.getD i 0) pk.pk.delta_g1 pk.gamma_g1 gens.H) b gens g_i pk.pk.delta_g1 pk.gamma_g1 :=
      Or.inl ⟨tape E, _, _, _, _, hkey⟩
    induction A with
    | guess b => exact fun h => rfl
    | ask q yes no ihy ihn =>
      intro h
      simp only [playWithProof, run, decide_eq_true_eq]
      rw [ihy, ihn]
    | challenge m0 m1 next ih =>
      intro h
      simp only [playWithProof, run, if_true]
      generalize (if right = true then m1 else m0) = m
      have henc := hform m _ hfrom chk (tape E) (fun i => tapeOf x (2 + 3 * n.toNat + (3 * h.length + i)))
      rw [henc, ← ih (h ++ [m])]
      simp only [draw_tape]
      have hlast : ∀ (a : E.Fr), (h ++ [m]).getD h.length a = m := fun a => by
        rw [List.getD_append_right _ _ _ _ le_rfl, Nat.sub_self]
        rfl
      congr 1
      · rw [after_tape]
        funext i
        rw [List.length_append, List.length_singleton]
        congr 1
        omega
      · unfold tviewP1 viewP1
        rw [List.append_assoc, List.append_assoc, List.append_assoc, List.append_assoc]
        congr 2
        rw [List.length_append, List.length_singleton, tab_succ_last, List.flatten_append]
        congr 1
        · refine congrArg List.flatten (tab_congr fun c hc => ?_)
          simp only [List.getD_append _ _ _ _ hc]
        · simp only [hlast, List.flatten_cons, List.flatten_nil, List.append_nil]
          simp only [blockP, flat, simulate, proofC, add_zero, List.cons_append, List.nil_append,
            List.append_assoc]
      · unfold tviewP2 viewP2
        rw [List.append_assoc, List.append_assoc, List.append_assoc]
        congr 2
        rw [List.length_append, List.length_singleton, tab_succ_last]
        congr 1
        · refine tab_congr fun c hc => ?_
          simp only [List.getD_append _ _ _ _ hc]
        · simp only [hlast]
          rfl
  have hrun : ∀ right (x : Fin K → E.Fr), experimentWithProof right T chk b gens pk pub1 pub2 A (tapeOf x) = _ :=
    fun right x => by
      refine Eq.trans ?_ (hplay right x A [])
      unfold experimentWithProof
      rw [hg]
      dsimp only
      rw [keygen_eq (tape E) (tapeOf x) gens g_i _ _ hn hgn]
      simp only [draw_tape]
      congr 1
      · rw [after_tape]
        funext i
        simp
      · simp [tviewP1, viewP1, tab]
      · simp [tviewP2, viewP2, tab]
  obtain ⟨d, h0, h1⟩ := run_close (X := Fin K → E.Fr) (fun _ => true) (fun h q (x : Fin K → E.Fr) => decide (q.Yes
        (tviewP1 n.toNat (fun i => g_i.getD i 0) gens (pk.pk.vk.gamma_abc_g1.getD 0 0) pk.pk.delta_g1 pk.gamma_g1
          (draw R st 0) (draw R st 1) (draw R st 2) (draw R st 3) mc x0 y0 pub1 (tapeOf x) h)
        (tviewP2 n.toNat (fun i => g_i.getD i 0) gens pk.pk.delta_g1 pk.gamma_g1 (draw R st 3) y0 pub2
          (tapeOf x) h)))
    A.challenges (5 * E.fr.p ^ (K - 1))
    (by
      intro h q _ _ hx
      obtain ⟨x0', hx0⟩ := hx
      simp only [decide_eq_true_eq, decide_eq_false_iff_not] at hx0 ⊢
      exact question_sparse (vpolyL_viewP1 _ _ _ _ _ _ _ _ _ _ _ _ _ _ h) (vpolyL_viewP2 _ _ _ _ _ _ _ _ h)
        (by omega) q x0' hx0)
    (by
      intro hB h h' q _ _ hl hlen hall x
      have h2 := two_ne_zero_of_card (K := K) (by omega) hB
      simp only [decide_eq_true_eq] at hall ⊢
      exact question_transfer_tape n.toNat _ gens _ _ _ _ _ _ _ mc x0 y0 hD hdel h2 pub1 pub2 q h h' hlen K
        (by omega) hall _)
    A (fair_mono (P := fun _ _ => True) (fun _ _ _ => rfl) A (fair_true A)) le_rfl
  simp only [hrun]
  have e : A.questions * (5 * E.fr.p ^ (K - 1)) = 5 * A.questions * E.fr.p ^ (K - 1) := by ring
  rw [e] at h0 h1
  cases side with
  | false => exact close_of_default h0 h1
  | true => exact close_of_default h1 h0

open Sec in
/-- The game is not decided by failures: with parameters that fit the number of chunks, key generation and
every encryption with proof succeed, so an adversary that answers "right" at every leaf is counted on every
tape. -/
theorem C65_no_abort (T : FftCfg E.Fr) (R : RngCore E) (fuel : ℕ) (st st' : R.σ)
    (b n : UInt8) (hb : Supported b) (hn : chunksCount E.fr b = .ok n)
    (hal : 64 * E.fr.limbs < E.fr.modBits + b.toNat ∧ chunksNeeded E.fr b.toNat ≤ 255)
    (c0 : BitsizeCheckCircuit E.fr) (gens : EncryptionGens E) (pk : ProvingKey E)
    (hc0 : BitsizeCheckCircuit.new (K := E.fr) b none none true = .ok c0)
    (hsrs : generateSrs T R fuel st c0.generateConstraints gens = .ok (pk, st'))
    (hH : gens.H ≠ 0) (g_i : List E.G1) (hg : getGsForEncryption pk.pk.vk = .ok g_i) (hgn : n.toNat ≤ g_i.length)
    (chk : Bool) (pub1 : List E.G1) (pub2 : List E.G2)
    (A : Adversary E E.Fr) (hA : A.AlwaysRight) (K : ℕ) (side : Bool) :
    rightGuessesWithProof K side T chk b gens pk pub1 pub2 A = E.fr.p ^ K := by
  classical
  choose mc x0 y0 hform using withProof_form T R fuel st st' b n hb hn hal c0 gens pk hc0 hsrs hH g_i hg
  have hplay : ∀ (ek : EncryptionKey E) (_ : FromSetup ek b gens g_i pk.pk.delta_g1 pk.gamma_g1)
      (A : Adversary E E.Fr) (_ : A.AlwaysRight) f v1 v2,
      playWithProof side T chk b pk ek A f v1 v2 = true := by
    intro ek hk A
    induction A with
    | guess b => exact fun h f v1 v2 => h
    | ask q yes no ihy ihn =>
      intro h f v1 v2
      simp only [playWithProof]
      rw [ihy h.1, ihn h.2, ite_self]
    | challenge m0 m1 next ih =>
      intro h f v1 v2
      simp only [playWithProof]
      have henc := hform (if side = true then m1 else m0) ek hk chk (tape E) f
      rw [henc]
      exact ih h _ _ _
  have hall : ∀ f, experimentWithProof side T chk b gens pk pub1 pub2 A f = true := by
    intro f
    have hkey := keygen_eq (tape E) f gens g_i pk.pk.delta_g1 pk.gamma_g1 hn hgn
    unfold experimentWithProof
    rw [hg]
    dsimp only
    rw [hkey]
    exact hplay _ (Or.inl ⟨tape E, _, _, _, _, hkey⟩) A hA _ _ _
  unfold rightGuessesWithProof
  simp only [hall]
  simp

/-- An adversary against the 8-bit parameters of `Fix`: it receives the encryption of `5` or of `2^40 + 7` with
its proof, asks whether the proof elements satisfy some equation, and adaptively receives a second one. -/
def Fix.advP : Adversary Fix.E Fix.E.Fr :=
  .challenge (5 : Fix.F) (1099511627783 : Fix.F)
    (.ask (.target (fun i j => if i = 19 ∧ j = 0 then 1 else if i = 27 ∧ j = 5 then 2 else 0) (7 : Fix.F))
      (.guess true)
      (.challenge (1 : Fix.F) (1 : Fix.F) (.ask (.first fun i => if i = 28 then 1 else 0) (.guess true) (.guess false))))

/-- the hypotheses of C65 are met by the SRS for 8-bit chunks: the guesses in the two games differ on at most
`10 p^39` of the `p^40` draws, and no game aborts -/
example : ∃ pk : ProvingKey Fix.E,
    (rightGuessesWithProof 40 true goldFft true 8 Fix.gens pk [] [] Fix.advP ≤
      rightGuessesWithProof 40 false goldFft true 8 Fix.gens pk [] [] Fix.advP + 10 * Fix.E.fr.p ^ 39) ∧
    rightGuessesWithProof 40 true goldFft true 8 Fix.gens pk [] [] (.challenge (5 : Fix.F) (6 : Fix.F) (.guess true))
      = Fix.E.fr.p ^ 40 := by
  obtain ⟨c0, pk, ek, g_i, st1, -, hc0, hsrs, hg, hgi, hlen, hk⟩ := Fix.run8
  have hG : Fix.gens.G ≠ 0 := by exact (by decide +kernel : (2 : Fix.F) ≠ 0)
  have hH : Fix.gens.H ≠ 0 := by exact (by decide +kernel : (3 : Fix.F) ≠ 0)
  refine ⟨pk, ?_, ?_⟩
  · have h := C65_secrecy_with_proofs goldFft (listRng Fix.E) 1 Fix.stFull8 st1 8 8 (Or.inr (Or.inl rfl)) Fix.count8
      Fix.aligned8 c0 Fix.gens pk hc0 hsrs hG hH true [] [] Fix.advP 40 (by decide) true
    have hq : 5 * Fix.advP.questions = 10 := rfl
    rw [hq, Bool.not_true, show 40 - 1 = 39 from rfl] at h
    generalize Fix.E.fr.p ^ 39 = N at h ⊢
    exact h
  · have h := C65_no_abort goldFft (listRng Fix.E) 1 Fix.stFull8 st1 8 8 (Or.inr (Or.inl rfl)) Fix.count8
      Fix.aligned8 c0 Fix.gens pk hc0 hsrs hH g_i hg (by rw [Fix.eight]; exact hlen) true [] []
      (.challenge (5 : Fix.F) (6 : Fix.F) (.guess true)) rfl 40 true
    generalize Fix.E.fr.p ^ 40 = N at h ⊢
    exact h

end Verif
