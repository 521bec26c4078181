/-
Property C64: secrecy of ciphertexts against generic-group adversaries.
-/
import Verif.Lemmas.SecGame
import Verif.Fixtures

namespace Verif
open Spec

variable {E : Engine}

namespace Sec

theorem shape_view2 (n : ℕ) (g : ℕ → E.G1) (D C : E.G1) (H : E.G2) (pub2 : List E.G2) (k : ℕ → E.Fr) :
    Shape fun s t v rho => comb k (view2 n g D C H pub2 s t v rho) := by
  unfold view2 keyElems2
  simp only [comb_append]
  refine ((Shape.ofT _).add ?_)
  refine Shape.add ?_ (Shape.add ?_ (Shape.add ?_ ?_))
  · exact Shape.ofT fun t => comb (fun i => k (pub2.length + i)) (tab (n + 1) fun i => t i • H)
  · refine ⟨fun _ => 0, fun _ => comb (fun i => k (pub2.length + (n + 1 + i))) [H], fun _ _ => 0, fun _ _ => 0,
      fun _ => rfl, fun _ => rfl, fun s t v rho => ?_⟩
    simp [encKey, decKey, comb, smul_comm rho]
  · refine ⟨fun _ => 0, fun _ => 0, fun _ u => comb (fun i => k (pub2.length + (n + 1 + (1 + i))))
      (tab n fun i => u i • H), fun _ _ => 0, fun _ => ?_, fun _ => rfl, fun s t v rho => ?_⟩
    · simp [comb_tab]
    · simp [encKey, decKey]
  · refine ⟨fun _ => 0, fun _ => 0, fun _ _ => 0, fun _ u => comb (fun i => k (pub2.length + (n + 1 + (1 + (n + i)))))
      (tab n fun i => u i • H), fun _ => rfl, fun _ => ?_, fun s t v rho => ?_⟩
    · simp [comb_tab]
    · simp [encKey, decKey, comb_tab, Finset.smul_sum, mul_smul, smul_comm rho]

/-- a question answered "yes" for all draws, whatever the messages -/
theorem question_transfer (n : ℕ) (g : ℕ → E.G1) (D C : E.G1) (H : E.G2) (hD : D ≠ 0) (h2 : (2 : E.Fr) ≠ 0)
    (pub1 : List E.G1) (pub2 : List E.G2) (q : Question E) (h h' : List (List UInt16))
    (hlen : h'.length = h.length)
    (hz : ∀ s t v rho r, q.Yes (view1 n g D C H pub1 s t r h) (view2 n g D C H pub2 s t v rho)) :
    ∀ s t v rho r, q.Yes (view1 n g D C H pub1 s t r h') (view2 n g D C H pub2 s t v rho) := by
  have hoff : ∀ s t, (pub1 ++ keyElems1 (encKey n s t g D C H)).length = pub1.length + (3 + (n + n)) := by
    intro s t
    simp [keyElems1, encKey]
    omega
  cases q with
  | second k => exact hz
  | first k =>
    have e : ∀ l : List E.G1, comb k l = pairSum (LinearMap.lsmul E.Fr E.G1).flip k l := fun l => rfl
    simp only [Question.Yes, e, view1, pairSum_append _ _ (_ ++ _), hoff] at hz ⊢
    exact transfer _ n g D C H (fun b hb => by
      rcases smul_eq_zero.mp (show b • D = 0 from hb) with h | h
      · exact h
      · exact absurd h hD) h2 (fun j _ _ _ _ => k (pub1.length + (3 + (n + n)) + j)) (fun j => Shape.ofT fun _ => _)
      (fun s t _ _ => pairSum (LinearMap.lsmul E.Fr E.G1).flip k (pub1 ++ keyElems1 (encKey n s t g D C H)))
      h h' hlen hz
  | target k T =>
    have e : ∀ (l : List E.G1) (l2 : List E.G2), (∑ i ∈ Finset.range l.length, ∑ j ∈ Finset.range l2.length,
        k i j • E.e (l.getD i 0) (l2.getD j 0)) + T = T + pairSum E.e (fun i => comb (k i) l2) l := by
      intro l l2
      rw [add_comm]
      congr 1
      refine Finset.sum_congr rfl fun i _ => ?_
      unfold comb
      rw [map_sum]
      exact Finset.sum_congr rfl fun j _ => (map_smul _ _ _).symm
    simp only [Question.Yes, e, view1, pairSum_append _ _ (_ ++ _), hoff, ← add_assoc T] at hz ⊢
    exact transfer _ n g D C H (fun b hb => (E.nondeg _ _ hb).resolve_left hD) h2
      (fun j s t v rho => comb (k (pub1.length + (3 + (n + n)) + j)) (view2 n g D C H pub2 s t v rho))
      (fun j => shape_view2 n g D C H pub2 _)
      (fun s t v rho => T + pairSum E.e (fun i => comb (k i) (view2 n g D C H pub2 s t v rho))
        (pub1 ++ keyElems1 (encKey n s t g D C H)))
      h h' hlen hz

theorem fair_mono {Msg : Type} {P Q : Msg → Msg → Prop} (h : ∀ m m', P m m' → Q m m') (A : Adversary E Msg)
    (hA : A.Fair P) : A.Fair Q := by
  induction A with
  | guess => trivial
  | ask q y n ihy ihn => exact ⟨ihy hA.1, ihn hA.2⟩
  | challenge m0 m1 nx ih => exact ⟨h _ _ hA.1, ih hA.2⟩

theorem fair_true {Msg : Type} (A : Adversary E Msg) : A.Fair fun _ _ => True := by
  induction A with
  | guess => trivial
  | ask q y n ihy ihn => exact ⟨ihy, ihn⟩
  | challenge m0 m1 nx ih => exact ⟨trivial, ih⟩

/-- if the bound is not trivial then the field has more than two elements -/
theorem two_ne_zero_of_card {K : ℕ} (hK : 0 < K)
    (hB : 5 * E.fr.p ^ (K - 1) < Fintype.card (Fin K → E.Fr)) : (2 : E.Fr) ≠ 0 := by
  have hp : 5 < E.fr.p := by
    have e : Fintype.card (Fin K → E.Fr) = E.fr.p ^ K := by simp [ZMod.card]
    obtain ⟨j, rfl⟩ : ∃ j, K = j + 1 := ⟨K - 1, by omega⟩
    rw [e, Nat.add_sub_cancel, pow_succ, Nat.mul_comm] at hB
    exact Nat.lt_of_mul_lt_mul_left hB
  intro hc
  have : ((2 : ℕ) : E.Fr) = 0 := by exact_mod_cast hc
  have := (ZMod.natCast_eq_zero_iff 2 E.fr.p).mp this
  have := Nat.le_of_dvd (by omega) this
  omega

end Sec

open Sec in
/-- **C64** Ciphertexts hide their messages, even from somebody who holds the decryption key (but not the
secret key).  For every adaptive generic-group adversary `A` that hands over pairs of messages of equal
length: among the `p^K` choices of the draws made by key generation and encryption, the number of those on
which `A` guesses "right" differs, between the game in which all left messages are encrypted and the game in
which all right messages are encrypted, by at most `5 Q p^(K-1)`, where `Q` is the number of questions
asked.  (So the advantage is at most `5 Q / p`.)  The public parameters `g_i`, `delta_g`, `gamma_g` and further public points are arbitrary; only `delta_g` must
not be the neutral element. -/
theorem C64_ciphertext_secrecy (b n : UInt8) (hn : chunksCount E.fr b = .ok n) (gens : EncryptionGens E)
    (g_i : List E.G1) (D C : E.G1) (hD : D ≠ 0) (pub1 : List E.G1) (pub2 : List E.G2)
    (A : Adversary E (List UInt16)) (hA : A.Fair fun m m' => m.length = m'.length)
    (K : ℕ) (hK : 2 + 3 * n.toNat + A.challenges ≤ K) (side : Bool) :
    rightGuesses K side b gens g_i D C pub1 pub2 A ≤
      rightGuesses K (!side) b gens g_i D C pub1 pub2 A + 5 * A.questions * E.fr.p ^ (K - 1) := by
  unfold rightGuesses
  classical
  by_cases hg : n.toNat ≤ g_i.length
  swap
  · have hbad : ∀ right f, experiment right b gens g_i D C pub1 pub2 A f = false := by
      intro right f
      unfold experiment
      split
      · next h =>
          obtain ⟨n', h1, h2⟩ := keygen_ok_inv h
          rw [hn] at h1
          cases h1
          exact absurd h2 hg
      · rfl
    simp [hbad]
  have hrun : ∀ right (x : Fin K → E.Fr), experiment right b gens g_i D C pub1 pub2 A (tapeOf x) =
      run (fun m => decide (m.length = n.toNat)) (fun h q (x : Fin K → E.Fr) => decide (q.Yes
        (tview1 n.toNat (fun i => g_i.getD i 0) D C gens.H pub1 (tapeOf x) h)
        (tview2 n.toNat (fun i => g_i.getD i 0) D C gens.H pub2 (tapeOf x)))) right A [] x := by
    intro right x
    unfold experiment
    rw [keygen_eq (tape E) (tapeOf x) gens g_i D C hn hg]
    rw [← play_run right n.toNat n.toNat_lt g_i hg D C gens.H pub1 pub2 x A []]
    simp only [draw_tape]
    congr 1
    · rw [after_tape]; rfl
    · simp [tview1, view1, Sec.blocks, tab]
  obtain ⟨d, h0, h1⟩ := run_close (X := Fin K → E.Fr) (fun m => decide (m.length = n.toNat))
    (fun h q (x : Fin K → E.Fr) => decide (q.Yes
        (tview1 n.toNat (fun i => g_i.getD i 0) D C gens.H pub1 (tapeOf x) h)
        (tview2 n.toNat (fun i => g_i.getD i 0) D C gens.H pub2 (tapeOf x))))
    A.challenges (5 * E.fr.p ^ (K - 1))
    (by
      intro h q _ _ hx
      obtain ⟨x0, hx0⟩ := hx
      simp only [decide_eq_true_eq, decide_eq_false_iff_not] at hx0 ⊢
      exact question_sparse (vpolyL_view1 _ _ _ _ _ _ h) (vpolyL_view2 _ _ _ _ _ _) (by omega) q x0 hx0)
    (by
      intro hB h h' q _ _ hl hlen hall x
      have h2 := two_ne_zero_of_card (K := K) (by omega) hB
      simp only [decide_eq_true_eq] at hall ⊢
      refine question_transfer n.toNat _ D C gens.H hD h2 pub1 pub2 q h h' hlen (fun s t v rho r => ?_) _ _ _ _ _
      obtain ⟨x, e0, e1, e2, e3, e4⟩ := reach n.toNat A.challenges K hK s t v r rho
      have := hall x
      unfold tview1 tview2 at this
      rw [view1_congr _ D C gens.H pub1 h e1 e2 (fun c hc => e4 c (by omega)),
        view2_congr _ D C gens.H pub2 _ e1 e2 e3, e0] at this
      exact this)
    A (fair_mono (fun m m' (h : m.length = m'.length) => by simp only [h]) A hA) le_rfl
  simp only [hrun]
  have e : A.questions * (5 * E.fr.p ^ (K - 1)) = 5 * A.questions * E.fr.p ^ (K - 1) := by ring
  rw [e] at h0 h1
  cases side with
  | false => exact close_of_default h0 h1
  | true => exact close_of_default h1 h0

/-- The game is not decided by failures: with parameters that fit, key generation and every encryption of
messages with the right number of chunks succeed, so an adversary that answers "right" at every leaf is counted
on every tape. -/
theorem C64_no_abort (b n : UInt8) (hn : chunksCount E.fr b = .ok n) (gens : EncryptionGens E)
    (g_i : List E.G1) (hgn : n.toNat ≤ g_i.length) (D C : E.G1) (pub1 : List E.G1) (pub2 : List E.G2)
    (A : Adversary E (List UInt16)) (hA : A.AlwaysRight)
    (hF : A.Fair fun m m' => m.length = n.toNat ∧ m'.length = n.toNat) (K : ℕ) (side : Bool) :
    rightGuesses K side b gens g_i D C pub1 pub2 A = E.fr.p ^ K := by
  classical
  have hplay : ∀ (ek : EncryptionKey E) (_ : WellFormed ek) (_ : ek.X.length = n.toNat)
      (A : Adversary E (List UInt16)) (_ : A.AlwaysRight)
      (_ : A.Fair fun m m' => m.length = n.toNat ∧ m'.length = n.toNat) v2 f v1,
      play side ek g_i v2 A f v1 = true := by
    intro ek hw hX A
    induction A with
    | guess b => exact fun h _ v2 f v1 => h
    | ask q yes no ihy ihn =>
      intro h hF v2 f v1
      simp only [play]
      rw [ihy h.1 hF.1, ihn h.2 hF.2, ite_self]
    | challenge m0 m1 next ih =>
      intro h hF v2 f v1
      simp only [play]
      have henc := encryptDecomposed_ok (tape E) f (if side = true then m1 else m0) ek g_i hw
        (by have := n.toNat_lt; omega) (by cases side <;> simp [hF.1.1, hF.1.2, hX]) (by omega)
      rw [henc]
      exact ih h hF.2 _ _ _
  have hall : ∀ f, experiment side b gens g_i D C pub1 pub2 A f = true := by
    intro f
    have hkey := keygen_eq (tape E) f gens g_i D C hn hgn
    unfold experiment
    rw [hkey]
    exact hplay _ (encKey_wf _ _ _ _ _ _ _) (by simp [encKey]) A hA hF _ _ _
  unfold rightGuesses
  simp only [hall]
  simp

/-- An adversary against the parameters of `Fix` that receives the encryption of one of two messages, asks
whether the first chunk minus `1 * g_0` has a certain ratio to `X_r`, and (adaptively) asks for another
encryption: its guesses in the two games differ on at most `10 p^15` of the `p^16` draws. -/
def Fix.adv : Adversary Fix.E (List UInt16) :=
  .challenge Fix.m1 Fix.m2
    (.ask (.target (fun i j => if i = 11 ∧ j = 0 then 1 else if i = 12 ∧ j = 5 then 2 else 0) (0 : Fix.F))
      (.guess true)
      (.challenge Fix.m2 Fix.m2 (.ask (.first fun i => if i = 12 then 1 else 0) (.guess true) (.guess false))))

example : rightGuesses 16 true 16 Fix.gens Fix.gi Fix.D Fix.C [] [] Fix.adv ≤
    rightGuesses 16 false 16 Fix.gens Fix.gi Fix.D Fix.C [] [] Fix.adv + 10 * Fix.E.fr.p ^ 15 := by
  have h := C64_ciphertext_secrecy (E := Fix.E) 16 4 Fix.count Fix.gens Fix.gi Fix.D Fix.C
    (show (17 : Fix.F) ≠ 0 by decide +kernel) [] [] Fix.adv ⟨rfl, trivial, rfl, trivial, trivial⟩ 16
    (by decide) true
  have hq : 5 * Fix.adv.questions = 10 := rfl
  rw [hq, Bool.not_true, show 16 - 1 = 15 from rfl] at h
  generalize Fix.E.fr.p ^ 15 = N at h ⊢
  exact h

example : rightGuesses 16 true 16 Fix.gens Fix.gi Fix.D Fix.C [] [] (.challenge Fix.m1 Fix.m2 (.guess true)) =
    Fix.E.fr.p ^ 16 := by
  have h := C64_no_abort (E := Fix.E) 16 4 Fix.count Fix.gens Fix.gi (by decide) Fix.D Fix.C [] []
    (.challenge Fix.m1 Fix.m2 (.guess true)) rfl ⟨⟨rfl, rfl⟩, trivial⟩ 16 true
  generalize Fix.E.fr.p ^ 16 = N at h ⊢
  exact h

end Verif
