/-
Property C87: non-malleability against adaptive generic-group adversaries.
-/
import Verif.SpecNmAdapt
import Verif.Lemmas.NmAdapt
import Verif.Props.Adaptive

namespace Verif
open Spec Agm

section
variable {E : Engine}

namespace Spec

/-- the ciphertext is the re-randomisation by `u` of the ciphertext of user `j` -/
def Rerandomises (ek : EncryptionKey E) (l : List (Ciphertext E × Proof E)) (j : ℕ) (u : E.Fr)
    (ct : Ciphertext E) : Prop :=
  ∃ ct' proof', l[j]? = some (ct', proof') ∧ ct = rerandomise ek u ct'

end Spec

section
variable (T : FftCfg E.Fr) (b n : UInt8) (hb : Supported b) (hn : chunksCount E.fr b = .ok n)
    (hbm : b.toNat ≤ E.fr.modBits)
    (hal : 64 * E.fr.limbs < E.fr.modBits + b.toNat ∧ chunksNeeded E.fr b.toNat ≤ 255)
    (gens : EncryptionGens E) (hG : gens.G ≠ 0) (hH : gens.H ≠ 0) (d : EvalDomain E.Fr)
    (hd : T.newDomain (n.toNat * constraintsPerValue E.fr.modBits b.toNat + (n.toNat + 1)) = some d)
include hb hn hbm hal hH hd

namespace Nm

/-- what a successful run on a tape publishes -/
theorem run_shown (c0 : BitsizeCheckCircuit E.fr)
    (hc0 : BitsizeCheckCircuit.new (K := E.fr) b none none true = .ok c0) (cs : CS E.Fr)
    (hcs : c0.generateConstraints (CS.new true) = .ok cs) (hI : cs.numInst = n.toNat + 1)
    (hC : cs.cons.length = n.toNat * constraintsPerValue E.fr.modBits b.toNat) (ms : List E.Fr) :
    ∃ (mc : ℕ → ℕ → ℕ) (cs1 : ℕ → CS E.Fr),
    (∀ (f : ℕ → E.Fr), Good d (ptTape n.toNat f) → ∀ chk, ∃ pk sk ek dk f' l f'',
      setupForGroth16 T (tape E) 1 f b gens = .ok ((pk, sk, ek, dk), f') ∧
      encryptAll T chk (tape E) ek pk b ms f' = .ok (l, f'')) ∧
    ∀ chk (f : ℕ → E.Fr) pk sk ek dk f' l f'', setupForGroth16 T (tape E) 1 f b gens = .ok ((pk, sk, ek, dk), f') →
      encryptAll T chk (tape E) ek pk b ms f' = .ok (l, f'') →
      Good d (ptTape n.toNat f) ∧ pk = pkAt cs d gens (ptTape n.toNat f) ∧
      ek = ekAt cs d n.toNat gens (ptTape n.toNat f) ∧
      view1 gens pk ek l = at1 cs d n.toNat gens (ptTape n.toNat f) ms.length mc (rOf n.toNat f)
        (aOf d n.toNat cs1 f) (bOf d n.toNat cs1 f) ∧
      view2 gens pk ek dk l = at2 cs d n.toNat gens (ptTape n.toNat f) ms.length mc (rOf n.toNat f)
        (aOf d n.toNat cs1 f) (bOf d n.toNat cs1 f) := by
  obtain ⟨mc, cs1, hrun⟩ := run_at T b n hb hn hbm hal c0 gens hH hc0 cs hcs hI d hC hd ms
  refine ⟨mc, cs1, ?_, ?_⟩
  · intro f hgood chk
    obtain ⟨sk, f1, f2, h1, h2⟩ := hrun f hgood chk
    exact ⟨_, _, _, _, _, _, _, h1, h2⟩
  · intro chk f pk sk ek dk f' l f'' hset hl
    have hgood : Good d (ptTape n.toNat f) :=
      (Adapt.setup_views T b n hn hbm c0 hc0 cs hcs hI hC gens d hd f pk sk ek dk f' hset).1
    obtain ⟨sk1, f1, f2, h1, h2⟩ := hrun f hgood chk
    rw [hset] at h1
    simp only [Res.ok.injEq, Prod.mk.injEq] at h1
    obtain ⟨⟨rfl, rfl, rfl, rfl⟩, rfl⟩ := h1
    rw [hl] at h2
    simp only [Res.ok.injEq, Prod.mk.injEq] at h2
    obtain ⟨rfl, rfl⟩ := h2
    exact ⟨hgood, rfl, rfl, rfl, rfl⟩

include hG in
/-- An adaptive adversary follows the same strategy on all but a few draws, whatever the honest messages are. -/
theorem follow (q : ℕ) (A : Prover E (Strategy E.Fr)) :
    ∃ S : Strategy E.Fr, ∀ ms : List E.Fr, ms.length = q →
      ∃ Bad : Finset (Fin (7 + 3 * n.toNat + 3 * q) → E.Fr),
        Bad.card ≤ A.questions * (3 * d.size + 6) * E.fr.p ^ (6 + 3 * n.toNat + 3 * q) ∧
        ∀ g, g ∉ Bad → ∀ chk pk sk ek dk f' l f'',
          setupForGroth16 T (tape E) 1 (tapeOf g) b gens = .ok ((pk, sk, ek, dk), f') →
          encryptAll T chk (tape E) ek pk b ms f' = .ok (l, f'') →
          A.choice (view1 gens pk ek l) (view2 gens pk ek dk l) = S := by
  obtain ⟨c0, cs, hc0, hcs, hI, hC, -⟩ := setup_shape hn hbm
  have h2 : (2 : E.Fr) ≠ 0 := by
    have h5 := five_le (E := E) hb hbm
    intro hc
    have : ((2 : ℕ) : ZMod E.fr.p) = 0 := by exact_mod_cast hc
    have := Nat.le_of_dvd (by omega) ((ZMod.natCast_eq_zero_iff 2 E.fr.p).mp this)
    omega
  choose mc cs1 hex hshown using run_shown T b n hb hn hbm hal gens hH d hd c0 hc0 cs hcs hI hC
  let Y : Question E → Prop := fun Q => ∀ P, Good d P → ∀ r a b',
    Q.Yes (at1 cs d n.toNat gens P q (mc (List.replicate q 0)) r a b')
      (at2 cs d n.toNat gens P q (mc (List.replicate q 0)) r a b')
  refine ⟨Adapt.generic Y A, fun ms hms => ?_⟩
  have hY : Y = fun Q => ∀ g : Fin (7 + 3 * n.toNat + 3 * q) → E.Fr, GoodDraw d _ g →
      Q.Yes (draw1 cs d n.toNat gens q (mc ms) (cs1 ms) g) (draw2 cs d n.toNat gens q (mc ms) (cs1 ms) g) := by
    funext Q
    refine propext (Iff.trans ?_ (all_draws cs d n.toNat gens q (mc ms) (cs1 ms) (7 + 3 * n.toNat + 3 * q) le_rfl
      (fun v1 v2 => Q.Yes v1 v2)).symm)
    exact ⟨transfer cs d n.toNat gens hG h2 Q q _ _, transfer cs d n.toNat gens hG h2 Q q _ _⟩
  obtain ⟨Bad, hBad, hch⟩ := Adapt.choice_generic
    (views cs d n.toNat gens hI q (mc ms) (cs1 ms) (7 + 3 * n.toNat + 3 * q)) hG hH A
  refine ⟨Bad, ?_, ?_⟩
  · rw [show 7 + 3 * n.toNat + 3 * q - 1 = 6 + 3 * n.toNat + 3 * q by omega,
      show 2 * d.size + 4 + (d.size + 2) = 3 * d.size + 6 by omega, ← Nat.mul_assoc] at hBad
    exact hBad
  · intro g hg chk pk sk ek dk f' l f'' hset hl
    obtain ⟨hgood, -, -, e1, e2⟩ := hshown ms chk _ _ _ _ _ _ _ _ hset hl
    rw [e1, e2, hY, hms]
    exact hch g hgood hg

end Nm

include hG in
/-- **C87** An adversary with fixed coefficients that is accepted on more than a `(3 size + 6) / p` fraction of the
draws when the honest messages are `ms`, is accepted in every run, whatever the honest messages are. -/
theorem C87_accepted_for_all_messages (chk : Bool) (ms : List E.Fr) (S : Strategy E.Fr)
    (hmany : (3 * d.size + 6) * E.fr.p ^ (6 + 3 * n.toNat + 3 * ms.length) <
      {g : Fin (7 + 3 * n.toNat + 3 * ms.length) → E.Fr | NmAccepts T chk b gens ms S (tapeOf g)}.ncard)
    (ms' : List E.Fr) (hlen : ms'.length = ms.length) (chk' : Bool) (f : ℕ → E.Fr) (pk : ProvingKey E)
    (sk : SecretKey E) (ek : EncryptionKey E) (dk : DecryptionKey E) (f' : ℕ → E.Fr)
    (l : List (Ciphertext E × Proof E)) (f'' : ℕ → E.Fr)
    (hset : setupForGroth16 T (tape E) 1 f b gens = .ok ((pk, sk, ek, dk), f'))
    (hl : encryptAll T chk' (tape E) ek pk b ms' f' = .ok (l, f'')) :
    Accepted gens pk ek (S.cipher (view1 gens pk ek l)) (S.proof (view1 gens pk ek l) (view2 gens pk ek dk l)) := by
  obtain ⟨c0, cs, hc0, hcs, hI, hC, -⟩ := setup_shape hn hbm
  have h2 : (2 : E.Fr) ≠ 0 := by
    have h5 := Nm.five_le (E := E) hb hbm
    intro hc
    have : ((2 : ℕ) : ZMod E.fr.p) = 0 := by exact_mod_cast hc
    have := Nat.le_of_dvd (by omega) ((ZMod.natCast_eq_zero_iff 2 E.fr.p).mp this)
    omega
  choose mc cs1 hex hshown using Nm.run_shown T b n hb hn hbm hal gens hH d hd c0 hc0 cs hcs hI hC
  obtain ⟨hgood, hpk, hek, e1, e2⟩ := hshown ms' chk' _ _ _ _ _ _ _ _ hset hl
  have hall : ∀ P, Nm.Good d P → ∀ r a b', Accepted gens (Nm.pkAt cs d gens P) (Nm.ekAt cs d n.toNat gens P)
      (S.cipher (Nm.at1 cs d n.toNat gens P ms.length (mc ms) r a b'))
      (S.proof (Nm.at1 cs d n.toNat gens P ms.length (mc ms) r a b')
        (Nm.at2 cs d n.toNat gens P ms.length (mc ms) r a b')) := by
    intro P hP r a b'
    obtain ⟨q1, q2, hq⟩ := Nm.accept_questions cs d n.toNat gens hI n.toNat_lt S ms.length
    rw [hq]
    refine (Nm.all_draws cs d n.toNat gens ms.length (mc ms) (cs1 ms) _ le_rfl
      (fun v1 v2 => S.len = n.toNat ∧ q1.Yes v1 v2 ∧ q2.Yes v1 v2)).mp ?_ P hP r a b'
    intro g hg
    obtain ⟨pk1, sk1, ek1, dk1, f1, l1, f2, hset1, hl1⟩ := hex ms (tapeOf g) hg chk
    obtain ⟨-, hpk1, hek1, e3, e4⟩ := hshown ms chk _ _ _ _ _ _ _ _ hset1 hl1
    have := C83_all_or_few T b n hb hn hbm hal gens hG hH d hd chk ms S hmany chk _ _ _ _ _ _ _ _ hset1 hl1
    rw [e3, e4, hpk1, hek1] at this
    exact (hq _ _ _ _ _).mp this
  have := Nm.accept_any cs d n.toNat gens hI n.toNat_lt hG h2 ⟨_, hgood⟩ S ms.length (mc ms) (mc ms') hall _ hgood
    (Nm.rOf n.toNat f) (Nm.aOf d n.toNat (cs1 ms') f) (Nm.bOf d n.toNat (cs1 ms') f)
  rw [hlen] at e1 e2
  rw [e1, e2, hpk, hek]
  exact this

namespace Nm

include hG in
/-- a prover that is accepted on many draws: the strategy it follows is accepted on many -/
theorem follow_many (chk : Bool) (q : ℕ) (A : Prover E (Strategy E.Fr)) (S : Strategy E.Fr) (ms : List E.Fr)
    (hms : ms.length = q) (Bad : Finset (Fin (7 + 3 * n.toNat + 3 * q) → E.Fr))
    (hBad : Bad.card ≤ A.questions * (3 * d.size + 6) * E.fr.p ^ (6 + 3 * n.toNat + 3 * q))
    (hS : ∀ g, g ∉ Bad → ∀ chk pk sk ek dk f' l f'',
          setupForGroth16 T (tape E) 1 (tapeOf g) b gens = .ok ((pk, sk, ek, dk), f') →
          encryptAll T chk (tape E) ek pk b ms f' = .ok (l, f'') →
          A.choice (view1 gens pk ek l) (view2 gens pk ek dk l) = S)
    (hmany : (A.questions + 1) * (3 * d.size + 6) * E.fr.p ^ (6 + 3 * n.toNat + 3 * q) <
      {g : Fin (7 + 3 * n.toNat + 3 * q) → E.Fr | NmOutcome T chk b gens ms A (tapeOf g)
        (fun pk _ ek _ _ ct proof => Accepted gens pk ek ct proof)}.ncard)
    (ms' : List E.Fr) (hms' : ms'.length = q) (f : ℕ → E.Fr) (pk : ProvingKey E)
    (sk : SecretKey E) (ek : EncryptionKey E) (dk : DecryptionKey E) (f' : ℕ → E.Fr)
    (l : List (Ciphertext E × Proof E)) (f'' : ℕ → E.Fr)
    (hset : setupForGroth16 T (tape E) 1 f b gens = .ok ((pk, sk, ek, dk), f'))
    (hl : encryptAll T chk (tape E) ek pk b ms' f' = .ok (l, f'')) :
    (3 * d.size + 6 < E.fr.p) ∧
    Accepted gens pk ek (S.cipher (view1 gens pk ek l)) (S.proof (view1 gens pk ek l) (view2 gens pk ek dk l)) := by
  subst hms
  have hbig : (3 * d.size + 6) * E.fr.p ^ (6 + 3 * n.toNat + 3 * ms.length) <
      {g : Fin (7 + 3 * n.toNat + 3 * ms.length) → E.Fr | NmAccepts T chk b gens ms S (tapeOf g)}.ncard := by
    have hsub : {g : Fin (7 + 3 * n.toNat + 3 * ms.length) → E.Fr | NmOutcome T chk b gens ms A (tapeOf g)
          (fun pk _ ek _ _ ct proof => Accepted gens pk ek ct proof)} ⊆
        {g : Fin (7 + 3 * n.toNat + 3 * ms.length) → E.Fr | NmAccepts T chk b gens ms S (tapeOf g)} ∪ (Bad : Set _) := by
      rintro g ⟨pk, sk, ek, dk, f', l, f'', hset, hl, hacc⟩
      by_cases hg : g ∈ Bad
      · exact Or.inr hg
      · refine Or.inl ⟨pk, sk, ek, dk, f', l, f'', hset, hl, ?_⟩
        unfold Prover.cipher Prover.proof at hacc
        rw [hS g hg chk pk sk ek dk f' l f'' hset hl] at hacc
        exact hacc
    have h1 := (Set.ncard_le_ncard hsub (Set.toFinite _)).trans (Set.ncard_union_le _ _)
    rw [Set.ncard_coe_finset] at h1
    rw [Nat.add_mul, Nat.add_mul, Nat.one_mul] at hmany
    omega
  refine ⟨?_, C87_accepted_for_all_messages T b n hb hn hbm hal gens hG hH d hd chk ms S hbig ms' hms' chk f pk sk ek
    dk f' l f'' hset hl⟩
  exact Nm.size_of_many (K := 7 + 3 * n.toNat + 3 * ms.length) (by omega)
      (by rw [show 7 + 3 * n.toNat + 3 * ms.length - 1 = 6 + 3 * n.toNat + 3 * ms.length by omega]; exact hbig)
      (Nm.ncard_draws _ _)

end Nm

include hG in
/-- **C87** Adaptive non-malleability.  An adversary sees everything public and the ciphertexts and proofs of `q`
honest users, asks up to `Q` questions about all these group elements, and chooses the coefficients of its own
ciphertext and proof depending on the answers.  If for some honest messages it is accepted on more than a
`(Q + 1) (3 size + 6) / p` fraction of the draws (of the setup and the honest users), then either there are chunks
below `2^b` and a scalar `r` such that, whatever the honest messages, it encrypts these chunks with randomness `r`; or there
are a user and a scalar `u` such that, whatever the honest messages, it re-randomises this user's ciphertext by `u`: in both
cases on all but a `Q (3 size + 6) / p` fraction of the draws. -/
theorem C87_adaptive_non_malleable (chk : Bool) (ms0 : List E.Fr) (A : Prover E (Strategy E.Fr))
    (hmany : (A.questions + 1) * (3 * d.size + 6) * E.fr.p ^ (6 + 3 * n.toNat + 3 * ms0.length) <
      {g : Fin (7 + 3 * n.toNat + 3 * ms0.length) → E.Fr | NmOutcome T chk b gens ms0 A (tapeOf g)
        (fun pk _ ek _ _ ct proof => Accepted gens pk ek ct proof)}.ncard) :
    (∃ (m : ℕ → ℕ) (r : E.Fr), (∀ i < n.toNat, m i < 2 ^ b.toNat ∧ m i < E.fr.p) ∧
      ∀ (chk' : Bool) (ms : List E.Fr), ms.length = ms0.length →
        {g : Fin (7 + 3 * n.toNat + 3 * ms0.length) → E.Fr | NmOutcome T chk' b gens ms A (tapeOf g)
          (fun pk _ ek _ _ ct _ => ¬ Encrypts pk ek m r ct)}.ncard ≤
        A.questions * (3 * d.size + 6) * E.fr.p ^ (6 + 3 * n.toNat + 3 * ms0.length)) ∨
    ∃ (j : ℕ) (u : E.Fr), j < ms0.length ∧
      ∀ (chk' : Bool) (ms : List E.Fr), ms.length = ms0.length →
        {g : Fin (7 + 3 * n.toNat + 3 * ms0.length) → E.Fr | NmOutcome T chk' b gens ms A (tapeOf g)
          (fun _ _ ek _ l ct _ => ¬ Rerandomises ek l j u ct)}.ncard ≤
        A.questions * (3 * d.size + 6) * E.fr.p ^ (6 + 3 * n.toNat + 3 * ms0.length) := by
  obtain ⟨S, hS⟩ := Nm.follow T b n hb hn hbm hal gens hG hH d hd ms0.length A
  obtain ⟨Bad0, hBad0, hS0⟩ := hS ms0 rfl
  have hacc := fun ms' hms' => Nm.follow_many T b n hb hn hbm hal gens hG hH d hd chk ms0.length A S ms0 rfl Bad0 hBad0
    hS0 hmany ms' hms'
  -- there is a run
  have hne : {g : Fin (7 + 3 * n.toNat + 3 * ms0.length) → E.Fr | NmOutcome T chk b gens ms0 A (tapeOf g)
        (fun pk _ ek _ _ ct proof => Accepted gens pk ek ct proof)}.Nonempty :=
    (Set.ncard_pos (Set.toFinite _)).mp (by omega)
  obtain ⟨g0, pk0, sk0, ek0, dk0, f0, l0, f1, hset0, hl0, -⟩ := hne
  have hp := (hacc ms0 rfl _ _ _ _ _ _ _ _ hset0 hl0).1
  have hfew : ∀ (chk' : Bool) (ms : List E.Fr), ms.length = ms0.length →
      ∀ (Q : ProvingKey E → EncryptionKey E → List (Ciphertext E × Proof E) → Ciphertext E → Prop),
      (∀ (f : ℕ → E.Fr) pk sk ek dk f' l f'', setupForGroth16 T (tape E) 1 f b gens = .ok ((pk, sk, ek, dk), f') →
        encryptAll T chk' (tape E) ek pk b ms f' = .ok (l, f'') → Q pk ek l (S.cipher (view1 gens pk ek l))) →
      {g : Fin (7 + 3 * n.toNat + 3 * ms0.length) → E.Fr | NmOutcome T chk' b gens ms A (tapeOf g)
          (fun pk _ ek _ l ct _ => ¬ Q pk ek l ct)}.ncard ≤
        A.questions * (3 * d.size + 6) * E.fr.p ^ (6 + 3 * n.toNat + 3 * ms0.length) := by
    intro chk' ms hms Q hQ
    obtain ⟨Bad, hBad, hch⟩ := hS ms hms
    refine le_trans ?_ hBad
    rw [← Set.ncard_coe_finset]
    refine Set.ncard_le_ncard ?_ (Set.toFinite _)
    rintro g ⟨pk, sk, ek, dk, f', l, f'', hset, hl, hno⟩
    by_contra hg
    refine hno ?_
    unfold Prover.cipher
    rw [hch g hg chk' pk sk ek dk f' l f'' hset hl]
    exact hQ _ _ _ _ _ _ _ _ hset hl
  rcases C81_unrelated T b n hb hn hbm hal gens hG hH d hd (by omega) chk ms0.length S (fun ms' hms' f pk sk ek dk f' l
    f'' h1 h2 => (hacc ms' hms' f pk sk ek dk f' l f'' h1 h2).2) with ⟨m, r, hm, h⟩ | ⟨j, u, hj, h⟩
  · refine Or.inl ⟨m, r, hm, fun chk' ms hms => ?_⟩
    exact hfew chk' ms hms (fun pk ek _ ct => Encrypts pk ek m r ct) fun f pk sk ek dk f' l f'' h1 h2 =>
      h (tape E) 1 f f' pk sk ek dk h1 ms hms chk' (tape E) f' f'' l h2
  · refine Or.inr ⟨j, u, hj, fun chk' ms hms => ?_⟩
    exact hfew chk' ms hms (fun _ ek l ct => Rerandomises ek l j u ct) fun f pk sk ek dk f' l f'' h1 h2 =>
      h (tape E) 1 f f' pk sk ek dk h1 ms hms chk' (tape E) f' f'' l h2

include hG in
/-- **C87** The bound, for every adaptive adversary, whatever its success probability: either there are chunks below
`2^b` and a scalar, or a user and a scalar, such that, whatever the honest messages are, on at most a
`(Q + 1) (3 size + 6) / p` fraction of the draws does it output an accepted ciphertext that is not the SAVER encryption of these
chunks, or not the re-randomisation of the ciphertext of this user. -/
theorem C87_adaptive_bound (chk : Bool) (q : ℕ) (A : Prover E (Strategy E.Fr)) :
    (∃ (m : ℕ → ℕ) (r : E.Fr), (∀ i < n.toNat, m i < 2 ^ b.toNat ∧ m i < E.fr.p) ∧
      ∀ (ms : List E.Fr), ms.length = q →
        {g : Fin (7 + 3 * n.toNat + 3 * q) → E.Fr | NmOutcome T chk b gens ms A (tapeOf g)
          (fun pk _ ek _ _ ct proof => Accepted gens pk ek ct proof ∧ ¬ Encrypts pk ek m r ct)}.ncard ≤
        (A.questions + 1) * (3 * d.size + 6) * E.fr.p ^ (6 + 3 * n.toNat + 3 * q)) ∨
    ∃ (j : ℕ) (u : E.Fr), j < q ∧
      ∀ (ms : List E.Fr), ms.length = q →
        {g : Fin (7 + 3 * n.toNat + 3 * q) → E.Fr | NmOutcome T chk b gens ms A (tapeOf g)
          (fun pk _ ek _ l ct proof => Accepted gens pk ek ct proof ∧ ¬ Rerandomises ek l j u ct)}.ncard ≤
        (A.questions + 1) * (3 * d.size + 6) * E.fr.p ^ (6 + 3 * n.toNat + 3 * q) := by
  have hQ : A.questions * (3 * d.size + 6) * E.fr.p ^ (6 + 3 * n.toNat + 3 * q) ≤
      (A.questions + 1) * (3 * d.size + 6) * E.fr.p ^ (6 + 3 * n.toNat + 3 * q) :=
    Nat.mul_le_mul_right _ (Nat.mul_le_mul_right _ (by omega))
  by_cases hmany : ∃ ms0 : List E.Fr, ms0.length = q ∧
      (A.questions + 1) * (3 * d.size + 6) * E.fr.p ^ (6 + 3 * n.toNat + 3 * q) <
      {g : Fin (7 + 3 * n.toNat + 3 * q) → E.Fr | NmOutcome T chk b gens ms0 A (tapeOf g)
        (fun pk _ ek _ _ ct proof => Accepted gens pk ek ct proof)}.ncard
  · obtain ⟨ms0, rfl, hmany⟩ := hmany
    rcases C87_adaptive_non_malleable T b n hb hn hbm hal gens hG hH d hd chk ms0 A hmany with
      ⟨m, r, hm, h⟩ | ⟨j, u, hj, h⟩
    · refine Or.inl ⟨m, r, hm, fun ms hms => le_trans (Set.ncard_le_ncard ?_ (Set.toFinite _)) ((h chk ms hms).trans hQ)⟩
      rintro g ⟨pk, sk, ek, dk, f', l, f'', hset, hl, -, hno⟩
      exact ⟨pk, sk, ek, dk, f', l, f'', hset, hl, hno⟩
    · refine Or.inr ⟨j, u, hj, fun ms hms => le_trans (Set.ncard_le_ncard ?_ (Set.toFinite _)) ((h chk ms hms).trans hQ)⟩
      rintro g ⟨pk, sk, ek, dk, f', l, f'', hset, hl, -, hno⟩
      exact ⟨pk, sk, ek, dk, f', l, f'', hset, hl, hno⟩
  · refine Or.inl ⟨fun _ => 0, 0, fun i _ => ⟨by positivity, E.fr.prime.pos⟩, fun ms hms => ?_⟩
    refine le_trans (Set.ncard_le_ncard ?_ (Set.toFinite _)) (not_lt.mp fun hlt => hmany ⟨ms, hms, hlt⟩)
    rintro g ⟨pk, sk, ek, dk, f', l, f'', hset, hl, h, -⟩
    exact ⟨pk, sk, ek, dk, f', l, f'', hset, hl, h⟩

include hG in
/-- **C87** The plaintext version: the adversary's ciphertext decrypts to chunks that do not depend on the honest messages, or to
the message of one user fixed in advance, on all but a `Q (3 size + 6) / p` fraction of the draws (among those with which decryption works
at all: the bases of the chunks and the elements of the decryption key are not zero). -/
theorem C87_adaptive_plaintext (chk : Bool) (ms0 : List E.Fr) (A : Prover E (Strategy E.Fr))
    (hmany : (A.questions + 1) * (3 * d.size + 6) * E.fr.p ^ (6 + 3 * n.toNat + 3 * ms0.length) <
      {g : Fin (7 + 3 * n.toNat + 3 * ms0.length) → E.Fr | NmOutcome T chk b gens ms0 A (tapeOf g)
        (fun pk _ ek _ _ ct proof => Accepted gens pk ek ct proof)}.ncard) :
    (∃ chunks : List UInt16, chunks.length = n.toNat ∧
      ∀ (chk' : Bool) (ms : List E.Fr), ms.length = ms0.length →
        {g : Fin (7 + 3 * n.toNat + 3 * ms0.length) → E.Fr | NmOutcome T chk' b gens ms A (tapeOf g)
          (fun pk sk _ dk _ ct _ => ∃ g_i, getGsForEncryption pk.pk.vk = .ok g_i ∧ (∀ g ∈ g_i, g ≠ 0) ∧
            (∀ V ∈ dk.V_2, V ≠ 0) ∧ ∃ chk'', ¬ ∃ nu,
              decryptToChunks chk'' ct.X_r ct.enc_chunks sk dk.prepare g_i b = .ok (chunks, nu))}.ncard ≤
        A.questions * (3 * d.size + 6) * E.fr.p ^ (6 + 3 * n.toNat + 3 * ms0.length)) ∨
    ∃ j < ms0.length, ∀ (chk' : Bool) (ms : List E.Fr), ms.length = ms0.length →
        {g : Fin (7 + 3 * n.toNat + 3 * ms0.length) → E.Fr | NmOutcome T chk' b gens ms A (tapeOf g)
          (fun pk sk _ dk _ ct _ => ∃ g_i, getGsForEncryption pk.pk.vk = .ok g_i ∧ (∀ g ∈ g_i, g ≠ 0) ∧
            (∀ V ∈ dk.V_2, V ≠ 0) ∧ ∃ chk'', ¬ ∃ m nu, ms[j]? = some m ∧
              ct.decrypt chk'' sk dk.prepare g_i b = .ok (m, nu))}.ncard ≤
        A.questions * (3 * d.size + 6) * E.fr.p ^ (6 + 3 * n.toNat + 3 * ms0.length) := by
  obtain ⟨S, hS⟩ := Nm.follow T b n hb hn hbm hal gens hG hH d hd ms0.length A
  obtain ⟨Bad0, hBad0, hS0⟩ := hS ms0 rfl
  have hacc := fun ms' hms' => Nm.follow_many T b n hb hn hbm hal gens hG hH d hd chk ms0.length A S ms0 rfl Bad0 hBad0
    hS0 hmany ms' hms'
  have hne : {g : Fin (7 + 3 * n.toNat + 3 * ms0.length) → E.Fr | NmOutcome T chk b gens ms0 A (tapeOf g)
        (fun pk _ ek _ _ ct proof => Accepted gens pk ek ct proof)}.Nonempty :=
    (Set.ncard_pos (Set.toFinite _)).mp (by omega)
  obtain ⟨g0, pk0, sk0, ek0, dk0, f0, l0, f1, hset0, hl0, -⟩ := hne
  have hp := (hacc ms0 rfl _ _ _ _ _ _ _ _ hset0 hl0).1
  rcases C81_plaintext T b n hb hn hbm hal gens hG hH d hd (by omega) chk ms0.length S (fun ms' hms' f pk sk ek dk f' l
    f'' h1 h2 => (hacc ms' hms' f pk sk ek dk f' l f'' h1 h2).2) with ⟨chunks, hm, h⟩ | ⟨j, hj, h⟩
  · refine Or.inl ⟨chunks, hm, fun chk' ms hms => ?_⟩
    obtain ⟨Bad, hBad, hch⟩ := hS ms hms
    refine le_trans ?_ hBad
    rw [← Set.ncard_coe_finset]
    refine Set.ncard_le_ncard ?_ (Set.toFinite _)
    rintro g ⟨pk, sk, ek, dk, f', l, f'', hset, hl, g_i, hg_i, hg0, hV, chk'', hno⟩
    by_contra hg
    refine hno ?_
    unfold Prover.cipher
    rw [hch g hg chk' pk sk ek dk f' l f'' hset hl]
    exact h (tape E) 1 (tapeOf g) f' pk sk ek dk g_i hset hg_i hg0 hV ms hms chk' (tape E) f' f'' l hl chk''
  · refine Or.inr ⟨j, hj, fun chk' ms hms => ?_⟩
    obtain ⟨Bad, hBad, hch⟩ := hS ms hms
    refine le_trans ?_ hBad
    rw [← Set.ncard_coe_finset]
    refine Set.ncard_le_ncard ?_ (Set.toFinite _)
    rintro g ⟨pk, sk, ek, dk, f', l, f'', hset, hl, g_i, hg_i, hg0, hV, chk'', hno⟩
    by_contra hg
    refine hno ?_
    unfold Prover.cipher
    rw [hch g hg chk' pk sk ek dk f' l f'' hset hl]
    exact h (tape E) 1 (tapeOf g) f' pk sk ek dk g_i hset hg_i hg0 hV ms hms chk' (tape E) f' f'' l hl chk''

include hG in
/-- **C87** Both cases occur for adversaries that really are adaptive: one that asks a question and then
re-randomises the ciphertext of user `j` by `u` or by `u'`, depending on the answer, is accepted on all but a `(size + 2) / p` fraction of the draws. -/
theorem C87_adaptive_rerandomiser (hp : d.size < E.fr.p) (chk : Bool) (ms : List E.Fr) (Q : Question E) (j : ℕ)
    (hj : j < ms.length) (u u' : E.Fr) :
    ∃ S S' : Strategy E.Fr,
      (∀ f, ¬ NmOutcome T chk b gens ms (.ask Q (.output S) (.output S')) f
        (fun _ _ ek _ l ct _ => ¬ Rerandomises ek l j u ct ∧ ¬ Rerandomises ek l j u' ct)) ∧
      E.fr.p ^ (7 + 3 * n.toNat + 3 * ms.length) ≤
        {g : Fin (7 + 3 * n.toNat + 3 * ms.length) → E.Fr | NmOutcome T chk b gens ms (.ask Q (.output S) (.output S'))
          (tapeOf g) (fun pk _ ek _ _ ct proof => Accepted gens pk ek ct proof)}.ncard +
        (d.size + 2) * E.fr.p ^ (6 + 3 * n.toNat + 3 * ms.length) := by
  obtain ⟨S, hS⟩ := C81_rerandomiser T b n hb hn hbm hal gens hH d hd ms j hj u 1 0 one_ne_zero
  obtain ⟨S', hS'⟩ := C81_rerandomiser T b n hb hn hbm hal gens hH d hd ms j hj u' 1 0 one_ne_zero
  have hfr := C83_fraction T b n hb hn hbm hal gens hG hH d hd hp chk ms S
    (fun f pk sk ek dk f' l f'' h1 h2 => (hS (tape E) 1 f f' pk sk ek dk h1 chk (tape E) f' f'' l h2).2)
  refine ⟨S, S', ?_, hfr.trans (Nat.add_le_add_right (Set.ncard_le_ncard ?_ (Set.toFinite _)) _)⟩
  · rintro f ⟨pk, sk, ek, dk, f', l, f'', hset, hl, h1, h2⟩
    unfold Prover.cipher at h1 h2
    simp only [Prover.choice] at h1 h2
    split at h1
    · obtain ⟨⟨ct, proof, e1, e2, -⟩, -⟩ := hS (tape E) 1 f f' pk sk ek dk hset chk (tape E) f' f'' l hl
      exact h1 ⟨ct, proof, e1, e2⟩
    · next hq =>
      rw [if_neg hq] at h2
      obtain ⟨⟨ct, proof, e1, e2, -⟩, -⟩ := hS' (tape E) 1 f f' pk sk ek dk hset chk (tape E) f' f'' l hl
      exact h2 ⟨ct, proof, e1, e2⟩
  · rintro g ⟨pk, sk, ek, dk, f', l, f'', hset, hl, -⟩
    refine ⟨pk, sk, ek, dk, f', l, f'', hset, hl, ?_⟩
    unfold Accepted Prover.cipher Prover.proof
    simp only [Prover.choice]
    split
    · exact (hS (tape E) 1 _ f' pk sk ek dk hset chk (tape E) f' f'' l hl).2
    · exact (hS' (tape E) 1 _ f' pk sk ek dk hset chk (tape E) f' f'' l hl).2

end
end

theorem Nm.many_of_fraction_ask {N p c k l L : ℕ} (hl : l = L) (hbig : 7 * N + 15 ≤ p)
    (h : p ^ (7 + k + 3 * l) ≤ c + (N + 2) * p ^ (6 + k + 3 * l)) :
    (1 + 1) * (3 * N + 6) * p ^ (6 + k + 3 * L) < c := by
  subst hl
  rw [show 7 + k + 3 * l = 6 + k + 3 * l + 1 by omega] at h
  have hpos : 0 < p ^ (6 + k + 3 * l) := Nat.pow_pos (by omega)
  rw [pow_succ] at h
  generalize p ^ (6 + k + 3 * l) = q at h hpos ⊢
  have h2 := Nat.mul_le_mul_left q hbig
  nlinarith

/-- The hypothesis of `C87_adaptive_non_malleable` is met by the concrete instance: two users encrypt 11 and 22, and
the adversary asks whether the first element it sees is zero, and re-randomises the ciphertext of the second user by
5 or by 6. -/
example : ∃ A : Prover Fix.E (Strategy Fix.E.Fr), A.questions = 1 ∧
    (A.questions + 1) * (3 * Fix.dom8.size + 6) * Fix.E.fr.p ^ (6 + 3 * (8 : UInt8).toNat + 3 * 2) <
    {g : Fin (7 + 3 * (8 : UInt8).toNat + 3 * 2) → Fix.E.Fr | NmOutcome goldFft true 8 Fix.gens
      [(show Fix.E.Fr from (11 : Fix.F)), (show Fix.E.Fr from (22 : Fix.F))] A (tapeOf g)
      (fun pk _ ek _ _ ct proof => Accepted Fix.gens pk ek ct proof)}.ncard := by
  have hbig : 7 * Fix.dom8.size + 15 ≤ Fix.E.fr.p := by
    rw [show Fix.dom8.size = 2 ^ 10 from rfl]
    exact (by decide : 7 * 2 ^ 10 + 15 ≤ goldR)
  obtain ⟨S, S', -, h⟩ := C87_adaptive_rerandomiser (E := Fix.E) goldFft 8 8 (Or.inr (Or.inl rfl)) Fix.count8 Fix.bits8
    Fix.aligned8 Fix.gens Fix.gens_ne.1 Fix.gens_ne.2 Fix.dom8 Fix.dom8_count (by omega) true
    [(show Fix.E.Fr from (11 : Fix.F)), (show Fix.E.Fr from (22 : Fix.F))]
    (.first fun i => if i = 0 then 1 else 0) 1 (by decide) (show Fix.E.Fr from (5 : Fix.F))
    (show Fix.E.Fr from (6 : Fix.F))
  generalize hA : (Prover.ask (.first fun i => if i = 0 then 1 else 0) (.output S) (.output S') :
    Prover Fix.E (Strategy Fix.E.Fr)) = A at h
  have hq : A.questions = 1 := by subst hA; rfl
  refine ⟨A, hq, ?_⟩
  rw [hq]
  change _ ≤ Set.ncard {g : Fin (7 + 3 * (8 : UInt8).toNat + 3 * 2) → Fix.E.Fr | NmOutcome goldFft true 8 Fix.gens
      [(show Fix.E.Fr from (11 : Fix.F)), (show Fix.E.Fr from (22 : Fix.F))] A (tapeOf g)
      (fun pk _ ek _ _ ct proof => Accepted Fix.gens pk ek ct proof)} + _ at h
  exact Nm.many_of_fraction_ask (N := Fix.dom8.size) (p := Fix.E.fr.p) (k := 3 * (8 : UInt8).toNat)
    (l := List.length [(show Fix.E.Fr from (11 : Fix.F)), (show Fix.E.Fr from (22 : Fix.F))]) (L := 2) rfl hbig h

end Verif
