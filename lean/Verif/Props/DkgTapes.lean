/-
Property C99: the guarantees for distributed keys with any number of candidates and separate random tapes.
-/
import Verif.SpecDkgTapes
import Verif.Props.Delivery
import Verif.Props.Candidates

namespace Verif
open Spec Agm

section
variable {E : Engine}
variable (T : FftCfg E.Fr) (b n : UInt8) (hn : chunksCount E.fr b = .ok n)
    (hbm : b.toNat ≤ E.fr.modBits) (gens : EncryptionGens E) (d : EvalDomain E.Fr)
    (hd : T.newDomain (n.toNat * constraintsPerValue E.fr.modBits b.toNat + (n.toNat + 1)) = some d)

namespace Tapes

include hn hbm hd in
/-- if the first candidate is good, only five scalars are read -/
theorem srs_local (c0 : BitsizeCheckCircuit E.fr)
    (hc0 : BitsizeCheckCircuit.new (K := E.fr) b none none true = .ok c0) (F : ℕ) (hF : 0 < F) (f : ℕ → E.Fr)
    (h4 : d.vanishing (f 4) ≠ 0) : ∃ cs, c0.generateConstraints (CS.new true) = .ok cs ∧
    generateSrs T (tape E) F f c0.generateConstraints gens =
      if f 2 = 0 ∨ f 3 = 0 then .err .unexpectedIdentity
      else .ok (srsKey cs d (f 4) (f 0) (f 1) (f 2) (f 3) gens.G gens.H, after (tape E) f 5) := by
  obtain ⟨c0', cs, hc0', hcs, hI, hC, -⟩ := setup_shape (E := E) hn hbm
  rw [hc0] at hc0'
  cases hc0'
  refine ⟨cs, hcs, ?_⟩
  have hb0 : b ≠ 0 := by
    rintro rfl
    simp [chunksCount] at hn
  split
  · next h0 =>
    obtain ⟨c0', N, hc0', hN, -, hsome⟩ := C49_srs_cases T (tape E) F f b hb0 hbm gens
    rw [hc0] at hc0'
    cases hc0'
    obtain ⟨e1, e2, e3, e4, -⟩ := new_ok hc0
    have hn0 : c0.num_values = n := by
      have := e4 rfl
      rw [hn] at this
      exact (Res.ok.inj this).symm
    have hnum : numValues c0 = n.toNat := by simp [numValues, e2, hn0]
    rw [hnum] at hN
    obtain ⟨hz, -⟩ := hsome d (by rw [hN]; exact hd) 0 hF (by rw [draw_tape]; exact h4) (fun j hj => by omega)
    simp only [draw_tape] at hz
    exact hz h0
  · next h0 =>
    push Not at h0
    have h := srs_run T (tape E) F hF f b n hn hbm c0 hc0 cs hcs gens d hd (by rw [draw_tape]; exact h0.1)
      (by rw [draw_tape]; exact h0.2) (by rw [draw_tape]; exact h4)
    simp only [draw_tape] at h
    exact h

include hn hbm hd in
theorem setup_local {F F' : ℕ} (hF : 0 < F) (hF' : 0 < F') {f f' : ℕ → E.Fr} (hff : ∀ i < 5, f i = f' i)
    (h4 : d.vanishing (f 4) ≠ 0) (parties : List (Party E)) :
    setupForDkg T (tape E) F f b gens parties = setupForDkg T (tape E) F' f' b gens parties := by
  obtain ⟨c0, cs, hc0, hcs, -⟩ := setup_shape (E := E) hn hbm
  obtain ⟨cs1, hcs1, h1⟩ := srs_local T b n hn hbm gens d hd c0 hc0 F hF f h4
  obtain ⟨cs2, hcs2, h2⟩ := srs_local T b n hn hbm gens d hd c0 hc0 F' hF' f' (by rw [← hff 4 (by omega)]; exact h4)
  rw [hcs] at hcs1 hcs2
  cases hcs1
  cases hcs2
  unfold setupForDkg
  rw [hc0, Res.ok_bind, Res.ok_bind, h1, h2, hff 0 (by omega), hff 1 (by omega), hff 2 (by omega), hff 3 (by omega),
    hff 4 (by omega)]
  split
  · rfl
  · rfl

theorem tapeOf_append {k m : ℕ} (g : Fin k → E.Fr) (z : Fin m → E.Fr) (i : ℕ) :
    tapeOf (Fin.append g z) i = if i < k then tapeOf g i else tapeOf z (i - k) := by
  unfold tapeOf
  by_cases h : i < k
  · rw [dif_pos (by omega), if_pos h, dif_pos h]
    exact Fin.append_left g z ⟨i, h⟩
  · rw [if_neg h]
    by_cases h2 : i < k + m
    · rw [dif_pos h2, dif_pos (by omega)]
      have := Fin.append_right g z ⟨i - k, by omega⟩
      rw [← this]
      congr 1
      ext
      simp
      omega
    · rw [dif_neg h2, dif_neg (by omega)]

/-- one tape for all, against a tape for `generate_srs` and a tape for the honest side -/
theorem count (k M : ℕ) (Q : (ℕ → E.Fr) → (ℕ → E.Fr) → Prop)
    (hQ : ∀ f f' h, (∀ i < 5, f i = f' i) → (Q f h ↔ Q f' h)) :
    draws E (5 + k) M Q =
      {g : Fin (5 + M) → E.Fr | Q (tapeOf g) (fun i => tapeOf g (5 + i))}.ncard * E.fr.p ^ k := by
  have hcard : (Set.univ : Set (Fin k → E.Fr)).ncard = E.fr.p ^ k := by
    rw [Set.ncard_univ, Nat.card_eq_fintype_card, Fintype.card_fun, Fintype.card_fin]
    congr 1
    exact ZMod.card _
  unfold draws
  rw [← hcard, ← Set.ncard_prod]
  symm
  refine Set.ncard_congr (fun x _ => (Fin.append ((Fin.appendEquiv 5 M).symm x.1).1 x.2,
    ((Fin.appendEquiv 5 M).symm x.1).2)) ?_ ?_ ?_
  · rintro ⟨g, z⟩ ⟨hg, -⟩
    obtain ⟨⟨g1, g2⟩, rfl⟩ := (Fin.appendEquiv 5 M).surjective g
    simp only [Equiv.symm_apply_apply]
    change Q (tapeOf (Fin.append g1 g2)) (fun i => tapeOf (Fin.append g1 g2) (5 + i)) at hg
    show Q (tapeOf (Fin.append g1 z)) (tapeOf g2)
    have e : (fun i => tapeOf (Fin.append g1 g2) (5 + i)) = tapeOf g2 := by
      funext i
      rw [tapeOf_append, if_neg (by omega), Nat.add_sub_cancel_left]
    rw [e] at hg
    refine (hQ _ _ _ fun i hi => ?_).mp hg
    rw [tapeOf_append, tapeOf_append, if_pos hi, if_pos hi]
  · rintro ⟨g, z⟩ ⟨g', z'⟩ - - h
    obtain ⟨⟨g1, g2⟩, rfl⟩ := (Fin.appendEquiv 5 M).surjective g
    obtain ⟨⟨g1', g2'⟩, rfl⟩ := (Fin.appendEquiv 5 M).surjective g'
    simp only [Equiv.symm_apply_apply, Prod.mk.injEq] at h
    obtain ⟨h1, rfl⟩ := h
    have h2 : ((Fin.appendEquiv 5 k) (g1, z)) = (Fin.appendEquiv 5 k) (g1', z') := h1
    have h3 := (Fin.appendEquiv 5 k).injective h2
    simp only [Prod.mk.injEq] at h3
    obtain ⟨rfl, rfl⟩ := h3
    rfl
  · rintro ⟨s, h⟩ hs
    obtain ⟨⟨g1, z⟩, rfl⟩ := (Fin.appendEquiv 5 k).surjective s
    refine ⟨((Fin.appendEquiv 5 M) (g1, h), z), ⟨?_, trivial⟩, ?_⟩
    · change Q (tapeOf (Fin.append g1 z)) (tapeOf h) at hs
      show Q (tapeOf (Fin.append g1 h)) (fun i => tapeOf (Fin.append g1 h) (5 + i))
      have e : (fun i => tapeOf (Fin.append g1 h) (5 + i)) = tapeOf h := by
        funext i
        rw [tapeOf_append, if_neg (by omega), Nat.add_sub_cancel_left]
      rw [e]
      refine (hQ _ _ _ fun i hi => ?_).mp hs
      rw [tapeOf_append, tapeOf_append, if_pos hi, if_pos hi]
    · simp only [Equiv.symm_apply_apply]
      rfl

/-- candidates in the domain are rare -/
theorem unlucky (K : ℕ) (hK : 5 ≤ K) :
    {g : Fin K → E.Fr | d.vanishing (tapeOf g 4) = 0}.ncard = d.size * E.fr.p ^ (K - 1) := by
  classical
  have h := Cand.count_in d K 1 (by omega)
  rw [pow_one] at h
  rw [← h, ← Set.ncard_coe_finset]
  congr 1
  ext x
  simp

theorem draws_mono {L M : ℕ} {Q Q' : (ℕ → E.Fr) → (ℕ → E.Fr) → Prop} (h : ∀ fs f, Q fs f → Q' fs f) :
    draws E L M Q ≤ draws E L M Q' :=
  Set.ncard_le_ncard (fun _ hx => h _ _ hx) (Set.toFinite _)

theorem draws_or {L M : ℕ} {Q Q1 Q2 : (ℕ → E.Fr) → (ℕ → E.Fr) → Prop} (h : ∀ fs f, Q fs f → Q1 fs f ∨ Q2 fs f) :
    draws E L M Q ≤ draws E L M Q1 + draws E L M Q2 :=
  (Set.ncard_le_ncard (t := _ ∪ _) (fun _ hx => h _ _ hx) (Set.toFinite _)).trans (Set.ncard_union_le _ _)

end Tapes

include hn hbm hd in
/-- **C99** Whatever is asked of the outcome of distributed key generation with any number of candidates and separate random
tapes, and of the tape of the honest side: the number of draws on which the answer is "yes" differs by at most
`size p^(4+k+M)` from that for a parameter generation that stops after the first candidate, on one common tape, times the
`p^k` choices of the `k` further scalars of parameter generation. -/
theorem C99_transfer (F : ℕ) (hF : 0 < F) (k M : ℕ) (parties : (ℕ → E.Fr) → List (Party E))
    (Φ : (ℕ → E.Fr) → Res (ProvingKey E × List (FEncryptionKeyPartial E) × List (P1share E) × EncryptionKey E) → Prop) :
    draws E (5 + k) M (fun fs h => Φ h (setupForDkg T (tape E) F fs b gens (parties h))) ≤
      {g : Fin (5 + M) → E.Fr | Φ (fun i => tapeOf g (5 + i))
        (setupForDkg T (tape E) 1 (tapeOf g) b gens (parties fun i => tapeOf g (5 + i)))}.ncard * E.fr.p ^ k +
      d.size * E.fr.p ^ (4 + k + M) ∧
    {g : Fin (5 + M) → E.Fr | Φ (fun i => tapeOf g (5 + i))
        (setupForDkg T (tape E) 1 (tapeOf g) b gens (parties fun i => tapeOf g (5 + i)))}.ncard * E.fr.p ^ k ≤
      draws E (5 + k) M (fun fs h => Φ h (setupForDkg T (tape E) F fs b gens (parties h))) +
      d.size * E.fr.p ^ (4 + k + M) := by
  have hgood := Tapes.count (E := E) k M (fun fs h => d.vanishing (fs 4) ≠ 0 ∧
      Φ h (setupForDkg T (tape E) F fs b gens (parties h))) (fun f f' h hff => by
    rw [← hff 4 (by omega)]
    refine and_congr_right fun h4 => ?_
    rw [Tapes.setup_local T b n hn hbm gens d hd hF hF hff h4])
  have hbad := Tapes.count (E := E) k M (fun fs _ => d.vanishing (fs 4) = 0) (fun f f' h hff => by
    rw [← hff 4 (by omega)])
  rw [Tapes.unlucky d (5 + M) (by omega), Nat.mul_assoc, ← pow_add,
    show 5 + M - 1 + k = 4 + k + M by omega] at hbad
  constructor
  · refine (Tapes.draws_or (Q1 := fun fs h => d.vanishing (fs 4) ≠ 0 ∧
      Φ h (setupForDkg T (tape E) F fs b gens (parties h))) (Q2 := fun fs _ => d.vanishing (fs 4) = 0)
      fun fs f h => ?_).trans ?_
    · by_cases h4 : d.vanishing (fs 4) = 0
      · exact Or.inr h4
      · exact Or.inl ⟨h4, h⟩
    · rw [hgood, hbad]
      refine Nat.add_le_add_right (Nat.mul_le_mul_right _ (Set.ncard_le_ncard ?_ (Set.toFinite _))) _
      rintro g ⟨h4, hg⟩
      change Φ _ _
      rw [Tapes.setup_local T b n hn hbm gens d hd (F := 1) (by omega) hF (fun i _ => rfl) h4]
      exact hg
  · have h1 : {g : Fin (5 + M) → E.Fr | Φ (fun i => tapeOf g (5 + i))
        (setupForDkg T (tape E) 1 (tapeOf g) b gens (parties fun i => tapeOf g (5 + i)))}.ncard ≤
        {g : Fin (5 + M) → E.Fr | d.vanishing (tapeOf g 4) ≠ 0 ∧ Φ (fun i => tapeOf g (5 + i))
          (setupForDkg T (tape E) F (tapeOf g) b gens (parties fun i => tapeOf g (5 + i)))}.ncard +
        {g : Fin (5 + M) → E.Fr | d.vanishing (tapeOf g 4) = 0}.ncard := by
      refine (Set.ncard_le_ncard (t := _ ∪ _) (fun g hg => ?_) (Set.toFinite _)).trans (Set.ncard_union_le _ _)
      change Φ _ _ at hg
      by_cases h4 : d.vanishing (tapeOf g 4) = 0
      · exact Or.inr h4
      · refine Or.inl ⟨h4, ?_⟩
        rw [Tapes.setup_local T b n hn hbm gens d hd (F := 1) (by omega) hF (fun i _ => rfl) h4] at hg
        exact hg
    refine (Nat.mul_le_mul_right _ h1).trans ?_
    rw [Nat.add_mul, Tapes.unlucky d (5 + M) (by omega), Nat.mul_assoc, ← pow_add,
      show 5 + M - 1 + k = 4 + k + M by omega, ← hgood]
    exact Nat.add_le_add_right (Tapes.draws_mono fun fs f h => h.2) _

end

section
variable {E : Engine}
variable (T : FftCfg E.Fr) (b n : UInt8) (hb : Supported b) (hn : chunksCount E.fr b = .ok n)
    (hbm : b.toNat ≤ E.fr.modBits)
    (hal : 64 * E.fr.limbs < E.fr.modBits + b.toNat ∧ chunksNeeded E.fr b.toNat ≤ 255)
    (gens : EncryptionGens E) (hG : gens.G ≠ 0) (hH : gens.H ≠ 0) (d : EvalDomain E.Fr)
    (hd : T.newDomain (n.toNat * constraintsPerValue E.fr.modBits b.toNat + (n.toNat + 1)) = some d)
    (others1 others2 : List (Party E)) (F : ℕ) (hF : 0 < F) (k : ℕ)

namespace Tapes

/-- from the count on one tape to the count on two -/
theorem scale {c p a N B x y : ℕ} (h : N ≤ c * p ^ k + x * p ^ y) (hc : c ≤ B * p ^ a) (e : y = a + k) :
    N ≤ (B + x) * p ^ y := by
  subst e
  refine h.trans ?_
  rw [Nat.add_mul, show B * p ^ (a + k) = B * p ^ a * p ^ k by ring]
  exact Nat.add_le_add_right (Nat.mul_le_mul_right _ hc) _

include hn hbm hd hF in
theorem nm (chk : Bool) (q : ℕ) (ms : List E.Fr) (A : Prover E (Strategy E.Fr)) (P : (ℕ → E.Fr) → ProvingKey E →
      EncryptionKey E → List (Ciphertext E × Proof E) → Ciphertext E → Proof E → Prop) :
    draws E (5 + k) (1 + 2 * n.toNat + 3 * q) (fun fs h => NmDkgOutcomeF F T chk b gens others1 others2 ms A fs h (P h)) ≤
      {g : Fin (6 + 2 * n.toNat + 3 * q) → E.Fr | NmDkgOutcome T chk b gens others1 others2 ms A (tapeOf g)
        (P fun i => tapeOf g (5 + i))}.ncard * E.fr.p ^ k + d.size * E.fr.p ^ (5 + k + 2 * n.toNat + 3 * q) := by
  have h := (C99_transfer T b n hn hbm gens d hd F hF k (1 + 2 * n.toNat + 3 * q) (crew others1 others2)
    (fun h r => ∃ pk keys shares ek l h', r = .ok (pk, keys, shares, ek) ∧
      encryptAll T chk (tape E) ek pk b ms (fun i => h (1 + 2 * ek.X.length + i)) = .ok (l, h') ∧
      P h pk ek l (A.cipher (dkgView1 gens pk keys shares ek l) (dkgView2 gens pk keys ek l))
        (A.proof (dkgView1 gens pk keys shares ek l) (dkgView2 gens pk keys ek l)))).1
  rw [show 4 + k + (1 + 2 * n.toNat + 3 * q) = 5 + k + 2 * n.toNat + 3 * q by omega] at h
  refine (show _ ≤ _ from h).trans (Nat.add_le_add_right (Nat.mul_le_mul_right _ (le_of_eq ?_)) _)
  have e2 : ∀ m i : ℕ, 5 + (1 + 2 * m + i) = 6 + 2 * m + i := fun m i => by omega
  rw [show 5 + (1 + 2 * n.toNat + 3 * q) = 6 + 2 * n.toNat + 3 * q by omega]
  unfold NmDkgOutcome
  simp only [e2]

end Tapes

include hn hbm hG hH hd hF in
/-- **C99** (C75) An adaptive coalition of all parties but one gets something accepted that is not an encryption of chunks
below `2^b` under the joint key on at most a `((Q + 1) (3 size + 5) + size) / p` fraction of the draws. -/
theorem C99_coalition_soundness (A : Prover E (Strategy E.Fr)) :
    draws E (5 + k) (1 + 2 * n.toNat) (fun fs h => DkgOutcomeF F T b gens others1 others2 A fs h
      (fun pk ek ct proof => Accepted gens pk ek ct proof ∧ ¬ ∃ (m : ℕ → ℕ) (r : E.Fr),
        (∀ i < n.toNat, m i < 2 ^ b.toNat ∧ m i < E.fr.p) ∧ Encrypts pk ek m r ct)) ≤
      ((A.questions + 1) * (3 * d.size + 5) + d.size) * E.fr.p ^ (5 + k + 2 * n.toNat) := by
  have h := (C99_transfer T b n hn hbm gens d hd F hF k (1 + 2 * n.toNat) (crew others1 others2)
    (fun _ r => ∃ pk keys shares ek, r = .ok (pk, keys, shares, ek) ∧
      (Accepted gens pk ek (A.cipher (dkgPublic1 gens pk keys shares ek) (dkgPublic2 gens pk keys ek))
        (A.proof (dkgPublic1 gens pk keys shares ek) (dkgPublic2 gens pk keys ek)) ∧ ¬ ∃ (m : ℕ → ℕ) (r : E.Fr),
        (∀ i < n.toNat, m i < 2 ^ b.toNat ∧ m i < E.fr.p) ∧
          Encrypts pk ek m r (A.cipher (dkgPublic1 gens pk keys shares ek) (dkgPublic2 gens pk keys ek))))).1
  have h1 := C75_adaptive_coalition_soundness T b n hn hbm gens hG hH d hd others1 others2 A
  rw [show 4 + k + (1 + 2 * n.toNat) = 5 + k + 2 * n.toNat by omega] at h
  rw [show 6 + 2 * n.toNat = 5 + (1 + 2 * n.toNat) by omega] at h1
  exact Tapes.scale k h h1 (by omega)

include hb hn hbm hal hG hH hd hF in
/-- **C99** (C90) For every adaptive coalition of all parties but one that sees the ciphertexts and proofs of `q` honest users:
there are chunks below `2^b` and a scalar, or a user and a scalar, such that, whatever the honest messages are, it gets
something accepted that is not the encryption of these chunks with this scalar, or not this user's ciphertext re-randomised
by this scalar, on at most a `((Q + 1) (3 size + 6) + size) / p` fraction of the draws. -/
theorem C99_non_malleable (chk : Bool) (q : ℕ) (A : Prover E (Strategy E.Fr)) :
    (∃ (m : ℕ → ℕ) (r : E.Fr), (∀ i < n.toNat, m i < 2 ^ b.toNat ∧ m i < E.fr.p) ∧
      ∀ ms : List E.Fr, ms.length = q →
        draws E (5 + k) (1 + 2 * n.toNat + 3 * q) (fun fs h => NmDkgOutcomeF F T chk b gens others1 others2 ms A fs h
          (fun pk ek _ ct proof => Accepted gens pk ek ct proof ∧ ¬ Encrypts pk ek m r ct)) ≤
        ((A.questions + 1) * (3 * d.size + 6) + d.size) * E.fr.p ^ (5 + k + 2 * n.toNat + 3 * q)) ∨
    ∃ (j : ℕ) (u : E.Fr), j < q ∧
      ∀ ms : List E.Fr, ms.length = q →
        draws E (5 + k) (1 + 2 * n.toNat + 3 * q) (fun fs h => NmDkgOutcomeF F T chk b gens others1 others2 ms A fs h
          (fun pk ek l ct proof => Accepted gens pk ek ct proof ∧ ¬ Rerandomises ek l j u ct)) ≤
        ((A.questions + 1) * (3 * d.size + 6) + d.size) * E.fr.p ^ (5 + k + 2 * n.toNat + 3 * q) := by
  have hT := fun (ms : List E.Fr)
      (P : ProvingKey E → EncryptionKey E → List (Ciphertext E × Proof E) → Ciphertext E → Proof E → Prop) =>
    Tapes.nm T b n hn hbm gens d hd others1 others2 F hF k chk q ms A (fun _ => P)
  rcases C90_adaptive_bound T b n hb hn hbm hal gens hG hH d hd others1 others2 chk q A with ⟨m, r, hm, h⟩ | ⟨j, u, hj, h⟩
  · exact .inl ⟨m, r, hm, fun ms hms => Tapes.scale k (hT ms _) (h ms hms) (by omega)⟩
  · exact .inr ⟨j, u, hj, fun ms hms => Tapes.scale k (hT ms _) (h ms hms) (by omega)⟩

include hb hn hbm hal hG hH hd hF in
/-- **C99** (C98) and there are chunks below `2^b`, or there is a user, such that, whatever the honest messages are, on at most
a `((Q + 1) (3 size + 6) + n + size) / p` fraction of the draws is its ciphertext accepted and not read as these chunks, or
not as the message of this user, by every destination. -/
theorem C99_plaintext (chk : Bool) (q : ℕ) (A : Prover E (Strategy E.Fr)) :
    (∃ chunks : List UInt16, chunks.length = n.toNat ∧ (∀ x ∈ chunks, x.toNat < 2 ^ b.toNat) ∧
      ∀ ms : List E.Fr, ms.length = q →
        draws E (5 + k) (1 + 2 * n.toNat + 3 * q) (fun fs h => NmDkgOutcomeF F T chk b gens others1 others2 ms A fs h
          (fun pk ek _ ct proof => Accepted gens pk ek ct proof ∧ ¬ ToldF b gens others1 others2 h pk ek ct chunks)) ≤
        ((A.questions + 1) * (3 * d.size + 6) + n.toNat + d.size) * E.fr.p ^ (5 + k + 2 * n.toNat + 3 * q)) ∨
    ∃ j : ℕ, j < q ∧
      ∀ ms : List E.Fr, ms.length = q →
        draws E (5 + k) (1 + 2 * n.toNat + 3 * q) (fun fs h => NmDkgOutcomeF F T chk b gens others1 others2 ms A fs h
          (fun pk ek _ ct proof => Accepted gens pk ek ct proof ∧
            ¬ ∃ m ds, ms[j]? = some m ∧ decompose (K := E.fr) m b = .ok ds ∧ ToldF b gens others1 others2 h pk ek ct ds)) ≤
        ((A.questions + 1) * (3 * d.size + 6) + n.toNat + d.size) * E.fr.p ^ (5 + k + 2 * n.toNat + 3 * q) := by
  have hT := fun (ms : List E.Fr) (P : (ℕ → E.Fr) →
      ProvingKey E → EncryptionKey E → List (Ciphertext E × Proof E) → Ciphertext E → Proof E → Prop) =>
    Tapes.nm T b n hn hbm gens d hd others1 others2 F hF k chk q ms A P
  rcases C98_plaintext_bound T b n hb hn hbm hal gens hG hH d hd others1 others2 chk q A with ⟨ch, h1, h2, h⟩ | ⟨j, hj, h⟩
  · exact .inl ⟨ch, h1, h2, fun ms hms => Tapes.scale k (hT ms (fun h pk ek _ ct proof => Accepted gens pk ek ct proof ∧
      ¬ ToldF b gens others1 others2 h pk ek ct ch)) (h ms hms) (by omega)⟩
  · exact .inr ⟨j, hj, fun ms hms => Tapes.scale k (hT ms (fun h pk ek _ ct proof => Accepted gens pk ek ct proof ∧
      ¬ ∃ m ds, ms[j]? = some m ∧ decompose (K := E.fr) m b = .ok ds ∧ ToldF b gens others1 others2 h pk ek ct ds))
      (h ms hms) (by omega)⟩

include hb hn hbm hal hG hH hd hF in
/-- **C99** (C94) An adversary that controls all parties but one, asks at most `Q` questions, obtains re-encryption shares of at
most `D` verified ciphertexts from the honest party and receives at most `C` encryptions, guesses "right" in the one game on
at most a `((Q + D) (3 size + 6) + 2 n + 1 + 2 size) / p` fraction of the draws more than in the other. -/
theorem C99_verified_requests (chk : Bool) (R : RngCore E) (st : R.σ) (A : ReAdversary E) (Q D C : ℕ)
    (hA : A.AtMost Q D C) (side : Bool) :
    draws E (5 + k) (1 + 2 * n.toNat + 3 * C)
        (fun fs h => experimentReF F ⟨true, true⟩ side T chk b gens others1 others2 R st A fs h = true) ≤
      draws E (5 + k) (1 + 2 * n.toNat + 3 * C)
        (fun fs h => experimentReF F ⟨true, true⟩ (!side) T chk b gens others1 others2 R st A fs h = true) +
      ((Q + D) * (3 * d.size + 6) + (2 * n.toNat + 1) + 2 * d.size) * E.fr.p ^ (5 + k + 2 * n.toNat + 3 * C) := by
  have h := C94_verified_requests T b n hb hn hbm hal gens hG hH d hd others1 others2 chk R st A Q D C hA side
  have e : ∀ side, rightGuessesRe ⟨true, true⟩ (6 + 2 * n.toNat + 3 * C) side T chk b gens others1 others2 R st A =
      {x : Fin (5 + (1 + 2 * n.toNat + 3 * C)) → E.Fr |
        experimentReF 1 ⟨true, true⟩ side T chk b gens others1 others2 R st A (tapeOf x)
          (fun i => tapeOf x (5 + i)) = true}.ncard := fun side => by
    rw [show 5 + (1 + 2 * n.toNat + 3 * C) = 6 + 2 * n.toNat + 3 * C by omega]
    unfold rightGuessesRe
    rw [← Set.ncard_coe_finset]
    congr 1
    ext x
    simp only [Finset.coe_filter, Finset.mem_univ, true_and]
    unfold experimentRe experimentReF
    have e2 : ∀ m i : ℕ, 5 + (1 + 2 * m + i) = 6 + 2 * m + i := fun m i => by omega
    simp only [e2]
    exact Iff.rfl
  have ht := fun side => C99_transfer T b n hn hbm gens d hd F hF k (1 + 2 * n.toNat + 3 * C) (crew others1 others2)
    (fun h r => (match r with
      | .ok (pk, keys, shares, ek) =>
        match partySecret b gens pk h with
        | .ok sk => playRe ⟨true, true⟩ side T chk b gens pk keys shares ek sk R A []
            (fun i => h (1 + 2 * ek.X.length + i)) [] [] st
        | _ => false
      | _ => false) = true)
  have h1 := (ht side).1
  have h2 := (ht (!side)).2
  rw [e, e] at h
  have e3 : 4 + k + (1 + 2 * n.toNat + 3 * C) = 5 + k + 2 * n.toNat + 3 * C := by omega
  rw [e3] at h1 h2
  have h1' : draws E (5 + k) (1 + 2 * n.toNat + 3 * C)
        (fun fs h => experimentReF F ⟨true, true⟩ side T chk b gens others1 others2 R st A fs h = true) ≤
      {x : Fin (5 + (1 + 2 * n.toNat + 3 * C)) → E.Fr |
        experimentReF 1 ⟨true, true⟩ side T chk b gens others1 others2 R st A (tapeOf x)
          (fun i => tapeOf x (5 + i)) = true}.ncard * E.fr.p ^ k +
        d.size * E.fr.p ^ (5 + k + 2 * n.toNat + 3 * C) := h1
  have h2' : {x : Fin (5 + (1 + 2 * n.toNat + 3 * C)) → E.Fr |
        experimentReF 1 ⟨true, true⟩ (!side) T chk b gens others1 others2 R st A (tapeOf x)
          (fun i => tapeOf x (5 + i)) = true}.ncard * E.fr.p ^ k ≤
      draws E (5 + k) (1 + 2 * n.toNat + 3 * C)
        (fun fs h => experimentReF F ⟨true, true⟩ (!side) T chk b gens others1 others2 R st A fs h = true) +
        d.size * E.fr.p ^ (5 + k + 2 * n.toNat + 3 * C) := h2
  have h3 := Nat.mul_le_mul_right (E.fr.p ^ k) h
  have e4 : ∀ B : ℕ, B * E.fr.p ^ (5 + 2 * n.toNat + 3 * C) * E.fr.p ^ k =
      B * E.fr.p ^ (5 + k + 2 * n.toNat + 3 * C) := fun B => by
    rw [Nat.mul_assoc, ← pow_add]
    congr 2
    omega
  rw [Nat.add_mul, e4] at h3
  rw [Nat.add_mul _ (2 * d.size), Nat.mul_assoc 2]
  omega

include hn hbm hG hH hd hF in
/-- **C99** (C76) A prover that knows the secrets of all parties gets a range proof accepted for the SAVER ciphertext of field
elements that are not all below `2^b` on at most a `((Q + 1) (3 size + 5) + size) / p` fraction of the draws of
`generate_srs`. -/
theorem C99_range (parties : List (Party E)) (hne : parties ≠ []) (A : Prover E (RangeChoice E.Fr)) :
    draws E (5 + k) 0 (fun fs _ => DkgRangeOutcomeF F T b gens parties A fs
      (fun m => ∃ i < n.toNat, 2 ^ b.toNat ≤ (m i).val)) ≤
      ((A.questions + 1) * (3 * d.size + 5) + d.size) * E.fr.p ^ (4 + k) := by
  have h := (C99_transfer T b n hn hbm gens d hd F hF k 0 (fun _ => parties)
    (fun _ r => ∃ pk keys shares ek C, r = .ok (pk, keys, shares, ek) ∧
      C = A.choice (dkgPublic1 gens pk keys shares ek) (dkgPublic2 gens pk keys ek) ∧
      verifyProof (prepareVerifyingKey pk.pk.vk)
        ⟨comb C.a (dkgPublic1 gens pk keys shares ek), comb C.b (dkgPublic2 gens pk keys ek),
          comb C.c (dkgPublic1 gens pk keys shares ek)⟩
        (fieldCipher ek (fun i => pk.pk.vk.gamma_abc_g1.tail.getD i 0) C.m C.r) = .ok () ∧
      ∃ i < n.toNat, 2 ^ b.toNat ≤ (C.m i).val)).1
  exact Tapes.scale k h (C76_adaptive_range_all_parties T b n hn hbm gens hG hH d hd parties hne A) (by omega)

end

section
variable {E : Engine} (T : FftCfg E.Fr) (hE : OnBls E T) (b n : UInt8) (hb : Supported b)
  (hn : chunksCount E.fr b = .ok n) (gens : EncryptionGens E) (hG : gens.G ≠ 0) (hH : gens.H ≠ 0)
  (others1 others2 : List (Party E)) (F : ℕ) (hF : 0 < F) (k : ℕ)

include hE hb hn hG hH hF in
/-- **C99** On BLS12-381, with any number of candidates for the evaluation point: for every adaptive coalition of all parties but
one that sees the ciphertexts and proofs of `q` honest users and asks `Q` questions there are in-range chunks, or there is a
user, such that whatever the honest messages are, its ciphertext is accepted and not read as these chunks, or not as the
message of this user, by every destination, on at most `Q + 1` in `2^237` of the choices of the draws. -/
theorem C99_bls_plaintext (chk : Bool) (q : ℕ) (A : Prover E (Strategy E.Fr)) :
    (∃ chunks : List UInt16, chunks.length = n.toNat ∧ (∀ x ∈ chunks, x.toNat < 2 ^ b.toNat) ∧
      ∀ ms : List E.Fr, ms.length = q →
        2 ^ 237 * draws E (5 + k) (1 + 2 * n.toNat + 3 * q) (fun fs h =>
          NmDkgOutcomeF F T chk b gens others1 others2 ms A fs h (fun pk ek _ ct proof =>
            Accepted gens pk ek ct proof ∧ ¬ ToldF b gens others1 others2 h pk ek ct chunks)) ≤
        (A.questions + 1) * E.fr.p ^ (5 + k + (1 + 2 * n.toNat + 3 * q))) ∨
    ∃ j : ℕ, j < q ∧
      ∀ ms : List E.Fr, ms.length = q →
        2 ^ 237 * draws E (5 + k) (1 + 2 * n.toNat + 3 * q) (fun fs h =>
          NmDkgOutcomeF F T chk b gens others1 others2 ms A fs h (fun pk ek _ ct proof =>
            Accepted gens pk ek ct proof ∧ ¬ ∃ m ds, ms[j]? = some m ∧ decompose (K := E.fr) m b = .ok ds ∧
              ToldF b gens others1 others2 h pk ek ct ds)) ≤
        (A.questions + 1) * E.fr.p ^ (5 + k + (1 + 2 * n.toNat + 3 * q)) := by
  obtain ⟨n', d, hn', hd, -, hn64, hs, hs'⟩ := hE.small hb
  obtain rfl : n' = n := by rw [hn] at hn'; cases hn'; rfl
  have h17 : 2 ^ 237 * (4 * 2 ^ 15 + 6 + 64) ≤ blsR := by decide +kernel
  have hp : E.fr.p = blsR := hE.prime
  have hc : 2 ^ 237 * (4 * d.size + 6 + n'.toNat) ≤ E.fr.p :=
    le_trans (Nat.mul_le_mul_left _ (by omega)) (h17.trans (le_of_eq hp.symm))
  have e : 5 + k + (1 + 2 * n'.toNat + 3 * q) = (5 + k + 2 * n'.toNat + 3 * q) + 1 := by omega
  have hle : ((A.questions + 1) * (3 * d.size + 6) + n'.toNat + d.size) * E.fr.p ^ (5 + k + 2 * n'.toNat + 3 * q) ≤
      (A.questions + 1) * (4 * d.size + 6 + n'.toNat) * E.fr.p ^ (5 + k + 2 * n'.toNat + 3 * q) := by
    refine Nat.mul_le_mul_right _ ?_
    have h1 : n'.toNat + d.size ≤ (A.questions + 1) * (n'.toNat + d.size) := Nat.le_mul_of_pos_left _ (by omega)
    rw [show 4 * d.size + 6 + n'.toNat = (3 * d.size + 6) + (n'.toNat + d.size) by omega,
      Nat.mul_add (A.questions + 1) (3 * d.size + 6) (n'.toNat + d.size)]
    omega
  rcases C99_plaintext T b n' hb hn (hE.bits hb) (hE.aligned hb) gens hG hH d hd others1 others2 F hF k chk q A with
    ⟨chunks, h1, h2, h⟩ | ⟨j, hj, h⟩
  · refine .inl ⟨chunks, h1, h2, fun ms hms => ?_⟩
    exact (OnBls.scaleMany hc ((h ms hms).trans hle)).trans (le_of_eq (by rw [e]))
  · refine .inr ⟨j, hj, fun ms hms => ?_⟩
    exact (OnBls.scaleMany hc ((h ms hms).trans hle)).trans (le_of_eq (by rw [e]))

include hE hb hn hG hH hF in
/-- **C99** and an adversary that controls all parties but one, asks at most `Q` questions and obtains re-encryption shares of
at most `D` verified ciphertexts from the honest party, guesses "right" in the one game at most `Q + D + 1` in `2^237` of the
draws more often than in the other. -/
theorem C99_bls_reencryption (chk : Bool) (R : RngCore E) (st : R.σ) (A : ReAdversary E) (Q D C : ℕ)
    (hA : A.AtMost Q D C) (side : Bool) :
    2 ^ 237 * draws E (5 + k) (1 + 2 * n.toNat + 3 * C)
        (fun fs h => experimentReF F ⟨true, true⟩ side T chk b gens others1 others2 R st A fs h = true) ≤
      2 ^ 237 * draws E (5 + k) (1 + 2 * n.toNat + 3 * C)
        (fun fs h => experimentReF F ⟨true, true⟩ (!side) T chk b gens others1 others2 R st A fs h = true) +
      (Q + D + 1) * E.fr.p ^ (5 + k + (1 + 2 * n.toNat + 3 * C)) := by
  obtain ⟨n', d, hn', hd, -, hn64, hs, hs'⟩ := hE.small hb
  obtain rfl : n' = n := by rw [hn] at hn'; cases hn'; rfl
  have h17 : 2 ^ 237 * (4 * 2 ^ 15 + 6 + 64) ≤ blsR := by decide +kernel
  have hp : E.fr.p = blsR := hE.prime
  have hc : 2 ^ 237 * (4 * d.size + 6 + n'.toNat) ≤ E.fr.p :=
    le_trans (Nat.mul_le_mul_left _ (by omega)) (h17.trans (le_of_eq hp.symm))
  have h := C99_verified_requests T b n' hb hn (hE.bits hb) (hE.aligned hb) gens hG hH d hd others1 others2 F hF k chk R
    st A Q D C hA side
  refine (Nat.mul_le_mul_left _ h).trans ?_
  rw [Nat.mul_add]
  refine Nat.add_le_add_left ?_ _
  have e : (Q + D) * (3 * d.size + 6) + (2 * n'.toNat + 1) + 2 * d.size ≤
      (Q + D + 1) * (4 * d.size + 6 + n'.toNat) := by
    have h13 : (2 : ℕ) ^ 13 = 8192 := by norm_num
    have h1 : (Q + D) * (3 * d.size + 6) ≤ (Q + D) * (4 * d.size + 6 + n'.toNat) :=
      Nat.mul_le_mul_left _ (by omega)
    rw [Nat.add_mul (Q + D) 1]
    omega
  refine (OnBls.scaleMany hc (Nat.mul_le_mul_right _ e)).trans (le_of_eq ?_)
  rw [show 5 + k + (1 + 2 * n'.toNat + 3 * C) = (5 + k + 2 * n'.toNat + 3 * C) + 1 by omega]

end

/-- The hypotheses are met: 8-bit chunks on the model's own BLS12-381 domains, at most 100 candidates, two parties of the
adversary, one user. -/
example (o1 o2 : Party (Engine.scalar blsFr)) (A : Prover (Engine.scalar blsFr) (Strategy (Engine.scalar blsFr).Fr)) :=
  C99_bls_plaintext (E := Engine.scalar blsFr) blsFft C95_instance 8 32 (.inr (.inl rfl)) chunksCount_bls8
    ⟨(1 : ZMod blsFr.p), (2 : ZMod blsFr.p)⟩ (by decide +kernel) (by decide +kernel) [o1] [o2] 100 (by omega) 99 true 1 A

end Verif
