/-
Property C103: proofs made with a proving key from an untrusted source.
-/
import Verif.SpecUntrusted
import Verif.Props.Verified
import Verif.Props.Groth16
import Verif.SpecAgm

namespace Verif
open Spec
variable {E : Engine}

namespace Untrusted

theorem calc_inv {G : Type} [AddCommGroup G] {K : FieldCfg} {i0 : G} {q : List G} {p : G} {l : List K.F} {v : G}
    (h : calculateCoeff (K := K) i0 q p l = .ok v) :
    ∃ w, ∀ i, calculateCoeff (K := K) i q p l = .ok (i + w) := by
  unfold calculateCoeff at h
  obtain ⟨el, he, -⟩ := Res.bind_eq_ok.mp h
  refine ⟨el + msmBigint q.tail (l.map intoBigint) + p, fun i => ?_⟩
  unfold calculateCoeff
  rw [he, Res.ok_bind]
  show Res.ok _ = Res.ok _
  congr 1
  abel

/-- what `create_proof_with_assignment` computes, as a function of its two random scalars -/
theorem assignment_form {pk : Groth16ProvingKey E} {r0 s0 : E.Fr} {h i a : List E.Fr} {p0 : Proof E} (hr : r0 ≠ 0)
    (hp : createProofWithAssignment pk r0 s0 h i a = .ok p0) :
    ∃ (a' : E.G1) (b1 : E.G1) (b2 : E.G2) (L : E.G1), ∀ t s, createProofWithAssignment pk t s h i a =
      .ok ⟨t • pk.delta_g1 + a', s • pk.vk.delta_g2 + b2, s • a' + t • b1 + (t * s) • pk.delta_g1 + L⟩ := by
  unfold createProofWithAssignment at hp
  obtain ⟨x1, h1, hp⟩ := Res.bind_eq_ok.mp hp
  dsimp only at hp
  rw [if_pos hr] at hp
  obtain ⟨x2, h2, hp⟩ := Res.bind_eq_ok.mp hp
  obtain ⟨x3, h3, hp⟩ := Res.bind_eq_ok.mp hp
  obtain ⟨a', f1⟩ := calc_inv h1
  obtain ⟨b1, f2⟩ := calc_inv h2
  obtain ⟨b2, f3⟩ := calc_inv h3
  refine ⟨a', b1, b2, msmBigint pk.l_query (a.map (intoBigint (K := E.fr))) +
    msmBigint pk.h_query (h.map (intoBigint (K := E.fr))), fun t s => ?_⟩
  unfold createProofWithAssignment
  dsimp only
  rw [f1, f2, f3, Res.ok_bind]
  by_cases ht : t = 0
  · rw [if_neg (by simpa using ht)]
    show Res.ok _ = Res.ok _
    subst ht
    congr 2
    module
  · rw [if_pos ht]
    show Res.ok _ = Res.ok _
    congr 2
    module

theorem reduction_form {T : FftCfg E.Fr} {chk : Bool} {C : Synthesizer E.Fr} {pk : Groth16ProvingKey E} {r0 s0 : E.Fr}
    {p0 : Proof E} (hr : r0 ≠ 0) (hp : createProofWithReduction T chk C pk r0 s0 = .ok p0) :
    ∃ (a' : E.G1) (b1 : E.G1) (b2 : E.G2) (L : E.G1), ∀ t s, createProofWithReduction T chk C pk t s =
      .ok ⟨t • pk.delta_g1 + a', s • pk.vk.delta_g2 + b2, s • a' + t • b1 + (t * s) • pk.delta_g1 + L⟩ := by
  unfold createProofWithReduction at hp ⊢
  obtain ⟨cs, hcs, hp⟩ := Res.bind_eq_ok.mp hp
  simp only [hcs, Res.ok_bind]
  by_cases hsat : (chk && !cs.isSatisfied) = true
  · rw [if_pos hsat] at hp
    cases hp
  · rw [if_neg hsat] at hp
    simp only [if_neg hsat]
    cases hd : T.newDomain (cs.cons.length + cs.numInst) with
    | none => rw [hd] at hp; cases hp
    | some d =>
      rw [hd] at hp
      exact assignment_form hr hp

theorem proof_form {T : FftCfg E.Fr} {chk : Bool} {C : Synthesizer E.Fr} {r : E.Fr} {pk : ProvingKey E}
    {ek : EncryptionKey E} {R0 : RngCore E} {st0 st0' : R0.σ} {p0 : Proof E} (hr : draw R0 st0 0 ≠ 0)
    (hp : createProof T chk R0 st0 C r pk ek = .ok (p0, st0')) :
    ∃ (a' : E.G1) (b1 : E.G1) (b2 : E.G2) (L : E.G1), ProofsBy T chk C r pk ek fun t s =>
      ⟨t • pk.pk.delta_g1 + a', s • pk.pk.vk.delta_g2 + b2, s • a' + t • b1 + (t * s) • pk.pk.delta_g1 + L⟩ := by
  have hp' : (createProofWithReduction T chk C pk.pk (draw R0 st0 0) (draw R0 st0 1) >>= fun proof =>
      Res.ok (({ proof with c := proof.c + mulBigint ek.P_2 (intoBigint (K := E.fr) r) } : Proof E), after R0 st0 2)) =
      .ok (p0, st0') := hp
  obtain ⟨q, hq, -⟩ := Res.bind_eq_ok.mp hp'
  obtain ⟨a', b1, b2, L, h⟩ := reduction_form hr hq
  refine ⟨a', b1, b2, L + mulBigint ek.P_2 (intoBigint (K := E.fr) r), fun R st => ?_⟩
  show (createProofWithReduction T chk C pk.pk (draw R st 0) (draw R st 1) >>= fun proof =>
      Res.ok (({ proof with c := proof.c + mulBigint ek.P_2 (intoBigint (K := E.fr) r) } : Proof E), after R st 2)) = _
  rw [h, Res.ok_bind]
  simp only [add_assoc]

theorem accepted_iff (vk : VerifyingKey E) (ct : Ciphertext E) (p : Proof E) :
    Passes vk ct p ↔ vk.gamma_abc_g1 ≠ [] ∧
      E.e p.a p.b = E.e vk.alpha_g1 vk.beta_g2 + E.e p.c vk.delta_g2 +
        E.e (ct.X_r + ct.enc_chunks.sum + vk.gamma_abc_g1.getD 0 0) vk.gamma_g2 := by
  unfold Passes
  by_cases hne : vk.gamma_abc_g1 = []
  · have : verifyProof (prepareVerifyingKey vk) p ct = .panic := by
      unfold verifyProof calculateD
      have : idx (prepareVerifyingKey vk).vk.gamma_abc_g1 0 = .panic := by
        show idx vk.gamma_abc_g1 0 = .panic
        rw [hne]
        rfl
      rw [this]
      rfl
    rw [this]
    simp [hne]
  · rw [verifyProof_eq vk p ct hne]
    by_cases hc : E.e p.a p.b = E.e vk.alpha_g1 vk.beta_g2 + E.e p.c vk.delta_g2 +
        E.e (ct.X_r + ct.enc_chunks.sum + vk.gamma_abc_g1.getD 0 0) vk.gamma_g2
    · rw [if_pos hc]; exact ⟨fun _ => ⟨hne, hc⟩, fun _ => rfl⟩
    · rw [if_neg hc]
      constructor
      · intro h; cases h
      · intro h; exact absurd h.2 hc

end Untrusted
open Untrusted

/-- **C103** whatever proving key the prover was given (its `delta_g1`, `delta_g2` generating the groups), and whatever
circuit, randomness of the encryption and encryption key it uses: if `create_proof` succeeds at all (with a nonzero first
scalar) then it succeeds for all scalars, its outcome is a function of the two scalars it draws, and for every ciphertext
one of two things is the case.  Either every proof is accepted, and every accepted proof is the outcome of exactly one pair
of scalars: the proof is uniformly distributed over the proofs accepted for this ciphertext, a set that depends on the
verification key and the ciphertext alone.  Or at most one value of the first scalar gives an accepted proof. -/
theorem C103_any_key (T : FftCfg E.Fr) (chk : Bool) (C : Synthesizer E.Fr) (r : E.Fr) (pk : ProvingKey E)
    (ek : EncryptionKey E) (h1 : Generates (E := E) pk.pk.delta_g1) (h2 : Generates (E := E) pk.pk.vk.delta_g2)
    (R0 : RngCore E) (st0 st0' : R0.σ) (p0 : Proof E) (hr : draw R0 st0 0 ≠ 0)
    (hp : createProof T chk R0 st0 C r pk ek = .ok (p0, st0')) :
    ∃ outcome : E.Fr → E.Fr → Proof E, ProofsBy T chk C r pk ek outcome ∧ ∀ ct : Ciphertext E,
      ((∀ t s, Passes pk.pk.vk ct (outcome t s)) ∧
        ∀ proof, Passes pk.pk.vk ct proof → ∃! ts : E.Fr × E.Fr, outcome ts.1 ts.2 = proof) ∨
      ∃ t0, ∀ t s, Passes pk.pk.vk ct (outcome t s) → t = t0 := by
  obtain ⟨a', b1, b2, L, hby⟩ := proof_form hr hp
  refine ⟨_, hby, fun ct => ?_⟩
  simp only [accepted_iff]
  generalize E.e (ct.X_r + ct.enc_chunks.sum + pk.pk.vk.gamma_abc_g1.getD 0 0) pk.pk.vk.gamma_g2 = k1
  generalize E.e pk.pk.vk.alpha_g1 pk.pk.vk.beta_g2 = k0
  generalize pk.pk.vk.gamma_abc_g1 = gs
  obtain ⟨h1n, h1s⟩ := h1
  obtain ⟨h2n, h2s⟩ := h2
  generalize pk.pk.delta_g1 = d1 at *
  generalize pk.pk.vk.delta_g2 = d2 at *
  have hlin : ∀ t s : E.Fr,
      (E.e (t • d1 + a') (s • d2 + b2) = k0 + E.e (s • a' + t • b1 + (t * s) • d1 + L) d2 + k1) ↔
        t • (E.e d1 b2 - E.e b1 d2) = k0 + k1 + E.e L d2 - E.e a' b2 := by
    intro t s
    simp only [map_add, map_smul, LinearMap.add_apply, LinearMap.smul_apply]
    constructor
    · intro h
      have h' := sub_eq_zero.mpr h
      refine sub_eq_zero.mp ?_
      rw [← h']
      module
    · intro h
      have h' := sub_eq_zero.mpr h
      refine sub_eq_zero.mp ?_
      rw [← h']
      module
  by_cases hall : ∀ t s : E.Fr, gs ≠ [] ∧
      E.e (t • d1 + a') (s • d2 + b2) = k0 + E.e (s • a' + t • b1 + (t * s) • d1 + L) d2 + k1
  · left
    refine ⟨hall, ?_⟩
    rintro ⟨A, B, Cc⟩ ⟨-, hacc⟩
    simp only at hacc
    obtain ⟨t, ht⟩ := h1s (A - a')
    obtain ⟨s, hs⟩ := h2s (B - b2)
    have hA : t • d1 + a' = A := by rw [← ht]; abel
    have hB : s • d2 + b2 = B := by rw [← hs]; abel
    refine ⟨(t, s), ?_, ?_⟩
    · have hc := (hall t s).2
      rw [hA, hB, hacc] at hc
      have hC : E.e Cc d2 = E.e (s • a' + t • b1 + (t * s) • d1 + L) d2 := by
        simpa using hc
      have := e_left_inj h2n hC
      simp only [hA, hB, this]
    · rintro ⟨t', s'⟩ h
      simp only [Proof.mk.injEq] at h
      obtain ⟨e1, e2, -⟩ := h
      have f1 : (t' - t) • d1 = 0 := by
        rw [sub_smul, sub_eq_zero]
        exact add_right_cancel (e1.trans hA.symm)
      have f2 : (s' - s) • d2 = 0 := by
        rw [sub_smul, sub_eq_zero]
        exact add_right_cancel (e2.trans hB.symm)
      rw [Prod.mk.injEq]
      exact ⟨sub_eq_zero.mp ((smul_eq_zero.mp f1).resolve_right h1n),
        sub_eq_zero.mp ((smul_eq_zero.mp f2).resolve_right h2n)⟩
  · right
    simp only [hlin] at hall ⊢
    by_cases hD : E.e d1 b2 - E.e b1 d2 = 0
    · refine ⟨0, fun t s h => ?_⟩
      exfalso
      apply hall
      intro t' _
      refine ⟨h.1, ?_⟩
      rw [hD, smul_zero, ← h.2, hD, smul_zero]
    · by_cases hex : ∃ t : E.Fr, t • (E.e d1 b2 - E.e b1 d2) = k0 + k1 + E.e L d2 - E.e a' b2
      · obtain ⟨t0, h0⟩ := hex
        refine ⟨t0, fun t s h => ?_⟩
        have : (t - t0) • (E.e d1 b2 - E.e b1 d2) = 0 := by rw [sub_smul, h.2, h0, sub_self]
        exact sub_eq_zero.mp ((smul_eq_zero.mp this).resolve_right hD)
      · exact ⟨0, fun t s h => absurd ⟨t, h.2⟩ hex⟩

/-- **C103** so two provers with different witnesses, randomness and keys, both accepted for all scalars on the same
ciphertext, give the same distribution of proofs: a bijection between their scalars under which the proofs agree. -/
theorem C103_same_distribution (T : FftCfg E.Fr) (vk : VerifyingKey E) (ct : Ciphertext E)
    (chk chk' : Bool) (C C' : Synthesizer E.Fr) (r r' : E.Fr) (pk pk' : ProvingKey E) (ek ek' : EncryptionKey E)
    (hvk : pk.pk.vk = vk) (hvk' : pk'.pk.vk = vk) (h1 : Generates (E := E) pk.pk.delta_g1)
    (h1' : Generates (E := E) pk'.pk.delta_g1) (h2 : Generates (E := E) vk.delta_g2)
    (o o' : E.Fr → E.Fr → Proof E) (ho : ProofsBy T chk C r pk ek o) (ho' : ProofsBy T chk' C' r' pk' ek' o')
    (hacc : ∀ t s, Passes vk ct (o t s)) (hacc' : ∀ t s, Passes vk ct (o' t s)) :
    ∃ φ : E.Fr × E.Fr ≃ E.Fr × E.Fr, ∀ ts, o (φ ts).1 (φ ts).2 = o' ts.1 ts.2 := by
  -- both outcome functions are bijections onto the accepted proofs
  have key : ∀ (chk : Bool) (C : Synthesizer E.Fr) (r : E.Fr) (pk : ProvingKey E) (ek : EncryptionKey E),
      pk.pk.vk = vk → Generates (E := E) pk.pk.delta_g1 → ∀ o : E.Fr → E.Fr → Proof E, ProofsBy T chk C r pk ek o →
      (∀ t s, Passes vk ct (o t s)) → ∀ proof, Passes vk ct proof → ∃! ts : E.Fr × E.Fr, o ts.1 ts.2 = proof := by
    intro chk C r pk ek hv hg o ho hacc proof hpr
    subst hv
    have hrun := ho (tape E) (fun _ => (1 : E.Fr))
    have h0 : draw (tape E) (fun _ => (1 : E.Fr)) 0 ≠ 0 := one_ne_zero
    obtain ⟨o2, ho2, hc⟩ := C103_any_key T chk C r pk ek hg h2 (tape E) (fun _ => (1 : E.Fr)) _ _ h0 hrun
    have heq : o2 = o := by
      funext t s
      have e1 := ho (tape E) (fun i => if i = 0 then t else s)
      have e2 := ho2 (tape E) (fun i => if i = 0 then t else s)
      rw [e2] at e1
      simp only [Res.ok.injEq, Prod.mk.injEq] at e1
      exact e1.1
    subst heq
    rcases hc ct with h | ⟨t0, h⟩
    · exact h.2 proof hpr
    · have e0 := h 0 0 (hacc 0 0)
      have e1 := h 1 0 (hacc 1 0)
      exact absurd (e1.trans e0.symm) one_ne_zero
  have k1 := key chk C r pk ek hvk h1 o ho hacc
  have k2 := key chk' C' r' pk' ek' hvk' h1' o' ho' hacc'
  choose f hf hfu using k1
  choose g hg hgu using k2
  refine ⟨⟨fun ts => f _ (hacc' ts.1 ts.2), fun ts => g _ (hacc ts.1 ts.2), fun ts => ?_, fun ts => ?_⟩, fun ts => ?_⟩
  · refine (hgu _ _ ts ?_).symm
    exact (hf _ (hacc' ts.1 ts.2)).symm
  · refine (hfu _ _ ts ?_).symm
    exact (hg _ (hacc ts.1 ts.2)).symm
  · exact hf _ (hacc' ts.1 ts.2)

/-- **C103** what a prover can do about it: if two of its own runs that drew different first scalars are accepted for the
ciphertext, then all runs are, and the proof says nothing beyond the ciphertext. -/
theorem C103_two_checks (T : FftCfg E.Fr) (chk : Bool) (C : Synthesizer E.Fr) (r : E.Fr) (pk : ProvingKey E)
    (ek : EncryptionKey E) (h1 : Generates (E := E) pk.pk.delta_g1) (h2 : Generates (E := E) pk.pk.vk.delta_g2)
    (ct : Ciphertext E) (R R' : RngCore E) (st st2 : R.σ) (st' st2' : R'.σ) (p p' : Proof E)
    (hne : draw R st 0 ≠ draw R' st' 0)
    (hp : createProof T chk R st C r pk ek = .ok (p, st2)) (hp' : createProof T chk R' st' C r pk ek = .ok (p', st2'))
    (ha : Passes pk.pk.vk ct p) (ha' : Passes pk.pk.vk ct p') :
    ∃ outcome : E.Fr → E.Fr → Proof E, ProofsBy T chk C r pk ek outcome ∧
      (∀ t s, Passes pk.pk.vk ct (outcome t s)) ∧
      ∀ proof, Passes pk.pk.vk ct proof → ∃! ts : E.Fr × E.Fr, outcome ts.1 ts.2 = proof := by
  obtain ⟨o, ho, hc⟩ : ∃ o : E.Fr → E.Fr → Proof E, ProofsBy T chk C r pk ek o ∧ ∀ ct : Ciphertext E,
      ((∀ t s, Passes pk.pk.vk ct (o t s)) ∧
        ∀ proof, Passes pk.pk.vk ct proof → ∃! ts : E.Fr × E.Fr, o ts.1 ts.2 = proof) ∨
      ∃ t0, ∀ t s, Passes pk.pk.vk ct (o t s) → t = t0 := by
    by_cases h0 : draw R st 0 = 0
    · exact C103_any_key T chk C r pk ek h1 h2 R' st' st2' p' (by rw [h0] at hne; exact hne.symm) hp'
    · exact C103_any_key T chk C r pk ek h1 h2 R st st2 p h0 hp
  refine ⟨o, ho, ?_⟩
  rcases hc ct with h | ⟨t0, h⟩
  · exact h
  · exfalso
    apply hne
    have e := ho R st
    rw [hp] at e
    simp only [Res.ok.injEq, Prod.mk.injEq] at e
    have e' := ho R' st'
    rw [hp'] at e'
    simp only [Res.ok.injEq, Prod.mk.injEq] at e'
    exact (h _ _ (e.1 ▸ ha)).trans (h _ _ (e'.1 ▸ ha')).symm

namespace Untrusted

theorem msm_set {G : Type} [AddCommGroup G] (D : G) (l : List G) (k : List ℕ) (j : ℕ) (hj : j < l.length) :
    msmBigint (l.set j (l.getD j 0 + D)) k = msmBigint l k + k.getD j 0 • D := by
  induction l generalizing k j with
  | nil => simp at hj
  | cons g l ih =>
    cases k with
    | nil => simp [msmBigint]
    | cons x k =>
      cases j with
      | zero =>
        simp only [msmBigint, List.getD_cons_zero, List.set_cons_zero, List.zipWith_cons_cons, List.sum_cons, smul_add]
        abel
      | succ j =>
        have := ih k j (by simpa using hj)
        simp only [msmBigint, List.getD_cons_succ, List.set_cons_succ, List.zipWith_cons_cons, List.sum_cons] at this ⊢
        rw [this]
        abel

theorem getD_map_val (w : List E.Fr) (j : ℕ) :
    (w.map (intoBigint (K := E.fr))).getD j 0 = (w.getD j 0).val := by
  rw [List.getD_eq_getElem?_getD, List.getD_eq_getElem?_getD, List.getElem?_map]
  cases w[j]? with
  | none => simp
  | some v => rfl

/-- the effect of the alteration on the proof -/
theorem altered_proof {T : FftCfg E.Fr} {chk : Bool} {C : Synthesizer E.Fr} {r : E.Fr} {pk : ProvingKey E}
    {ek : EncryptionKey E} {R : RngCore E} {st st' : R.σ} {p : Proof E} {cs : CS E.Fr} (j : ℕ) (D : E.G1)
    (hC : C (CS.new false) = .ok cs) (hj : j < pk.pk.l_query.length)
    (hp : createProof T chk R st C r pk ek = .ok (p, st')) :
    createProof T chk R st C r (altered pk j D) ek = .ok ({ p with c := p.c + (cs.wit.getD j 0).val • D }, st') := by
  unfold createProof createProofWithReduction at hp ⊢
  rw [fr_eq R st] at hp ⊢
  simp only [hC, Res.ok_bind] at hp ⊢
  by_cases hsat : (chk && !cs.isSatisfied) = true
  · rw [if_pos hsat] at hp
    cases hp
  · rw [if_neg hsat] at hp ⊢
    cases hd : T.newDomain (cs.cons.length + cs.numInst) with
    | none => rw [hd] at hp; cases hp
    | some d =>
      rw [hd] at hp
      simp only at hp ⊢
      obtain ⟨q, hq, hp⟩ := Res.bind_eq_ok.mp hp
      simp only [Res.pure_eq, Res.ok.injEq, Prod.mk.injEq] at hp
      obtain ⟨rfl, rfl⟩ := hp
      unfold createProofWithAssignment at hq ⊢
      obtain ⟨x1, g1, hq⟩ := Res.bind_eq_ok.mp hq
      dsimp only at hq
      simp only [altered, g1, Res.ok_bind]
      by_cases hr : draw R st 0 ≠ 0
      · rw [if_pos hr] at hq ⊢
        obtain ⟨x2, g2, hq⟩ := Res.bind_eq_ok.mp hq
        obtain ⟨x3, g3, hq⟩ := Res.bind_eq_ok.mp hq
        simp only [Res.pure_eq, Res.ok.injEq] at hq
        subst hq
        rw [g2, Res.ok_bind, g3, Res.ok_bind, msm_set D _ _ j hj, getD_map_val]
        show Res.ok _ = Res.ok _
        congr 3
        dsimp only
        abel
      · rw [if_neg hr] at hq ⊢
        obtain ⟨x2, g2, hq⟩ := Res.bind_eq_ok.mp hq
        obtain ⟨x3, g3, hq⟩ := Res.bind_eq_ok.mp hq
        simp only [Res.pure_eq, Res.ok.injEq] at hq
        subst hq
        cases g2
        rw [g3, Res.ok_bind, msm_set D _ _ j hj, getD_map_val]
        show Res.ok _ = Res.ok _
        congr 3
        dsimp only
        abel

theorem flatMap_getD (n b : ℕ) (xs : List ℕ) (i k : ℕ) (hi : i < xs.length) (hkn : k < n) :
    (xs.flatMap fun x => blockVals n b x).getD (bitPosition n b i k) false = (xs.getD i 0).testBit k := by
  induction xs generalizing i with
  | nil => simp at hi
  | cons x xs ih =>
    rw [List.flatMap_cons]
    cases i with
    | zero =>
      have : bitPosition n b 0 k = k := by simp [bitPosition]
      rw [this, List.getD_append _ _ _ _ (by rw [length_blockVals]; unfold blockWits; omega)]
      unfold blockVals
      rw [List.getD_append _ _ _ _ (by rw [length_tab]; exact hkn), getD_tab, if_pos hkn]
      rfl
    | succ i =>
      have : bitPosition n b (i + 1) k = blockWits n b + bitPosition n b i k := by
        unfold bitPosition blockWits
        ring
      rw [this, List.getD_append_right _ _ _ _ (by rw [length_blockVals]; omega), length_blockVals,
        Nat.add_sub_cancel_left, ih i (by simpa using hi)]
      rfl

end Untrusted
open Untrusted

/-- **C103** (negative part, chunk level) a single altered element of the proving key makes the verifier's verdict a
function of one bit of the secret: with an honest SRS in which `D != 0` is added to the element that belongs to bit `k`
of chunk `i`, ciphertexts are the same as before (encryption uses the verification key only), `create_proof` succeeds in
all builds and for all scalars, and the ciphertext and proof pass `verify_commitment_and_proof` if that bit is 0, and fail
with `PairingCheckFailed` if it is 1. -/
theorem C103_selective_failure (T : FftCfg E.Fr) (R : RngCore E) (fuel : ℕ) (st st' : R.σ) (b : UInt8)
    (c0 : BitsizeCheckCircuit E.fr) (gens : EncryptionGens E) (hH : gens.H ≠ 0) (pk : ProvingKey E)
    (hc0 : BitsizeCheckCircuit.new (K := E.fr) b none none true = .ok c0)
    (hsrs : generateSrs T R fuel st c0.generateConstraints gens = .ok (pk, st'))
    (g_i : List E.G1) (hg : getGsForEncryption pk.pk.vk = .ok g_i) (ek : EncryptionKey E)
    (hk : FromSetup ek b gens g_i pk.pk.delta_g1 pk.gamma_g1)
    (R' : RngCore E) (st1 st2 : R'.σ) (chunks : List UInt16) (v : List E.G1) (r : E.Fr)
    (henc : encryptDecomposedMessage R' st1 chunks ek g_i = .ok ((v, r), st2))
    (hch : ∀ c ∈ chunks, c.toNat < 2 ^ b.toNat)
    (num : Option UInt8) (c : BitsizeCheckCircuit E.fr)
    (hc : BitsizeCheckCircuit.new (K := E.fr) b num
      (some (chunks.map fun c => ((c.toNat : ℕ) : E.Fr))) true = .ok c)
    (i k : ℕ) (hi : i < chunks.length) (hkb : k < b.toNat)
    (hfit : b.toNat < E.fr.modBits) (D : E.G1) (hD : D ≠ 0)
    (chk : Bool) (R'' : RngCore E) (st3 : R''.σ) :
    ∃ (ct : Ciphertext E) (proof : Proof E) (st4 : R''.σ), v = flat ct ∧
      createProof T chk R'' st3 c.generateConstraints r
        (altered pk (bitPosition E.fr.modBits b.toNat i k) D) ek = .ok (proof, st4) ∧
      ct.verifyCommitmentAndProof proof
        (prepareVerifyingKey (altered pk (bitPosition E.fr.modBits b.toNat i k) D).pk.vk) ek.prepare gens.prepare =
        if (chunks.getD i 0).toNat.testBit k then .err .pairingCheckFailed else .ok () := by
  obtain ⟨ct, proof, st4, hv, hp, hver⟩ := C46_chunk_level T R fuel st st' b c0 gens pk hc0 hsrs g_i hg ek hk R' st1 st2
    chunks v r henc hch num c hc chk R'' st3
  obtain ⟨n, s, t, hn, hgn, hek⟩ := fromSetup_inv hk
  obtain ⟨hbm, hnum⟩ := srs_bitsize_le hc0 hsrs hn
  obtain ⟨a1, a2, a3, -, -⟩ := new_ok hc0
  obtain ⟨b1, b2, b3, -, -⟩ := new_ok hc
  have hX : ek.X.length = n.toNat := by rw [hek]; simp [encKey]
  have hw : WellFormed ek := by rw [hek]; exact encKey_wf _ _ _ _ _ _ _
  have hX256 : ek.X.length < 256 := by rw [hX]; exact n.toNat_lt
  have hlen : chunks.length = ek.X.length := by
    by_contra hc'
    rw [(C14_encrypt_decomposed R' st1 chunks ek g_i).2.2.1 hw
      (by rwa [Nat.mod_eq_of_lt hX256])] at henc
    cases henc
  -- the key and the synthesis
  obtain ⟨cs0, d, tau, alpha, beta, gamma, delta, hcs0, hd, hvan, hgam, hdel, hpk⟩ := srs_inv hsrs
  obtain ⟨xs, hxl, -, hgen0⟩ := genConstraints_ok c0 true (Or.inl rfl) (by rw [a1]; exact hbm)
  have hgen := generateConstraints_eq c false (chunks.map fun c => ((c.toNat : ℕ) : E.Fr)) (Or.inr ⟨rfl, b2⟩)
    (by rw [b1]; exact hbm)
  rw [hgen0] at hcs0
  have hnw : cs0.numWit = chunks.length * blockWits E.fr.modBits b.toNat := by
    injection hcs0 with h
    rw [← h]
    simp only [a1, a3, if_true, Nat.zero_add]
    rw [hxl, hnum, hlen, hX]
  have hj : bitPosition E.fr.modBits b.toNat i k < pk.pk.l_query.length := by
    rw [hpk]
    show _ < ((List.range cs0.numWit).map _).length
    rw [List.length_map, List.length_range, hnw]
    have : (i + 1) * blockWits E.fr.modBits b.toNat ≤ chunks.length * blockWits E.fr.modBits b.toNat :=
      Nat.mul_le_mul_right _ hi
    unfold bitPosition
    unfold blockWits at *
    rw [Nat.add_mul, Nat.one_mul] at this
    omega
  have halt := altered_proof (ek := ek) (r := r) _ D hgen hj hp
  refine ⟨ct, _, st4, hv, halt, ?_⟩
  -- the witness at the altered position
  have hval : ∀ x ∈ chunks, ((x.toNat : ℕ) : E.Fr).val = x.toNat := by
    intro x hx
    rw [ZMod.val_natCast]
    apply Nat.mod_eq_of_lt
    have h1 := hch x hx
    have h2 : 2 ^ b.toNat ≤ E.fr.p := Nat.lt_size.mp hfit
    omega
  have hwit : (((((chunks.map fun c => ((c.toNat : ℕ) : E.Fr)).flatMap
      fun x => blockVals E.fr.modBits b.toNat x.val).map ofBool : List E.Fr)).getD
        (bitPosition E.fr.modBits b.toNat i k) 0).val = ((chunks.getD i 0).toNat.testBit k).toNat := by
    have e1 : (chunks.map fun c => ((c.toNat : ℕ) : E.Fr)).flatMap (fun x => blockVals E.fr.modBits b.toNat x.val) =
        (nums chunks).flatMap fun x => blockVals E.fr.modBits b.toNat x := by
      unfold nums
      rw [List.flatMap_map, List.flatMap_map]
      apply List.flatMap_congr
      intro x hx
      rw [hval x hx]
    have e2 := flatMap_getD E.fr.modBits b.toNat (nums chunks) i k (by simpa [nums] using hi) (by omega)
    have e3 : (nums chunks).getD i 0 = (chunks.getD i 0).toNat := by
      unfold nums
      rw [List.getD_eq_getElem?_getD, List.getD_eq_getElem?_getD, List.getElem?_map]
      cases chunks[i]? <;> rfl
    rw [e1]
    rw [e3] at e2
    rw [← e2]
    generalize (nums chunks).flatMap (fun x => blockVals E.fr.modBits b.toNat x) = l
    rw [List.getD_eq_getElem?_getD, List.getD_eq_getElem?_getD, List.getElem?_map]
    cases l[bitPosition E.fr.modBits b.toNat i k]? with
    | none => simp
    | some v =>
      have : Fact (1 < E.fr.p) := ⟨E.fr.prime.one_lt⟩
      cases v
      · simp [ofBool]
      · simp [ofBool, ZMod.val_one]
  simp only [b1, b3, if_true, List.nil_append]
  have hrec : ∀ l : List E.Fr, recorded false l = l := fun l => rfl
  rw [hrec, hwit]
  unfold Ciphertext.verifyCommitmentAndProof at hver ⊢
  obtain ⟨u, hcom, hvp⟩ := Res.bind_eq_ok.mp hver
  rw [hcom, Res.ok_bind]
  have hne : pk.pk.vk.gamma_abc_g1 ≠ [] := ((accepted_iff pk.pk.vk ct proof).mp hvp).1
  have heq := ((accepted_iff pk.pk.vk ct proof).mp hvp).2
  show verifyProof (prepareVerifyingKey pk.pk.vk) _ ct = _
  rw [verifyProof_eq _ _ _ hne]
  dsimp only
  cases hb : (chunks.getD i 0).toNat.testBit k with
  | false =>
    rw [Bool.toNat_false, zero_smul, add_zero, if_pos heq]
    rfl
  | true =>
    have hd2 : pk.pk.vk.delta_g2 ≠ 0 := by
      rw [hpk]
      exact smul_ne_zero hdel hH
    rw [Bool.toNat_true, one_smul, if_neg, if_pos rfl]
    intro h
    rw [heq, (map_add E.e proof.c D), LinearMap.add_apply] at h
    have h0 : E.e D pk.pk.vk.delta_g2 = 0 := left_eq_add.mp (add_left_cancel (add_right_cancel h))
    rcases E.nondeg _ _ h0 with h | h
    · exact hD h
    · exact hd2 h

namespace Untrusted

theorem digit_bit (b : ℕ) (hb : 0 < b) (ds : List ℕ) (hd : ∀ d ∈ ds, d < 2 ^ b) (q : ℕ) (hq : q < b * ds.length) :
    (horner (2 ^ b) 0 ds).testBit q = (ds.getD (ds.length - 1 - q / b) 0).testBit (q % b) := by
  induction ds using List.reverseRecOn generalizing q with
  | nil => simp at hq
  | append_singleton ds d ih =>
    have hd' : d < 2 ^ b := hd d (by simp)
    rw [horner_append]
    have e : horner (2 ^ b) (horner (2 ^ b) 0 ds) [d] = 2 ^ b * horner (2 ^ b) 0 ds + d := by
      simp [horner, Nat.mul_comm]
    rw [e, Nat.testBit_two_pow_mul_add _ hd']
    rw [List.length_append, List.length_singleton] at hq ⊢
    by_cases hqb : q < b
    · rw [if_pos hqb, Nat.div_eq_of_lt hqb, Nat.mod_eq_of_lt hqb, List.getD_append_right _ _ _ _ (by omega)]
      simp
    · rw [if_neg hqb]
      obtain ⟨q', rfl⟩ : ∃ q', q = q' + b := ⟨q - b, by omega⟩
      have hq' : q' < b * ds.length := by rw [Nat.mul_add, Nat.mul_one] at hq; omega
      rw [Nat.add_sub_cancel, ih (fun x hx => hd x (by simp [hx])) q' hq', Nat.add_div_right _ hb, Nat.add_mod_right]
      have hlt : q' / b < ds.length := by
        rw [Nat.div_lt_iff_lt_mul hb, Nat.mul_comm]
        exact hq'
      generalize q' / b = z at hlt ⊢
      rw [List.getD_append _ _ _ _ (by omega)]
      congr 2
      omega

end Untrusted
open Untrusted

/-- **C103** (negative part, message level) for every bit position `q`, whoever generates the SRS can replace one element
of the proving key so that `encrypt_with_proof` succeeds as before, with the same ciphertext, and the result passes
`verify_commitment_and_proof` exactly if bit `q` of the message is 0. -/
theorem C103_message_bit (T : FftCfg E.Fr) (R : RngCore E) (fuel : ℕ) (st st' : R.σ)
    (b : UInt8) (hb : Supported b)
    (hal : 64 * E.fr.limbs < E.fr.modBits + b.toNat ∧ chunksNeeded E.fr b.toNat ≤ 255) (hfit : b.toNat < E.fr.modBits)
    (c0 : BitsizeCheckCircuit E.fr) (gens : EncryptionGens E) (hH : gens.H ≠ 0) (pk : ProvingKey E)
    (hc0 : BitsizeCheckCircuit.new (K := E.fr) b none none true = .ok c0)
    (hsrs : generateSrs T R fuel st c0.generateConstraints gens = .ok (pk, st'))
    (g_i : List E.G1) (hg : getGsForEncryption pk.pk.vk = .ok g_i) (ek : EncryptionKey E)
    (hk : FromSetup ek b gens g_i pk.pk.delta_g1 pk.gamma_g1) (q : ℕ) (hq : q < 64 * E.fr.limbs) (D : E.G1) (hD : D ≠ 0) :
    ∃ j, ∀ (chk : Bool) (R' : RngCore E) (st1 : R'.σ) (m : E.Fr),
    ∃ ct r proof st2, encryptWithProof T chk R' st1 m ek (altered pk j D) b = .ok ((ct, r, proof), st2) ∧
      encrypt R' st1 m ek g_i b = .ok ((ct, r), after R' st1 1) ∧
      ct.verifyCommitmentAndProof proof (prepareVerifyingKey (altered pk j D).pk.vk) ek.prepare gens.prepare =
        if m.val.testBit q then .err .pairingCheckFailed else .ok () := by
  have hb0 : 0 < b.toNat := by rcases hb with rfl | rfl | rfl <;> decide
  have hdiv : b.toNat * (64 * E.fr.limbs / b.toNat) = 64 * E.fr.limbs := by
    apply Nat.mul_div_cancel'
    rcases hb with rfl | rfl | rfl
    · exact Dvd.dvd.mul_right (by decide) _
    · exact Dvd.dvd.mul_right (by decide) _
    · exact Dvd.dvd.mul_right (by decide) _
  refine ⟨bitPosition E.fr.modBits b.toNat (64 * E.fr.limbs / b.toNat - 1 - q / b.toNat) (q % b.toNat),
    fun chk R' st1 m => ?_⟩
  obtain ⟨n, s, t, hn, hgn, hek⟩ := fromSetup_inv hk
  obtain ⟨d, hd, hlen, hlt, hpos⟩ := decompose_spec m hb
  have hl := (decomp_len_eq_iff E.fr b n hb hn).mpr hal
  have hX : ek.X.length = n.toNat := by rw [hek]; simp [encKey]
  have hw : WellFormed ek := by rw [hek]; exact encKey_wf _ _ _ _ _ _ _
  have hX256 : ek.X.length < 256 := by rw [hX]; exact n.toNat_lt
  have h1 := encryptDecomposed_ok R' st1 d ek g_i hw hX256 (by omega) (by omega)
  have h2 := encrypt_ok R' st1 m ek g_i b hd hw hX256 (by omega) (by omega)
  obtain ⟨c, hc⟩ : ∃ c, BitsizeCheckCircuit.new (K := E.fr) b none
      (some (d.map fun c => ((c.toNat : ℕ) : E.Fr))) true = .ok c := by
    unfold BitsizeCheckCircuit.new
    simp only [hn, Res.ok_bind]
    exact ⟨_, rfl⟩
  have hqd : q / b.toNat < d.length := by
    rw [Nat.div_lt_iff_lt_mul hb0, hlen, Nat.mul_comm, hdiv]
    exact hq
  have hbit : m.val.testBit q = (d.getD (64 * E.fr.limbs / b.toNat - 1 - q / b.toNat) 0).toNat.testBit (q % b.toNat) := by
    rw [← hpos, positional_eq_horner, digit_bit b.toNat hb0 (nums d)
      (by intro x hx; obtain ⟨y, hy, rfl⟩ := List.mem_map.mp hx; exact hlt y hy) q
      (by simp only [nums, List.length_map]; rw [hlen, hdiv]; exact hq)]
    simp only [nums, List.length_map, hlen]
    congr 1
    rw [List.getD_eq_getElem?_getD, List.getD_eq_getElem?_getD, List.getElem?_map]
    cases d[64 * E.fr.limbs / b.toNat - 1 - q / b.toNat]? <;> rfl
  obtain ⟨ct, proof, st4, hv, hp, hver⟩ := C103_selective_failure T R fuel st st' b c0 gens hH pk hc0 hsrs g_i hg
    ek hk R' st1 _ d _ _ h1 hlt none c hc (64 * E.fr.limbs / b.toNat - 1 - q / b.toNat) _
    (by rw [hlen] at hqd ⊢; generalize q / b.toNat = z at hqd ⊢; omega) (Nat.mod_lt q hb0) hfit D hD chk R'
    (after R' st1 1)
  have hct := flat_inj hv
  subst hct
  rw [← hbit] at hver
  refine ⟨_, _, proof, st4, ?_, h2, hver⟩
  unfold encryptWithProof
  have hg' : getGsForEncryption (altered pk (bitPosition E.fr.modBits b.toNat
    (64 * E.fr.limbs / b.toNat - 1 - q / b.toNat) (q % b.toNat)) D).pk.vk = .ok g_i := hg
  rw [hg', Res.ok_bind, h2, Res.ok_bind]
  simp only
  rw [hd, Res.ok_bind, hc, Res.ok_bind, hp, Res.ok_bind]
  rfl

/-! ### the hypotheses are met: SRS for 8-bit chunks over the Goldilocks field -/

theorem Untrusted.fix_div (x g : Fix.F) (hg : g ≠ 0) : x = (x * g⁻¹) * g := by
  rw [mul_assoc, inv_mul_cancel₀ hg, mul_one]

theorem Untrusted.fix_generates1 (g : Fix.E.G1) (hg : g ≠ 0) : Generates (E := Fix.E) g :=
  ⟨hg, fun x => ⟨(show Fix.E.Fr from (show Fix.F from x) * (show Fix.F from g)⁻¹), Untrusted.fix_div x g hg⟩⟩

theorem Untrusted.fix_generates2 (g : Fix.E.G2) (hg : g ≠ 0) : Generates (E := Fix.E) g :=
  ⟨hg, fun x => ⟨(show Fix.E.Fr from (show Fix.F from x) * (show Fix.F from g)⁻¹), Untrusted.fix_div x g hg⟩⟩

/-- an honest key, two runs with first scalars 1 and 2: all runs are accepted and uniform on the accepted proofs; and two
provers on the same ciphertext have the same distribution -/
example : ∃ (pk : ProvingKey Fix.E) (ek : EncryptionKey Fix.E) (c : BitsizeCheckCircuit Fix.E.fr) (ct : Ciphertext Fix.E)
    (r : Fix.E.Fr) (o : Fix.E.Fr → Fix.E.Fr → Proof Fix.E), ProofsBy goldFft true c.generateConstraints r pk ek o ∧
      (∀ t s, Passes pk.pk.vk ct (o t s)) ∧
      (∀ proof, Passes pk.pk.vk ct proof → ∃! ts : Fix.E.Fr × Fix.E.Fr, o ts.1 ts.2 = proof) ∧
      ∃ (o' : Fix.E.Fr → Fix.E.Fr → Proof Fix.E) (φ : Fix.E.Fr × Fix.E.Fr ≃ Fix.E.Fr × Fix.E.Fr),
        ProofsBy goldFft false c.generateConstraints r pk ek o' ∧ ∀ ts, o (φ ts).1 (φ ts).2 = o' ts.1 ts.2 := by
  obtain ⟨c0, pk, ek, g_i, st1, -, hc0, hsrs, hg, hgi, hlen, hk⟩ := Fix.run8
  obtain ⟨n, s, t, hn, hgn, hek⟩ := fromSetup_inv hk
  rw [Fix.count8] at hn
  cases hn
  have hX : ek.X.length = 8 := by rw [hek]; simp [encKey, Fix.eight]
  have hw : WellFormed ek := by rw [hek]; exact encKey_wf _ _ _ _ _ _ _
  have henc := encryptDecomposed_ok (listRng Fix.E) Fix.st1 [1, 2, 3, 4, 5, 6, 7, 255] ek g_i hw
    (by omega) (by rw [hX]; rfl) (by omega)
  obtain ⟨c, hc⟩ : ∃ c, BitsizeCheckCircuit.new (K := Fix.E.fr) 8 none
      (some (([1, 2, 3, 4, 5, 6, 7, 255] : List UInt16).map fun c => ((c.toNat : ℕ) : Fix.E.Fr))) true
        = .ok c := by
    unfold BitsizeCheckCircuit.new
    exact ⟨_, rfl⟩
  have hrun := fun chk R'' st3 => C46_chunk_level goldFft (listRng Fix.E) 1 Fix.stFull8 st1 8 c0 Fix.gens
    pk hc0 hsrs g_i hg ek hk (listRng Fix.E) Fix.st1 _ _ _ _ henc (by decide) none c hc chk R'' st3
  obtain ⟨cs0, d, tau, alpha, beta, gamma, delta, -, -, -, -, hdel, hpk⟩ := srs_inv hsrs
  have h1 : Generates (E := Fix.E) pk.pk.delta_g1 := by
    apply Untrusted.fix_generates1
    rw [hpk]
    exact smul_ne_zero hdel (by exact (by decide +kernel : (2 : Fix.F) ≠ 0))
  have h2 : Generates (E := Fix.E) pk.pk.vk.delta_g2 := by
    apply Untrusted.fix_generates2
    rw [hpk]
    exact smul_ne_zero hdel (by exact (by decide +kernel : (3 : Fix.F) ≠ 0))
  have hacc : ∀ {ct : Ciphertext Fix.E} {proof : Proof Fix.E}, ct.verifyCommitmentAndProof proof
      (prepareVerifyingKey pk.pk.vk) ek.prepare Fix.gens.prepare = .ok () → Passes pk.pk.vk ct proof := by
    intro ct proof h
    unfold Ciphertext.verifyCommitmentAndProof at h
    obtain ⟨u, -, h⟩ := Res.bind_eq_ok.mp h
    exact h
  have key : ∀ chk, ∃ o : Fix.E.Fr → Fix.E.Fr → Proof Fix.E, ProofsBy goldFft chk c.generateConstraints
      (draw (listRng Fix.E) Fix.st1 0) pk ek o ∧
      (∀ t s, Passes pk.pk.vk (cipher ek (fun i => g_i.getD i 0) (fun i =>
        (nums ([1, 2, 3, 4, 5, 6, 7, 255] : List UInt16)).getD i 0) (draw (listRng Fix.E) Fix.st1 0)) (o t s)) ∧
      ∀ proof, Passes pk.pk.vk (cipher ek (fun i => g_i.getD i 0) (fun i =>
        (nums ([1, 2, 3, 4, 5, 6, 7, 255] : List UInt16)).getD i 0) (draw (listRng Fix.E) Fix.st1 0)) proof →
          ∃! ts : Fix.E.Fr × Fix.E.Fr, o ts.1 ts.2 = proof := by
    intro chk
    obtain ⟨ct, p, st4, hv, hp, hver⟩ := hrun chk (tape Fix.E) (fun _ => (1 : Fix.F))
    obtain ⟨ct', p', st4', hv', hp', hver'⟩ := hrun chk (tape Fix.E) (fun _ => (2 : Fix.F))
    have e1 := flat_inj hv
    have e2 := flat_inj hv'
    rw [← e1] at hver
    rw [← e2] at hver'
    have h12 : draw (tape Fix.E) (fun _ => (1 : Fix.F)) 0 ≠ draw (tape Fix.E) (fun _ => (2 : Fix.F)) 0 := by
      exact (by decide +kernel : (1 : Fix.F) ≠ 2)
    exact C103_two_checks (E := Fix.E) goldFft chk c.generateConstraints _ pk ek h1 h2 _ (tape Fix.E) (tape Fix.E)
      (fun _ => (1 : Fix.F)) st4 (fun _ => (2 : Fix.F)) st4' p p' h12 hp hp' (hacc hver) (hacc hver')
  obtain ⟨o, ho, ha, hu⟩ := key true
  obtain ⟨o', ho', ha', -⟩ := key false
  obtain ⟨φ, hφ⟩ := C103_same_distribution goldFft pk.pk.vk _ true false _ _ _ _ pk pk ek ek rfl rfl h1 h1 h2 o o' ho ho'
    ha ha'
  exact ⟨pk, ek, c, _, _, o, ho, ha, hu, o', φ, ho', hφ⟩

/-- an altered key that makes the proof of an odd message fail and that of an even message pass -/
example : ∃ (pk : ProvingKey Fix.E) (ek : EncryptionKey Fix.E) (j : ℕ) (ct ct' : Ciphertext Fix.E) (r r' : Fix.E.Fr)
    (p p' : Proof Fix.E) (st2 st2' : (listRng Fix.E).σ),
    encryptWithProof goldFft true (listRng Fix.E) Fix.st1 (7 : Fix.F) ek (altered pk j (2 : Fix.F)) 8 =
      .ok ((ct, r, p), st2) ∧
    ct.verifyCommitmentAndProof p (prepareVerifyingKey pk.pk.vk) ek.prepare Fix.gens.prepare =
      .err .pairingCheckFailed ∧
    encryptWithProof goldFft true (listRng Fix.E) Fix.st1 (6 : Fix.F) ek (altered pk j (2 : Fix.F)) 8 =
      .ok ((ct', r', p'), st2') ∧
    ct'.verifyCommitmentAndProof p' (prepareVerifyingKey pk.pk.vk) ek.prepare Fix.gens.prepare = .ok () := by
  obtain ⟨c0, pk, ek, g_i, st1, -, hc0, hsrs, hg, hgi, hlen, hk⟩ := Fix.run8
  have hfit : (8 : UInt8).toNat < Fix.E.fr.modBits := by
    rw [show Fix.E.fr.modBits = 64 from goldFr_modBits]; decide
  obtain ⟨j, hj⟩ := C103_message_bit goldFft (listRng Fix.E) 1 Fix.stFull8 st1 8 (Or.inr (Or.inl rfl)) Fix.aligned8 hfit
    c0 Fix.gens (by exact (by decide +kernel : (3 : Fix.F) ≠ 0)) pk hc0 hsrs g_i hg ek hk 0
    (by show 0 < 64 * 1; decide) (show Fix.E.G1 from (2 : Fix.F)) (by exact (by decide +kernel : (2 : Fix.F) ≠ 0))
  obtain ⟨ct, r, p, st2, e1, -, e2⟩ := hj true (listRng Fix.E) Fix.st1 (7 : Fix.F)
  obtain ⟨ct', r', p', st2', f1, -, f2⟩ := hj true (listRng Fix.E) Fix.st1 (6 : Fix.F)
  rw [if_pos (by exact (by decide +kernel : (7 : Fix.F).val.testBit 0 = true))] at e2
  rw [if_neg (by exact (by decide +kernel : ¬ (6 : Fix.F).val.testBit 0 = true))] at f2
  exact ⟨pk, ek, j, ct, ct', r, r', p, p', st2, st2', e1, e2, f1, f2⟩

end Verif
