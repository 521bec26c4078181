/-
Property C92: the search for the evaluation point during setup.
-/
import Verif.SpecCandidates
import Verif.Props.ChosenCiphertextNu
import Verif.Props.AdaptiveDkg
import Mathlib.RingTheory.RootsOfUnity.PrimitiveRoots

namespace Verif
open Spec Agm

section
variable {E : Engine}

namespace Cand

theorem sampleOutside_panic_iff {R : RngCore E} {d : EvalDomain E.Fr} (F : ℕ) (st : R.σ) :
    sampleOutside R d F st = .panic ↔ ∀ k < F, d.vanishing (draw R st k) = 0 := by
  induction F generalizing st with
  | zero => simp [sampleOutside]
  | succ F ih =>
    simp only [sampleOutside]
    have hsh : ∀ j, draw R ((R.fr st).2) j = draw R st (j + 1) := fun j => by
      rw [show (R.fr st).2 = after R st 1 from rfl, draw_after, Nat.add_comm]
    split
    · next h0 =>
      rw [ih]
      constructor
      · intro h k hk
        cases k with
        | zero => exact h0
        | succ k => rw [← hsh]; exact h k (by omega)
      · intro h k hk
        rw [hsh]
        exact h (k + 1) (by omega)
    · next h0 =>
      constructor
      · intro h; cases h
      · intro h; exact absurd (h 0 (by omega)) h0

theorem sampleOutside_more {R : RngCore E} {d : EvalDomain E.Fr} {F F' : ℕ} (hF : F ≤ F') (st : R.σ)
    (h : sampleOutside R d F st ≠ .panic) : sampleOutside R d F' st = sampleOutside R d F st := by
  induction F generalizing F' st with
  | zero => exact absurd rfl h
  | succ F ih =>
    obtain ⟨G, rfl⟩ : ∃ G, F' = G + 1 := ⟨F' - 1, by omega⟩
    simp only [sampleOutside] at h ⊢
    split
    · next h0 =>
      rw [if_pos h0] at h
      exact ih (by omega) _ h
    · rfl

theorem params_more {T : FftCfg E.Fr} {R : RngCore E} {F F' : ℕ} (hF : F ≤ F') (st : R.σ) (C : Synthesizer E.Fr)
    (alpha beta gamma delta : E.Fr) (g1 : E.G1) (g2 : E.G2)
    (h : generateParametersWithQap T R F st C alpha beta gamma delta g1 g2 ≠ .panic) :
    generateParametersWithQap T R F' st C alpha beta gamma delta g1 g2 =
      generateParametersWithQap T R F st C alpha beta gamma delta g1 g2 := by
  unfold generateParametersWithQap at h ⊢
  cases hC : C (CS.new true) with
  | err e => rfl
  | panic => rfl
  | ok cs =>
    rw [hC] at h
    simp only [Res.ok_bind] at h ⊢
    cases hd : T.newDomain (cs.cons.length + cs.numInst) with
    | none => rfl
    | some d =>
      rw [hd] at h
      dsimp only at h ⊢
      rw [sampleOutside_more hF]
      intro hp
      rw [hp] at h
      exact h rfl

theorem srs_more {T : FftCfg E.Fr} {R : RngCore E} {F F' : ℕ} (hF : F ≤ F') (st : R.σ) (C : Synthesizer E.Fr)
    (gens : EncryptionGens E) (h : generateSrs T R F st C gens ≠ .panic) :
    generateSrs T R F' st C gens = generateSrs T R F st C gens := by
  unfold generateSrs at h ⊢
  dsimp only at h ⊢
  rw [params_more hF]
  intro hp
  rw [hp] at h
  exact h rfl

end Cand

/-- **C92** Drawing more candidates never changes a result: if `setup_for_groth16` comes to an end (with keys or with an
error) when at most `F` candidates for the evaluation point are drawn, it ends with the same result when more are
allowed. -/
theorem C92_more_candidates (T : FftCfg E.Fr) (R : RngCore E) (F F' : ℕ) (hF : F ≤ F') (st : R.σ) (b : UInt8)
    (gens : EncryptionGens E) (h : setupForGroth16 T R F st b gens ≠ .panic) :
    setupForGroth16 T R F' st b gens = setupForGroth16 T R F st b gens := by
  unfold setupForGroth16 at h ⊢
  cases hc : BitsizeCheckCircuit.new (K := E.fr) b none none true with
  | err e => rfl
  | panic => rfl
  | ok c =>
    rw [hc] at h
    simp only [Res.ok_bind] at h ⊢
    rw [Cand.srs_more hF]
    intro hp
    rw [hp] at h
    exact h rfl

section
variable (T : FftCfg E.Fr) (b n : UInt8) (hn : chunksCount E.fr b = .ok n)
    (hbm : b.toNat ≤ E.fr.modBits) (gens : EncryptionGens E) (d : EvalDomain E.Fr)
    (hd : T.newDomain (n.toNat * constraintsPerValue E.fr.modBits b.toNat + (n.toNat + 1)) = some d)
include hn hbm hd

/-- **C92** The search is all that can keep the setup from ending: whatever generator is used, `setup_for_groth16` with
at most `F` candidates ends unless all `F` candidates lie in the evaluation domain, and then it yields keys unless one
of the trapdoors `gamma` and `delta` is zero. -/
theorem C92_ends_iff (R : RngCore E) (F : ℕ) (st : R.σ) :
    (setupForGroth16 T R F st b gens = .panic ↔ ∀ k < F, d.vanishing (draw R st (4 + k)) = 0) ∧
    ((∃ out, setupForGroth16 T R F st b gens = .ok out) ↔
      (∃ k < F, d.vanishing (draw R st (4 + k)) ≠ 0) ∧ draw R st 2 ≠ 0 ∧ draw R st 3 ≠ 0) := by
  classical
  obtain ⟨c0, cs, hc0, hcs, hI, hC, -⟩ := setup_shape (E := E) hn hbm
  have hd' : T.newDomain (cs.cons.length + cs.numInst) = some d := by rw [hC, hI]; exact hd
  have hb0 : b ≠ 0 := by
    rintro rfl
    simp [chunksCount] at hn
  obtain ⟨hok, herr, -⟩ := C49_setup_consistent T R F st b n hn gens c0 hc0
  have hpan : (∀ k < F, d.vanishing (draw R st (4 + k)) = 0) → setupForGroth16 T R F st b gens = .panic := by
    intro hc
    have hs : sampleOutside R d F (after R st 4) = .panic :=
      (Cand.sampleOutside_panic_iff F _).mpr fun k hk => by rw [draw_after]; exact hc k hk
    unfold setupForGroth16
    rw [hc0, Res.ok_bind]
    unfold generateSrs generateParametersWithQap
    simp only [hcs, Res.ok_bind, hd']
    have e : ((R.fr ((R.fr ((R.fr ((R.fr st).2)).2)).2)).2) = after R st 4 := rfl
    rw [e, hs]
    rfl
  have hend : (∃ k < F, d.vanishing (draw R st (4 + k)) ≠ 0) →
      (draw R st 2 = 0 ∨ draw R st 3 = 0 → ∃ e, setupForGroth16 T R F st b gens = .err e) ∧
      (draw R st 2 ≠ 0 ∧ draw R st 3 ≠ 0 → ∃ out, setupForGroth16 T R F st b gens = .ok out) := by
    intro hex
    obtain ⟨hk, hkv⟩ := Nat.find_spec hex
    have hlow : ∀ j < Nat.find hex, d.vanishing (draw R st (4 + j)) = 0 := fun j hj => by
      have := Nat.find_min hex hj
      by_contra hv
      exact this ⟨lt_trans hj hk, hv⟩
    obtain ⟨c0', N, hc0', hN, -, hsome⟩ := C49_srs_cases T R F st b hb0 hbm gens
    rw [hc0] at hc0'
    cases hc0'
    obtain ⟨e1, e2, e3, e4, -⟩ := new_ok hc0
    have hn0 : c0.num_values = n := by
      have := e4 rfl
      rw [hn] at this
      exact (Res.ok.inj this).symm
    have hnum : numValues c0 = n.toNat := by simp [numValues, e2, hn0]
    rw [hnum] at hN
    obtain ⟨hz, hnz⟩ := hsome d (by rw [hN]; exact hd) _ hk hkv hlow
    constructor
    · exact fun h0 => ⟨_, herr _ (hz h0)⟩
    · rintro ⟨h2, h3⟩
      obtain ⟨pk, hpk⟩ := hnz h2 h3
      obtain ⟨sk, ek, dk, st2, h, -⟩ := hok _ _ hpk
      exact ⟨_, h⟩
  by_cases hex : ∃ k < F, d.vanishing (draw R st (4 + k)) ≠ 0
  · have hno : ¬ ∀ k < F, d.vanishing (draw R st (4 + k)) = 0 := by
      obtain ⟨k, hk, hv⟩ := hex
      exact fun h => hv (h k hk)
    by_cases h0 : draw R st 2 ≠ 0 ∧ draw R st 3 ≠ 0
    · obtain ⟨out, h⟩ := (hend hex).2 h0
      rw [h]
      exact ⟨⟨(by intro h; cases h), fun h => absurd h hno⟩, ⟨fun _ => ⟨hex, h0⟩, fun _ => ⟨out, rfl⟩⟩⟩
    · obtain ⟨e, h⟩ := (hend hex).1 (by by_contra hc; rw [not_or] at hc; exact h0 hc)
      rw [h]
      exact ⟨⟨(by intro h; cases h), fun h => absurd h hno⟩, ⟨fun h => by (obtain ⟨_, h⟩ := h; cases h),
        fun h => absurd h.2 h0⟩⟩
  · have hall : ∀ k < F, d.vanishing (draw R st (4 + k)) = 0 := by
      push Not at hex
      exact hex
    rw [hpan hall]
    exact ⟨⟨fun _ => hall, fun _ => rfl⟩, ⟨fun h => by (obtain ⟨_, h⟩ := h; cases h), fun h => absurd h.1 hex⟩⟩

namespace Cand

omit hn hbm hd in
theorem roots_card [DecidableEq E.Fr] : (Finset.univ.filter fun t : E.Fr => d.vanishing t = 0).card = d.size := by
  rw [← d.prim.card_nthRootsFinset]
  congr 1
  ext t
  rw [Finset.mem_filter, Polynomial.mem_nthRootsFinset d.size_pos]
  simp only [Finset.mem_univ, true_and, EvalDomain.vanishing, sub_eq_zero]

omit hn hbm hd in
/-- draws with the coordinates `4, ..., 4 + F - 1` in the domain -/
theorem count_in [DecidableEq E.Fr] (K F : ℕ) (hK : 4 + F ≤ K) :
    (Finset.univ.filter fun x : Fin K → E.Fr => ∀ k < F, d.vanishing (tapeOf x (4 + k)) = 0).card =
      d.size ^ F * E.fr.p ^ (K - F) := by
  have e : (Finset.univ.filter fun x : Fin K → E.Fr => ∀ k < F, d.vanishing (tapeOf x (4 + k)) = 0) =
      Fintype.piFinset fun i : Fin K => if 4 ≤ i.val ∧ i.val < 4 + F then
        Finset.univ.filter fun t : E.Fr => d.vanishing t = 0 else Finset.univ := by
    ext x
    rw [Finset.mem_filter, Fintype.mem_piFinset]
    simp only [Finset.mem_univ, true_and]
    constructor
    · intro h i
      split
      · next hi =>
        have := h (i.val - 4) (by omega)
        rw [show 4 + (i.val - 4) = i.val by omega] at this
        rw [Finset.mem_filter]
        refine ⟨Finset.mem_univ _, ?_⟩
        unfold tapeOf at this
        rw [dif_pos i.isLt] at this
        exact this
      · exact Finset.mem_univ _
    · intro h k hk
      have := h ⟨4 + k, by omega⟩
      rw [if_pos ⟨by simp, by simpa using hk⟩, Finset.mem_filter] at this
      unfold tapeOf
      rw [dif_pos (by omega : 4 + k < K)]
      exact this.2
  rw [e, Fintype.card_piFinset]
  have e2 : ∀ i : Fin K, (if 4 ≤ i.val ∧ i.val < 4 + F then
      Finset.univ.filter fun t : E.Fr => d.vanishing t = 0 else Finset.univ).card =
      if 4 ≤ i.val ∧ i.val < 4 + F then d.size else E.fr.p := by
    intro i
    split
    · exact roots_card d
    · rw [Finset.card_univ]
      exact ZMod.card _
  rw [Finset.prod_congr rfl fun i _ => e2 i, Finset.prod_ite, Finset.prod_const, Finset.prod_const]
  have hc : (Finset.univ.filter fun i : Fin K => 4 ≤ i.val ∧ i.val < 4 + F).card = F := by
    rw [← Finset.card_map Fin.valEmbedding]
    have : Finset.map Fin.valEmbedding (Finset.univ.filter fun i : Fin K => 4 ≤ i.val ∧ i.val < 4 + F) =
        Finset.Ico 4 (4 + F) := by
      ext i
      simp only [Finset.mem_map, Finset.mem_filter, Finset.mem_univ, true_and, Fin.valEmbedding_apply, Finset.mem_Ico]
      constructor
      · rintro ⟨j, hj, rfl⟩
        exact hj
      · intro hi
        exact ⟨⟨i, by omega⟩, hi, rfl⟩
    rw [this, Nat.card_Ico]
    omega
  have hc' := Finset.card_filter_add_card_filter_not (s := (Finset.univ : Finset (Fin K)))
    (fun i : Fin K => 4 ≤ i.val ∧ i.val < 4 + F)
  rw [hc, Finset.card_univ, Fintype.card_fin] at hc'
  rw [hc, show (Finset.univ.filter fun i : Fin K => ¬ (4 ≤ i.val ∧ i.val < 4 + F)).card = K - F by omega]

end Cand

/-- **C92** How often the search is unsuccessful, exactly: of the `p^K` choices of `K` draws, those on which
`setup_for_groth16` has found no evaluation point after `F` candidates are `size^F p^(K-F)`, so the share of unfinished
setups falls below every bound as `F` grows. -/
theorem C92_unlucky_count (K F : ℕ) (hK : 4 + F ≤ K) :
    {x : Fin K → E.Fr | setupForGroth16 T (tape E) F (tapeOf x) b gens = .panic}.ncard =
      d.size ^ F * E.fr.p ^ (K - F) := by
  classical
  rw [← Cand.count_in d K F hK, ← Set.ncard_coe_finset]
  congr 1
  ext x
  have h := (C92_ends_iff T b n hn hbm gens d hd (tape E) F (tapeOf x)).1
  simp only [draw_tape] at h
  exact h.trans (by simp)

/-- **C92** Whatever is asked of the outcome of a setup with any number of candidates, the number of draws on which the
answer is "yes" differs by at most `size p^(K-1)` from that for a setup that stops after the first candidate. -/
theorem C92_transfer (K F F' : ℕ) (hK : 5 ≤ K) (hF : 0 < F) (hF' : 0 < F')
    (Φ : (Fin K → E.Fr) → Res ((ProvingKey E × SecretKey E × EncryptionKey E × DecryptionKey E) × (ℕ → E.Fr)) → Prop) :
    {x : Fin K → E.Fr | Φ x (setupForGroth16 T (tape E) F (tapeOf x) b gens)}.ncard ≤
      {x : Fin K → E.Fr | Φ x (setupForGroth16 T (tape E) F' (tapeOf x) b gens)}.ncard +
        d.size * E.fr.p ^ (K - 1) := by
  have h1 := C92_unlucky_count T b n hn hbm gens d hd K 1 (by omega)
  rw [pow_one] at h1
  rw [← h1]
  refine le_trans (Set.ncard_le_ncard (t := _ ∪ _) ?_ (Set.toFinite _)) (Set.ncard_union_le _ _)
  intro x hx
  by_cases hp : setupForGroth16 T (tape E) 1 (tapeOf x) b gens = .panic
  · exact Or.inr hp
  · refine Or.inl ?_
    change Φ x _ at hx
    show Φ x _
    rw [C92_more_candidates T (tape E) 1 F hF _ b gens hp] at hx
    rw [C92_more_candidates T (tape E) 1 F' hF' _ b gens hp]
    exact hx

/-- **C92** The same for what is made of the output of `generate_srs`. -/
theorem C92_transfer_srs (c0 : BitsizeCheckCircuit E.fr)
    (hc0 : BitsizeCheckCircuit.new (K := E.fr) b none none true = .ok c0) (K F F' : ℕ) (hK : 5 ≤ K) (hF : 0 < F)
    (hF' : 0 < F') (Φ : (Fin K → E.Fr) → Res (ProvingKey E × (ℕ → E.Fr)) → Prop) :
    {x : Fin K → E.Fr | Φ x (generateSrs T (tape E) F (tapeOf x) c0.generateConstraints gens)}.ncard ≤
      {x : Fin K → E.Fr | Φ x (generateSrs T (tape E) F' (tapeOf x) c0.generateConstraints gens)}.ncard +
        d.size * E.fr.p ^ (K - 1) := by
  have h1 := C92_unlucky_count T b n hn hbm gens d hd K 1 (by omega)
  rw [pow_one] at h1
  rw [← h1]
  refine le_trans (Set.ncard_le_ncard (t := _ ∪ _) ?_ (Set.toFinite _)) (Set.ncard_union_le _ _)
  intro x hx
  by_cases hp : generateSrs T (tape E) 1 (tapeOf x) c0.generateConstraints gens = .panic
  · exact Or.inr ((C49_setup_consistent T (tape E) 1 (tapeOf x) b n hn gens c0 hc0).2.2 hp)
  · refine Or.inl ?_
    change Φ x _ at hx
    show Φ x _
    rw [Cand.srs_more hF _ _ _ hp] at hx
    rw [Cand.srs_more hF' _ _ _ hp]
    exact hx

/-- **C92** The same for distributed key generation with arbitrary parties, whose states may depend on the draws. -/
theorem C92_transfer_dkg (K F F' : ℕ) (hK : 5 ≤ K) (hF : 0 < F) (hF' : 0 < F')
    (parties : (Fin K → E.Fr) → List (Party E)) (Φ : (Fin K → E.Fr) → Res (ProvingKey E ×
      List (FEncryptionKeyPartial E) × List (P1share E) × EncryptionKey E) → Prop) :
    {x : Fin K → E.Fr | Φ x (setupForDkg T (tape E) F (tapeOf x) b gens (parties x))}.ncard ≤
      {x : Fin K → E.Fr | Φ x (setupForDkg T (tape E) F' (tapeOf x) b gens (parties x))}.ncard +
        d.size * E.fr.p ^ (K - 1) := by
  obtain ⟨c0, cs, hc0, -⟩ := setup_shape (E := E) hn hbm
  have h := C92_transfer_srs T b n hn hbm gens d hd c0 hc0 K F F' hK hF hF' (fun x r => Φ x (r >>= fun q =>
    getGsForEncryption q.1.pk.vk >>= fun g_i =>
      dkgTranscript (parties x) b gens g_i q.1.pk.delta_g1 q.1.gamma_g1 >>= fun o => .ok (q.1, o.1, o.2.1, o.2.2)))
  have e : ∀ (F : ℕ) (x : Fin K → E.Fr), setupForDkg T (tape E) F (tapeOf x) b gens (parties x) =
      (generateSrs T (tape E) F (tapeOf x) c0.generateConstraints gens >>= fun q =>
        getGsForEncryption q.1.pk.vk >>= fun g_i =>
          dkgTranscript (parties x) b gens g_i q.1.pk.delta_g1 q.1.gamma_g1 >>= fun o =>
            .ok (q.1, o.1, o.2.1, o.2.2)) := by
    intro F x
    unfold setupForDkg
    rw [hc0, Res.ok_bind]
    rfl
  simp only [e]
  exact h

end

section
variable (T : FftCfg E.Fr) (b n : UInt8) (hn : chunksCount E.fr b = .ok n)
    (hbm : b.toNat ≤ E.fr.modBits)
    (gens : EncryptionGens E) (hG : gens.G ≠ 0) (hH : gens.H ≠ 0) (d : EvalDomain E.Fr)
    (hd : T.newDomain (n.toNat * constraintsPerValue E.fr.modBits b.toNat + (n.toNat + 1)) = some d)
include hn hbm hG hH hd

/-- **C92** C74 for a setup with any number of candidates. -/
theorem C92_adaptive_soundness (F : ℕ) (hF : 0 < F) (A : Prover E (Strategy E.Fr)) :
    {g : Fin (7 + 3 * n.toNat) → E.Fr | OutcomeF F T b gens A (tapeOf g) (fun pk ek ct proof =>
      Accepted gens pk ek ct proof ∧ ¬ ∃ (m : ℕ → ℕ) (r : E.Fr),
        (∀ i < n.toNat, m i < 2 ^ b.toNat ∧ m i < E.fr.p) ∧ Encrypts pk ek m r ct)}.ncard ≤
      ((A.questions + 1) * (3 * d.size + 5) + d.size) * E.fr.p ^ (6 + 3 * n.toNat) := by
  have h := C92_transfer T b n hn hbm gens d hd (7 + 3 * n.toNat) F 1 (by omega) hF (by omega)
    (fun _ r => ∃ pk sk ek dk f', r = .ok ((pk, sk, ek, dk), f') ∧
      Accepted gens pk ek (A.cipher (public1 gens pk ek) (public2 gens pk ek dk))
        (A.proof (public1 gens pk ek) (public2 gens pk ek dk)) ∧ ¬ ∃ (m : ℕ → ℕ) (r : E.Fr),
        (∀ i < n.toNat, m i < 2 ^ b.toNat ∧ m i < E.fr.p) ∧
          Encrypts pk ek m r (A.cipher (public1 gens pk ek) (public2 gens pk ek dk)))
  rw [Nat.add_mul]
  exact h.trans (Nat.add_le_add (C74_adaptive_soundness T b n hn hbm gens hG hH d hd A)
    (le_of_eq (by rw [show 7 + 3 * n.toNat - 1 = 6 + 3 * n.toNat by omega])))

end

section
variable (T : FftCfg E.Fr) (b n : UInt8) (hb : Supported b) (hn : chunksCount E.fr b = .ok n)
    (hbm : b.toNat ≤ E.fr.modBits)
    (hal : 64 * E.fr.limbs < E.fr.modBits + b.toNat ∧ chunksNeeded E.fr b.toNat ≤ 255)
    (gens : EncryptionGens E) (hG : gens.G ≠ 0) (hH : gens.H ≠ 0) (d : EvalDomain E.Fr)
    (hd : T.newDomain (n.toNat * constraintsPerValue E.fr.modBits b.toNat + (n.toNat + 1)) = some d)
include hb hn hbm hal hG hH hd

/-- **C92** C88 for a setup with any number of candidates. -/
theorem C92_chosen_ciphertexts (F : ℕ) (hF : 0 < F) (chk : Bool) (A : CcaAdversary E) (Q D C : ℕ)
    (hA : A.AtMost Q D C) (K : ℕ) (hK : 7 + 3 * n.toNat + 3 * C ≤ K) (side : Bool) :
    rightGuessesCcaF F ⟨true, true⟩ K side T chk b gens A ≤
      rightGuessesCcaF F ⟨true, true⟩ K (!side) T chk b gens A +
      ((Q + D) * (3 * d.size + 6) + (2 * n.toNat + 1) + 2 * d.size) * E.fr.p ^ (K - 1) := by
  have h := C88_chosen_ciphertexts T b n hb hn hbm hal gens hG hH d hd chk A Q D C hA K hK side
  have ht := fun (F F' : ℕ) (hF : 0 < F) (hF' : 0 < F') (side : Bool) =>
    C92_transfer T b n hn hbm gens d hd K F F' (by omega) hF hF' (fun _ r => (match r with
      | .ok ((pk, sk, ek, dk), f') => playCca ⟨true, true⟩ side T chk b gens pk sk ek dk A [] f' []
      | _ => false) = true)
  have e1 : ∀ side, rightGuessesCca ⟨true, true⟩ K side T chk b gens A =
      {x : Fin K → E.Fr | experimentCca ⟨true, true⟩ side T chk b gens A (tapeOf x) = true}.ncard := fun side => by
    unfold rightGuessesCca
    rw [← Set.ncard_coe_finset]
    congr 1
    ext x
    simp
  have e2 : ∀ side, rightGuessesCcaF F ⟨true, true⟩ K side T chk b gens A =
      {x : Fin K → E.Fr | experimentCcaF F ⟨true, true⟩ side T chk b gens A (tapeOf x) = true}.ncard := fun side => by
    unfold rightGuessesCcaF
    rw [← Set.ncard_coe_finset]
    congr 1
    ext x
    simp
  have h1 : {x : Fin K → E.Fr | experimentCcaF F ⟨true, true⟩ side T chk b gens A (tapeOf x) = true}.ncard ≤
      {x : Fin K → E.Fr | experimentCca ⟨true, true⟩ side T chk b gens A (tapeOf x) = true}.ncard +
        d.size * E.fr.p ^ (K - 1) := ht F 1 hF (by omega) side
  have h2 : {x : Fin K → E.Fr | experimentCca ⟨true, true⟩ (!side) T chk b gens A (tapeOf x) = true}.ncard ≤
      {x : Fin K → E.Fr | experimentCcaF F ⟨true, true⟩ (!side) T chk b gens A (tapeOf x) = true}.ncard +
        d.size * E.fr.p ^ (K - 1) := ht 1 F (by omega) hF (!side)
  rw [e2, e2]
  rw [e1, e1] at h
  rw [Nat.add_mul _ (2 * d.size), Nat.mul_assoc 2]
  omega

/-- **C92** C91 for a setup with any number of candidates. -/
theorem C92_nu_handed_out (F : ℕ) (hF : 0 < F) (chk : Bool) (A : CcaAdversary E) (Q D C : ℕ)
    (hA : A.AtMost Q D C) (K : ℕ) (hK : 7 + 3 * n.toNat + 3 * C ≤ K) (side : Bool) :
    rightGuessesNuF F true K side T chk b gens A ≤ rightGuessesNuF F true K (!side) T chk b gens A +
      ((Q + D) * (3 * d.size + 6) + (2 * n.toNat + 1) + 2 * d.size) * E.fr.p ^ (K - 1) := by
  have h := C91_nu_handed_out T b n hb hn hbm hal gens hG hH d hd chk A Q D C hA K hK side
  have ht := fun (F F' : ℕ) (hF : 0 < F) (hF' : 0 < F') (side : Bool) =>
    C92_transfer T b n hn hbm gens d hd K F F' (by omega) hF hF' (fun _ r => (match r with
      | .ok ((pk, sk, ek, dk), f') => playNu true side T chk b gens pk sk ek dk A [] f' [] []
      | _ => false) = true)
  have e1 : ∀ side, rightGuessesNu true K side T chk b gens A =
      {x : Fin K → E.Fr | experimentNu true side T chk b gens A (tapeOf x) = true}.ncard := fun side => by
    unfold rightGuessesNu
    rw [← Set.ncard_coe_finset]
    congr 1
    ext x
    simp
  have e2 : ∀ side, rightGuessesNuF F true K side T chk b gens A =
      {x : Fin K → E.Fr | experimentNuF F true side T chk b gens A (tapeOf x) = true}.ncard := fun side => by
    unfold rightGuessesNuF
    rw [← Set.ncard_coe_finset]
    congr 1
    ext x
    simp
  have h1 : {x : Fin K → E.Fr | experimentNuF F true side T chk b gens A (tapeOf x) = true}.ncard ≤
      {x : Fin K → E.Fr | experimentNu true side T chk b gens A (tapeOf x) = true}.ncard +
        d.size * E.fr.p ^ (K - 1) := ht F 1 hF (by omega) side
  have h2 : {x : Fin K → E.Fr | experimentNu true (!side) T chk b gens A (tapeOf x) = true}.ncard ≤
      {x : Fin K → E.Fr | experimentNuF F true (!side) T chk b gens A (tapeOf x) = true}.ncard +
        d.size * E.fr.p ^ (K - 1) := ht 1 F (by omega) hF (!side)
  rw [e2, e2]
  rw [e1, e1] at h
  rw [Nat.add_mul _ (2 * d.size), Nat.mul_assoc 2]
  omega

end
end

/-- The concrete instance: the domain has `2^10` points, so of the `p^34` choices of draws the setup has not found an
evaluation point after 3 candidates on `2^30 p^31`. -/
example : {x : Fin 34 → Fix.E.Fr | setupForGroth16 goldFft (tape Fix.E) 3 (tapeOf x) 8 Fix.gens = .panic}.ncard =
    Fix.dom8.size ^ 3 * Fix.E.fr.p ^ 31 ∧ Fix.dom8.size = 2 ^ 10 :=
  ⟨C92_unlucky_count (E := Fix.E) goldFft 8 8 Fix.count8 Fix.bits8 Fix.gens Fix.dom8 Fix.dom8_count 34 3 (by decide),
    rfl⟩

/-- Both cases of `C92_ends_iff` occur: the tape of ones never ends, the tape of sevens ends with keys at the first
candidate (`7` is not in the domain). -/
example : setupForGroth16 goldFft (tape Fix.E) 5 (fun _ => (1 : Fix.E.Fr)) 8 Fix.gens = .panic ∧
    ∃ out, setupForGroth16 goldFft (tape Fix.E) 1 (fun _ => (show Fix.E.Fr from (7 : Fix.F))) 8 Fix.gens = .ok out := by
  have h1 := C92_ends_iff (E := Fix.E) goldFft 8 8 Fix.count8 Fix.bits8 Fix.gens Fix.dom8 Fix.dom8_count (tape Fix.E) 5
    (fun _ => (1 : Fix.E.Fr))
  have h2 := C92_ends_iff (E := Fix.E) goldFft 8 8 Fix.count8 Fix.bits8 Fix.gens Fix.dom8 Fix.dom8_count (tape Fix.E) 1
    (fun _ => (show Fix.E.Fr from (7 : Fix.F)))
  refine ⟨h1.1.mpr ?_, h2.2.mpr ⟨⟨0, by omega, ?_⟩, ?_, ?_⟩⟩
  · intro k _
    rw [draw_tape]
    unfold EvalDomain.vanishing
    rw [one_pow, sub_self]
  · rw [draw_tape]
    exact (by decide +kernel : ¬ ((7 : Fix.F) ^ (2 ^ 10) - 1 = 0))
  · rw [draw_tape]
    exact (by decide +kernel : ¬ ((7 : Fix.F) = 0))
  · rw [draw_tape]
    exact (by decide +kernel : ¬ ((7 : Fix.F) = 0))

end Verif
