/-
Property C75: knowledge soundness under distributed keys against adaptive generic-group adversaries.
-/
import Verif.Props.Adaptive
import Verif.Props.SoundDkg

namespace Verif
open Spec

section
variable {E : Engine}

namespace Adapt
open SDkg Sec

/-- the scalars of a distributed setup, read from the draws -/
def dkgParams (d : EvalDomain E.Fr) (n K : ℕ) (o1 o2 : List (Party E)) :
    Agm.Params d (fun g : Fin K → E.Fr => d.vanishing (tapeOf g 4) ≠ 0 ∧ tapeOf g 2 ≠ 0 ∧ tapeOf g 3 ≠ 0) where
  tau g := tapeOf g 4
  alpha g := tapeOf g 0
  beta g := tapeOf g 1
  gamma g := tapeOf g 2
  delta g := tapeOf g 3
  rho _ := 0
  s g i := tapeOf g (5 + i) + othersS o1 o2 i
  t g i := tapeOf g (5 + (n + i))
  v _ _ := 0
  htau := tapeOf_poly _ _
  halpha := tapeOf_poly _ _
  hbeta := tapeOf_poly _ _
  hgamma := tapeOf_poly _ _
  hdelta := tapeOf_poly _ _
  hrho := Agm.PolyOn.const _ _
  hs _ := (tapeOf_poly _ _).add (Agm.PolyOn.const _ _)
  ht _ := tapeOf_poly _ _
  hv _ := Agm.PolyOn.const _ _
  out _ h := h.1
  gne _ h := h.2.1
  dne _ h := h.2.2

section
variable {K : ℕ} (cs : CS E.Fr) (d : EvalDomain E.Fr) (gens : EncryptionGens E)

/-- the parameters for these draws -/
def pkOf (g : Fin K → E.Fr) : ProvingKey E :=
  srsKey cs d (tapeOf g 4) (tapeOf g 0) (tapeOf g 1) (tapeOf g 2) (tapeOf g 3) gens.G gens.H

theorem pkOf_same (g : Fin K → E.Fr) : Same (srsKey cs d 0 0 0 0 0 gens.G gens.H) (pkOf cs d gens g) := by
  simp [Same, srsKey, pkOf]

/-- the run with these draws -/
def envOf (n : ℕ) (o1 o2 : List (Party E)) (g : Fin K → E.Fr) : Env (srsKey cs d 0 0 0 0 0 gens.G gens.H) :=
  env n o1 o2 (pkOf cs d gens g) (pkOf_same cs d gens g) ⟨tape E, fun i => tapeOf g (5 + i)⟩ (fun _ => 0) 0

theorem partyS_tape (f : ℕ → E.Fr) : partyS (⟨tape E, f⟩ : Party E) = f := by
  funext i
  exact draw_tape f i

theorem partyT_tape (n : ℕ) (f : ℕ → E.Fr) : partyT n (⟨tape E, f⟩ : Party E) = fun i => f (n + i) := by
  funext i
  exact draw_tape f (n + i)

theorem L1_env (n : ℕ) (hI : cs.numInst = n + 1) (o1 o2 : List (Party E)) (g : Fin K → E.Fr) :
    L1 gens n (envOf cs d gens n o1 o2 g) = (Agm.all1 cs d (tapeOf g 4) n
      (fun i => tapeOf g (5 + i) + othersS o1 o2 i) (fun i => tapeOf g (5 + (n + i)))).map
      (Agm.evG (tapeOf g 0) (tapeOf g 1) (tapeOf g 2) (tapeOf g 3) gens.G) := by
  have hg := gs_of_srs cs d (tapeOf g 4) (tapeOf g 0) (tapeOf g 1) (tapeOf g 2) (tapeOf g 3) gens.G gens.H n hI
  have h := Agm.public1_eq cs d (tapeOf g 4) (tapeOf g 0) (tapeOf g 1) (tapeOf g 2) (tapeOf g 3) gens n
    (fun i => tapeOf g (5 + i) + othersS o1 o2 i) (fun i => tapeOf g (5 + (n + i))) hI _ hg
  have hgs : gs (pkOf cs d gens g) = _ := (funext fun i => (getGs_inv hg).2 i).symm
  refine Eq.trans ?_ h
  unfold L1 envOf env key
  dsimp only
  rw [hgs, partyT_tape, partyS_tape]
  rfl

theorem L2_env (n : ℕ) (o1 o2 : List (Party E)) (g : Fin K → E.Fr) :
    L2 gens n (envOf cs d gens n o1 o2 g) = (Agm.lf2 cs (d.lagrange (tapeOf g 4)) n
      (fun i => tapeOf g (5 + i) + othersS o1 o2 i) (fun i => tapeOf g (5 + (n + i))) (fun _ => 0) 0).map
      (Agm.evH (tapeOf g 1) (tapeOf g 2) (tapeOf g 3) gens.H) := by
  unfold L2 envOf env key
  dsimp only
  rw [partyT_tape, partyS_tape]
  exact Agm.public2_eq cs d (tapeOf g 4) (tapeOf g 0) (tapeOf g 1) (tapeOf g 2) (tapeOf g 3) gens n _ _ _ _ _ _ _

/-- everything published in a distributed setup, as polynomials -/
noncomputable def dkgViews (n : ℕ) (hI : cs.numInst = n + 1) (o1 o2 : List (Party E)) :
    Views (fun g : Fin K → E.Fr => d.vanishing (tapeOf g 4) ≠ 0 ∧ tapeOf g 2 ≠ 0 ∧ tapeOf g 3 ≠ 0)
      gens.G gens.H (2 * d.size + 3) (d.size + 2)
      (fun g => D1 gens n o1 o2 (envOf cs d gens n o1 o2 g))
      (fun g => D2 gens n o1 o2 (envOf cs d gens n o1 o2 g)) :=
  let c1 := (exists_conv (pk0 := srsKey cs d 0 0 0 0 0 gens.G gens.H) gens n o1 o2).choose
  let c2 := (exists_conv (pk0 := srsKey cs d 0 0 0 0 0 gens.G gens.H) gens n o1 o2).choose_spec.choose
  have hc := (exists_conv (pk0 := srsKey cs d 0 0 0 0 0 gens.G gens.H) gens n o1 o2).choose_spec.choose_spec
  let P := dkgParams d n K o1 o2
  { l1 := (all_D1 (pk0 := srsKey cs d 0 0 0 0 0 gens.G gens.H) gens n o1 o2).1.choose
    l2 := (all_D2 (pk0 := srsKey cs d 0 0 0 0 0 gens.G gens.H) gens n o1 o2).1.choose
    w := fun g => P.gamma g * P.delta g
    x := fun k g => Agm.ev1 (comb (c1 k) (Agm.all1 cs d (P.tau g) n (P.s g) (P.t g))) (P.alpha g) (P.beta g)
      (P.gamma g) (P.delta g)
    y := fun k g => Agm.ev2 (comb (c2 k) (Agm.lf2 cs (d.lagrange (P.tau g)) n (P.s g) (P.t g) (P.v g) (P.rho g)))
      (P.beta g) (P.gamma g) (P.delta g)
    hl1 := fun g _ => (all_D1 (pk0 := srsKey cs d 0 0 0 0 0 gens.G gens.H) gens n o1 o2).1.choose_spec _
    hl2 := fun g _ => (all_D2 (pk0 := srsKey cs d 0 0 0 0 0 gens.G gens.H) gens n o1 o2).1.choose_spec _
    hw := P.hw
    hx := fun k g _ => by
      rw [(hc k _).1, L1_env cs d gens n hI, comb_map]
      rfl
    hy := fun k g _ => by
      rw [(hc k _).2, L2_env cs d gens n, comb_map]
      rfl
    px := fun k => P.comb1 cs n (c1 k)
    py := fun k => P.comb2 cs n (c2 k)
    pw := (P.hgamma.mul P.hdelta (by omega : 1 + 1 ≤ 2)).mono (by omega) }

end

/-- a successful distributed setup on a tape: its scalars are good, and what it publishes -/
theorem dkg_views (T : FftCfg E.Fr) (b n : UInt8) (hn : chunksCount E.fr b = .ok n)
    (hbm : b.toNat ≤ E.fr.modBits) (c0 : BitsizeCheckCircuit E.fr)
    (hc0 : BitsizeCheckCircuit.new (K := E.fr) b none none true = .ok c0) (cs : CS E.Fr)
    (hcs : c0.generateConstraints (CS.new true) = .ok cs) (hI : cs.numInst = n.toNat + 1)
    (hC : cs.cons.length = n.toNat * constraintsPerValue E.fr.modBits b.toNat)
    (gens : EncryptionGens E) (d : EvalDomain E.Fr)
    (hd : T.newDomain (n.toNat * constraintsPerValue E.fr.modBits b.toNat + (n.toNat + 1)) = some d)
    (o1 o2 : List (Party E)) {K : ℕ} (g : Fin K → E.Fr) pk keys shares ek
    (hset : setupForDkg T (tape E) 1 (tapeOf g) b gens (o1 ++ ⟨tape E, fun i => tapeOf g (5 + i)⟩ :: o2) =
      .ok (pk, keys, shares, ek)) :
    (d.vanishing (tapeOf g 4) ≠ 0 ∧ tapeOf g 2 ≠ 0 ∧ tapeOf g 3 ≠ 0) ∧
      dkgPublic1 gens pk keys shares ek = D1 gens n.toNat o1 o2 (envOf cs d gens n.toNat o1 o2 g) ∧
      dkgPublic2 gens pk keys ek = D2 gens n.toNat o1 o2 (envOf cs d gens n.toNat o1 o2 g) := by
  have hgood : d.vanishing (tapeOf g 4) ≠ 0 ∧ tapeOf g 2 ≠ 0 ∧ tapeOf g 3 ≠ 0 := by
    have h := hset
    unfold setupForDkg at h
    rw [hc0, Res.ok_bind] at h
    obtain ⟨⟨pk', st2⟩, hsrs, -⟩ := Res.bind_eq_ok.mp h
    obtain ⟨cs', d', hcs', hd', h1, h2, h3⟩ := setup_tape_good hsrs
    rw [hcs] at hcs'
    cases hcs'
    rw [hC, hI, hd] at hd'
    cases hd'
    exact ⟨h1, h2, h3⟩
  refine ⟨hgood, ?_⟩
  obtain ⟨h4, h2, h3⟩ := hgood
  have hg := gs_of_srs cs d (tapeOf g 4) (tapeOf g 0) (tapeOf g 1) (tapeOf g 2) (tapeOf g 3) gens.G gens.H n.toNat
    hI
  obtain ⟨keys', shares', ek', hrun, -, hl1, hl2⟩ := dkg_lists gens o1 o2 hn (pkOf cs d gens g)
    (pkOf_same cs d gens g) ⟨tape E, fun i => tapeOf g (5 + i)⟩ (fun _ => 0) 0 _ (fun i => (getGs_inv hg).2 i)
    (by simp)
  have := dkg_run T b n hn hbm c0 hc0 cs hcs gens d hd (tapeOf g) h2 h3 h4 (pkOf cs d gens g) rfl _ hg _ keys'
    shares' ek' hrun
  rw [hset] at this
  cases this
  exact ⟨hl1, hl2⟩

end Adapt

section
variable (T : FftCfg E.Fr) (b n : UInt8) (hn : chunksCount E.fr b = .ok n)
    (hbm : b.toNat ≤ E.fr.modBits) (gens : EncryptionGens E) (hG : gens.G ≠ 0) (hH : gens.H ≠ 0)
    (d : EvalDomain E.Fr)
    (hd : T.newDomain (n.toNat * constraintsPerValue E.fr.modBits b.toNat + (n.toNat + 1)) = some d)
    (others1 others2 : List (Party E)) (A : Prover E (Strategy E.Fr))
include hn hbm hG hH hd

/-- **C75** The extractor for adaptive coalitions of all parties but one.  The secrets of the other parties are
arbitrary constants.  The adversary sees everything that is published, asks up to `q` questions about it, chooses
the coefficients of a ciphertext and a proof depending on the answers, and is accepted under the joint key on more
than a `(q + 1) (3 size + 5) / p` fraction of the draws of `generate_srs` and the honest party.  Then there are
chunks below `2^b` and a scalar `r`, fixed before the setup, such that on all but a `q (3 size + 5) / p` fraction
of the draws its ciphertext is the SAVER encryption of these chunks under the joint key. -/
theorem C75_adaptive_coalition_extractor
    (hmany : (A.questions + 1) * (3 * d.size + 5) * E.fr.p ^ (5 + 2 * n.toNat) <
      {g : Fin (6 + 2 * n.toNat) → E.Fr |
        DkgOutcome T b gens others1 others2 A (tapeOf g) (Accepted gens)}.ncard) :
    ∃ (m : ℕ → ℕ) (r : E.Fr), (∀ i < n.toNat, m i < 2 ^ b.toNat ∧ m i < E.fr.p) ∧
      {g : Fin (6 + 2 * n.toNat) → E.Fr | DkgOutcome T b gens others1 others2 A (tapeOf g)
        (fun pk ek ct _ => ¬ Encrypts pk ek m r ct)}.ncard ≤
        A.questions * (3 * d.size + 5) * E.fr.p ^ (5 + 2 * n.toNat) := by
  classical
  obtain ⟨c0, cs, hc0, hcs, hI, hC, -⟩ := setup_shape hn hbm
  obtain ⟨S, Bad, hbad, hconst⟩ := Adapt.choice_const
    (Adapt.dkgViews (K := 6 + 2 * n.toNat) cs d gens n.toNat hI others1 others2) hG hH A
  rw [show 6 + 2 * n.toNat - 1 = 5 + 2 * n.toNat by omega,
    show 2 * d.size + 3 + (d.size + 2) = 3 * d.size + 5 by omega, ← Nat.mul_assoc] at hbad
  have hS : ∀ (g : Fin (6 + 2 * n.toNat) → E.Fr) pk keys shares ek, g ∉ Bad →
      setupForDkg T (tape E) 1 (tapeOf g) b gens (others1 ++ ⟨tape E, fun i => tapeOf g (5 + i)⟩ :: others2) =
        .ok (pk, keys, shares, ek) →
      A.choice (dkgPublic1 gens pk keys shares ek) (dkgPublic2 gens pk keys ek) = S := by
    intro g pk keys shares ek hg hset
    obtain ⟨hgood, h1, h2⟩ := Adapt.dkg_views T b n hn hbm c0 hc0 cs hcs hI hC gens d hd others1 others2 g _ _ _ _
      hset
    rw [h1, h2]
    exact hconst g hgood hg
  have hbig : (3 * d.size + 5) * E.fr.p ^ (5 + 2 * n.toNat) <
      {g : Fin (6 + 2 * n.toNat) → E.Fr | DkgAccepts T b gens others1 others2 S (tapeOf g)}.ncard := by
    have hsub : {g : Fin (6 + 2 * n.toNat) → E.Fr |
          DkgOutcome T b gens others1 others2 A (tapeOf g) (Accepted gens)} ⊆
        {g : Fin (6 + 2 * n.toNat) → E.Fr | DkgAccepts T b gens others1 others2 S (tapeOf g)} ∪ (Bad : Set _) := by
      rintro g ⟨pk, keys, shares, ek, hset, hacc⟩
      by_cases hg : g ∈ Bad
      · exact Or.inr hg
      · refine Or.inl ⟨pk, keys, shares, ek, hset, ?_⟩
        unfold Accepted Prover.cipher Prover.proof at hacc
        rw [hS g pk keys shares ek hg hset] at hacc
        exact hacc
    have h1 := (Set.ncard_le_ncard hsub (Set.toFinite _)).trans (Set.ncard_union_le _ _)
    rw [Set.ncard_coe_finset] at h1
    rw [Nat.add_mul, Nat.add_mul, Nat.one_mul] at hmany
    omega
  obtain ⟨m, r, hm, hall⟩ := C71_knowledge_error_coalition T b n hn hbm gens hG hH d hd others1 others2 S hbig
  refine ⟨m, r, hm, le_trans ?_ hbad⟩
  rw [← Set.ncard_coe_finset]
  refine Set.ncard_le_ncard ?_ (Set.toFinite _)
  rintro g ⟨pk, keys, shares, ek, hset, hne⟩
  by_contra hg
  refine hne ?_
  unfold Encrypts Prover.cipher
  rw [hS g pk keys shares ek hg hset]
  exact hall _ _ _ _ _ _ _ _ hset

/-- **C75** The error bound for adaptive coalitions, whatever their success probability: on at most a
`(q + 1) (3 size + 5) / p` fraction of the draws do they output a ciphertext and a proof that are accepted under the
joint key, such that the ciphertext is not the SAVER encryption of chunks below `2^b`. -/
theorem C75_adaptive_coalition_soundness :
    {g : Fin (6 + 2 * n.toNat) → E.Fr | DkgOutcome T b gens others1 others2 A (tapeOf g) (fun pk ek ct proof =>
      Accepted gens pk ek ct proof ∧ ¬ ∃ (m : ℕ → ℕ) (r : E.Fr),
        (∀ i < n.toNat, m i < 2 ^ b.toNat ∧ m i < E.fr.p) ∧ Encrypts pk ek m r ct)}.ncard ≤
      (A.questions + 1) * (3 * d.size + 5) * E.fr.p ^ (5 + 2 * n.toNat) := by
  by_cases hmany : (A.questions + 1) * (3 * d.size + 5) * E.fr.p ^ (5 + 2 * n.toNat) <
      {g : Fin (6 + 2 * n.toNat) → E.Fr |
        DkgOutcome T b gens others1 others2 A (tapeOf g) (Accepted gens)}.ncard
  · obtain ⟨m, r, hm, h⟩ := C75_adaptive_coalition_extractor T b n hn hbm gens hG hH d hd others1 others2 A hmany
    refine le_trans (Set.ncard_le_ncard ?_ (Set.toFinite _)) (h.trans ?_)
    · rintro g ⟨pk, keys, shares, ek, hset, -, hne⟩
      exact ⟨pk, keys, shares, ek, hset, fun he => hne ⟨m, r, hm, he⟩⟩
    · exact Nat.mul_le_mul_right _ (Nat.mul_le_mul_right _ (by omega))
  · refine le_trans (Set.ncard_le_ncard ?_ (Set.toFinite _)) (not_lt.mp hmany)
    rintro g ⟨pk, keys, shares, ek, hset, h, -⟩
    exact ⟨pk, keys, shares, ek, hset, h⟩

omit hG hH in
/-- **C75** Adaptive honest encryptors are accepted on all but a `(size + 2) / p` fraction of the draws, whatever
the other parties are, so the hypothesis of `C75_adaptive_coalition_extractor` is met by provers that really are
adaptive. -/
theorem C75_adaptive_honest (hp : d.size < E.fr.p) (q : Question E)
    (m m' : ℕ → ℕ) (hm : ∀ i < n.toNat, m i < 2 ^ b.toNat) (hm' : ∀ i < n.toNat, m' i < 2 ^ b.toNat) (r r' : E.Fr) :
    ∃ S S' : Strategy E.Fr,
      (∀ f, ¬ DkgOutcome T b gens others1 others2 (.ask q (.output S) (.output S')) f
        (fun pk ek ct _ => ¬ Encrypts pk ek m r ct ∧ ¬ Encrypts pk ek m' r' ct)) ∧
      E.fr.p ^ (6 + 2 * n.toNat) ≤
        {g : Fin (6 + 2 * n.toNat) → E.Fr | DkgOutcome T b gens others1 others2 (.ask q (.output S) (.output S'))
          (tapeOf g) (Accepted gens)}.ncard + (d.size + 2) * E.fr.p ^ (5 + 2 * n.toNat) := by
  obtain ⟨S0, -, hS0⟩ := C71_honest_fraction T b n hn hbm gens d hd hp m hm r
  obtain ⟨S, hS⟩ := C71_honest_strategy T b n hn hbm gens d hd m hm r
  obtain ⟨S', hS'⟩ := C71_honest_strategy T b n hn hbm gens d hd m' hm' r'
  refine ⟨S, S', ?_, (hS0 others1 others2).trans
    (Nat.add_le_add_right (Set.ncard_le_ncard ?_ (Set.toFinite _)) _)⟩
  · rintro f ⟨pk, keys, shares, ek, hset, h1, h2⟩
    unfold Prover.cipher at h1 h2
    simp only [Prover.choice] at h1 h2
    split at h1
    · exact h1 (hS _ _ _ _ _ _ _ _ (by simp) hset).1
    · next hq =>
      rw [if_neg hq] at h2
      exact h2 (hS' _ _ _ _ _ _ _ _ (by simp) hset).1
  · rintro g ⟨pk, keys, shares, ek, hset, -⟩
    refine ⟨pk, keys, shares, ek, hset, ?_⟩
    unfold Accepted Prover.cipher Prover.proof
    simp only [Prover.choice]
    split
    · exact (hS _ _ _ _ _ _ _ _ (by simp) hset).2
    · exact (hS' _ _ _ _ _ _ _ _ (by simp) hset).2

end
end

/-- The hypothesis of `C75_adaptive_coalition_extractor` is met by the concrete instance with 8-bit chunks, with any
other parties, for a prover that encrypts one message or another depending on whether the first published element is
zero. -/
example (others1 others2 : List (Party Fix.E)) : ∃ S S' : Strategy Fix.E.Fr, ∀ A : Prover Fix.E (Strategy Fix.E.Fr),
    A = .ask (.first fun i => if i = 0 then 1 else 0) (.output S) (.output S') →
    (A.questions + 1) * (3 * Fix.dom8.size + 5) * Fix.E.fr.p ^ (5 + 2 * (8 : UInt8).toNat) <
    {g : Fin (6 + 2 * (8 : UInt8).toNat) → Fix.E.Fr | DkgOutcome goldFft 8 Fix.gens others1 others2 A (tapeOf g)
      (Accepted Fix.gens)}.ncard := by
  have hsz := Fix.dom8_small
  have hbig : 7 * Fix.dom8.size + 13 ≤ Fix.E.fr.p := by
    rw [show Fix.dom8.size = 2 ^ 10 from rfl]
    exact (by decide : 7 * 2 ^ 10 + 13 ≤ goldR)
  obtain ⟨S, S', -, h⟩ := C75_adaptive_honest (E := Fix.E) goldFft 8 8 Fix.count8 Fix.bits8 Fix.gens
    Fix.dom8 Fix.dom8_count others1 others2 (by omega) (.first fun i => if i = 0 then 1 else 0)
    (fun i => i + 1) (fun i => 2 * i) (by
      intro i hi
      rw [Fix.eight] at hi ⊢
      omega) (by
      intro i hi
      rw [Fix.eight] at hi ⊢
      omega) (show Fix.E.Fr from (5 : Fix.F)) (show Fix.E.Fr from (6 : Fix.F))
  refine ⟨S, S', ?_⟩
  rintro A rfl
  generalize {g : Fin (6 + 2 * (8 : UInt8).toNat) → Fix.E.Fr | DkgOutcome goldFft 8 Fix.gens others1 others2 _
    (tapeOf g) (Accepted Fix.gens)}.ncard = c at h ⊢
  rw [show 6 + 2 * (8 : UInt8).toNat = (5 + 2 * (8 : UInt8).toNat) + 1 from rfl, pow_succ] at h
  have hpos : 0 < Fix.E.fr.p ^ (5 + 2 * (8 : UInt8).toNat) := Nat.pow_pos (by omega)
  generalize Fix.E.fr.p ^ (5 + 2 * (8 : UInt8).toNat) = q at h hpos ⊢
  have h2 := Nat.mul_le_mul_left q hbig
  simp only [Prover.questions, Nat.max_self]
  nlinarith

end Verif
