/-
Property C76: the range proof against adaptive provers that know all key secrets.
-/
import Verif.Props.AdaptiveDkg
import Verif.Props.RangeDkg

namespace Verif
open Spec

section
variable {E : Engine}

section
variable (T : FftCfg E.Fr) (b n : UInt8) (hn : chunksCount E.fr b = .ok n)
    (hbm : b.toNat ≤ E.fr.modBits) (gens : EncryptionGens E) (hG : gens.G ≠ 0) (hH : gens.H ≠ 0)
    (d : EvalDomain E.Fr)
    (hd : T.newDomain (n.toNat * constraintsPerValue E.fr.modBits b.toNat + (n.toNat + 1)) = some d)
    (A : Prover E (RangeChoice E.Fr))
include hn hbm hG hH hd

/-- **C76** The range proof against adaptive provers.  Key generation is done by an arbitrary machine in an arbitrary
state, so that the prover may know all key secrets.  It asks up to `q` questions about all published elements, and
chooses, depending on the answers, field elements `m_i`, the randomness of their SAVER ciphertext and the
coefficients of a proof.  On at most a `(q + 1) (3 size + 5) / p` fraction of the draws of `generate_srs` does
`verify_proof` accept although one of the field elements is not below `2^b`. -/
theorem C76_adaptive_range (c0 : BitsizeCheckCircuit E.fr)
    (hc0 : BitsizeCheckCircuit.new (K := E.fr) b none none true = .ok c0) (R' : RngCore E) (st1 : R'.σ) :
    {g : Fin 5 → E.Fr | RangeOutcome T b gens c0 R' st1 A (tapeOf g)
      (fun m => ∃ i < n.toNat, 2 ^ b.toNat ≤ (m i).val)}.ncard ≤
      (A.questions + 1) * (3 * d.size + 5) * E.fr.p ^ 4 := by
  classical
  obtain ⟨c0', cs, hc0', hcs, hI, hC, -⟩ := setup_shape hn hbm
  rw [hc0] at hc0'
  cases hc0'
  obtain ⟨S, Bad, hbad, hconst⟩ := Adapt.choice_const
    (Adapt.views (srsParams d 5 (draw R' st1 0) (fun i => draw R' st1 (1 + i))
      (fun i => draw R' st1 (1 + n.toNat + i)) (fun i => draw R' st1 (2 + 2 * n.toNat + i))) cs n.toNat gens.G gens.H)
    hG hH A
  rw [show 5 - 1 = 4 from rfl,
    show 2 * d.size + 3 + (d.size + 2) = 3 * d.size + 5 by omega, ← Nat.mul_assoc] at hbad
  have hS : ∀ (g : Fin 5 → E.Fr) pk f' g_i sk ek dk st2, g ∉ Bad →
      generateSrs T (tape E) 1 (tapeOf g) c0.generateConstraints gens = .ok (pk, f') →
      getGsForEncryption pk.pk.vk = .ok g_i →
      keygen R' st1 b gens g_i pk.pk.delta_g1 pk.gamma_g1 = .ok ((sk, ek, dk), st2) →
      A.choice (public1 gens pk ek) (public2 gens pk ek dk) = S := by
    intro g pk f' g_i sk ek dk st2 hgb hsrs hg hkg
    obtain ⟨cs', d', hcs', hd', h1, h2, h3⟩ := setup_tape_good hsrs
    rw [hcs] at hcs'
    cases hcs'
    rw [hC, hI, hd] at hd'
    cases hd'
    have hrun := srs_run T (tape E) 1 (by omega) (tapeOf g) b n hn hbm c0 hc0 cs hcs gens d hd
      (by rw [draw_tape]; exact h2) (by rw [draw_tape]; exact h3) (by rw [draw_tape]; exact h1)
    rw [hsrs] at hrun
    simp only [draw_tape, Res.ok.injEq, Prod.mk.injEq] at hrun
    obtain ⟨rfl, -⟩ := hrun
    obtain ⟨n', hn', hlen⟩ := keygen_ok_inv hkg
    rw [hn] at hn'
    cases hn'
    rw [keygen_eq R' st1 gens g_i _ _ hn hlen] at hkg
    simp only [Res.ok.injEq, Prod.mk.injEq] at hkg
    obtain ⟨⟨-, rfl, rfl⟩, -⟩ := hkg
    rw [Agm.public1_eq cs d _ _ _ _ _ gens n.toNat _ _ hI _ hg, Agm.public2_eq]
    exact hconst g ⟨h1, h2, h3⟩ hgb
  have hsub : {g : Fin 5 → E.Fr | RangeOutcome T b gens c0 R' st1 A (tapeOf g)
      (fun m => ∃ i < n.toNat, 2 ^ b.toNat ≤ (m i).val)} ⊆
      {g : Fin 5 → E.Fr | RangeAccepts T b gens c0 R' st1 S.a S.b S.c S.m S.r (tapeOf g) ∧
        ∃ i < n.toNat, 2 ^ b.toNat ≤ (S.m i).val} ∪ (Bad : Set _) := by
    rintro g ⟨pk, f', g_i, sk, ek, dk, st2, C, hsrs, hg, hkg, rfl, hver, hP⟩
    by_cases hgb : g ∈ Bad
    · exact Or.inr hgb
    · left
      rw [hS g pk f' g_i sk ek dk st2 hgb hsrs hg hkg] at hver hP
      exact ⟨⟨pk, f', g_i, sk, ek, dk, st2, hsrs, hg, hkg, hver⟩, hP⟩
  have h1 := (Set.ncard_le_ncard hsub (Set.toFinite _)).trans (Set.ncard_union_le _ _)
  rw [Set.ncard_coe_finset] at h1
  have h2 : {g : Fin 5 → E.Fr | RangeAccepts T b gens c0 R' st1 S.a S.b S.c S.m S.r (tapeOf g) ∧
        ∃ i < n.toNat, 2 ^ b.toNat ≤ (S.m i).val}.ncard ≤ (3 * d.size + 5) * E.fr.p ^ 4 := by
    by_cases hP : ∃ i < n.toNat, 2 ^ b.toNat ≤ (S.m i).val
    · refine le_trans (Set.ncard_le_ncard (t := {g : Fin 5 → E.Fr |
        RangeAccepts T b gens c0 R' st1 S.a S.b S.c S.m S.r (tapeOf g)}) (fun g hg => hg.1) (Set.toFinite _)) ?_
      by_contra hc
      obtain ⟨i, hi, hP⟩ := hP
      have := C63_range_error T b n hn hbm c0 hc0 gens hG hH d hd R' st1 S.a S.b S.c S.m S.r (not_le.mp hc) i hi
      omega
    · have : {g : Fin 5 → E.Fr | RangeAccepts T b gens c0 R' st1 S.a S.b S.c S.m S.r (tapeOf g) ∧
        ∃ i < n.toNat, 2 ^ b.toNat ≤ (S.m i).val} = ∅ := by
        ext g
        simp only [Set.mem_setOf_eq, Set.mem_empty_iff_false, iff_false]
        exact fun h => hP h.2
      rw [this, Set.ncard_empty]
      exact Nat.zero_le _
  rw [Nat.add_mul, Nat.add_mul, Nat.one_mul]
  omega

end

namespace Adapt
open SDkg Sec

section
variable {K : ℕ} (cs : CS E.Fr) (d : EvalDomain E.Fr) (gens : EncryptionGens E) (n : ℕ) (parties : List (Party E))

/-- the messages of the parties, for these parameters -/
def keysOf (pk : ProvingKey E) : List (FEncryptionKeyPartial E) :=
  parties.map fun P => partialKey n (partyS P) (partyT n P) (gs pk) pk.pk.delta_g1 pk.gamma_g1 gens.H

def sharesOf (pk : ProvingKey E) : List (P1share E) :=
  parties.map fun P => ⟨partyT n P 0 • pk.pk.delta_g1 +
    ∑ j ∈ Finset.range n, partyT n P (j + 1) • sumS parties j • pk.pk.delta_g1⟩

def ekOf (pk : ProvingKey E) : EncryptionKey E := key gens n pk (sumS parties) (sumT n parties)

/-- everything published, when all parties are fixed -/
noncomputable def allViews (hI : cs.numInst = n + 1) :
    Views (fun g : Fin K → E.Fr => d.vanishing (tapeOf g 4) ≠ 0 ∧ tapeOf g 2 ≠ 0 ∧ tapeOf g 3 ≠ 0)
      gens.G gens.H (2 * d.size + 3) (d.size + 2)
      (fun g => dkgPublic1 gens (pkOf cs d gens g) (keysOf gens n parties (pkOf cs d gens g))
        (sharesOf n parties (pkOf cs d gens g)) (ekOf gens n parties (pkOf cs d gens g)))
      (fun g => dkgPublic2 gens (pkOf cs d gens g) (keysOf gens n parties (pkOf cs d gens g))
        (ekOf gens n parties (pkOf cs d gens g))) :=
  have hex := exists_conv_all (pk0 := srsKey cs d 0 0 0 0 0 gens.G gens.H) gens n parties (fun _ => 0) 0
  let c1 := hex.choose
  let c2 := hex.choose_spec.choose
  have hc := hex.choose_spec.choose_spec
  let P := srsParams d K 0 (sumS parties) (sumT n parties) (fun _ => 0)
  { l1 := (dkgPublic1 gens (srsKey cs d 0 0 0 0 0 gens.G gens.H) (keysOf gens n parties
        (srsKey cs d 0 0 0 0 0 gens.G gens.H)) (sharesOf n parties (srsKey cs d 0 0 0 0 0 gens.G gens.H))
        (ekOf gens n parties (srsKey cs d 0 0 0 0 0 gens.G gens.H))).length
    l2 := (dkgPublic2 gens (srsKey cs d 0 0 0 0 0 gens.G gens.H) (keysOf gens n parties
        (srsKey cs d 0 0 0 0 0 gens.G gens.H)) (ekOf gens n parties (srsKey cs d 0 0 0 0 0 gens.G gens.H))).length
    w := fun g => P.gamma g * P.delta g
    x := fun k g => Agm.ev1 (comb (c1 k) (Agm.all1 cs d (P.tau g) n (P.s g) (P.t g))) (P.alpha g) (P.beta g)
      (P.gamma g) (P.delta g)
    y := fun k g => Agm.ev2 (comb (c2 k) (Agm.lf2 cs (d.lagrange (P.tau g)) n (P.s g) (P.t g) (P.v g) (P.rho g)))
      (P.beta g) (P.gamma g) (P.delta g)
    hl1 := fun g _ => by
      simp [dkgPublic1, public1, pkOf, srsKey, keysOf, sharesOf, ekOf, key, encKey, partialElems1, partialKey,
        List.length_flatten, Function.comp_def]
    hl2 := fun g _ => by
      simp [dkgPublic2, pkOf, srsKey, keysOf, ekOf, key, encKey, partialKey,
        List.length_flatten, Function.comp_def]
    hw := P.hw
    hx := fun k g _ => by
      have hg := gs_of_srs cs d (tapeOf g 4) (tapeOf g 0) (tapeOf g 1) (tapeOf g 2) (tapeOf g 3) gens.G gens.H n hI
      have hgs : gs (pkOf cs d gens g) = _ := (funext fun i => (getGs_inv hg).2 i).symm
      refine (hc k ⟨pkOf cs d gens g, pkOf_same cs d gens g⟩ (keysOf gens n parties (pkOf cs d gens g))
        (sharesOf n parties (pkOf cs d gens g)) (ekOf gens n parties (pkOf cs d gens g)) rfl rfl rfl).1.trans ?_
      dsimp only
      have h := Agm.public1_eq cs d (tapeOf g 4) (tapeOf g 0) (tapeOf g 1) (tapeOf g 2) (tapeOf g 3) gens n
        (sumS parties) (sumT n parties) hI _ hg
      have e : public1 gens (pkOf cs d gens g) (ekOf gens n parties (pkOf cs d gens g)) =
          (Agm.all1 cs d (tapeOf g 4) n (sumS parties) (sumT n parties)).map
            (Agm.evG (tapeOf g 0) (tapeOf g 1) (tapeOf g 2) (tapeOf g 3) gens.G) := by
        refine Eq.trans ?_ h
        unfold ekOf key
        rw [hgs]
        rfl
      rw [e, comb_map]
      rfl
    hy := fun k g _ => by
      refine (hc k ⟨pkOf cs d gens g, pkOf_same cs d gens g⟩ (keysOf gens n parties (pkOf cs d gens g))
        (sharesOf n parties (pkOf cs d gens g)) (ekOf gens n parties (pkOf cs d gens g)) rfl rfl rfl).2.trans ?_
      dsimp only
      have e := Agm.public2_eq cs d (tapeOf g 4) (tapeOf g 0) (tapeOf g 1) (tapeOf g 2) (tapeOf g 3) gens n
        (sumS parties) (sumT n parties) (fun _ => 0) 0 (gs (pkOf cs d gens g)) (pkOf cs d gens g).pk.delta_g1
        (pkOf cs d gens g).gamma_g1
      have e' : public2 gens (pkOf cs d gens g) (ekOf gens n parties (pkOf cs d gens g))
        (decKey n 0 (sumS parties) (fun _ => 0) gens.H) = _ := e
      rw [e', comb_map]
      rfl
    px := fun k => P.comb1 cs n (c1 k)
    py := fun k => P.comb2 cs n (c2 k)
    pw := (P.hgamma.mul P.hdelta (by omega : 1 + 1 ≤ 2)).mono (by omega) }

end

/-- a successful setup on a tape with fixed parties: its scalars are good, and what it publishes -/
theorem all_views (T : FftCfg E.Fr) (b n : UInt8) (hn : chunksCount E.fr b = .ok n)
    (hbm : b.toNat ≤ E.fr.modBits) (c0 : BitsizeCheckCircuit E.fr)
    (hc0 : BitsizeCheckCircuit.new (K := E.fr) b none none true = .ok c0) (cs : CS E.Fr)
    (hcs : c0.generateConstraints (CS.new true) = .ok cs) (hI : cs.numInst = n.toNat + 1)
    (hC : cs.cons.length = n.toNat * constraintsPerValue E.fr.modBits b.toNat)
    (gens : EncryptionGens E) (d : EvalDomain E.Fr)
    (hd : T.newDomain (n.toNat * constraintsPerValue E.fr.modBits b.toNat + (n.toNat + 1)) = some d)
    (parties : List (Party E)) (hne : parties ≠ []) {K : ℕ} (g : Fin K → E.Fr) pk keys shares ek
    (hset : setupForDkg T (tape E) 1 (tapeOf g) b gens parties = .ok (pk, keys, shares, ek)) :
    (d.vanishing (tapeOf g 4) ≠ 0 ∧ tapeOf g 2 ≠ 0 ∧ tapeOf g 3 ≠ 0) ∧ pk = pkOf cs d gens g ∧
      keys = keysOf gens n.toNat parties (pkOf cs d gens g) ∧
      shares = sharesOf n.toNat parties (pkOf cs d gens g) ∧ ek = ekOf gens n.toNat parties (pkOf cs d gens g) := by
  have hgood : d.vanishing (tapeOf g 4) ≠ 0 ∧ tapeOf g 2 ≠ 0 ∧ tapeOf g 3 ≠ 0 := by
    have h := hset
    unfold setupForDkg at h
    rw [hc0, Res.ok_bind] at h
    obtain ⟨⟨pk', st2⟩, hsrs, -⟩ := Res.bind_eq_ok.mp h
    obtain ⟨cs', d', hcs', hd', h1, h2, h3⟩ := setup_tape_good hsrs
    rw [hcs] at hcs'
    cases hcs'
    rw [hC, hI, hd] at hd'
    cases hd'
    exact ⟨h1, h2, h3⟩
  refine ⟨hgood, ?_⟩
  obtain ⟨h4, h2, h3⟩ := hgood
  have hg := gs_of_srs cs d (tapeOf g 4) (tapeOf g 0) (tapeOf g 1) (tapeOf g 2) (tapeOf g 3) gens.G gens.H n.toNat
    hI
  have hk := dkgTranscript_eq parties hne gens _ (pkOf cs d gens g).pk.delta_g1 (pkOf cs d gens g).gamma_g1 hn
    (show n.toNat ≤ (tab n.toNat fun i => (mixAt cs (d.lagrange (tapeOf g 4)) (tapeOf g 0) (tapeOf g 1)
      (.inst (i + 1)) * (tapeOf g 2)⁻¹) • gens.G).length by simp)
  have hgs : gs (pkOf cs d gens g) = _ := (funext fun i => (getGs_inv hg).2 i).symm
  rw [← hgs] at hk
  have := dkg_run T b n hn hbm c0 hc0 cs hcs gens d hd (tapeOf g) h2 h3 h4 (pkOf cs d gens g) rfl _ hg _ _
    _ _ hk
  rw [hset] at this
  cases this
  exact ⟨rfl, rfl, rfl, rfl⟩

end Adapt

section
variable (T : FftCfg E.Fr) (b n : UInt8) (hn : chunksCount E.fr b = .ok n)
    (hbm : b.toNat ≤ E.fr.modBits) (gens : EncryptionGens E) (hG : gens.G ≠ 0) (hH : gens.H ≠ 0)
    (d : EvalDomain E.Fr)
    (hd : T.newDomain (n.toNat * constraintsPerValue E.fr.modBits b.toNat + (n.toNat + 1)) = some d)
    (parties : List (Party E)) (hne : parties ≠ [])
include hn hbm hd hne

include hG hH in
/-- **C76** The same for distributed key generation, all parties being arbitrary (and known to the prover). -/
theorem C76_adaptive_range_all_parties (A : Prover E (RangeChoice E.Fr)) :
    {g : Fin 5 → E.Fr | DkgRangeOutcome T b gens parties A (tapeOf g)
      (fun m => ∃ i < n.toNat, 2 ^ b.toNat ≤ (m i).val)}.ncard ≤
      (A.questions + 1) * (3 * d.size + 5) * E.fr.p ^ 4 := by
  classical
  obtain ⟨c0, cs, hc0, hcs, hI, hC, -⟩ := setup_shape hn hbm
  obtain ⟨S, Bad, hbad, hconst⟩ := Adapt.choice_const
    (Adapt.allViews (K := 5) cs d gens n.toNat parties hI) hG hH A
  rw [show 5 - 1 = 4 from rfl,
    show 2 * d.size + 3 + (d.size + 2) = 3 * d.size + 5 by omega, ← Nat.mul_assoc] at hbad
  have hsub : {g : Fin 5 → E.Fr | DkgRangeOutcome T b gens parties A (tapeOf g)
      (fun m => ∃ i < n.toNat, 2 ^ b.toNat ≤ (m i).val)} ⊆
      {g : Fin 5 → E.Fr | DkgRangeAccepts T b gens parties S.a S.b S.c S.m S.r (tapeOf g) ∧
        ∃ i < n.toNat, 2 ^ b.toNat ≤ (S.m i).val} ∪ (Bad : Set _) := by
    rintro g ⟨pk, keys, shares, ek, C, hset, rfl, hver, hP⟩
    by_cases hgb : g ∈ Bad
    · exact Or.inr hgb
    · left
      obtain ⟨hgood, h1, h2, h3, h4⟩ := Adapt.all_views T b n hn hbm c0 hc0 cs hcs hI hC gens d hd parties hne g
        pk keys shares ek hset
      have hS : A.choice (dkgPublic1 gens pk keys shares ek) (dkgPublic2 gens pk keys ek) = S := by
        rw [h1, h2, h3, h4]
        exact hconst g hgood hgb
      rw [hS] at hver hP
      exact ⟨⟨pk, keys, shares, ek, hset, hver⟩, hP⟩
  have h1 := (Set.ncard_le_ncard hsub (Set.toFinite _)).trans (Set.ncard_union_le _ _)
  rw [Set.ncard_coe_finset] at h1
  have h2 : {g : Fin 5 → E.Fr | DkgRangeAccepts T b gens parties S.a S.b S.c S.m S.r (tapeOf g) ∧
        ∃ i < n.toNat, 2 ^ b.toNat ≤ (S.m i).val}.ncard ≤ (3 * d.size + 5) * E.fr.p ^ 4 := by
    by_cases hP : ∃ i < n.toNat, 2 ^ b.toNat ≤ (S.m i).val
    · refine le_trans (Set.ncard_le_ncard (t := {g : Fin 5 → E.Fr |
        DkgRangeAccepts T b gens parties S.a S.b S.c S.m S.r (tapeOf g)}) (fun g hg => hg.1) (Set.toFinite _)) ?_
      by_contra hc
      obtain ⟨i, hi, hP⟩ := hP
      have := C72_range_error_all_parties T b n hn hbm gens hG hH d hd parties hne S.a S.b S.c S.m S.r
        (not_le.mp hc) i hi
      omega
    · have : {g : Fin 5 → E.Fr | DkgRangeAccepts T b gens parties S.a S.b S.c S.m S.r (tapeOf g) ∧
        ∃ i < n.toNat, 2 ^ b.toNat ≤ (S.m i).val} = ∅ := by
        ext g
        simp only [Set.mem_setOf_eq, Set.mem_empty_iff_false, iff_false]
        exact fun h => hP h.2
      rw [this, Set.ncard_empty]
      exact Nat.zero_le _
  rw [Nat.add_mul, Nat.add_mul, Nat.one_mul]
  omega

/-- **C76** The bounds are not met for the trivial reason that nothing is accepted: a prover that asks a question
and proves the range of one list of chunks or another, depending on the answer, is accepted whenever the setup
succeeds. -/
theorem C76_adaptive_honest (q : Question E) (m m' : ℕ → ℕ) (hm : ∀ i < n.toNat, m i < 2 ^ b.toNat)
    (hm' : ∀ i < n.toNat, m' i < 2 ^ b.toNat) (r r' : E.Fr) :
    ∃ A : Prover E (RangeChoice E.Fr), A.questions = 1 ∧
      ∀ (f : ℕ → E.Fr) pk keys shares ek, setupForDkg T (tape E) 1 f b gens parties = .ok (pk, keys, shares, ek) →
        DkgRangeOutcome T b gens parties A f (fun x =>
          x = fun i => (((if q.Yes (dkgPublic1 gens pk keys shares ek) (dkgPublic2 gens pk keys ek) then m else m') i
            : ℕ) : E.Fr)) := by
  obtain ⟨ka, kb, kc, h⟩ := C72_honest_prover T b n hn hbm gens d hd m hm r
  obtain ⟨ka', kb', kc', h'⟩ := C72_honest_prover T b n hn hbm gens d hd m' hm' r'
  refine ⟨.ask q (.output ⟨ka, kb, kc, fun i => ((m i : ℕ) : E.Fr), r⟩)
    (.output ⟨ka', kb', kc', fun i => ((m' i : ℕ) : E.Fr), r'⟩), rfl, fun f pk keys shares ek hset => ?_⟩
  refine ⟨pk, keys, shares, ek, _, hset, rfl, ?_⟩
  simp only [Prover.choice]
  by_cases hq : q.Yes (dkgPublic1 gens pk keys shares ek) (dkgPublic2 gens pk keys ek)
  · simp only [if_pos hq]
    exact ⟨h _ _ _ _ _ _ _ _ hne hset, trivial⟩
  · simp only [if_neg hq]
    exact ⟨h' _ _ _ _ _ _ _ _ hne hset, trivial⟩

end
end

/-- For the concrete instance with 8-bit chunks (`p = 2^64 - 2^32 + 1`): whatever two parties conspire and whatever
it asks in up to 1000 questions, a prover convinces the verifier of a chunk of 256 or more on less than one in a
million millions of the `p^5` choices of the draws. -/
example (P P' : Party Fix.E) (A : Prover Fix.E (RangeChoice Fix.E.Fr)) (hq : A.questions ≤ 1000) :
    1000000000000 * {g : Fin 5 → Fix.E.Fr | DkgRangeOutcome goldFft 8 Fix.gens [P, P'] A (tapeOf g)
      (fun m => ∃ i < (8 : UInt8).toNat, 2 ^ (8 : UInt8).toNat ≤ (m i).val)}.ncard < Fix.E.fr.p ^ 5 := by
  have h := C76_adaptive_range_all_parties (E := Fix.E) goldFft 8 8 Fix.count8 Fix.bits8 Fix.gens
    Fix.gens_ne.1 Fix.gens_ne.2 Fix.dom8 Fix.dom8_count [P, P'] (by simp) A
  have hbig : 1000000000000 * (1001 * (3 * Fix.dom8.size + 5)) < Fix.E.fr.p := by
    rw [show Fix.dom8.size = 2 ^ 10 from rfl]
    exact (by decide : 1000000000000 * (1001 * (3 * 2 ^ 10 + 5)) < goldR)
  have hq' : (A.questions + 1) * (3 * Fix.dom8.size + 5) ≤ 1001 * (3 * Fix.dom8.size + 5) :=
    Nat.mul_le_mul_right _ (by omega)
  generalize {g : Fin 5 → Fix.E.Fr | DkgRangeOutcome goldFft 8 Fix.gens [P, P'] A (tapeOf g)
      (fun m => ∃ i < (8 : UInt8).toNat, 2 ^ (8 : UInt8).toNat ≤ (m i).val)}.ncard = c at h ⊢
  have key : ∀ M D q p c : ℕ, c ≤ D * q → 0 < q → M * D < p → M * c < q * p := by
    intro M D q p c h1 h2 h3
    calc M * c ≤ M * (D * q) := Nat.mul_le_mul_left _ h1
      _ = q * (M * D) := by ring
      _ < q * p := Nat.mul_lt_mul_of_pos_left h3 h2
  rw [show (5 : ℕ) = 4 + 1 from rfl, pow_succ]
  exact key _ _ _ _ _ (h.trans (Nat.mul_le_mul_right _ hq')) (Nat.pow_pos (Nat.Prime.pos Fix.E.fr.prime)) hbig

end Verif
