/-
Property C74: knowledge soundness against adaptive generic-group adversaries.
-/
import Verif.Props.Error
import Verif.Lemmas.Adaptive

namespace Verif
open Spec

section
variable {E : Engine}

namespace Adapt

/-- the published elements, as polynomials in the scalars of a setup -/
noncomputable def views {K : ℕ} {d : EvalDomain E.Fr} {Good : (Fin K → E.Fr) → Prop} (P : Agm.Params d Good)
    (cs : CS E.Fr) (n : ℕ) (G : E.G1) (H : E.G2) :
    Views Good G H (2 * d.size + 3) (d.size + 2)
      (fun g => (Agm.all1 cs d (P.tau g) n (P.s g) (P.t g)).map
        (Agm.evG (P.alpha g) (P.beta g) (P.gamma g) (P.delta g) G))
      (fun g => (Agm.lf2 cs (d.lagrange (P.tau g)) n (P.s g) (P.t g) (P.v g) (P.rho g)).map
        (Agm.evH (P.beta g) (P.gamma g) (P.delta g) H)) where
  l1 := (P.all1 cs n).choose
  l2 := (P.lf2 cs n).choose
  w g := P.gamma g * P.delta g
  x k g := Agm.ev1 (comb k (Agm.all1 cs d (P.tau g) n (P.s g) (P.t g))) (P.alpha g) (P.beta g) (P.gamma g)
    (P.delta g)
  y k g := Agm.ev2 (comb k (Agm.lf2 cs (d.lagrange (P.tau g)) n (P.s g) (P.t g) (P.v g) (P.rho g))) (P.beta g)
    (P.gamma g) (P.delta g)
  hl1 g _ := by rw [List.length_map]; exact (P.all1 cs n).choose_spec.1 g
  hl2 g _ := by rw [List.length_map]; exact (P.lf2 cs n).choose_spec.1 g
  hw := P.hw
  hx k g _ := by rw [comb_map]; rfl
  hy k g _ := by rw [comb_map]; rfl
  px k := P.comb1 cs n k
  py k := P.comb2 cs n k
  pw := (P.hgamma.mul P.hdelta (by omega : 1 + 1 ≤ 2)).mono (by omega)

/-- a successful setup on a tape: its scalars are good, and what it publishes -/
theorem setup_views (T : FftCfg E.Fr) (b n : UInt8) (hn : chunksCount E.fr b = .ok n)
    (hbm : b.toNat ≤ E.fr.modBits) (c0 : BitsizeCheckCircuit E.fr)
    (hc0 : BitsizeCheckCircuit.new (K := E.fr) b none none true = .ok c0) (cs : CS E.Fr)
    (hcs : c0.generateConstraints (CS.new true) = .ok cs) (hI : cs.numInst = n.toNat + 1)
    (hC : cs.cons.length = n.toNat * constraintsPerValue E.fr.modBits b.toNat)
    (gens : EncryptionGens E) (d : EvalDomain E.Fr)
    (hd : T.newDomain (n.toNat * constraintsPerValue E.fr.modBits b.toNat + (n.toNat + 1)) = some d)
    (f : ℕ → E.Fr) (pk : ProvingKey E) (sk : SecretKey E) (ek : EncryptionKey E) (dk : DecryptionKey E)
    (f' : ℕ → E.Fr) (hset : setupForGroth16 T (tape E) 1 f b gens = .ok ((pk, sk, ek, dk), f')) :
    (d.vanishing (f 4) ≠ 0 ∧ f 2 ≠ 0 ∧ f 3 ≠ 0) ∧
      public1 gens pk ek = (Agm.all1 cs d (f 4) n.toNat (fun i => f (6 + i))
        (fun i => f (6 + n.toNat + i))).map (Agm.evG (f 0) (f 1) (f 2) (f 3) gens.G) ∧
      public2 gens pk ek dk = (Agm.lf2 cs (d.lagrange (f 4)) n.toNat (fun i => f (6 + i))
        (fun i => f (6 + n.toNat + i)) (fun i => f (7 + 2 * n.toNat + i)) (f 5)).map
          (Agm.evH (f 1) (f 2) (f 3) gens.H) := by
  have hgood : d.vanishing (f 4) ≠ 0 ∧ f 2 ≠ 0 ∧ f 3 ≠ 0 := by
    have h := hset
    unfold setupForGroth16 at h
    rw [hc0, Res.ok_bind] at h
    obtain ⟨⟨pk', st2⟩, hsrs, -⟩ := Res.bind_eq_ok.mp h
    obtain ⟨cs', d', hcs', hd', h1, h2, h3⟩ := setup_tape_good hsrs
    rw [hcs] at hcs'
    cases hcs'
    rw [hC, hI, hd] at hd'
    cases hd'
    exact ⟨h1, h2, h3⟩
  refine ⟨hgood, ?_⟩
  obtain ⟨h1, h2, h3⟩ := hgood
  have hrun := setup_run T (tape E) 1 (by omega) f b n hn hbm c0 hc0 cs hcs hI gens d hd
    (by rw [draw_tape]; exact h2) (by rw [draw_tape]; exact h3) (by rw [draw_tape]; exact h1)
  simp only [draw_tape] at hrun
  rw [hset] at hrun
  simp only [Res.ok.injEq] at hrun
  obtain ⟨⟨rfl, -, rfl, rfl⟩, -⟩ := hrun
  have hg := gs_of_srs cs d (f 4) (f 0) (f 1) (f 2) (f 3) gens.G gens.H n.toNat hI
  exact ⟨Agm.public1_eq cs d (f 4) (f 0) (f 1) (f 2) (f 3) gens n.toNat _ _ hI _ hg,
    Agm.public2_eq cs d (f 4) (f 0) (f 1) (f 2) (f 3) gens n.toNat _ _ _ _ _ _ _⟩

end Adapt

section
variable (T : FftCfg E.Fr) (b n : UInt8) (hn : chunksCount E.fr b = .ok n)
    (hbm : b.toNat ≤ E.fr.modBits) (gens : EncryptionGens E) (hG : gens.G ≠ 0) (hH : gens.H ≠ 0)
    (d : EvalDomain E.Fr)
    (hd : T.newDomain (n.toNat * constraintsPerValue E.fr.modBits b.toNat + (n.toNat + 1)) = some d)
    (A : Prover E (Strategy E.Fr))
include hn hbm hG hH hd

/-- **C74** The extractor for adaptive adversaries.  An adversary asks up to `q` questions about the published group elements (zero tests of
linear combinations in either group and of combinations of pairings), chooses the coefficients of a ciphertext
and a proof depending on the answers, and is accepted on more than a `(q + 1) (3 size + 5) / p` fraction of the
draws of the setup.  Then there are chunks below `2^b` and a scalar `r`, fixed before the setup, such that on all
but a `q (3 size + 5) / p` fraction of the draws the adversary's ciphertext is the SAVER encryption of these
chunks with randomness `r`, or the setup does not succeed. -/
theorem C74_adaptive_extractor
    (hmany : (A.questions + 1) * (3 * d.size + 5) * E.fr.p ^ (6 + 3 * n.toNat) <
      {g : Fin (7 + 3 * n.toNat) → E.Fr | Outcome T b gens A (tapeOf g) (Accepted gens)}.ncard) :
    ∃ (m : ℕ → ℕ) (r : E.Fr), (∀ i < n.toNat, m i < 2 ^ b.toNat ∧ m i < E.fr.p) ∧
      {g : Fin (7 + 3 * n.toNat) → E.Fr |
        Outcome T b gens A (tapeOf g) (fun pk ek ct _ => ¬ Encrypts pk ek m r ct)}.ncard ≤
        A.questions * (3 * d.size + 5) * E.fr.p ^ (6 + 3 * n.toNat) := by
  classical
  obtain ⟨c0, cs, hc0, hcs, hI, hC, -⟩ := setup_shape hn hbm
  obtain ⟨S, Bad, hbad, hconst⟩ := Adapt.choice_const
    (Adapt.views (setupParams d n.toNat (7 + 3 * n.toNat)) cs n.toNat gens.G gens.H) hG hH A
  rw [show 7 + 3 * n.toNat - 1 = 6 + 3 * n.toNat by omega,
    show 2 * d.size + 3 + (d.size + 2) = 3 * d.size + 5 by omega, ← Nat.mul_assoc] at hbad
  -- outside the bad draws the prover follows `S`
  have hS : ∀ (g : Fin (7 + 3 * n.toNat) → E.Fr) pk sk ek dk f', g ∉ Bad →
      setupForGroth16 T (tape E) 1 (tapeOf g) b gens = .ok ((pk, sk, ek, dk), f') →
      A.choice (public1 gens pk ek) (public2 gens pk ek dk) = S := by
    intro g pk sk ek dk f' hg hset
    obtain ⟨hgood, h1, h2⟩ := Adapt.setup_views T b n hn hbm c0 hc0 cs hcs hI hC gens d hd _ _ _ _ _ _ hset
    rw [h1, h2]
    exact hconst g hgood hg
  have hbig : (3 * d.size + 5) * E.fr.p ^ (6 + 3 * n.toNat) <
      {g : Fin (7 + 3 * n.toNat) → E.Fr | Accepts T b gens S (tapeOf g)}.ncard := by
    have hsub : {g : Fin (7 + 3 * n.toNat) → E.Fr | Outcome T b gens A (tapeOf g) (Accepted gens)} ⊆
        {g : Fin (7 + 3 * n.toNat) → E.Fr | Accepts T b gens S (tapeOf g)} ∪ (Bad : Set _) := by
      rintro g ⟨pk, sk, ek, dk, f', hset, hacc⟩
      by_cases hg : g ∈ Bad
      · exact Or.inr hg
      · refine Or.inl ⟨pk, sk, ek, dk, f', hset, ?_⟩
        unfold Accepted Prover.cipher Prover.proof at hacc
        rw [hS g pk sk ek dk f' hg hset] at hacc
        exact hacc
    have h1 := (Set.ncard_le_ncard hsub (Set.toFinite _)).trans (Set.ncard_union_le _ _)
    rw [Set.ncard_coe_finset] at h1
    rw [Nat.add_mul, Nat.add_mul, Nat.one_mul] at hmany
    omega
  obtain ⟨m, r, hm, hall⟩ := C62_knowledge_error T b n hn hbm gens hG hH d hd S hbig
  refine ⟨m, r, hm, le_trans ?_ hbad⟩
  rw [← Set.ncard_coe_finset]
  refine Set.ncard_le_ncard ?_ (Set.toFinite _)
  rintro g ⟨pk, sk, ek, dk, f', hset, hne⟩
  by_contra hg
  refine hne ?_
  unfold Encrypts Prover.cipher
  rw [hS g pk sk ek dk f' hg hset]
  exact hall _ _ _ _ _ _ _ _ hset

/-- **C74** The error bound for adaptive adversaries, whatever their success probability: on at most a
`(q + 1) (3 size + 5) / p` fraction of the draws of the setup do they output a ciphertext and a proof that
`verify_commitment_and_proof` accepts, such that the ciphertext is not the SAVER encryption of chunks below
`2^b`. -/
theorem C74_adaptive_soundness :
    {g : Fin (7 + 3 * n.toNat) → E.Fr | Outcome T b gens A (tapeOf g) (fun pk ek ct proof =>
      Accepted gens pk ek ct proof ∧ ¬ ∃ (m : ℕ → ℕ) (r : E.Fr),
        (∀ i < n.toNat, m i < 2 ^ b.toNat ∧ m i < E.fr.p) ∧ Encrypts pk ek m r ct)}.ncard ≤
      (A.questions + 1) * (3 * d.size + 5) * E.fr.p ^ (6 + 3 * n.toNat) := by
  by_cases hmany : (A.questions + 1) * (3 * d.size + 5) * E.fr.p ^ (6 + 3 * n.toNat) <
      {g : Fin (7 + 3 * n.toNat) → E.Fr | Outcome T b gens A (tapeOf g) (Accepted gens)}.ncard
  · obtain ⟨m, r, hm, h⟩ := C74_adaptive_extractor T b n hn hbm gens hG hH d hd A hmany
    refine le_trans (Set.ncard_le_ncard ?_ (Set.toFinite _)) (h.trans ?_)
    · rintro g ⟨pk, sk, ek, dk, f', hset, -, hne⟩
      exact ⟨pk, sk, ek, dk, f', hset, fun he => hne ⟨m, r, hm, he⟩⟩
    · exact Nat.mul_le_mul_right _ (Nat.mul_le_mul_right _ (by omega))
  · refine le_trans (Set.ncard_le_ncard ?_ (Set.toFinite _)) (not_lt.mp hmany)
    rintro g ⟨pk, sk, ek, dk, f', hset, h, -⟩
    exact ⟨pk, sk, ek, dk, f', hset, h⟩

omit hG hH in
/-- **C74** Adaptive honest encryptors: a prover that asks one question and encrypts the chunks `m` or the chunks
`m'` depending on the answer, is accepted on all but a `(size + 2) / p` fraction of the draws.  So the hypothesis of
`C74_adaptive_extractor` is met by provers that really are adaptive. -/
theorem C74_adaptive_honest (hG : gens.G ≠ 0) (hH : gens.H ≠ 0) (hp : d.size < E.fr.p) (q : Question E)
    (m m' : ℕ → ℕ) (hm : ∀ i < n.toNat, m i < 2 ^ b.toNat) (hm' : ∀ i < n.toNat, m' i < 2 ^ b.toNat) (r r' : E.Fr) :
    ∃ S S' : Strategy E.Fr,
      (∀ f, ¬ Outcome T b gens (.ask q (.output S) (.output S')) f
        (fun pk ek ct _ => ¬ Encrypts pk ek m r ct ∧ ¬ Encrypts pk ek m' r' ct)) ∧
      E.fr.p ^ (7 + 3 * n.toNat) ≤
        {g : Fin (7 + 3 * n.toNat) → E.Fr | Outcome T b gens (.ask q (.output S) (.output S')) (tapeOf g)
          (Accepted gens)}.ncard + (d.size + 2) * E.fr.p ^ (6 + 3 * n.toNat) := by
  obtain ⟨S0, -, hS0⟩ := C62_honest_fraction T b n hn hbm gens hG hH d hd hp m hm r
  obtain ⟨S, hS⟩ := C61_honest_strategy T b n hn hbm gens d hd m hm r
  obtain ⟨S', hS'⟩ := C61_honest_strategy T b n hn hbm gens d hd m' hm' r'
  refine ⟨S, S', ?_, hS0.trans (Nat.add_le_add_right (Set.ncard_le_ncard ?_ (Set.toFinite _)) _)⟩
  · rintro f ⟨pk, sk, ek, dk, f', hset, h1, h2⟩
    unfold Prover.cipher at h1 h2
    simp only [Prover.choice] at h1 h2
    split at h1
    · exact h1 (hS _ _ _ _ _ _ _ _ hset).1
    · next hq =>
      rw [if_neg hq] at h2
      exact h2 (hS' _ _ _ _ _ _ _ _ hset).1
  · rintro g ⟨pk, sk, ek, dk, f', hset, -⟩
    refine ⟨pk, sk, ek, dk, f', hset, ?_⟩
    unfold Accepted Prover.cipher Prover.proof
    simp only [Prover.choice]
    split
    · exact (hS _ _ _ _ _ _ _ _ hset).2
    · exact (hS' _ _ _ _ _ _ _ _ hset).2

end
end

/-- The hypothesis of `C74_adaptive_extractor` is met by the concrete instance with 8-bit chunks, for a prover that
encrypts one message or another depending on whether the first published element is zero. -/
example : ∃ S S' : Strategy Fix.E.Fr, ∀ A : Prover Fix.E (Strategy Fix.E.Fr), A = .ask (.first fun i => if i = 0 then 1 else 0)
      (.output S) (.output S') →
    (A.questions + 1) * (3 * Fix.dom8.size + 5) * Fix.E.fr.p ^ (6 + 3 * (8 : UInt8).toNat) <
    {g : Fin (7 + 3 * (8 : UInt8).toNat) → Fix.E.Fr | Outcome goldFft 8 Fix.gens A (tapeOf g)
      (Accepted Fix.gens)}.ncard := by
  have hsz := Fix.dom8_small
  have hbig : 7 * Fix.dom8.size + 13 ≤ Fix.E.fr.p := by
    rw [show Fix.dom8.size = 2 ^ 10 from rfl]
    exact (by decide : 7 * 2 ^ 10 + 13 ≤ goldR)
  obtain ⟨S, S', -, h⟩ := C74_adaptive_honest (E := Fix.E) goldFft 8 8 Fix.count8 Fix.bits8 Fix.gens
    Fix.dom8 Fix.dom8_count Fix.gens_ne.1 Fix.gens_ne.2 (by omega) (.first fun i => if i = 0 then 1 else 0)
    (fun i => i + 1) (fun i => 2 * i) (by
      intro i hi
      rw [Fix.eight] at hi ⊢
      omega) (by
      intro i hi
      rw [Fix.eight] at hi ⊢
      omega) (show Fix.E.Fr from (5 : Fix.F)) (show Fix.E.Fr from (6 : Fix.F))
  refine ⟨S, S', ?_⟩
  rintro A rfl
  generalize {g : Fin (7 + 3 * (8 : UInt8).toNat) → Fix.E.Fr | Outcome goldFft 8 Fix.gens _
    (tapeOf g) (Accepted Fix.gens)}.ncard = c at h ⊢
  rw [show 7 + 3 * (8 : UInt8).toNat = (6 + 3 * (8 : UInt8).toNat) + 1 from rfl, pow_succ] at h
  have hpos : 0 < Fix.E.fr.p ^ (6 + 3 * (8 : UInt8).toNat) := Nat.pow_pos (by omega)
  generalize Fix.E.fr.p ^ (6 + 3 * (8 : UInt8).toNat) = q at h hpos ⊢
  have h2 := Nat.mul_le_mul_left q hbig
  simp only [Prover.questions, Nat.max_self]
  nlinarith

end Verif
