/-
Helper lemmas for C87: adaptive adversaries that see honest ciphertexts and proofs.
-/
import Verif.Lemmas.NmStrat
import Verif.Lemmas.Adaptive
import Verif.Props.MalleableError

namespace Verif
open Spec Agm

noncomputable section

/-! ### Questions about derived elements -/

namespace Span
variable {E : Engine} {Ω : Type} {L1 : Ω → List E.G1} {L2 : Ω → List E.G2}

/-- a fixed combination of pairings of the elements of `L1` with those of `L2`, plus a constant -/
def Pair (L1 : Ω → List E.G1) (L2 : Ω → List E.G2) (f : Ω → E.GT) : Prop :=
  ∃ (k : ℕ → ℕ → E.Fr) (T : E.GT), ∀ ω, f ω = (∑ i ∈ Finset.range (L1 ω).length,
    ∑ j ∈ Finset.range (L2 ω).length, k i j • E.e ((L1 ω).getD i 0) ((L2 ω).getD j 0)) + T

theorem Pair.congr {f g : Ω → E.GT} (h : Pair L1 L2 f) (e : ∀ ω, g ω = f ω) : Pair L1 L2 g := by
  obtain ⟨k, T, hk⟩ := h
  exact ⟨k, T, fun ω => (e ω).trans (hk ω)⟩

theorem Pair.const (T : E.GT) : Pair L1 L2 fun _ => T :=
  ⟨fun _ _ => 0, T, fun ω => by simp⟩

theorem Pair.add {f g : Ω → E.GT} (hf : Pair L1 L2 f) (hg : Pair L1 L2 g) : Pair L1 L2 fun ω => f ω + g ω := by
  obtain ⟨k, T, hk⟩ := hf
  obtain ⟨k', T', hk'⟩ := hg
  refine ⟨fun i j => k i j + k' i j, T + T', fun ω => ?_⟩
  dsimp only
  rw [hk, hk']
  simp only [add_smul, Finset.sum_add_distrib]
  abel

theorem Pair.smul {f : Ω → E.GT} (hf : Pair L1 L2 f) (c : E.Fr) : Pair L1 L2 fun ω => c • f ω := by
  obtain ⟨k, T, hk⟩ := hf
  refine ⟨fun i j => c * k i j, c • T, fun ω => ?_⟩
  dsimp only
  rw [hk]
  simp only [smul_add, Finset.smul_sum, mul_smul]

theorem Pair.sub {f g : Ω → E.GT} (hf : Pair L1 L2 f) (hg : Pair L1 L2 g) : Pair L1 L2 fun ω => f ω - g ω := by
  refine (hf.add (hg.smul (-1))).congr fun ω => ?_
  rw [neg_smul, one_smul, sub_eq_add_neg]

theorem Pair.sum {f : ℕ → Ω → E.GT} (n : ℕ) (h : ∀ i < n, Pair L1 L2 (f i)) :
    Pair L1 L2 fun ω => ∑ i ∈ Finset.range n, f i ω := by
  induction n with
  | zero => simpa using Pair.const 0
  | succ n ih =>
    refine ((ih fun i hi => h i (by omega)).add (h n (by omega))).congr fun ω => ?_
    rw [Finset.sum_range_succ]

theorem Pair.e {x : Ω → E.G1} {y : Ω → E.G2} (hx : In E.Fr L1 x) (hy : In E.Fr L2 y) :
    Pair L1 L2 fun ω => E.e (x ω) (y ω) := by
  obtain ⟨k, hk⟩ := hx
  obtain ⟨k', hk'⟩ := hy
  refine ⟨fun i j => k' j * k i, 0, fun ω => ?_⟩
  dsimp only
  rw [hk, hk', add_zero]
  unfold Spec.comb
  rw [map_sum, Finset.sum_comm]
  refine Finset.sum_congr rfl fun j _ => ?_
  rw [map_smul, map_sum, LinearMap.sum_apply, Finset.smul_sum]
  refine Finset.sum_congr rfl fun i _ => ?_
  rw [map_smul, LinearMap.smul_apply, smul_smul]

/-- a vanishing combination of pairings is a question -/
theorem Pair.question {f : Ω → E.GT} (h : Pair L1 L2 f) :
    ∃ q : Question E, ∀ ω, q.Yes (L1 ω) (L2 ω) ↔ f ω = 0 := by
  obtain ⟨k, T, hk⟩ := h
  exact ⟨.target k T, fun ω => by rw [hk]; rfl⟩

/-- a question about combinations is a question about the elements -/
theorem pull {l1 : Ω → List E.G1} {l2 : Ω → List E.G2} (h1 : All E.Fr L1 l1) (h2 : All E.Fr L2 l2)
    (q : Question E) : ∃ q' : Question E, ∀ ω, q'.Yes (L1 ω) (L2 ω) ↔ q.Yes (l1 ω) (l2 ω) := by
  cases q with
  | first k =>
    obtain ⟨k', hk'⟩ := h1.comb k
    exact ⟨.first k', fun ω => by simp only [Question.Yes]; rw [← hk']⟩
  | second k =>
    obtain ⟨k', hk'⟩ := h2.comb k
    exact ⟨.second k', fun ω => by simp only [Question.Yes]; rw [← hk']⟩
  | target k T =>
    obtain ⟨N1, hN1⟩ := h1.1
    obtain ⟨N2, hN2⟩ := h2.1
    have := (Pair.sum (f := fun i ω => ∑ j ∈ Finset.range N2, k i j • E.e ((l1 ω).getD i 0) ((l2 ω).getD j 0))
      N1 fun i _ => Pair.sum N2 fun j _ => (Pair.e (h1.2 i) (h2.2 j)).smul (k i j)).add (Pair.const T)
    obtain ⟨q', hq'⟩ := this.question
    exact ⟨q', fun ω => by rw [hq']; simp only [Question.Yes, hN1, hN2]⟩

end Span

/-! ### The choice made on almost all draws -/

namespace Adapt
variable {E : Engine} {α : Type}

open Classical in
/-- the choice of a prover whose questions are answered according to `Y` -/
def generic (Y : Question E → Prop) : Prover E α → α
  | .output a => a
  | .ask q yes no => if Y q then generic Y yes else generic Y no

variable {K : ℕ} {Good : (Fin K → E.Fr) → Prop} {G : E.G1} {H : E.G2} {D1 D2 : ℕ}
    {V1 : (Fin K → E.Fr) → List E.G1} {V2 : (Fin K → E.Fr) → List E.G2}

/-- On all but a few good draws, an adaptive prover makes the choice that belongs to the answers "yes" to the
questions to which this is the answer on all good draws. -/
theorem choice_generic (W : Views Good G H D1 D2 V1 V2) (hG : G ≠ 0) (hH : H ≠ 0) (A : Prover E α) :
    ∃ Bad : Finset (Fin K → E.Fr), Bad.card ≤ A.questions * ((D1 + D2) * E.fr.p ^ (K - 1)) ∧
      ∀ g, Good g → g ∉ Bad →
        A.choice (V1 g) (V2 g) = generic (fun q => ∀ g, Good g → q.Yes (V1 g) (V2 g)) A := by
  classical
  induction A with
  | output S => exact ⟨∅, by simp, fun _ _ _ => rfl⟩
  | ask q yes no ihy ihn =>
    obtain ⟨By, hy1, hy2⟩ := ihy
    obtain ⟨Bn, hn1, hn2⟩ := ihn
    simp only [Prover.questions, Prover.choice, generic]
    have hdich := dichotomy W hG hH q
    generalize (D1 + D2) * E.fr.p ^ (K - 1) = B at hy1 hn1 hdich ⊢
    by_cases hall : ∀ g, Good g → q.Yes (V1 g) (V2 g)
    · refine ⟨By, hy1.trans (Nat.mul_le_mul_right _ (by omega)), fun g hg hb => ?_⟩
      rw [if_pos (hall g hg), if_pos hall]
      exact hy2 g hg hb
    · have hfew := hdich.resolve_left hall
      let Q : Finset (Fin K → E.Fr) := Finset.univ.filter fun g => Good g ∧ q.Yes (V1 g) (V2 g)
      refine ⟨Bn ∪ Q, ?_, fun g hg hb => ?_⟩
      · have h1 := hfew Q fun g hg => (Finset.mem_filter.mp hg).2
        have h2 := Finset.card_union_le Bn Q
        have h3 : no.questions * B ≤ max yes.questions no.questions * B :=
          Nat.mul_le_mul_right _ (by omega)
        rw [Nat.add_mul, Nat.one_mul]
        omega
      · rw [Finset.mem_union, not_or] at hb
        rw [if_neg fun h => hb.2 (Finset.mem_filter.mpr ⟨Finset.mem_univ _, hg, h⟩), if_neg hall]
        exact hn2 g hg hb.1

end Adapt

/-! ### What the adversary sees, as a function of all scalars -/

namespace Nm
variable {E : Engine} (cs : CS E.Fr) (d : EvalDomain E.Fr) (n : ℕ) (gens : EncryptionGens E)

/-- the SRS with these scalars -/
def pkAt (P : Pt E) : ProvingKey E := srsKey cs d P.tau P.alpha P.beta P.gamma P.delta gens.G gens.H

/-- the bases of the chunks -/
def gAt (P : Pt E) : List E.G1 :=
  tab n fun i => (mixAt cs (d.lagrange P.tau) P.alpha P.beta (.inst (i + 1)) * P.gamma⁻¹) • gens.G

/-- the encryption key -/
def ekAt (P : Pt E) : EncryptionKey E :=
  encKey n P.s P.t (fun i => (gAt cs d n gens P).getD i 0) (pkAt cs d gens P).pk.delta_g1 (pkAt cs d gens P).gamma_g1
    gens.H

/-- the decryption key -/
def dkAt (P : Pt E) : DecryptionKey E := decKey n P.rho P.s P.v gens.H

/-- the honest ciphertexts and proofs -/
def pubsAt (P : Pt E) (N : ℕ) (m : ℕ → ℕ → ℕ) (r a b : ℕ → E.Fr) : List (Ciphertext E × Proof E) :=
  pubs gens (pkAt cs d gens P) (ekAt cs d n gens P) (fun i => (gAt cs d n gens P).getD i 0) P.alpha P.beta P.gamma
    P.delta N m r a b

/-- the view in the first group -/
def at1 (P : Pt E) (N : ℕ) (m : ℕ → ℕ → ℕ) (r a b : ℕ → E.Fr) : List E.G1 :=
  view1 gens (pkAt cs d gens P) (ekAt cs d n gens P) (pubsAt cs d n gens P N m r a b)

/-- the view in the second group -/
def at2 (P : Pt E) (N : ℕ) (m : ℕ → ℕ → ℕ) (r a b : ℕ → E.Fr) : List E.G2 :=
  view2 gens (pkAt cs d gens P) (ekAt cs d n gens P) (dkAt n gens P) (pubsAt cs d n gens P N m r a b)

theorem seen1_pubsAt (P : Pt E) (N : ℕ) (m : ℕ → ℕ → ℕ) (r a b : ℕ → E.Fr) :
    seen1 (pubsAt cs d n gens P N m r a b) = (tab N fun c => Sec.blockP n
      (fun i => (gAt cs d n gens P).getD i 0) gens ((pkAt cs d gens P).pk.vk.gamma_abc_g1.getD 0 0)
      (pkAt cs d gens P).pk.delta_g1 (pkAt cs d gens P).gamma_g1 P.alpha P.beta P.gamma P.delta P.s P.t (m c) (r c)
      (a c) (b c)).flatten := by
  unfold seen1 pubsAt pubs
  rw [map_tab]
  refine congrArg List.flatten (tab_congr fun j _ => ?_)
  simp only [Sec.blockP, flat, simulate, Sec.proofC, ekAt, List.cons_append, List.nil_append, List.append_assoc]

theorem seen2_pubsAt (P : Pt E) (N : ℕ) (m : ℕ → ℕ → ℕ) (r a b : ℕ → E.Fr) :
    seen2 (pubsAt cs d n gens P N m r a b) = tab N fun c => b c • gens.H := by
  unfold seen2 pubsAt pubs
  rw [map_tab]
  rfl

/-- A question that is answered "yes" for all scalars does not distinguish the messages. -/
theorem transfer (hG : gens.G ≠ 0) (h2 : (2 : E.Fr) ≠ 0) (q : Question E) (N : ℕ) (m m' : ℕ → ℕ → ℕ)
    (h : ∀ P, Good d P → ∀ r a b, q.Yes (at1 cs d n gens P N m r a b) (at2 cs d n gens P N m r a b)) :
    ∀ P, Good d P → ∀ r a b, q.Yes (at1 cs d n gens P N m' r a b) (at2 cs d n gens P N m' r a b) := by
  intro P hP r a b
  let pk := pkAt cs d gens P
  let g : ℕ → E.G1 := fun i => (gAt cs d n gens P).getD i 0
  let pub1 : List E.G1 := pk.pk.l_query ++ (pk.pk.h_query ++ ([gens.G, pk.pk.vk.alpha_g1, pk.pk.beta_g1,
    pk.pk.delta_g1, pk.gamma_g1] ++ (pk.pk.a_query ++ (pk.pk.b_g1_query ++ pk.pk.vk.gamma_abc_g1))))
  let pub2 : List E.G2 := [gens.H, pk.pk.vk.beta_g2, pk.pk.vk.gamma_g2, pk.pk.vk.delta_g2] ++ pk.pk.b_g2_query
  let Ω := (ℕ → E.Fr) × (ℕ → E.Fr) × (ℕ → E.Fr) × E.Fr × (ℕ → E.Fr) × (ℕ → ℕ → ℕ)
  let Pω : Ω → Pt E := fun ω => { P with s := ω.1, t := ω.2.1, v := ω.2.2.1, rho := ω.2.2.2.1 }
  let L1 : Ω → List E.G1 := fun ω => Sec.viewP1 n g gens (pk.pk.vk.gamma_abc_g1.getD 0 0) pk.pk.delta_g1 pk.gamma_g1
    P.alpha P.beta P.gamma P.delta pub1 ω.1 ω.2.1 N ω.2.2.2.2.2 ω.2.2.2.2.1 a b
  let L2 : Ω → List E.G2 := fun ω => Sec.viewP2 n g gens pk.pk.delta_g1 pk.gamma_g1 pub2 ω.1 ω.2.1 ω.2.2.1 ω.2.2.2.1 N b
  let l1 : Ω → List E.G1 := fun ω => at1 cs d n gens (Pω ω) N ω.2.2.2.2.2 ω.2.2.2.2.1 a b
  let l2 : Ω → List E.G2 := fun ω => at2 cs d n gens (Pω ω) N ω.2.2.2.2.2 ω.2.2.2.2.1 a b
  have hl2 : ∀ ω, l2 ω = L2 ω := by
    intro ω
    show view2 gens _ _ _ _ = _
    unfold view2
    rw [seen2_pubsAt]
    show public2 _ _ _ _ ++ _ = Sec.viewP2 _ _ _ _ _ _ _ _ _ _ _ _
    unfold public2 Sec.viewP2 keyElems2
    simp only [pub2, List.append_assoc]
    rfl
  have hA2 : Span.All E.Fr L2 l2 := by
    refine Span.All.congr (Span.All.refl (N := pub2.length + (n + 1 + (1 + (n + n))) + N) fun ω => ?_) hl2
    simp only [L2, Sec.viewP2, keyElems2, encKey, decKey, List.length_append, length_tab, List.length_cons,
      List.length_nil]
  have hA0 : Span.All E.Fr L1 L1 := by
    refine Span.All.refl (N := pub1.length + (3 + (n + n)) + N * (n + 4)) fun ω => ?_
    show (Sec.viewP1 _ _ _ _ _ _ _ _ _ _ _ _ _ _ _ _ _ _).length = _
    unfold Sec.viewP1
    rw [List.length_append, List.length_append,
      (comb_blocks (F := E.Fr) (n + 4) _ (fun j => Sec.blockP_length _ _ _ _ _ _ _ _ _ _ _ _ _ _ _ _) (fun _ => 0) N).1]
    simp only [keyElems1, encKey, List.length_append, length_tab, List.length_cons, List.length_nil]
  have hK1 : ∀ ω : Ω, (keyElems1 (encKey n ω.1 ω.2.1 g pk.pk.delta_g1 pk.gamma_g1 gens.H)).length = 3 + (n + n) := by
    intro ω
    simp [keyElems1, encKey]
    omega
  have hpk : Span.All E.Fr L1 fun ω => pub1 ++ keyElems1 (encKey n ω.1 ω.2.1 g pk.pk.delta_g1 pk.gamma_g1 gens.H) :=
    Span.All.left (N := pub1.length + (3 + (n + n))) hA0 fun ω => by rw [List.length_append, hK1]
  have hblk : Span.All E.Fr L1 fun ω => (tab N fun c => Sec.blockP n g gens (pk.pk.vk.gamma_abc_g1.getD 0 0)
      pk.pk.delta_g1 pk.gamma_g1 P.alpha P.beta P.gamma P.delta ω.1 ω.2.1 (ω.2.2.2.2.2 c) (ω.2.2.2.2.1 c) (a c)
      (b c)).flatten :=
    Span.All.right (N := pub1.length + (3 + (n + n))) hA0 fun ω => by rw [List.length_append, hK1]
  have hp : Span.All E.Fr L1 fun _ => pub1 := Span.All.left (N := pub1.length) hpk fun _ => rfl
  have hk : Span.All E.Fr L1 fun ω => keyElems1 (encKey n ω.1 ω.2.1 g pk.pk.delta_g1 pk.gamma_g1 gens.H) :=
    Span.All.right (N := pub1.length) hpk fun _ => rfl
  have hX0 : Span.In E.Fr L1 fun ω => (encKey n ω.1 ω.2.1 g pk.pk.delta_g1 pk.gamma_g1 gens.H).X_0 := hk.2 0
  have hP1 : Span.In E.Fr L1 fun ω => (encKey n ω.1 ω.2.1 g pk.pk.delta_g1 pk.gamma_g1 gens.H).P_1 := hk.2 1
  have hP2 : Span.In E.Fr L1 fun ω => (encKey n ω.1 ω.2.1 g pk.pk.delta_g1 pk.gamma_g1 gens.H).P_2 := hk.2 2
  have hXY : Span.All E.Fr L1 fun ω => (encKey n ω.1 ω.2.1 g pk.pk.delta_g1 pk.gamma_g1 gens.H).X ++
      (encKey n ω.1 ω.2.1 g pk.pk.delta_g1 pk.gamma_g1 gens.H).Y :=
    Span.All.right (N := 3) hk fun _ => rfl
  have hX : Span.All E.Fr L1 fun ω => (encKey n ω.1 ω.2.1 g pk.pk.delta_g1 pk.gamma_g1 gens.H).X :=
    Span.All.left (N := n) hXY fun _ => by simp [encKey]
  have hY : Span.All E.Fr L1 fun ω => (encKey n ω.1 ω.2.1 g pk.pk.delta_g1 pk.gamma_g1 gens.H).Y :=
    Span.All.right (N := n) hXY fun _ => by simp [encKey]
  have hA1 : Span.All E.Fr L1 l1 := by
    refine ((hp.append ((Span.All.single hX0).append (hX.append ((Span.All.single hP2).append (hY.append
      (Span.All.single hP1)))))).append hblk).congr fun ω => ?_
    show view1 gens _ _ _ = _
    unfold view1
    rw [seen1_pubsAt]
    show public1 _ _ _ ++ _ = _
    unfold public1
    simp only [pub1, List.append_assoc]
    rfl
  obtain ⟨q', hq'⟩ := Span.pull hA1 hA2 q
  have hD : pk.pk.delta_g1 ≠ 0 := by
    intro hc
    rcases smul_eq_zero.mp (show P.delta • gens.G = 0 from hc) with h | h
    · exact hP.2.2 h
    · exact hG h
  have := Sec.question_transferP n g gens (pk.pk.vk.gamma_abc_g1.getD 0 0) pk.pk.delta_g1 pk.gamma_g1 P.alpha P.beta
    P.gamma P.delta hD h2 pub1 pub2 q' N m m' a b
    (fun s t v rho r => (hq' (s, t, v, rho, r, m)).mpr (h (Pω (s, t, v, rho, r, m)) hP r a b)) P.s P.t P.v P.rho r
  exact (hq' (P.s, P.t, P.v, P.rho, r, m')).mp this

/-- acceptance of a strategy amounts to two questions -/
theorem accept_questions (hn : cs.numInst = n + 1) (hn256 : n < 256) (S : Strategy E.Fr) (N : ℕ) :
    ∃ q1 q2 : Question E, ∀ P (m : ℕ → ℕ → ℕ) (r a b : ℕ → E.Fr),
      Accepted gens (pkAt cs d gens P) (ekAt cs d n gens P) (S.cipher (at1 cs d n gens P N m r a b))
        (S.proof (at1 cs d n gens P N m r a b) (at2 cs d n gens P N m r a b)) ↔
      S.len = n ∧ q1.Yes (at1 cs d n gens P N m r a b) (at2 cs d n gens P N m r a b) ∧
        q2.Yes (at1 cs d n gens P N m r a b) (at2 cs d n gens P N m r a b) := by
  let Ω := Pt E × (ℕ → ℕ → ℕ) × (ℕ → E.Fr) × (ℕ → E.Fr) × (ℕ → E.Fr)
  let L1 : Ω → List E.G1 := fun ω => at1 cs d n gens ω.1 N ω.2.1 ω.2.2.1 ω.2.2.2.1 ω.2.2.2.2
  let L2 : Ω → List E.G2 := fun ω => at2 cs d n gens ω.1 N ω.2.1 ω.2.2.1 ω.2.2.2.1 ω.2.2.2.2
  have hcomb1 : ∀ k, Span.In E.Fr L1 fun ω => comb k (L1 ω) := fun k => ⟨k, fun _ => rfl⟩
  have hcomb2 : ∀ k, Span.In E.Fr L2 fun ω => comb k (L2 ω) := fun k => ⟨k, fun _ => rfl⟩
  have hsh : ∀ P, Shape cs.numWit (d.size - 1) cs.vars.length cs.numInst n (pkAt cs d gens P) (ekAt cs d n gens P)
      (dkAt n gens P) := by
    intro P
    refine ⟨?_, ?_, ?_, ?_, ?_, ?_, ?_, ?_, ?_, ?_, ?_⟩
    all_goals first | simp [pkAt, srsKey] | simp [ekAt, encKey] | simp [dkAt, decKey]
  have hget1 : ∀ i (x : Ω → E.G1), (∀ ω, (public1 gens (pkAt cs d gens ω.1) (ekAt cs d n gens ω.1)).getD i 0 = x ω) →
      i < cs.numWit + (d.size - 1 + (5 + (cs.vars.length + (cs.vars.length + cs.numInst)))) → Span.In E.Fr L1 x := by
    intro i x hx hi
    refine (Span.In.get i).congr fun ω => ?_
    rw [← hx]
    refine (List.getD_append _ _ _ _ ?_).symm
    rw [(public_getD (hsh ω.1) gens).1]
    omega
  have hget2 : ∀ i (x : Ω → E.G2), (∀ ω, (public2 gens (pkAt cs d gens ω.1) (ekAt cs d n gens ω.1)
      (dkAt n gens ω.1)).getD i 0 = x ω) → i < 4 + (cs.vars.length + (n + 1)) → Span.In E.Fr L2 x := by
    intro i x hx hi
    refine (Span.In.get i).congr fun ω => ?_
    rw [← hx]
    refine (List.getD_append _ _ _ _ ?_).symm
    rw [(public_getD (hsh ω.1) gens).2.2.2.2.2.1]
    omega
  have hH : Span.In E.Fr L2 fun _ => gens.H := hget2 0 _ (fun _ => rfl) (by omega)
  have hbeta : Span.In E.Fr L2 fun ω => (pkAt cs d gens ω.1).pk.vk.beta_g2 := hget2 1 _ (fun _ => rfl) (by omega)
  have hgam : Span.In E.Fr L2 fun ω => (pkAt cs d gens ω.1).pk.vk.gamma_g2 := hget2 2 _ (fun _ => rfl) (by omega)
  have hdel : Span.In E.Fr L2 fun ω => (pkAt cs d gens ω.1).pk.vk.delta_g2 := hget2 3 _ (fun _ => rfl) (by omega)
  have hZ : ∀ i < n + 1, Span.In E.Fr L2 fun ω => (ekAt cs d n gens ω.1).Z.getD i 0 := by
    intro i hi
    refine hget2 (4 + (cs.vars.length + i)) _ (fun ω => ?_) (by omega)
    unfold public2
    rw [getD_skip (N := 4) rfl, getD_skip (hsh ω.1).b2, List.getD_append _ _ _ _ (by rw [(hsh ω.1).Z]; exact hi)]
  have halpha : Span.In E.Fr L1 fun ω => (pkAt cs d gens ω.1).pk.vk.alpha_g1 := by
    refine hget1 (cs.numWit + (d.size - 1 + 1)) _ (fun ω => ?_) (by omega)
    unfold public1
    rw [getD_skip (hsh ω.1).l, getD_skip (hsh ω.1).h]
    rfl
  have hg0 : Span.In E.Fr L1 fun ω => (pkAt cs d gens ω.1).pk.vk.gamma_abc_g1.getD 0 0 := by
    refine hget1 (cs.numWit + (d.size - 1 + (5 + (cs.vars.length + (cs.vars.length + 0))))) _ (fun ω => ?_) (by omega)
    unfold public1
    rw [getD_skip (hsh ω.1).l, getD_skip (hsh ω.1).h, getD_skip (N := 5) rfl, getD_skip (hsh ω.1).a,
      getD_skip (hsh ω.1).b1, List.getD_append _ _ _ _ (by rw [(hsh ω.1).g]; omega)]
  obtain ⟨q1, hq1⟩ := (((Span.Pair.e (hcomb1 S.x) (hZ 0 (by omega))).add (Span.Pair.sum n fun i hi =>
    Span.Pair.e (hcomb1 (S.chunk i)) (hZ (i + 1) (by omega)))).sub (Span.Pair.e (hcomb1 S.psi) hH)).question
  obtain ⟨q2, hq2⟩ := ((Span.Pair.e (hcomb1 S.a) (hcomb2 S.b)).sub (((Span.Pair.e halpha hbeta).add
    (Span.Pair.e (hcomb1 S.c) hdel)).add (Span.Pair.e (((hcomb1 S.x).add (Span.In.sum n fun i _ =>
      hcomb1 (S.chunk i))).add hg0) hgam))).question
  refine ⟨q1, q2, fun P m r a b => ?_⟩
  have hX := (hsh P).X
  rw [hq1 (P, m, r, a, b), hq2 (P, m, r, a, b)]
  unfold Accepted Ciphertext.verifyCommitmentAndProof
  rw [Res.bind_eq_ok]
  have hwf : WellFormed (ekAt cs d n gens P) := encKey_wf _ _ _ _ _ _ _
  have hgs : getGsForEncryption (pkAt cs d gens P).pk.vk = .ok (gAt cs d n gens P) :=
    gs_of_srs cs d P.tau P.alpha P.beta P.gamma P.delta gens.G gens.H n hn
  have hite : ∀ (Q : Prop) [Decidable Q] (e : SaverError), (if Q then Res.ok () else Res.err e) = Res.ok () ↔ Q := by
    intro Q _ e
    by_cases hQ : Q <;> simp [hQ]
  have hc : verifyCiphertextCommitment (S.cipher (L1 (P, m, r, a, b))).X_r (S.cipher (L1 (P, m, r, a, b))).enc_chunks
      (S.cipher (L1 (P, m, r, a, b))).commitment (ekAt cs d n gens P).prepare gens.prepare = .ok () ↔ S.len = n ∧
      E.e (comb S.x (L1 (P, m, r, a, b))) ((ekAt cs d n gens P).Z.getD 0 0) + (∑ i ∈ Finset.range n,
        E.e (comb (S.chunk i) (L1 (P, m, r, a, b))) ((ekAt cs d n gens P).Z.getD (i + 1) 0)) -
        E.e (comb S.psi (L1 (P, m, r, a, b))) gens.H = 0 := by
    rw [verify_eq _ _ _ _ gens hwf (by rw [hX]; exact hn256)]
    simp only [Strategy.cipher, length_tab, hX]
    by_cases hlen : S.len = n
    · rw [if_neg (by simpa using hlen), hite, sub_eq_zero, hlen]
      simp only [true_and]
      rw [Finset.sum_congr rfl fun i hi => by rw [getD_tab, if_pos (Finset.mem_range.mp hi)]]
    · rw [if_pos hlen]
      simp [hlen]
  have hv : verifyProof (prepareVerifyingKey (pkAt cs d gens P).pk.vk)
      (S.proof (L1 (P, m, r, a, b)) (L2 (P, m, r, a, b))) (S.cipher (L1 (P, m, r, a, b))) = .ok () ↔
      E.e (comb S.a (L1 (P, m, r, a, b))) (comb S.b (L2 (P, m, r, a, b))) -
        (E.e (pkAt cs d gens P).pk.vk.alpha_g1 (pkAt cs d gens P).pk.vk.beta_g2 +
          E.e (comb S.c (L1 (P, m, r, a, b))) (pkAt cs d gens P).pk.vk.delta_g2 +
          E.e (comb S.x (L1 (P, m, r, a, b)) + (∑ i ∈ Finset.range S.len, comb (S.chunk i) (L1 (P, m, r, a, b))) +
            (pkAt cs d gens P).pk.vk.gamma_abc_g1.getD 0 0) (pkAt cs d gens P).pk.vk.gamma_g2) = 0 := by
    rw [verifyProof_eq _ _ _ (getGs_inv hgs).1, hite, sub_eq_zero]
    simp only [Strategy.cipher, Strategy.proof, sum_tab]
  constructor
  · rintro ⟨u, h1, h3⟩
    obtain ⟨hlen, h4⟩ := hc.mp h1
    have h5 := hv.mp h3
    rw [hlen] at h5
    exact ⟨hlen, h4, h5⟩
  · rintro ⟨hlen, h4, h5⟩
    refine ⟨(), hc.mpr ⟨hlen, h4⟩, hv.mpr ?_⟩
    rw [hlen]
    exact h5

/-- a strategy that is accepted for all scalars is so whatever the messages -/
theorem accept_any (hn : cs.numInst = n + 1) (hn256 : n < 256) (hG : gens.G ≠ 0) (h2 : (2 : E.Fr) ≠ 0)
    (hgood : ∃ P, Good (E := E) d P)
    (S : Strategy E.Fr) (N : ℕ) (m m' : ℕ → ℕ → ℕ)
    (h : ∀ P, Good d P → ∀ r a b, Accepted gens (pkAt cs d gens P) (ekAt cs d n gens P)
      (S.cipher (at1 cs d n gens P N m r a b)) (S.proof (at1 cs d n gens P N m r a b) (at2 cs d n gens P N m r a b))) :
    ∀ P, Good d P → ∀ r a b, Accepted gens (pkAt cs d gens P) (ekAt cs d n gens P)
      (S.cipher (at1 cs d n gens P N m' r a b))
      (S.proof (at1 cs d n gens P N m' r a b) (at2 cs d n gens P N m' r a b)) := by
  obtain ⟨q1, q2, hq⟩ := accept_questions cs d n gens hn hn256 S N
  have h' := fun P hP r a b => (hq P m r a b).mp (h P hP r a b)
  obtain ⟨P0, hP0⟩ := hgood
  intro P hP r a b
  exact (hq P m' r a b).mpr ⟨(h' P0 hP0 r a b).1,
    transfer cs d n gens hG h2 q1 N m m' (fun P hP r a b => (h' P hP r a b).2.1) P hP r a b,
    transfer cs d n gens hG h2 q2 N m m' (fun P hP r a b => (h' P hP r a b).2.2) P hP r a b⟩

/-! ### Runs on a tape -/

/-- the scalars that a setup reads from a tape -/
def ptTape (f : ℕ → E.Fr) : Pt E :=
  ⟨f 4, f 0, f 1, f 2, f 3, f 5, fun i => f (6 + i), fun i => f (6 + n + i), fun i => f (7 + 2 * n + i)⟩

/-- a run of everything on a tape: what is published -/
theorem run_at (T : FftCfg E.Fr) (b n : UInt8) (hb : Supported b) (hn : chunksCount E.fr b = .ok n)
    (hbm : b.toNat ≤ E.fr.modBits)
    (hal : 64 * E.fr.limbs < E.fr.modBits + b.toNat ∧ chunksNeeded E.fr b.toNat ≤ 255)
    (c0 : BitsizeCheckCircuit E.fr) (gens : EncryptionGens E) (hH : gens.H ≠ 0)
    (hc0 : BitsizeCheckCircuit.new (K := E.fr) b none none true = .ok c0) (cs : CS E.Fr)
    (hcs : c0.generateConstraints (CS.new true) = .ok cs) (hI : cs.numInst = n.toNat + 1) (d : EvalDomain E.Fr)
    (hC : cs.cons.length = n.toNat * constraintsPerValue E.fr.modBits b.toNat)
    (hd : T.newDomain (n.toNat * constraintsPerValue E.fr.modBits b.toNat + (n.toNat + 1)) = some d)
    (ms : List E.Fr) :
    ∃ (mc : ℕ → ℕ → ℕ) (cs1 : ℕ → CS E.Fr),
      ∀ (f : ℕ → E.Fr), Good d (ptTape n.toNat f) → ∀ chk, ∃ sk f1 f2,
        setupForGroth16 T (tape E) 1 f b gens = .ok ((pkAt cs d gens (ptTape n.toNat f),
          sk, ekAt cs d n.toNat gens (ptTape n.toNat f), dkAt n.toNat gens (ptTape n.toNat f)), f1) ∧
        encryptAll T chk (tape E) (ekAt cs d n.toNat gens (ptTape n.toNat f)) (pkAt cs d gens (ptTape n.toNat f)) b ms
          f1 = .ok (pubsAt cs d n.toNat gens (ptTape n.toNat f) ms.length mc (rOf n.toNat f) (aOf d n.toNat cs1 f)
            (bOf d n.toNat cs1 f), f2) := by
  have hd' : T.newDomain (cs.cons.length + cs.numInst) = some d := by rw [hC, hI]; exact hd
  obtain ⟨mc, cs1, h1, h2, h3⟩ := encryptAll_eq T b n hb hn hbm hal c0 gens hH hc0 cs hcs d hd' ms
  refine ⟨mc, cs1, ?_⟩
  intro f hgood chk
  obtain ⟨hv, hga, hde⟩ := hgood
  have hrun := setup_run T (tape E) 1 (by omega) f b n hn hbm c0 hc0 cs hcs hI gens d hd
    (by rw [draw_tape]; exact hga) (by rw [draw_tape]; exact hde) (by rw [draw_tape]; exact hv)
  simp only [draw_tape] at hrun
  obtain ⟨g_i, st1, hsrs, hg, hk⟩ := setup_parts hc0 hrun
  have henc := h3 (tape E) 1 f st1 _ g_i (f 4) (f 0) (f 1) (f 2) (f 3) hv hga hde rfl hsrs hg _ hk chk (tape E)
    (after (tape E) f (7 + 3 * n.toNat))
  have hdr : ∀ i, draw (tape E) (after (tape E) f (7 + 3 * n.toNat)) i = f (7 + 3 * n.toNat + i) := by
    intro i
    exact (draw_after (tape E) f _ i).trans (draw_tape f _)
  have hgi := gs_of_srs cs d (f 4) (f 0) (f 1) (f 2) (f 3) gens.G gens.H n.toNat hI
  rw [hg] at hgi
  cases hgi
  refine ⟨_, _, after (tape E) (after (tape E) f (7 + 3 * n.toNat)) (3 * ms.length), hrun, ?_⟩
  refine Eq.trans henc ?_
  unfold pubsAt
  simp only [hdr]
  rfl

/-- what is seen depends on finitely many scalars only -/
theorem at_congr {P P' : Pt E} (N : ℕ) (m : ℕ → ℕ → ℕ) {r r' a a' b b' : ℕ → E.Fr}
    (h1 : P.tau = P'.tau) (h2 : P.alpha = P'.alpha) (h3 : P.beta = P'.beta) (h4 : P.gamma = P'.gamma)
    (h5 : P.delta = P'.delta) (h6 : P.rho = P'.rho) (hs : ∀ i < n, P.s i = P'.s i)
    (ht : ∀ i < n + 1, P.t i = P'.t i) (hv : ∀ i < n, P.v i = P'.v i) (hr : ∀ j < N, r j = r' j)
    (ha : ∀ j < N, a j = a' j) (hb : ∀ j < N, b j = b' j) :
    at1 cs d n gens P N m r a b = at1 cs d n gens P' N m r' a' b' ∧
      at2 cs d n gens P N m r a b = at2 cs d n gens P' N m r' a' b' := by
  have e1 : pkAt cs d gens P = pkAt cs d gens P' := by unfold pkAt; rw [h1, h2, h3, h4, h5]
  have e2 : gAt cs d n gens P = gAt cs d n gens P' := by unfold gAt; rw [h1, h2, h3, h4]
  have e3 : ekAt cs d n gens P = ekAt cs d n gens P' := by
    unfold ekAt
    rw [e1, e2]
    exact encKey_congr _ _ _ hs ht fun _ _ => rfl
  have e4 : dkAt n gens P = dkAt n gens P' := by
    unfold dkAt
    rw [h6]
    exact Sec.decKey_congr' _ _ hs hv
  have e5 : pubsAt cs d n gens P N m r a b = pubsAt cs d n gens P' N m r' a' b' := by
    unfold pubsAt pubs
    rw [e1, e2, e3, h2, h3, h4, h5]
    exact tab_congr fun j hj => by rw [hr j hj, ha j hj, hb j hj]
  unfold at1 at2
  rw [e1, e3, e4, e5]
  exact ⟨rfl, rfl⟩

/-- the draws on which `setup_for_groth16` succeeds at the first candidate -/
abbrev GoodDraw (d : EvalDomain E.Fr) (K : ℕ) (g : Fin K → E.Fr) : Prop :=
  d.vanishing (tapeOf g 4) ≠ 0 ∧ tapeOf g 2 ≠ 0 ∧ tapeOf g 3 ≠ 0

/-- the view in the first group at given draws -/
def draw1 (N : ℕ) (mc : ℕ → ℕ → ℕ) (cs1 : ℕ → CS E.Fr) {K : ℕ} (g : Fin K → E.Fr) : List E.G1 :=
  at1 cs d n gens (ptTape n (tapeOf g)) N mc (rOf n (tapeOf g)) (aOf d n cs1 (tapeOf g)) (bOf d n cs1 (tapeOf g))

/-- the view in the second group at given draws -/
def draw2 (N : ℕ) (mc : ℕ → ℕ → ℕ) (cs1 : ℕ → CS E.Fr) {K : ℕ} (g : Fin K → E.Fr) : List E.G2 :=
  at2 cs d n gens (ptTape n (tapeOf g)) N mc (rOf n (tapeOf g)) (aOf d n cs1 (tapeOf g)) (bOf d n cs1 (tapeOf g))

/-- the views are polynomials in the draws -/
def views (hn : cs.numInst = n + 1) (N : ℕ) (mc : ℕ → ℕ → ℕ) (cs1 : ℕ → CS E.Fr) (K : ℕ) :
    Adapt.Views (GoodDraw d K) gens.G gens.H (2 * d.size + 4) (d.size + 2)
      (draw1 cs d n gens N mc cs1) (draw2 cs d n gens N mc cs1) where
  l1 := cs.numWit + (d.size - 1 + (5 + (cs.vars.length + (cs.vars.length + (cs.numInst + (1 + (n + (1 + (n + 1))))))))) +
    N * (n + 4)
  l2 := 4 + (cs.vars.length + (n + 1 + (1 + (n + n)))) + N
  w g := tapeOf g 2 * tapeOf g 3
  x k g := v1 cs d n N (fun j i => (mc j i : E.Fr)) k (ptTape n (tapeOf g)) (rOf n (tapeOf g))
    (aOf d n cs1 (tapeOf g)) (bOf d n cs1 (tapeOf g))
  y k g := v2 cs d n N k (ptTape n (tapeOf g)) (bOf d n cs1 (tapeOf g))
  hl1 g _ := by
    unfold draw1 at1 view1
    rw [seen1_pubsAt, List.length_append, (comb_blocks (F := E.Fr) (n + 4) _
      (fun j => Sec.blockP_length _ _ _ _ _ _ _ _ _ _ _ _ _ _ _ _) (fun _ => 0) N).1]
    simp [public1, pkAt, srsKey, ekAt, encKey]
    omega
  hl2 g _ := by
    unfold draw2 at2 view2
    rw [seen2_pubsAt, List.length_append, length_tab]
    simp [public2, pkAt, srsKey, ekAt, encKey, dkAt, decKey]
    omega
  hw g hg := mul_ne_zero hg.2.1 hg.2.2
  hx k g hg := (view_logs cs d (ptTape n (tapeOf g)) n hn gens (pkAt cs d gens (ptTape n (tapeOf g))) rfl
    (gAt cs d n gens (ptTape n (tapeOf g))) (gs_of_srs cs d _ _ _ _ _ gens.G gens.H n hn) _ rfl
    (dkAt n gens (ptTape n (tapeOf g))) rfl N mc _ _ _ _ rfl k).1
  hy k g hg := (view_logs cs d (ptTape n (tapeOf g)) n hn gens (pkAt cs d gens (ptTape n (tapeOf g))) rfl
    (gAt cs d n gens (ptTape n (tapeOf g))) (gs_of_srs cs d _ _ _ _ _ gens.G gens.H n hn) _ rfl
    (dkAt n gens (ptTape n (tapeOf g))) rfl N mc _ _ _ _ rfl k).2
  px k := poly_v1 (setupParams d n K) cs n N (fun j i => (mc j i : E.Fr)) (fun j => tapeOf_poly _ _)
    (fun j => (((tapeOf_poly _ 0).mono (by have := d.size_pos; omega)).add ((poly_wsum (cs1 j) _ fun w =>
      (setupParams d n K).qapA (cs1 j) w).mono (by omega))).add
      ((tapeOf_poly _ _).mul (tapeOf_poly _ 3) (by have := d.size_pos; omega)))
    (fun j => (((tapeOf_poly _ 1).mono (by have := d.size_pos; omega)).add ((poly_wsum (cs1 j) _ fun w =>
      (setupParams d n K).qapB (cs1 j) w).mono (by omega))).add
      ((tapeOf_poly _ _).mul (tapeOf_poly _ 3) (by have := d.size_pos; omega))) k
  py k := poly_v2 (setupParams d n K) cs n N
    (fun j => (((tapeOf_poly _ 1).mono (by have := d.size_pos; omega)).add ((poly_wsum (cs1 j) _ fun w =>
      (setupParams d n K).qapB (cs1 j) w).mono (by omega))).add
      ((tapeOf_poly _ _).mul (tapeOf_poly _ 3) (by have := d.size_pos; omega))) k
  pw := ((tapeOf_poly _ 2).mul (tapeOf_poly _ 3) (by omega : 1 + 1 ≤ 2)).mono (by omega)

/-- for a question: "yes" on all good draws is the same as "yes" for all scalars -/
theorem all_draws (N : ℕ) (mc : ℕ → ℕ → ℕ) (cs1 : ℕ → CS E.Fr) (K : ℕ) (hK : 7 + 3 * n + 3 * N ≤ K)
    (Q : List E.G1 → List E.G2 → Prop) :
    (∀ g : Fin K → E.Fr, GoodDraw d K g → Q (draw1 cs d n gens N mc cs1 g) (draw2 cs d n gens N mc cs1 g)) ↔
      ∀ P, Good d P → ∀ r a b, Q (at1 cs d n gens P N mc r a b) (at2 cs d n gens P N mc r a b) := by
  constructor
  · intro h P hP r a b
    obtain ⟨ho, h1, h2, h3⟩ := tapeWith_on n d cs1 P r a b hP.2.2
    let g : Fin K → E.Fr := fun i => tapeWith n d cs1 P r a b i
    have htp : ∀ i < K, tapeOf g i = tapeWith n d cs1 P r a b i := by
      intro i hi
      unfold tapeOf
      rw [dif_pos hi]
    have e : at1 cs d n gens (ptTape n (tapeOf g)) N mc (rOf n (tapeOf g)) (aOf d n cs1 (tapeOf g))
        (bOf d n cs1 (tapeOf g)) = at1 cs d n gens P N mc r a b ∧ at2 cs d n gens (ptTape n (tapeOf g)) N mc
        (rOf n (tapeOf g)) (aOf d n cs1 (tapeOf g)) (bOf d n cs1 (tapeOf g)) = at2 cs d n gens P N mc r a b := by
      refine at_congr cs d n gens N mc ?_ ?_ ?_ ?_ ?_ ?_ ?_ ?_ ?_ ?_ ?_ ?_
      · exact (htp 4 (by omega)).trans ho.tau.symm
      · exact (htp 0 (by omega)).trans ho.alpha.symm
      · exact (htp 1 (by omega)).trans ho.beta.symm
      · exact (htp 2 (by omega)).trans ho.gamma.symm
      · exact (htp 3 (by omega)).trans ho.delta.symm
      · exact (htp 5 (by omega)).trans ho.rho.symm
      · exact fun i hi => (htp _ (by omega)).trans (ho.s i hi).symm
      · exact fun i hi => (htp _ (by omega)).trans (ho.t i hi).symm
      · exact fun i hi => (htp _ (by omega)).trans (ho.v i hi).symm
      · intro j hj
        rw [← h1]
        exact htp _ (by omega)
      · intro j hj
        rw [← h2]
        unfold aOf
        rw [htp 0 (by omega), htp 3 (by omega), htp 4 (by omega), htp _ (by omega)]
      · intro j hj
        rw [← h3]
        unfold bOf
        rw [htp 1 (by omega), htp 3 (by omega), htp 4 (by omega), htp _ (by omega)]
    have := h g ⟨by rw [htp 4 (by omega), ← ho.tau]; exact hP.1, by rw [htp 2 (by omega), ← ho.gamma]; exact hP.2.1,
      by rw [htp 3 (by omega), ← ho.delta]; exact hP.2.2⟩
    unfold draw1 draw2 at this
    rw [e.1, e.2] at this
    exact this
  · intro h g hg
    exact h (ptTape n (tapeOf g)) hg _ _ _

end Nm
end
end Verif
