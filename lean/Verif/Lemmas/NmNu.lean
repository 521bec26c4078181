/-
Helper lemmas for C91: what an adversary learns from the elements `nu` that decryption returns.
-/
import Verif.Lemmas.NmAdapt
import Verif.Lemmas.NmDkg

namespace Verif
open Spec Agm

noncomputable section

namespace Sec
variable {E : Engine}

section views
variable (n : ℕ) (g : ℕ → E.G1) (gens : EncryptionGens E) (g0 D C : E.G1) (alpha beta gamma delta : E.Fr)

/-- a question answered "yes" identically, whatever the messages, when there are further elements that depend on the
keys only -/
theorem question_transferPX (hD : D ≠ 0) (h2 : (2 : E.Fr) ≠ 0)
    (pub1 : List E.G1) (pub2 : List E.G2) (q : Question E) (N : ℕ) (m m' : ℕ → ℕ → ℕ) (x y : ℕ → E.Fr)
    (ext : (ℕ → E.Fr) → (ℕ → E.Fr) → (ℕ → E.Fr) → E.Fr → List E.G1)
    (hz : ∀ s t v rho r, q.Yes (viewP1 n g gens g0 D C alpha beta gamma delta pub1 s t N m r x y ++ ext s t v rho)
      (viewP2 n g gens D C pub2 s t v rho N y)) :
    ∀ s t v rho r, q.Yes (viewP1 n g gens g0 D C alpha beta gamma delta pub1 s t N m' r x y ++ ext s t v rho)
      (viewP2 n g gens D C pub2 s t v rho N y) := by
  have hoff : ∀ s t, (pub1 ++ keyElems1 (encKey n s t g D C gens.H)).length = pub1.length + (3 + (n + n)) := by
    intro s t
    simp [keyElems1, encKey]
    omega
  have hlen : ∀ s t (m : ℕ → ℕ → ℕ) (r : ℕ → E.Fr),
      (viewP1 n g gens g0 D C alpha beta gamma delta pub1 s t N m r x y).length =
        pub1.length + (3 + (n + n)) + N * (n + 4) := by
    intro s t m r
    unfold viewP1
    rw [List.length_append, hoff, (pairSum_flatten (LinearMap.lsmul E.Fr E.G1).flip (fun _ => 0) (n + 4) N _
      fun i _ => blockP_length n g gens g0 D C alpha beta gamma delta s t _ _ _ _).2]
  have main : ∀ {M2 MT : Type} [AddCommGroup M2] [Module E.Fr M2] [AddCommGroup MT] [Module E.Fr MT]
      (β : E.G1 →ₗ[E.Fr] M2 →ₗ[E.Fr] MT) (_ : ∀ b, β D b = 0 → b = 0) (T : MT)
      (B : ℕ → (ℕ → E.Fr) → (ℕ → E.Fr) → (ℕ → E.Fr) → E.Fr → M2) (_ : ∀ j, Shape (B j)),
      (∀ s t v rho r, T + pairSum β (fun j => B j s t v rho)
        (viewP1 n g gens g0 D C alpha beta gamma delta pub1 s t N m r x y ++ ext s t v rho) = 0) →
      ∀ s t v rho r, T + pairSum β (fun j => B j s t v rho)
        (viewP1 n g gens g0 D C alpha beta gamma delta pub1 s t N m' r x y ++ ext s t v rho) = 0 := by
    intro M2 MT _ _ _ _ β hβ T B hB hz
    have e : ∀ (l : ℕ → ℕ → ℕ) s t v rho (r : ℕ → E.Fr), T + pairSum β (fun j => B j s t v rho)
        (viewP1 n g gens g0 D C alpha beta gamma delta pub1 s t N l r x y ++ ext s t v rho) =
        ((T + pairSum β (fun i => B (pub1.length + (3 + (n + n)) + N * (n + 4) + i) s t v rho) (ext s t v rho) +
          pairSum β (fun j => B j s t v rho) (pub1 ++ keyElems1 (encKey n s t g D C gens.H))) +
          ∑ c ∈ Finset.range N, (β (x c • gens.G) (B (pub1.length + (3 + (n + n)) + (c * (n + 4) + (n + 2))) s t v rho) +
            β (delta⁻¹ • ((x c * y c - alpha * beta) • gens.G - gamma • g0))
              (B (pub1.length + (3 + (n + n)) + (c * (n + 4) + (n + 3))) s t v rho))) +
        ∑ c ∈ Finset.range N, pairSum β (fun j => B (pub1.length + (3 + (n + n)) + (c * (n + 4) + j)) s t v rho +
            (if j < n + 1 then -(delta⁻¹ * gamma) •
              B (pub1.length + (3 + (n + n)) + (c * (n + 4) + (n + 3))) s t v rho else 0))
          (flat (cipher (encKey n s t g D C gens.H) g (l c) (r c))) := by
      intro l s t v rho r
      rw [pairSum_append, hlen]
      unfold viewP1
      rw [pairSum_append, hoff, (pairSum_flatten β _ (n + 4) N _ fun i _ =>
        blockP_length n g gens g0 D C alpha beta gamma delta s t _ _ _ _).1]
      simp only [pairSum_blockP, Finset.sum_add_distrib]
      abel
    simp only [e] at hz ⊢
    refine transfer_sum β n N g D C gens.H hβ h2 (fun c j s t v rho =>
      B (pub1.length + (3 + (n + n)) + (c * (n + 4) + j)) s t v rho +
            (if j < n + 1 then -(delta⁻¹ * gamma) •
              B (pub1.length + (3 + (n + n)) + (c * (n + 4) + (n + 3))) s t v rho else 0)) (fun c j => ?_) _ m m' hz
    by_cases hj : j < n + 1
    · simp only [if_pos hj]
      exact (hB _).add ((hB _).smul fun _ => -(delta⁻¹ * gamma))
    · simp only [if_neg hj, add_zero]
      exact hB _
  cases q with
  | second k => exact fun s t v rho r => hz s t v rho r
  | first k =>
    have e : ∀ l : List E.G1, comb k l = 0 + pairSum (LinearMap.lsmul E.Fr E.G1).flip k l :=
      fun l => (zero_add _).symm
    simp only [Question.Yes, e] at hz ⊢
    intro s t v rho r
    exact main (LinearMap.lsmul E.Fr E.G1).flip (fun b hb => by
      rcases smul_eq_zero.mp (show b • D = 0 from hb) with h | h
      · exact h
      · exact absurd h hD) 0 (fun j _ _ _ _ => k j) (fun j => Shape.ofT fun _ => _)
      (fun s t v rho r => hz s t v rho r) s t v rho r
  | target k T =>
    have e : ∀ (l : List E.G1) (l2 : List E.G2), (∑ i ∈ Finset.range l.length, ∑ j ∈ Finset.range l2.length,
        k i j • E.e (l.getD i 0) (l2.getD j 0)) + T = T + pairSum E.e (fun i => comb (k i) l2) l := by
      intro l l2
      rw [add_comm]
      congr 1
      refine Finset.sum_congr rfl fun i _ => ?_
      unfold comb
      rw [map_sum]
      exact Finset.sum_congr rfl fun j _ => (map_smul _ _ _).symm
    simp only [Question.Yes, e] at hz ⊢
    exact main E.e (fun b hb => (E.nondeg _ _ hb).resolve_left hD) T
      (fun j s t v rho => comb (k j) (viewP2 n g gens D C pub2 s t v rho N y))
      (fun j => shape_viewP2 n g gens D C pub2 N y _) hz

end views
end Sec

namespace Nm
variable {E : Engine} (cs : CS E.Fr) (d : EvalDomain E.Fr) (n : ℕ) (gens : EncryptionGens E)

/-- the secret scalar times the first element of the encryption key: `nu` of a ciphertext made with randomness 1 -/
def nuAt (P : Pt E) : E.G1 := P.rho • (pkAt cs d gens P).pk.delta_g1

/-- the view in the first group, with this element -/
def at1X (P : Pt E) (N : ℕ) (m : ℕ → ℕ → ℕ) (r a b : ℕ → E.Fr) : List E.G1 :=
  at1 cs d n gens P N m r a b ++ [nuAt cs d gens P]

/-- A question that is answered "yes" for all scalars does not distinguish the messages. -/
theorem transferX (hG : gens.G ≠ 0) (h2 : (2 : E.Fr) ≠ 0) (q : Question E) (N : ℕ) (m m' : ℕ → ℕ → ℕ)
    (h : ∀ P, Good d P → ∀ r a b, q.Yes (at1X cs d n gens P N m r a b) (at2 cs d n gens P N m r a b)) :
    ∀ P, Good d P → ∀ r a b, q.Yes (at1X cs d n gens P N m' r a b) (at2 cs d n gens P N m' r a b) := by
  intro P hP r a b
  let pk := pkAt cs d gens P
  let g : ℕ → E.G1 := fun i => (gAt cs d n gens P).getD i 0
  let pub1 : List E.G1 := pk.pk.l_query ++ (pk.pk.h_query ++ ([gens.G, pk.pk.vk.alpha_g1, pk.pk.beta_g1,
    pk.pk.delta_g1, pk.gamma_g1] ++ (pk.pk.a_query ++ (pk.pk.b_g1_query ++ pk.pk.vk.gamma_abc_g1))))
  let pub2 : List E.G2 := [gens.H, pk.pk.vk.beta_g2, pk.pk.vk.gamma_g2, pk.pk.vk.delta_g2] ++ pk.pk.b_g2_query
  let Ω := (ℕ → E.Fr) × (ℕ → E.Fr) × (ℕ → E.Fr) × E.Fr × (ℕ → E.Fr) × (ℕ → ℕ → ℕ)
  let Pω : Ω → Pt E := fun ω => { P with s := ω.1, t := ω.2.1, v := ω.2.2.1, rho := ω.2.2.2.1 }
  let L1 : Ω → List E.G1 := fun ω => Sec.viewP1 n g gens (pk.pk.vk.gamma_abc_g1.getD 0 0) pk.pk.delta_g1 pk.gamma_g1
    P.alpha P.beta P.gamma P.delta pub1 ω.1 ω.2.1 N ω.2.2.2.2.2 ω.2.2.2.2.1 a b ++
      [ω.2.2.2.1 • pk.pk.delta_g1]
  let L2 : Ω → List E.G2 := fun ω => Sec.viewP2 n g gens pk.pk.delta_g1 pk.gamma_g1 pub2 ω.1 ω.2.1 ω.2.2.1 ω.2.2.2.1 N b
  let l1 : Ω → List E.G1 := fun ω => at1X cs d n gens (Pω ω) N ω.2.2.2.2.2 ω.2.2.2.2.1 a b
  let l2 : Ω → List E.G2 := fun ω => at2 cs d n gens (Pω ω) N ω.2.2.2.2.2 ω.2.2.2.2.1 a b
  have hl2 : ∀ ω, l2 ω = L2 ω := by
    intro ω
    show view2 gens _ _ _ _ = _
    unfold view2
    rw [seen2_pubsAt]
    show public2 _ _ _ _ ++ _ = Sec.viewP2 _ _ _ _ _ _ _ _ _ _ _ _
    unfold public2 Sec.viewP2 keyElems2
    simp only [pub2, List.append_assoc]
    rfl
  have hA2 : Span.All E.Fr L2 l2 := by
    refine Span.All.congr (Span.All.refl (N := pub2.length + (n + 1 + (1 + (n + n))) + N) fun ω => ?_) hl2
    simp only [L2, Sec.viewP2, keyElems2, encKey, decKey, List.length_append, length_tab, List.length_cons,
      List.length_nil]
  have hplen : ∀ ω : Ω, (Sec.viewP1 n g gens (pk.pk.vk.gamma_abc_g1.getD 0 0) pk.pk.delta_g1 pk.gamma_g1
      P.alpha P.beta P.gamma P.delta pub1 ω.1 ω.2.1 N ω.2.2.2.2.2 ω.2.2.2.2.1 a b).length =
      pub1.length + (3 + (n + n)) + N * (n + 4) := by
    intro ω
    unfold Sec.viewP1
    rw [List.length_append, List.length_append,
      (comb_blocks (F := E.Fr) (n + 4) _ (fun j => Sec.blockP_length _ _ _ _ _ _ _ _ _ _ _ _ _ _ _ _) (fun _ => 0) N).1]
    simp only [keyElems1, encKey, List.length_append, length_tab, List.length_cons, List.length_nil]
  have hA0 : Span.All E.Fr L1 L1 := by
    refine Span.All.refl (N := pub1.length + (3 + (n + n)) + N * (n + 4) + 1) fun ω => ?_
    show (_ ++ [_]).length = _
    rw [List.length_append, List.length_singleton, hplen]
  have hAp : Span.All E.Fr L1 fun ω => Sec.viewP1 n g gens (pk.pk.vk.gamma_abc_g1.getD 0 0) pk.pk.delta_g1 pk.gamma_g1
      P.alpha P.beta P.gamma P.delta pub1 ω.1 ω.2.1 N ω.2.2.2.2.2 ω.2.2.2.2.1 a b :=
    Span.All.left hA0 hplen
  have hnu : Span.All E.Fr L1 fun ω => [ω.2.2.2.1 • pk.pk.delta_g1] := Span.All.right hA0 hplen
  have hK1 : ∀ ω : Ω, (keyElems1 (encKey n ω.1 ω.2.1 g pk.pk.delta_g1 pk.gamma_g1 gens.H)).length = 3 + (n + n) := by
    intro ω
    simp [keyElems1, encKey]
    omega
  have hpk : Span.All E.Fr L1 fun ω => pub1 ++ keyElems1 (encKey n ω.1 ω.2.1 g pk.pk.delta_g1 pk.gamma_g1 gens.H) :=
    Span.All.left (N := pub1.length + (3 + (n + n))) hAp fun ω => by rw [List.length_append, hK1]
  have hblk : Span.All E.Fr L1 fun ω => (tab N fun c => Sec.blockP n g gens (pk.pk.vk.gamma_abc_g1.getD 0 0)
      pk.pk.delta_g1 pk.gamma_g1 P.alpha P.beta P.gamma P.delta ω.1 ω.2.1 (ω.2.2.2.2.2 c) (ω.2.2.2.2.1 c) (a c)
      (b c)).flatten :=
    Span.All.right (N := pub1.length + (3 + (n + n))) hAp fun ω => by rw [List.length_append, hK1]
  have hp : Span.All E.Fr L1 fun _ => pub1 := Span.All.left (N := pub1.length) hpk fun _ => rfl
  have hk : Span.All E.Fr L1 fun ω => keyElems1 (encKey n ω.1 ω.2.1 g pk.pk.delta_g1 pk.gamma_g1 gens.H) :=
    Span.All.right (N := pub1.length) hpk fun _ => rfl
  have hX0 : Span.In E.Fr L1 fun ω => (encKey n ω.1 ω.2.1 g pk.pk.delta_g1 pk.gamma_g1 gens.H).X_0 := hk.2 0
  have hP1 : Span.In E.Fr L1 fun ω => (encKey n ω.1 ω.2.1 g pk.pk.delta_g1 pk.gamma_g1 gens.H).P_1 := hk.2 1
  have hP2 : Span.In E.Fr L1 fun ω => (encKey n ω.1 ω.2.1 g pk.pk.delta_g1 pk.gamma_g1 gens.H).P_2 := hk.2 2
  have hXY : Span.All E.Fr L1 fun ω => (encKey n ω.1 ω.2.1 g pk.pk.delta_g1 pk.gamma_g1 gens.H).X ++
      (encKey n ω.1 ω.2.1 g pk.pk.delta_g1 pk.gamma_g1 gens.H).Y :=
    Span.All.right (N := 3) hk fun _ => rfl
  have hX : Span.All E.Fr L1 fun ω => (encKey n ω.1 ω.2.1 g pk.pk.delta_g1 pk.gamma_g1 gens.H).X :=
    Span.All.left (N := n) hXY fun _ => by simp [encKey]
  have hY : Span.All E.Fr L1 fun ω => (encKey n ω.1 ω.2.1 g pk.pk.delta_g1 pk.gamma_g1 gens.H).Y :=
    Span.All.right (N := n) hXY fun _ => by simp [encKey]
  have hA1 : Span.All E.Fr L1 l1 := by
    refine (((hp.append ((Span.All.single hX0).append (hX.append ((Span.All.single hP2).append (hY.append
      (Span.All.single hP1)))))).append hblk).append hnu).congr fun ω => ?_
    show view1 gens _ _ _ ++ [_] = _
    unfold view1
    rw [seen1_pubsAt]
    show public1 _ _ _ ++ _ ++ [_] = _
    unfold public1
    simp only [pub1, List.append_assoc]
    rfl
  obtain ⟨q', hq'⟩ := Span.pull hA1 hA2 q
  have hD : pk.pk.delta_g1 ≠ 0 := by
    intro hc
    rcases smul_eq_zero.mp (show P.delta • gens.G = 0 from hc) with h | h
    · exact hP.2.2 h
    · exact hG h
  have := Sec.question_transferPX n g gens (pk.pk.vk.gamma_abc_g1.getD 0 0) pk.pk.delta_g1 pk.gamma_g1 P.alpha P.beta
    P.gamma P.delta hD h2 pub1 pub2 q' N m m' a b
    (fun _ _ _ rho => [rho • pk.pk.delta_g1])
    (fun s t v rho r => (hq' (s, t, v, rho, r, m)).mpr (h (Pω (s, t, v, rho, r, m)) hP r a b)) P.s P.t P.v P.rho r
  exact (hq' (P.s, P.t, P.v, P.rho, r, m')).mp this

/-- acceptance of a strategy amounts to two questions -/
theorem accept_questionsX (hn : cs.numInst = n + 1) (hn256 : n < 256) (S : Strategy E.Fr) (N : ℕ) :
    ∃ q1 q2 : Question E, ∀ P (m : ℕ → ℕ → ℕ) (r a b : ℕ → E.Fr),
      Accepted gens (pkAt cs d gens P) (ekAt cs d n gens P) (S.cipher (at1X cs d n gens P N m r a b))
        (S.proof (at1X cs d n gens P N m r a b) (at2 cs d n gens P N m r a b)) ↔
      S.len = n ∧ q1.Yes (at1X cs d n gens P N m r a b) (at2 cs d n gens P N m r a b) ∧
        q2.Yes (at1X cs d n gens P N m r a b) (at2 cs d n gens P N m r a b) := by
  let Ω := Pt E × (ℕ → ℕ → ℕ) × (ℕ → E.Fr) × (ℕ → E.Fr) × (ℕ → E.Fr)
  let L1 : Ω → List E.G1 := fun ω => at1X cs d n gens ω.1 N ω.2.1 ω.2.2.1 ω.2.2.2.1 ω.2.2.2.2
  let L2 : Ω → List E.G2 := fun ω => at2 cs d n gens ω.1 N ω.2.1 ω.2.2.1 ω.2.2.2.1 ω.2.2.2.2
  have hcomb1 : ∀ k, Span.In E.Fr L1 fun ω => comb k (L1 ω) := fun k => ⟨k, fun _ => rfl⟩
  have hcomb2 : ∀ k, Span.In E.Fr L2 fun ω => comb k (L2 ω) := fun k => ⟨k, fun _ => rfl⟩
  have hsh : ∀ P, Shape cs.numWit (d.size - 1) cs.vars.length cs.numInst n (pkAt cs d gens P) (ekAt cs d n gens P)
      (dkAt n gens P) := by
    intro P
    refine ⟨?_, ?_, ?_, ?_, ?_, ?_, ?_, ?_, ?_, ?_, ?_⟩
    all_goals first | simp [pkAt, srsKey] | simp [ekAt, encKey] | simp [dkAt, decKey]
  have hget1 : ∀ i (x : Ω → E.G1), (∀ ω, (public1 gens (pkAt cs d gens ω.1) (ekAt cs d n gens ω.1)).getD i 0 = x ω) →
      i < cs.numWit + (d.size - 1 + (5 + (cs.vars.length + (cs.vars.length + cs.numInst)))) → Span.In E.Fr L1 x := by
    intro i x hx hi
    refine (Span.In.get i).congr fun ω => ?_
    rw [← hx]
    show _ = ((public1 gens _ _ ++ _) ++ _).getD i 0
    rw [List.append_assoc]
    refine (List.getD_append _ _ _ _ ?_).symm
    rw [(public_getD (hsh ω.1) gens).1]
    omega
  have hget2 : ∀ i (x : Ω → E.G2), (∀ ω, (public2 gens (pkAt cs d gens ω.1) (ekAt cs d n gens ω.1)
      (dkAt n gens ω.1)).getD i 0 = x ω) → i < 4 + (cs.vars.length + (n + 1)) → Span.In E.Fr L2 x := by
    intro i x hx hi
    refine (Span.In.get i).congr fun ω => ?_
    rw [← hx]
    refine (List.getD_append _ _ _ _ ?_).symm
    rw [(public_getD (hsh ω.1) gens).2.2.2.2.2.1]
    omega
  have hH : Span.In E.Fr L2 fun _ => gens.H := hget2 0 _ (fun _ => rfl) (by omega)
  have hbeta : Span.In E.Fr L2 fun ω => (pkAt cs d gens ω.1).pk.vk.beta_g2 := hget2 1 _ (fun _ => rfl) (by omega)
  have hgam : Span.In E.Fr L2 fun ω => (pkAt cs d gens ω.1).pk.vk.gamma_g2 := hget2 2 _ (fun _ => rfl) (by omega)
  have hdel : Span.In E.Fr L2 fun ω => (pkAt cs d gens ω.1).pk.vk.delta_g2 := hget2 3 _ (fun _ => rfl) (by omega)
  have hZ : ∀ i < n + 1, Span.In E.Fr L2 fun ω => (ekAt cs d n gens ω.1).Z.getD i 0 := by
    intro i hi
    refine hget2 (4 + (cs.vars.length + i)) _ (fun ω => ?_) (by omega)
    unfold public2
    rw [getD_skip (N := 4) rfl, getD_skip (hsh ω.1).b2, List.getD_append _ _ _ _ (by rw [(hsh ω.1).Z]; exact hi)]
  have halpha : Span.In E.Fr L1 fun ω => (pkAt cs d gens ω.1).pk.vk.alpha_g1 := by
    refine hget1 (cs.numWit + (d.size - 1 + 1)) _ (fun ω => ?_) (by omega)
    unfold public1
    rw [getD_skip (hsh ω.1).l, getD_skip (hsh ω.1).h]
    rfl
  have hg0 : Span.In E.Fr L1 fun ω => (pkAt cs d gens ω.1).pk.vk.gamma_abc_g1.getD 0 0 := by
    refine hget1 (cs.numWit + (d.size - 1 + (5 + (cs.vars.length + (cs.vars.length + 0))))) _ (fun ω => ?_) (by omega)
    unfold public1
    rw [getD_skip (hsh ω.1).l, getD_skip (hsh ω.1).h, getD_skip (N := 5) rfl, getD_skip (hsh ω.1).a,
      getD_skip (hsh ω.1).b1, List.getD_append _ _ _ _ (by rw [(hsh ω.1).g]; omega)]
  obtain ⟨q1, hq1⟩ := (((Span.Pair.e (hcomb1 S.x) (hZ 0 (by omega))).add (Span.Pair.sum n fun i hi =>
    Span.Pair.e (hcomb1 (S.chunk i)) (hZ (i + 1) (by omega)))).sub (Span.Pair.e (hcomb1 S.psi) hH)).question
  obtain ⟨q2, hq2⟩ := ((Span.Pair.e (hcomb1 S.a) (hcomb2 S.b)).sub (((Span.Pair.e halpha hbeta).add
    (Span.Pair.e (hcomb1 S.c) hdel)).add (Span.Pair.e (((hcomb1 S.x).add (Span.In.sum n fun i _ =>
      hcomb1 (S.chunk i))).add hg0) hgam))).question
  refine ⟨q1, q2, fun P m r a b => ?_⟩
  have hX := (hsh P).X
  rw [hq1 (P, m, r, a, b), hq2 (P, m, r, a, b)]
  unfold Accepted Ciphertext.verifyCommitmentAndProof
  rw [Res.bind_eq_ok]
  have hwf : WellFormed (ekAt cs d n gens P) := encKey_wf _ _ _ _ _ _ _
  have hgs : getGsForEncryption (pkAt cs d gens P).pk.vk = .ok (gAt cs d n gens P) :=
    gs_of_srs cs d P.tau P.alpha P.beta P.gamma P.delta gens.G gens.H n hn
  have hite : ∀ (Q : Prop) [Decidable Q] (e : SaverError), (if Q then Res.ok () else Res.err e) = Res.ok () ↔ Q := by
    intro Q _ e
    by_cases hQ : Q <;> simp [hQ]
  have hc : verifyCiphertextCommitment (S.cipher (L1 (P, m, r, a, b))).X_r (S.cipher (L1 (P, m, r, a, b))).enc_chunks
      (S.cipher (L1 (P, m, r, a, b))).commitment (ekAt cs d n gens P).prepare gens.prepare = .ok () ↔ S.len = n ∧
      E.e (comb S.x (L1 (P, m, r, a, b))) ((ekAt cs d n gens P).Z.getD 0 0) + (∑ i ∈ Finset.range n,
        E.e (comb (S.chunk i) (L1 (P, m, r, a, b))) ((ekAt cs d n gens P).Z.getD (i + 1) 0)) -
        E.e (comb S.psi (L1 (P, m, r, a, b))) gens.H = 0 := by
    rw [verify_eq _ _ _ _ gens hwf (by rw [hX]; exact hn256)]
    simp only [Strategy.cipher, length_tab, hX]
    by_cases hlen : S.len = n
    · rw [if_neg (by simpa using hlen), hite, sub_eq_zero, hlen]
      simp only [true_and]
      rw [Finset.sum_congr rfl fun i hi => by rw [getD_tab, if_pos (Finset.mem_range.mp hi)]]
    · rw [if_pos hlen]
      simp [hlen]
  have hv : verifyProof (prepareVerifyingKey (pkAt cs d gens P).pk.vk)
      (S.proof (L1 (P, m, r, a, b)) (L2 (P, m, r, a, b))) (S.cipher (L1 (P, m, r, a, b))) = .ok () ↔
      E.e (comb S.a (L1 (P, m, r, a, b))) (comb S.b (L2 (P, m, r, a, b))) -
        (E.e (pkAt cs d gens P).pk.vk.alpha_g1 (pkAt cs d gens P).pk.vk.beta_g2 +
          E.e (comb S.c (L1 (P, m, r, a, b))) (pkAt cs d gens P).pk.vk.delta_g2 +
          E.e (comb S.x (L1 (P, m, r, a, b)) + (∑ i ∈ Finset.range S.len, comb (S.chunk i) (L1 (P, m, r, a, b))) +
            (pkAt cs d gens P).pk.vk.gamma_abc_g1.getD 0 0) (pkAt cs d gens P).pk.vk.gamma_g2) = 0 := by
    rw [verifyProof_eq _ _ _ (getGs_inv hgs).1, hite, sub_eq_zero]
    simp only [Strategy.cipher, Strategy.proof, sum_tab]
  constructor
  · rintro ⟨u, h1, h3⟩
    obtain ⟨hlen, h4⟩ := hc.mp h1
    have h5 := hv.mp h3
    rw [hlen] at h5
    exact ⟨hlen, h4, h5⟩
  · rintro ⟨hlen, h4, h5⟩
    refine ⟨(), hc.mpr ⟨hlen, h4⟩, hv.mpr ?_⟩
    rw [hlen]
    exact h5


/-! ### The views as polynomials in the draws -/

theorem comb_snoc (k : ℕ → E.Fr) (l : List E.G1) (x : E.G1) : comb k (l ++ [x]) = comb k l + k l.length • x := by
  rw [comb_append, comb_one]
  rfl

/-- the view in the first group at given draws -/
def draw1X (N : ℕ) (mc : ℕ → ℕ → ℕ) (cs1 : ℕ → CS E.Fr) {K : ℕ} (g : Fin K → E.Fr) : List E.G1 :=
  at1X cs d n gens (ptTape n (tapeOf g)) N mc (rOf n (tapeOf g)) (aOf d n cs1 (tapeOf g)) (bOf d n cs1 (tapeOf g))

/-- the views are polynomials in the draws -/
def viewsX (hn : cs.numInst = n + 1) (N : ℕ) (mc : ℕ → ℕ → ℕ) (cs1 : ℕ → CS E.Fr) (K : ℕ) :
    Adapt.Views (GoodDraw d K) gens.G gens.H (2 * d.size + 4) (d.size + 2)
      (draw1X cs d n gens N mc cs1) (draw2 cs d n gens N mc cs1) where
  l1 := (views cs d n gens hn N mc cs1 K).l1 + 1
  l2 := (views cs d n gens hn N mc cs1 K).l2
  w := (views cs d n gens hn N mc cs1 K).w
  x k g := (views cs d n gens hn N mc cs1 K).x k g +
    k (views cs d n gens hn N mc cs1 K).l1 * (tapeOf g 5 * tapeOf g 3)
  y := (views cs d n gens hn N mc cs1 K).y
  hl1 g hg := by
    unfold draw1X at1X
    rw [List.length_append, List.length_singleton]
    exact congrArg (· + 1) ((views cs d n gens hn N mc cs1 K).hl1 g hg)
  hl2 := (views cs d n gens hn N mc cs1 K).hl2
  hw := (views cs d n gens hn N mc cs1 K).hw
  hx k g hg := by
    have h1 := (views cs d n gens hn N mc cs1 K).hl1 g hg
    have h2 := (views cs d n gens hn N mc cs1 K).hx k g hg
    unfold draw1X at1X
    rw [comb_snoc]
    show comb k (draw1 cs d n gens N mc cs1 g) + k (draw1 cs d n gens N mc cs1 g).length • (tapeOf g 5 •
      (tapeOf g 3 • gens.G)) = _
    rw [h1, h2, add_smul, smul_smul, smul_smul]
    rw [mul_assoc]
  hy := (views cs d n gens hn N mc cs1 K).hy
  px k := by
    refine (((views cs d n gens hn N mc cs1 K).px k).add ((((tapeOf_poly _ 5).mul (tapeOf_poly _ 3)
      (by omega : 1 + 1 ≤ 2)).mul ((tapeOf_poly _ 2).mul (tapeOf_poly _ 3) (by omega : 1 + 1 ≤ 2))
        (by omega : 2 + 2 ≤ 2 * d.size + 4)).cmul (k (views cs d n gens hn N mc cs1 K).l1))).congr fun g hg => ?_
    show (_ + _) * (tapeOf g 2 * tapeOf g 3) = _ * (tapeOf g 2 * tapeOf g 3) + _
    ring
  py := (views cs d n gens hn N mc cs1 K).py
  pw := (views cs d n gens hn N mc cs1 K).pw


/-! ### A strategy that is accepted in all runs makes no use of `nu` for its ciphertext -/

/-- the strategy that leaves out the elements `V_0`, `V_2` of the decryption key -/
def dropRho (S : Strategy E.Fr) (o n : ℕ) : Strategy E.Fr :=
  { S with b := fun i => if i = o ∨ (o + 1 + n ≤ i ∧ i < o + 1 + n + n) then 0 else S.b i }

/-- the combination without `V_0`, `V_2` is the combination for the secret scalar zero -/
theorem comb_dropRho (k : ℕ → E.Fr) (o n : ℕ) (A B : List E.G2) (hA : A.length = o) (rho : E.Fr) (s v : ℕ → E.Fr)
    (H : E.G2) :
    comb (fun i => if i = o ∨ (o + 1 + n ≤ i ∧ i < o + 1 + n + n) then 0 else k i)
      (A ++ ([(decKey n rho s v H).V_0] ++ ((decKey n rho s v H).V_1 ++ ((decKey n rho s v H).V_2 ++ B)))) =
    comb k (A ++ ([(decKey n 0 s v H).V_0] ++ ((decKey n 0 s v H).V_1 ++ ((decKey n 0 s v H).V_2 ++ B)))) := by
  simp only [comb_append, decKey, comb_one, comb_tab, length_tab, List.length_singleton, hA]
  congr 1
  · refine comb_congr fun i hi => ?_
    rw [if_neg (by omega)]
  · congr 1
    · simp
    · congr 1
      · refine Finset.sum_congr rfl fun i hi => ?_
        have := Finset.mem_range.mp hi
        rw [if_neg (by omega)]
      · congr 1
        · refine Finset.sum_congr rfl fun i hi => ?_
          have := Finset.mem_range.mp hi
          rw [if_pos (by omega), zero_mul, zero_smul, zero_smul, smul_zero]
        · refine comb_congr fun i hi => ?_
          rw [if_neg (by omega)]

theorem coreX (hn256 : n < 256) (hG : gens.G ≠ 0) (hH : gens.H ≠ 0) (S : Strategy E.Fr)
    (N : ℕ) (m : ℕ → ℕ → ℕ)
    (h : ∀ P, Good d P → ∀ r a b, Accepted gens (pkAt cs d gens P) (ekAt cs d n gens P)
      (S.cipher (at1X cs d n gens P N m r a b)) (S.proof (at1X cs d n gens P N m r a b) (at2 cs d n gens P N m r a b))) :
    ∀ P, Good d P → ∀ r a b,
      S.cipher (at1X cs d n gens P N m r a b) = S.cipher (at1 cs d n gens P N m r a b) ∧
      Accepted gens (pkAt cs d gens P) (ekAt cs d n gens P)
        ((dropRho S (4 + (cs.vars.length + (n + 1))) n).cipher (at1 cs d n gens P N m r a b))
        ((dropRho S (4 + (cs.vars.length + (n + 1))) n).proof (at1 cs d n gens P N m r a b)
          (at2 cs d n gens P N m r a b)) := by
  have hzero : ∀ P r a b (k : ℕ → E.Fr), comb k (at1X cs d n gens { P with rho := 0 } N m r a b) =
      comb k (at1 cs d n gens P N m r a b) := by
    intro P r a b k
    unfold at1X
    rw [comb_snoc]
    show comb k (at1 cs d n gens P N m r a b) + _ • ((0 : E.Fr) • _) = _
    rw [zero_smul, smul_zero, add_zero]
  have hlen : ∀ P r a b, (at1 cs d n gens P N m r a b).length = cs.numWit + (d.size - 1 + (5 + (cs.vars.length +
      (cs.vars.length + (cs.numInst + (1 + (n + (1 + (n + 1))))))))) + N * (n + 4) := by
    intro P r a b
    unfold at1 view1
    rw [seen1_pubsAt, List.length_append, (comb_blocks (F := E.Fr) (n + 4) _
      (fun j => Sec.blockP_length _ _ _ _ _ _ _ _ _ _ _ _ _ _ _ _) (fun _ => 0) N).1]
    simp [public1, pkAt, srsKey, ekAt, encKey]
    omega
  generalize cs.numWit + (d.size - 1 + (5 + (cs.vars.length +
      (cs.vars.length + (cs.numInst + (1 + (n + (1 + (n + 1))))))))) + N * (n + 4) = L at hlen
  -- the commitment equation
  have heqn : ∀ P, Good d P → ∀ r a b, S.len = n ∧
      E.e (comb S.x (at1X cs d n gens P N m r a b)) (P.t 0 • gens.H) + (∑ i ∈ Finset.range n,
        E.e (comb (S.chunk i) (at1X cs d n gens P N m r a b)) (P.t (i + 1) • gens.H)) =
        E.e (comb S.psi (at1X cs d n gens P N m r a b)) gens.H := by
    intro P hP r a b
    have h1 := h P hP r a b
    unfold Accepted Ciphertext.verifyCommitmentAndProof at h1
    obtain ⟨u, h1, -⟩ := Res.bind_eq_ok.mp h1
    have hX : (ekAt cs d n gens P).X.length = n := by simp [ekAt, encKey]
    have hwf : WellFormed (ekAt cs d n gens P) := encKey_wf _ _ _ _ _ _ _
    unfold Ciphertext.verifyCommitment at h1
    rw [verify_eq _ _ _ _ gens hwf (by rw [hX]; exact hn256)] at h1
    simp only [Strategy.cipher, length_tab, hX] at h1
    by_cases hl : S.len = n
    · refine ⟨hl, ?_⟩
      rw [if_neg (by simpa using hl)] at h1
      have hZ : ∀ i < n + 1, (ekAt cs d n gens P).Z.getD i 0 = P.t i • gens.H := by
        intro i hi
        simp only [ekAt, encKey]
        rw [getD_tab, if_pos hi]
      by_cases hq : E.e (comb S.x (at1X cs d n gens P N m r a b)) ((ekAt cs d n gens P).Z.getD 0 0) +
          (∑ i ∈ Finset.range n, E.e ((tab S.len fun i => comb (S.chunk i) (at1X cs d n gens P N m r a b)).getD i 0)
            ((ekAt cs d n gens P).Z.getD (i + 1) 0)) = E.e (comb S.psi (at1X cs d n gens P N m r a b)) gens.H
      · rw [hZ 0 (by omega)] at hq
        rw [← hq]
        congr 1
        refine Finset.sum_congr rfl fun i hi => ?_
        have := Finset.mem_range.mp hi
        rw [getD_tab, if_pos (by omega), hZ (i + 1) (by omega)]
      · rw [hl] at h1 hq
        rw [if_neg hq] at h1
        cases h1
    · rw [if_pos hl] at h1
      cases h1
  -- the coefficients of `nu` vanish
  have hcoef : ∀ P, Good d P → ∀ t : ℕ → E.Fr,
      S.x L * t 0 + (∑ i ∈ Finset.range n, S.chunk i L * t (i + 1)) - S.psi L = 0 := by
    intro P hP t
    let P1 : Pt E := { P with rho := 1, t := t }
    have e1 := (heqn P1 hP (fun _ => 0) (fun _ => 0) fun _ => 0).2
    have e0 := (heqn { P1 with rho := 0 } hP (fun _ => 0) (fun _ => 0) fun _ => 0).2
    have hs : ∀ k : ℕ → E.Fr, comb k (at1X cs d n gens P1 N m (fun _ => 0) (fun _ => 0) fun _ => 0) =
        comb k (at1X cs d n gens { P1 with rho := 0 } N m (fun _ => 0) (fun _ => 0) fun _ => 0) +
          k L • (P.delta • gens.G) := by
      intro k
      rw [hzero]
      unfold at1X
      rw [comb_snoc, hlen]
      show _ + k L • ((1 : E.Fr) • (P.delta • gens.G)) = _
      rw [one_smul]
    simp only [hs, map_add, LinearMap.add_apply, Finset.sum_add_distrib] at e1
    have : (S.x L * t 0 + (∑ i ∈ Finset.range n, S.chunk i L * t (i + 1)) - S.psi L) •
        E.e (P.delta • gens.G) gens.H = 0 := by
      have e3 : E.e (S.x L • P.delta • gens.G) (P1.t 0 • gens.H) + (∑ i ∈ Finset.range n,
          E.e (S.chunk i L • P.delta • gens.G) (P1.t (i + 1) • gens.H)) =
          E.e (S.psi L • P.delta • gens.G) gens.H := by
        rw [← e0] at e1
        have := sub_eq_zero.mpr e1
        refine sub_eq_zero.mp (Eq.trans ?_ this)
        abel
      rw [sub_smul, add_smul, Finset.sum_smul, sub_eq_zero]
      refine Eq.trans ?_ (e3.trans ?_)
      · simp only [map_smul, LinearMap.smul_apply, smul_smul]
        congr 1
        · congr 1
          show S.x L * t 0 * _ = t 0 * _
          ring
        · refine Finset.sum_congr rfl fun i _ => ?_
          congr 1
          show _ = t (i + 1) * _
          ring
      · simp only [map_smul, LinearMap.smul_apply]
    refine (smul_eq_zero.mp this).resolve_right fun hc => ?_
    rcases E.nondeg _ _ hc with h0 | h0
    · exact (smul_eq_zero.mp h0).elim hP.2.2 hG
    · exact hH h0
  intro P hP r a b
  have hpsi : S.psi L = 0 := by
    have := hcoef P hP fun _ => 0
    simpa using this
  have hx : S.x L = 0 := by
    have := hcoef P hP fun i => if i = 0 then 1 else 0
    simpa [hpsi] using this
  have hch : ∀ i < n, S.chunk i L = 0 := by
    intro i hi
    have := hcoef P hP fun j => if j = i + 1 then 1 else 0
    simpa [hpsi, hi] using this
  have hl := (heqn P hP r a b).1
  constructor
  · have hk : ∀ k : ℕ → E.Fr, k L = 0 → comb k (at1X cs d n gens P N m r a b) =
        comb k (at1 cs d n gens P N m r a b) := by
      intro k hk
      unfold at1X
      rw [comb_snoc, hlen, hk, zero_smul, add_zero]
    unfold Strategy.cipher
    rw [hk _ hx, hk _ hpsi, tab_congr fun i hi => hk _ (hch i (by omega))]
  · have h0 := h { P with rho := 0 } hP r a b
    have e1 : S.cipher (at1X cs d n gens { P with rho := 0 } N m r a b) =
        (dropRho S (4 + (cs.vars.length + (n + 1))) n).cipher (at1 cs d n gens P N m r a b) := by
      unfold Strategy.cipher
      simp only [hzero]
      rfl
    have e2 : S.proof (at1X cs d n gens { P with rho := 0 } N m r a b)
          (at2 cs d n gens { P with rho := 0 } N m r a b) =
        (dropRho S (4 + (cs.vars.length + (n + 1))) n).proof (at1 cs d n gens P N m r a b)
          (at2 cs d n gens P N m r a b) := by
      unfold Strategy.proof
      simp only [hzero]
      have hb : comb S.b (at2 cs d n gens { P with rho := 0 } N m r a b) =
          comb (dropRho S (4 + (cs.vars.length + (n + 1))) n).b (at2 cs d n gens P N m r a b) := by
        have hA : ([gens.H, (pkAt cs d gens P).pk.vk.beta_g2, (pkAt cs d gens P).pk.vk.gamma_g2,
            (pkAt cs d gens P).pk.vk.delta_g2] ++ ((pkAt cs d gens P).pk.b_g2_query ++
              (ekAt cs d n gens P).Z)).length = 4 + (cs.vars.length + (n + 1)) := by
          simp [pkAt, srsKey, ekAt, encKey]
          omega
        have := comb_dropRho (E := E) S.b (4 + (cs.vars.length + (n + 1))) n _
          (seen2 (pubsAt cs d n gens P N m r a b)) hA P.rho P.s P.v gens.H
        unfold at2 view2 public2
        simp only [List.append_assoc] at this ⊢
        exact this.symm
      rw [hb]
      rfl
    rw [e1, e2] at h0
    exact h0


/-- for a question: "yes" on all good draws is the same as "yes" for all scalars -/
theorem all_drawsX (N : ℕ) (mc : ℕ → ℕ → ℕ) (cs1 : ℕ → CS E.Fr) (K : ℕ) (hK : 7 + 3 * n + 3 * N ≤ K)
    (Q : List E.G1 → List E.G2 → Prop) :
    (∀ g : Fin K → E.Fr, GoodDraw d K g → Q (draw1X cs d n gens N mc cs1 g) (draw2 cs d n gens N mc cs1 g)) ↔
      ∀ P, Good d P → ∀ r a b, Q (at1X cs d n gens P N mc r a b) (at2 cs d n gens P N mc r a b) := by
  constructor
  · intro h P hP r a b
    obtain ⟨ho, h1, h2, h3⟩ := tapeWith_on n d cs1 P r a b hP.2.2
    let g : Fin K → E.Fr := fun i => tapeWith n d cs1 P r a b i
    have htp : ∀ i < K, tapeOf g i = tapeWith n d cs1 P r a b i := by
      intro i hi
      unfold tapeOf
      rw [dif_pos hi]
    have e : at1 cs d n gens (ptTape n (tapeOf g)) N mc (rOf n (tapeOf g)) (aOf d n cs1 (tapeOf g))
        (bOf d n cs1 (tapeOf g)) = at1 cs d n gens P N mc r a b ∧ at2 cs d n gens (ptTape n (tapeOf g)) N mc
        (rOf n (tapeOf g)) (aOf d n cs1 (tapeOf g)) (bOf d n cs1 (tapeOf g)) = at2 cs d n gens P N mc r a b := by
      refine at_congr cs d n gens N mc ?_ ?_ ?_ ?_ ?_ ?_ ?_ ?_ ?_ ?_ ?_ ?_
      · exact (htp 4 (by omega)).trans ho.tau.symm
      · exact (htp 0 (by omega)).trans ho.alpha.symm
      · exact (htp 1 (by omega)).trans ho.beta.symm
      · exact (htp 2 (by omega)).trans ho.gamma.symm
      · exact (htp 3 (by omega)).trans ho.delta.symm
      · exact (htp 5 (by omega)).trans ho.rho.symm
      · exact fun i hi => (htp _ (by omega)).trans (ho.s i hi).symm
      · exact fun i hi => (htp _ (by omega)).trans (ho.t i hi).symm
      · exact fun i hi => (htp _ (by omega)).trans (ho.v i hi).symm
      · intro j hj
        rw [← h1]
        exact htp _ (by omega)
      · intro j hj
        rw [← h2]
        unfold aOf
        rw [htp 0 (by omega), htp 3 (by omega), htp 4 (by omega), htp _ (by omega)]
      · intro j hj
        rw [← h3]
        unfold bOf
        rw [htp 1 (by omega), htp 3 (by omega), htp 4 (by omega), htp _ (by omega)]
    have e' : at1X cs d n gens (ptTape n (tapeOf g)) N mc (rOf n (tapeOf g)) (aOf d n cs1 (tapeOf g))
        (bOf d n cs1 (tapeOf g)) = at1X cs d n gens P N mc r a b := by
      have e5 : tapeOf g 5 = P.rho := (htp 5 (by omega)).trans ho.rho.symm
      have e3 : tapeOf g 3 = P.delta := (htp 3 (by omega)).trans ho.delta.symm
      unfold at1X
      rw [e.1]
      show _ ++ [tapeOf g 5 • (tapeOf g 3 • gens.G)] = _
      rw [e5, e3]
      rfl
    have := h g ⟨by rw [htp 4 (by omega), ← ho.tau]; exact hP.1, by rw [htp 2 (by omega), ← ho.gamma]; exact hP.2.1,
      by rw [htp 3 (by omega), ← ho.delta]; exact hP.2.2⟩
    unfold draw1X draw2 at this
    rw [e', e.2] at this
    exact this
  · intro h g hg
    exact h (ptTape n (tapeOf g)) hg _ _ _

/-! ### Multiples of `nu` -/

theorem at1_length (P : Pt E) (N : ℕ) (m : ℕ → ℕ → ℕ) (r a b : ℕ → E.Fr) :
    (at1 cs d n gens P N m r a b).length = cs.numWit + (d.size - 1 + (5 + (cs.vars.length +
      (cs.vars.length + (cs.numInst + (1 + (n + (1 + (n + 1))))))))) + N * (n + 4) := by
  unfold at1 view1
  rw [seen1_pubsAt, List.length_append, (comb_blocks (F := E.Fr) (n + 4) _
    (fun j => Sec.blockP_length _ _ _ _ _ _ _ _ _ _ _ _ _ _ _ _) (fun _ => 0) N).1]
  simp [public1, pkAt, srsKey, ekAt, encKey]
  omega

theorem at2_length (P : Pt E) (N : ℕ) (m : ℕ → ℕ → ℕ) (r a b : ℕ → E.Fr) :
    (at2 cs d n gens P N m r a b).length = 4 + (cs.vars.length + (n + 1 + (1 + (n + n)))) + N := by
  unfold at2 view2
  rw [seen2_pubsAt, List.length_append, length_tab]
  simp [public2, pkAt, srsKey, ekAt, encKey, dkAt, decKey]
  omega

/-- A question about the view and multiples of `nu` is a question about the view and `nu`. -/
theorem pullQ (N : ℕ) (us : List E.Fr) (q : Question E) :
    ∃ q' : Question E, ∀ P (m : ℕ → ℕ → ℕ) (r a b : ℕ → E.Fr),
      q'.Yes (at1X cs d n gens P N m r a b) (at2 cs d n gens P N m r a b) ↔
      q.Yes (at1 cs d n gens P N m r a b ++ us.map fun u => u • nuAt cs d gens P) (at2 cs d n gens P N m r a b) := by
  let Ω := Pt E × (ℕ → ℕ → ℕ) × (ℕ → E.Fr) × (ℕ → E.Fr) × (ℕ → E.Fr)
  have hl1 := fun ω : Ω => at1_length cs d n gens ω.1 N ω.2.1 ω.2.2.1 ω.2.2.2.1 ω.2.2.2.2
  have h0 : Span.All E.Fr (fun ω : Ω => at1X cs d n gens ω.1 N ω.2.1 ω.2.2.1 ω.2.2.2.1 ω.2.2.2.2)
      (fun ω : Ω => at1 cs d n gens ω.1 N ω.2.1 ω.2.2.1 ω.2.2.2.1 ω.2.2.2.2 ++ [nuAt cs d gens ω.1]) :=
    Span.All.refl fun ω => by
      unfold at1X
      rw [List.length_append, hl1, List.length_singleton]
  have h1 := Span.All.left h0 hl1
  have h2 := (Span.All.right h0 hl1).2 0
  have h3 : Span.All E.Fr (fun ω : Ω => at2 cs d n gens ω.1 N ω.2.1 ω.2.2.1 ω.2.2.2.1 ω.2.2.2.2)
      (fun ω : Ω => at2 cs d n gens ω.1 N ω.2.1 ω.2.2.1 ω.2.2.2.1 ω.2.2.2.2) :=
    Span.All.refl fun ω => at2_length cs d n gens ω.1 N ω.2.1 ω.2.2.1 ω.2.2.2.1 ω.2.2.2.2
  obtain ⟨q', hq'⟩ := Span.pull (h1.append (Span.All.map us fun u _ => h2.smul u)) h3 q
  exact ⟨q', fun P m r a b => hq' (P, m, r, a, b)⟩

/-- the same for strategies -/
theorem pullS (N : ℕ) (us : List E.Fr) (S : Strategy E.Fr) :
    ∃ S' : Strategy E.Fr, ∀ P (m : ℕ → ℕ → ℕ) (r a b : ℕ → E.Fr),
      S'.cipher (at1X cs d n gens P N m r a b) =
        S.cipher (at1 cs d n gens P N m r a b ++ us.map fun u => u • nuAt cs d gens P) ∧
      S'.proof (at1X cs d n gens P N m r a b) (at2 cs d n gens P N m r a b) =
        S.proof (at1 cs d n gens P N m r a b ++ us.map fun u => u • nuAt cs d gens P)
          (at2 cs d n gens P N m r a b) := by
  let Ω := Pt E × (ℕ → ℕ → ℕ) × (ℕ → E.Fr) × (ℕ → E.Fr) × (ℕ → E.Fr)
  have hl1 := fun ω : Ω => at1_length cs d n gens ω.1 N ω.2.1 ω.2.2.1 ω.2.2.2.1 ω.2.2.2.2
  have h0 : Span.All E.Fr (fun ω : Ω => at1X cs d n gens ω.1 N ω.2.1 ω.2.2.1 ω.2.2.2.1 ω.2.2.2.2)
      (fun ω : Ω => at1 cs d n gens ω.1 N ω.2.1 ω.2.2.1 ω.2.2.2.1 ω.2.2.2.2 ++ [nuAt cs d gens ω.1]) :=
    Span.All.refl fun ω => by
      unfold at1X
      rw [List.length_append, hl1, List.length_singleton]
  have h1 := Span.All.left h0 hl1
  have h2 := (Span.All.right h0 hl1).2 0
  have h4 : Span.All E.Fr (fun ω : Ω => at1X cs d n gens ω.1 N ω.2.1 ω.2.2.1 ω.2.2.2.1 ω.2.2.2.2)
      (fun ω : Ω => at1 cs d n gens ω.1 N ω.2.1 ω.2.2.1 ω.2.2.2.1 ω.2.2.2.2 ++
        us.map fun u => u • nuAt cs d gens ω.1) := h1.append (Span.All.map us fun u _ => h2.smul u)
  choose c1 hc1 using fun k => h4.comb k
  refine ⟨Adapt.mapStrategy c1 id S, fun P m r a b => ?_⟩
  have e1 : ∀ k : ℕ → E.Fr, comb (c1 k) (at1X cs d n gens P N m r a b) =
      comb k (at1 cs d n gens P N m r a b ++ us.map fun u => u • nuAt cs d gens P) :=
    fun k => (hc1 k (P, m, r, a, b)).symm
  unfold Strategy.cipher Strategy.proof Adapt.mapStrategy
  simp only [e1, id, and_self]

end Nm
end
end Verif
