/-
Helper lemmas for C66 and C67: the secrecy games for distributed key generation.
-/
import Verif.Lemmas.SecProof

namespace Verif
open Spec

namespace Sec
variable {E : Engine}

/-! ### Transfer with arbitrary key material -/

section transfer
variable (n : ℕ) (g : ℕ → E.G1) (D C : E.G1)

theorem target_pairSum (k : ℕ → ℕ → E.Fr) (T : E.GT) (l : List E.G1) (l2 : List E.G2) :
    (∑ i ∈ Finset.range l.length, ∑ j ∈ Finset.range l2.length,
      k i j • E.e (l.getD i 0) (l2.getD j 0)) + T = T + pairSum E.e (fun i => comb (k i) l2) l := by
  rw [add_comm]
  congr 1
  refine Finset.sum_congr rfl fun i _ => ?_
  unfold comb
  rw [map_sum]
  exact Finset.sum_congr rfl fun j _ => (map_smul _ _ _).symm

/-- as `question_transfer`, with any key material `pre1`, `pre2` of the right shape -/
theorem question_transferG (H : E.G2) (hD : D ≠ 0) (h2 : (2 : E.Fr) ≠ 0)
    (pre1 : (ℕ → E.Fr) → (ℕ → E.Fr) → List E.G1) (L : ℕ) (hL : ∀ s t, (pre1 s t).length = L)
    (pre2 : (ℕ → E.Fr) → (ℕ → E.Fr) → (ℕ → E.Fr) → E.Fr → List E.G2)
    (hS : ∀ k : ℕ → E.Fr, Shape fun s t v rho => comb k (pre2 s t v rho))
    (q : Question E) (h h' : List (List UInt16)) (hlen : h'.length = h.length)
    (hz : ∀ s t v rho r, q.Yes (pre1 s t ++ blocks n g D C H s t r h) (pre2 s t v rho)) :
    ∀ s t v rho r, q.Yes (pre1 s t ++ blocks n g D C H s t r h') (pre2 s t v rho) := by
  cases q with
  | second k => exact hz
  | first k =>
    have e : ∀ l : List E.G1, comb k l = pairSum (LinearMap.lsmul E.Fr E.G1).flip k l := fun l => rfl
    simp only [Question.Yes, e, pairSum_append, hL] at hz ⊢
    exact transfer _ n g D C H (fun b hb => by
      rcases smul_eq_zero.mp (show b • D = 0 from hb) with h | h
      · exact h
      · exact absurd h hD) h2 (fun j _ _ _ _ => k (L + j)) (fun j => Shape.ofT fun _ => _)
      (fun s t _ _ => pairSum (LinearMap.lsmul E.Fr E.G1).flip k (pre1 s t)) h h' hlen hz
  | target k T =>
    simp only [Question.Yes, target_pairSum, pairSum_append, hL, ← add_assoc T] at hz ⊢
    exact transfer _ n g D C H (fun b hb => (E.nondeg _ _ hb).resolve_left hD) h2
      (fun j s t v rho => comb (k (L + j)) (pre2 s t v rho)) (fun j => hS _)
      (fun s t v rho => T + pairSum E.e (fun i => comb (k i) (pre2 s t v rho)) (pre1 s t)) h h' hlen hz

/-- as `question_transferP`, with any key material `pre1`, `pre2` of the right shape -/
theorem question_transferPG (gens : EncryptionGens E) (g0 : E.G1) (alpha beta gamma delta : E.Fr)
    (hD : D ≠ 0) (h2 : (2 : E.Fr) ≠ 0)
    (pre1 : (ℕ → E.Fr) → (ℕ → E.Fr) → List E.G1) (L : ℕ) (hL : ∀ s t, (pre1 s t).length = L)
    (pre2 : (ℕ → E.Fr) → (ℕ → E.Fr) → (ℕ → E.Fr) → E.Fr → List E.G2)
    (L2 : ℕ) (hL2 : ∀ s t v rho, (pre2 s t v rho).length = L2)
    (hS : ∀ k : ℕ → E.Fr, Shape fun s t v rho => comb k (pre2 s t v rho))
    (q : Question E) (N : ℕ) (m m' : ℕ → ℕ → ℕ) (x y : ℕ → E.Fr)
    (hz : ∀ s t v rho (r : ℕ → E.Fr), q.Yes (pre1 s t ++ (tab N fun c =>
        blockP n g gens g0 D C alpha beta gamma delta s t (m c) (r c) (x c) (y c)).flatten)
      (pre2 s t v rho ++ tab N fun c => y c • gens.H)) :
    ∀ s t v rho (r : ℕ → E.Fr), q.Yes (pre1 s t ++ (tab N fun c =>
        blockP n g gens g0 D C alpha beta gamma delta s t (m' c) (r c) (x c) (y c)).flatten)
      (pre2 s t v rho ++ tab N fun c => y c • gens.H) := by
  have main : ∀ {M2 MT : Type} [AddCommGroup M2] [Module E.Fr M2] [AddCommGroup MT] [Module E.Fr MT]
      (β : E.G1 →ₗ[E.Fr] M2 →ₗ[E.Fr] MT) (_ : ∀ b, β D b = 0 → b = 0) (T : MT)
      (B : ℕ → (ℕ → E.Fr) → (ℕ → E.Fr) → (ℕ → E.Fr) → E.Fr → M2) (_ : ∀ j, Shape (B j)),
      (∀ s t v rho (r : ℕ → E.Fr), T + pairSum β (fun j => B j s t v rho) (pre1 s t ++ (tab N fun c =>
        blockP n g gens g0 D C alpha beta gamma delta s t (m c) (r c) (x c) (y c)).flatten) = 0) →
      ∀ s t v rho (r : ℕ → E.Fr), T + pairSum β (fun j => B j s t v rho) (pre1 s t ++ (tab N fun c =>
        blockP n g gens g0 D C alpha beta gamma delta s t (m' c) (r c) (x c) (y c)).flatten) = 0 := by
    intro M2 MT _ _ _ _ β hβ T B hB hz
    have e : ∀ (l : ℕ → ℕ → ℕ) s t v rho (r : ℕ → E.Fr), T + pairSum β (fun j => B j s t v rho)
        (pre1 s t ++ (tab N fun c =>
          blockP n g gens g0 D C alpha beta gamma delta s t (l c) (r c) (x c) (y c)).flatten) =
        ((T + pairSum β (fun j => B j s t v rho) (pre1 s t)) +
          ∑ c ∈ Finset.range N, (β (x c • gens.G) (B (L + (c * (n + 4) + (n + 2))) s t v rho) +
            β (delta⁻¹ • ((x c * y c - alpha * beta) • gens.G - gamma • g0))
              (B (L + (c * (n + 4) + (n + 3))) s t v rho))) +
        ∑ c ∈ Finset.range N, pairSum β (fun j => B (L + (c * (n + 4) + j)) s t v rho +
            (if j < n + 1 then -(delta⁻¹ * gamma) •
              B (L + (c * (n + 4) + (n + 3))) s t v rho else 0))
          (flat (cipher (encKey n s t g D C gens.H) g (l c) (r c))) := by
      intro l s t v rho r
      rw [pairSum_append, hL, (pairSum_flatten β _ (n + 4) N _ fun i _ =>
        blockP_length n g gens g0 D C alpha beta gamma delta s t _ _ _ _).1]
      simp only [pairSum_blockP, Finset.sum_add_distrib]
      abel
    simp only [e] at hz ⊢
    refine transfer_sum β n N g D C gens.H hβ h2 (fun c j s t v rho =>
      B (L + (c * (n + 4) + j)) s t v rho +
            (if j < n + 1 then -(delta⁻¹ * gamma) •
              B (L + (c * (n + 4) + (n + 3))) s t v rho else 0)) (fun c j => ?_) _ m m' hz
    by_cases hj : j < n + 1
    · simp only [if_pos hj]
      exact (hB _).add ((hB _).smul fun _ => -(delta⁻¹ * gamma))
    · simp only [if_neg hj, add_zero]
      exact hB _
  cases q with
  | second k => exact fun s t v rho r => hz s t v rho r
  | first k =>
    have e : ∀ l : List E.G1, comb k l = 0 + pairSum (LinearMap.lsmul E.Fr E.G1).flip k l :=
      fun l => (zero_add _).symm
    simp only [Question.Yes, e] at hz ⊢
    intro s t v rho r
    exact main (LinearMap.lsmul E.Fr E.G1).flip (fun b hb => by
      rcases smul_eq_zero.mp (show b • D = 0 from hb) with h | h
      · exact h
      · exact absurd h hD) 0 (fun j _ _ _ _ => k j) (fun j => Shape.ofT fun _ => _)
      (fun s t v rho r => hz s t v rho r) s t v rho r
  | target k T =>
    simp only [Question.Yes, target_pairSum] at hz ⊢
    refine main E.e (fun b hb => (E.nondeg _ _ hb).resolve_left hD) T
      (fun j s t v rho => comb (k j) (pre2 s t v rho ++ tab N fun c => y c • gens.H))
      (fun j => ?_) hz
    simp only [comb_append, hL2]
    exact (hS _).add (Shape.ofT fun _ => _)

end transfer

/-! ### The messages of distributed key generation -/

/-- the secrets of a party; `none` is the honest one, with secrets `s`, `t` -/
def oS (s : ℕ → E.Fr) : Option (Party E) → ℕ → E.Fr
  | none => s
  | some P => partyS P

def oT (n : ℕ) (t : ℕ → E.Fr) : Option (Party E) → ℕ → E.Fr
  | none => t
  | some P => partyT n P

section dkg
variable (n : ℕ) (g : ℕ → E.G1) (D C : E.G1) (H : E.G2) (l : List (Option (Party E)))

/-- first-group elements published during key generation, for the honest secrets `s`, `t` and the joint
secrets `S`, `T` -/
def dkgElems1 (s t S T : ℕ → E.Fr) : List E.G1 :=
  (l.map fun o => partialElems1 (partialKey n (oS s o) (oT n t o) g D C H)).flatten ++
    (l.map fun o => oT n t o 0 • D + ∑ j ∈ Finset.range n, oT n t o (j + 1) • S j • D) ++
    keyElems1 (encKey n S T g D C H)

def dkgElems2 (t T : ℕ → E.Fr) : List E.G2 :=
  (l.map fun o => tab (n + 1) fun i => oT n t o i • H).flatten ++ tab (n + 1) fun i => T i • H

theorem length_partialElems1 (s t : ℕ → E.Fr) :
    (partialElems1 (partialKey n s t g D C H)).length = 2 + (n + n) := by
  simp [partialElems1, partialKey]
  omega

theorem length_dkgElems1 (s t S T : ℕ → E.Fr) :
    (dkgElems1 n g D C H l s t S T).length = l.length * (2 + (n + n)) + l.length + (3 + (n + n)) := by
  unfold dkgElems1
  have h1 : ((l.map fun o => partialElems1 (partialKey n (oS s o) (oT n t o) g D C H)).flatten).length =
      l.length * (2 + (n + n)) := by
    induction l with
    | nil => simp
    | cons o l ih =>
      rw [List.map_cons, List.flatten_cons, List.length_append, ih, length_partialElems1, List.length_cons]
      ring
  have h2 : (keyElems1 (encKey n S T g D C H)).length = 3 + (n + n) := by
    simp [keyElems1, encKey]; omega
  rw [List.length_append, List.length_append, h1, h2, List.length_map]

theorem length_dkgElems2 (t T : ℕ → E.Fr) :
    (dkgElems2 n H l t T).length = l.length * (n + 1) + (n + 1) := by
  unfold dkgElems2
  rw [List.length_append, length_tab]
  congr 1
  induction l with
  | nil => simp
  | cons o l ih =>
    rw [List.map_cons, List.flatten_cons, List.length_append, ih, length_tab, List.length_cons]
    ring

theorem VPolyL.flattenMap {F : Type} [Field F] {K : ℕ} {M : Type} [AddCommGroup M] [Module F M] {d : ℕ}
    {ι : Type*} (l : List ι) (f : ι → (Fin K → F) → List M) (h : ∀ i, VPolyL d (f i)) :
    VPolyL d fun x => (l.map fun i => f i x).flatten := by
  induction l with
  | nil => exact VPolyL.nil
  | cons i l ih =>
    simp only [List.map_cons, List.flatten_cons]
    exact (h i).append ih

theorem VPolyL.map' {F : Type} [Field F] {K : ℕ} {M : Type} [AddCommGroup M] [Module F M] {d : ℕ}
    {ι : Type*} (l : List ι) (f : ι → (Fin K → F) → M) (h : ∀ i, VPoly d (f i)) :
    VPolyL d fun x => l.map fun i => f i x := by
  induction l with
  | nil => exact VPolyL.nil
  | cons i l ih =>
    simp only [List.map_cons]
    exact VPolyL.cons (h i) ih

theorem poly_oS {K : ℕ} {s : (Fin K → E.Fr) → ℕ → E.Fr}
    (hs : ∀ i, Agm.PolyOn (fun _ => True) 1 fun x => s x i) (o : Option (Party E)) (i : ℕ) :
    Agm.PolyOn (fun _ => True) 1 fun x => oS (s x) o i := by
  cases o with
  | none => exact hs i
  | some P => exact Agm.PolyOn.const _ _

theorem poly_oT {K : ℕ} {t : (Fin K → E.Fr) → ℕ → E.Fr}
    (ht : ∀ i, Agm.PolyOn (fun _ => True) 1 fun x => t x i) (o : Option (Party E)) (i : ℕ) :
    Agm.PolyOn (fun _ => True) 1 fun x => oT n (t x) o i := by
  cases o with
  | none => exact ht i
  | some P => exact Agm.PolyOn.const _ _

theorem vpolyL_dkg1 {K : ℕ} {s t S T : (Fin K → E.Fr) → ℕ → E.Fr}
    (hs : ∀ i, Agm.PolyOn (fun _ => True) 1 fun x => s x i)
    (ht : ∀ i, Agm.PolyOn (fun _ => True) 1 fun x => t x i)
    (hS : ∀ i, Agm.PolyOn (fun _ => True) 1 fun x => S x i)
    (hT : ∀ i, Agm.PolyOn (fun _ => True) 1 fun x => T x i) :
    VPolyL 2 fun x => dkgElems1 n g D C H l (s x) (t x) (S x) (T x) := by
  unfold dkgElems1
  refine VPolyL.append (VPolyL.append (VPolyL.flattenMap _ _ fun o => ?_) (VPolyL.map' _ _ fun o => ?_))
    (vpolyL_key1 n g D C H hS hT)
  · unfold partialElems1 partialKey
    dsimp only
    refine VPolyL.append (VPolyL.cons (VPoly.const _ _) (VPolyL.cons ?_ VPolyL.nil))
      (VPolyL.append (VPolyL.tab _ _ fun i _ => ?_) (VPolyL.tab _ _ fun i _ => ?_))
    · exact VPoly.term _ _ (Agm.PolyOn.sum _ _ fun i _ => (poly_oS hs o i).mono (by omega))
    · exact VPoly.term _ _ ((poly_oS hs o i).mono (by omega))
    · exact VPoly.term _ _ ((poly_oT n ht o _).mono (by omega))
  · refine VPoly.add (VPoly.term _ _ ((poly_oT n ht o _).mono (by omega))) (VPoly.sum _ _ fun j _ => ?_)
    exact VPoly.smul (poly_oT n ht o _) (VPoly.term _ D (hS j)) (by omega)

theorem vpolyL_dkg2 {K : ℕ} {t T : (Fin K → E.Fr) → ℕ → E.Fr}
    (ht : ∀ i, Agm.PolyOn (fun _ => True) 1 fun x => t x i)
    (hT : ∀ i, Agm.PolyOn (fun _ => True) 1 fun x => T x i) :
    VPolyL 2 fun x => dkgElems2 n H l (t x) (T x) := by
  unfold dkgElems2
  refine VPolyL.append (VPolyL.flattenMap _ _ fun o => ?_) (VPolyL.tab _ _ fun i _ => ?_)
  · exact VPolyL.tab _ _ fun i _ => VPoly.term _ _ ((poly_oT n ht o _).mono (by omega))
  · exact VPoly.term _ _ ((hT i).mono (by omega))

theorem oS_congr {s s' : ℕ → E.Fr} (hs : ∀ i < n, s i = s' i) (o : Option (Party E)) :
    ∀ i < n, oS s o i = oS s' o i := by
  cases o with
  | none => exact hs
  | some P => exact fun _ _ => rfl

theorem oT_congr {t t' : ℕ → E.Fr} (ht : ∀ i < n + 1, t i = t' i) (o : Option (Party E)) :
    ∀ i < n + 1, oT n t o i = oT n t' o i := by
  cases o with
  | none => exact ht
  | some P => exact fun _ _ => rfl

theorem dkgElems1_congr {s s' t t' S S' T T' : ℕ → E.Fr} (hs : ∀ i < n, s i = s' i)
    (ht : ∀ i < n + 1, t i = t' i) (hS : ∀ i < n, S i = S' i) (hT : ∀ i < n + 1, T i = T' i) :
    dkgElems1 n g D C H l s t S T = dkgElems1 n g D C H l s' t' S' T' := by
  unfold dkgElems1
  rw [encKey_congr' g D C H hS hT]
  congr 2
  · refine congrArg List.flatten (List.map_congr_left fun o _ => congrArg partialElems1 ?_)
    unfold partialKey
    congr 1
    · exact tab_congr fun i hi => by rw [oS_congr n hs o i hi]
    · exact tab_congr fun i hi => by rw [oT_congr n ht o _ (by omega)]
    · exact tab_congr fun i hi => by rw [oT_congr n ht o _ hi]
    · rw [Finset.sum_congr rfl fun i hi => oS_congr n hs o i (Finset.mem_range.mp hi)]
  · refine List.map_congr_left fun o _ => ?_
    rw [oT_congr n ht o 0 (by omega)]
    congr 1
    refine Finset.sum_congr rfl fun j hj => ?_
    have := Finset.mem_range.mp hj
    rw [oT_congr n ht o _ (by omega), hS j this]

theorem dkgElems2_congr {t t' T T' : ℕ → E.Fr}
    (ht : ∀ i < n + 1, t i = t' i) (hT : ∀ i < n + 1, T i = T' i) :
    dkgElems2 n H l t T = dkgElems2 n H l t' T' := by
  unfold dkgElems2
  congr 1
  · refine congrArg List.flatten (List.map_congr_left fun o _ => ?_)
    exact tab_congr fun i hi => by rw [oT_congr n ht o _ hi]
  · exact tab_congr fun i hi => by rw [hT i hi]

end dkg

/-- the list of parties as used here -/
def optParties (o1 o2 : List (Party E)) : List (Option (Party E)) := o1.map some ++ none :: o2.map some

/-- the secrets of the other parties, summed -/
def othersS (o1 o2 : List (Party E)) (i : ℕ) : E.Fr := sumS o1 i + sumS o2 i
def othersT (n : ℕ) (o1 o2 : List (Party E)) (i : ℕ) : E.Fr := sumT n o1 i + sumT n o2 i

theorem sumS_split (o1 o2 : List (Party E)) (f : ℕ → E.Fr) (i : ℕ) :
    sumS (o1 ++ ⟨tape E, f⟩ :: o2) i = f i + othersS o1 o2 i := by
  simp only [sumS, othersS, List.map_append, List.map_cons, List.sum_append, List.sum_cons]
  rw [show partyS (⟨tape E, f⟩ : Party E) i = f i from draw_tape f i]
  ring

theorem sumT_split (n : ℕ) (o1 o2 : List (Party E)) (f : ℕ → E.Fr) (i : ℕ) :
    sumT n (o1 ++ ⟨tape E, f⟩ :: o2) i = f (n + i) + othersT n o1 o2 i := by
  simp only [sumT, othersT, List.map_append, List.map_cons, List.sum_append, List.sum_cons]
  rw [show partyT n (⟨tape E, f⟩ : Party E) i = f (n + i) from draw_tape f _]
  ring

/-- what is published during key generation -/
theorem dkgTranscript_eq (parties : List (Party E)) (hne : parties ≠ []) {b n8 : UInt8}
    (gens : EncryptionGens E) (g_i : List E.G1) (D C : E.G1)
    (hn : chunksCount E.fr b = .ok n8) (hg : n8.toNat ≤ g_i.length) :
    dkgTranscript parties b gens g_i D C = .ok (
      parties.map (fun P => partialKey n8.toNat (partyS P) (partyT n8.toNat P) (fun i => g_i.getD i 0) D C gens.H),
      parties.map (fun P => ⟨partyT n8.toNat P 0 • D +
        ∑ j ∈ Finset.range n8.toNat, partyT n8.toNat P (j + 1) • sumS parties j • D⟩),
      encKey n8.toNat (sumS parties) (sumT n8.toNat parties) (fun i => g_i.getD i 0) D C gens.H) := by
  have hd := dkg_eq parties hne gens g_i D C hn hg
  unfold dkg at hd
  unfold dkgTranscript
  rw [dkgRound1_eq parties gens g_i D C hn hg] at hd ⊢
  generalize n8.toNat = n at hg hd ⊢
  simp only [Res.ok_bind, List.map_map, Function.comp_def] at hd ⊢
  rw [combine_honest parties hne] at hd ⊢
  simp only [Res.ok_bind] at hd ⊢
  have hm := mapRes_ok (l := parties.map fun P => partySK n P) (f := fun sk : SecretKeyST E => genP1share (E := E)
      { X_0 := D
        X := tab n fun i => sumS parties i • D
        Y := tab n fun i => sumT n parties (i + 1) • g_i.getD i 0
        Z := tab (n + 1) fun i => sumT n parties i • gens.H
        P_2 := (1 + ∑ i ∈ Finset.range n, sumS parties i) • C } sk)
    (g := fun sk : SecretKeyST E => (⟨sk.t.getD 0 0 • D
      + ∑ j ∈ Finset.range n, sk.t.getD (j + 1) 0 • sumS parties j • D⟩ : P1share E)) (by
    intro sk hsk
    obtain ⟨P, _, rfl⟩ := List.mem_map.mp hsk
    rw [genP1share_eq (by simp [partySK])]
    simp only [length_tab]
    congr 3
    apply Finset.sum_congr rfl
    intro i hi
    rw [getD_tab n, if_pos (Finset.mem_range.mp hi)])
  rw [hm] at hd ⊢
  simp only [Res.ok_bind] at hd ⊢
  obtain ⟨p1, hp1, hd⟩ := Res.bind_eq_ok.mp hd
  rw [hp1]
  simp only [Res.ok_bind, Res.pure_eq, Res.ok.injEq, Prod.mk.injEq] at hd ⊢
  refine ⟨trivial, ?_, hd.2⟩
  rw [List.map_map]
  refine List.map_congr_left fun P _ => ?_
  simp only [Function.comp_apply, partySK]
  congr 1
  rw [getD_tab (n + 1), if_pos (by omega)]
  congr 1
  refine Finset.sum_congr rfl fun j hj => ?_
  have := Finset.mem_range.mp hj
  rw [getD_tab (n + 1), if_pos (by omega)]

/-- the same, with one party on a tape -/
theorem dkg_elems (o1 o2 : List (Party E)) (f : ℕ → E.Fr) {b n8 : UInt8}
    (gens : EncryptionGens E) (g_i : List E.G1) (D C : E.G1)
    (hn : chunksCount E.fr b = .ok n8) (hg : n8.toNat ≤ g_i.length) :
    ∃ keys shares ek, dkgTranscript (o1 ++ ⟨tape E, f⟩ :: o2) b gens g_i D C = .ok (keys, shares, ek) ∧
      ek = encKey n8.toNat (fun i => f i + othersS o1 o2 i) (fun i => f (n8.toNat + i) + othersT n8.toNat o1 o2 i)
        (fun i => g_i.getD i 0) D C gens.H ∧
      (keys.map partialElems1).flatten ++ shares.map (·.P_1) ++ keyElems1 ek =
        dkgElems1 n8.toNat (fun i => g_i.getD i 0) D C gens.H (optParties o1 o2) f (fun i => f (n8.toNat + i))
          (fun i => f i + othersS o1 o2 i) (fun i => f (n8.toNat + i) + othersT n8.toNat o1 o2 i) ∧
      (keys.map (·.Z)).flatten ++ ek.Z =
        dkgElems2 n8.toNat gens.H (optParties o1 o2) (fun i => f (n8.toNat + i))
          (fun i => f (n8.toNat + i) + othersT n8.toNat o1 o2 i) := by
  refine ⟨_, _, _, dkgTranscript_eq _ (by simp) gens g_i D C hn hg, ?_, ?_, ?_⟩
  · rw [funext (sumS_split o1 o2 f), funext (sumT_split n8.toNat o1 o2 f)]
  · rw [funext (sumS_split o1 o2 f), funext (sumT_split n8.toNat o1 o2 f)]
    have h1 : partyS (⟨tape E, f⟩ : Party E) = f := funext fun i => draw_tape f i
    have h2 : partyT n8.toNat (⟨tape E, f⟩ : Party E) = fun i => f (n8.toNat + i) :=
      funext fun i => draw_tape f _
    simp only [dkgElems1, optParties, List.map_append, List.map_cons, List.map_map, h1, h2, oS, oT,
      Function.comp_def]
  · rw [funext (sumT_split n8.toNat o1 o2 f)]
    have h2 : partyT n8.toNat (⟨tape E, f⟩ : Party E) = fun i => f (n8.toNat + i) :=
      funext fun i => draw_tape f _
    simp only [dkgElems2, optParties, List.map_append, List.map_cons, List.map_map, h2, oT,
      Function.comp_def, partialKey, encKey]

end Sec
end Verif
