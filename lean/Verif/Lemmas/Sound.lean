/-
Helper lemmas for C60-C62: the published group elements as linear functions of the trapdoors, and
extraction from accepting strategies.
-/
import Verif.Props.Generic
import Verif.SpecAgm
import Verif.Lemmas.Agm

namespace Verif
open Spec

section
variable {E : Engine}

theorem comb_append {F G : Type} [Semiring F] [AddCommMonoid G] [Module F G] (k : ℕ → F)
    (l l' : List G) : comb k (l ++ l') = comb k l + comb (fun i => k (l.length + i)) l' := by
  unfold comb
  rw [List.length_append, Finset.sum_range_add]
  congr 1
  · apply Finset.sum_congr rfl
    intro i hi
    have := Finset.mem_range.mp hi
    rw [List.getD_append _ _ _ _ this]
  · apply Finset.sum_congr rfl
    intro i hi
    rw [List.getD_append_right _ _ _ _ (by omega), Nat.add_sub_cancel_left]

theorem comb_map {F G H : Type} [Semiring F] [AddCommMonoid G] [AddCommMonoid H] [Module F G]
    [Module F H] (k : ℕ → F) (l : List G) (f : G →ₗ[F] H) : comb k (l.map f) = f (comb k l) := by
  unfold comb
  rw [map_sum, List.length_map]
  apply Finset.sum_congr rfl
  intro i hi
  have := Finset.mem_range.mp hi
  rw [map_smul]
  simp only [List.getD_eq_getElem?_getD, List.getElem?_map, List.getElem?_eq_getElem this,
    Option.map_some, Option.getD_some]

theorem comb_tab {F G : Type} [Semiring F] [AddCommMonoid G] [Module F G] (k : ℕ → F)
    (n : ℕ) (f : ℕ → G) : comb k (tab n f) = ∑ i ∈ Finset.range n, k i • f i := by
  unfold comb
  rw [length_tab]
  apply Finset.sum_congr rfl
  intro i hi
  rw [getD_tab, if_pos (Finset.mem_range.mp hi)]

/-- components of a combination of vectors that are all zero there -/
theorem comb_zero {F : Type} [Field F] {m : ℕ} (k : ℕ → F) (l : List (Fin m → F)) (j : Fin m)
    (h : ∀ f ∈ l, f j = 0) : comb k l j = 0 := by
  unfold comb
  rw [Finset.sum_apply]
  apply Finset.sum_eq_zero
  intro i hi
  have hi := Finset.mem_range.mp hi
  rw [Pi.smul_apply, List.getD_eq_getElem?_getD, List.getElem?_eq_getElem hi, Option.getD_some,
    h _ (List.getElem_mem hi), smul_zero]

namespace Agm

/-- `ev1` as a linear map into the group -/
def evG (α β γ δ : E.Fr) (G : E.G1) : (Fin 11 → E.Fr) →ₗ[E.Fr] E.G1 where
  toFun f := ev1 f α β γ δ • G
  map_add' f g := by rw [← add_smul]; congr 1; simp only [ev1, Pi.add_apply]; ring
  map_smul' c f := by
    rw [RingHom.id_apply, smul_smul]; congr 1; simp only [ev1, Pi.smul_apply, smul_eq_mul]; ring

def evH (β γ δ : E.Fr) (H : E.G2) : (Fin 4 → E.Fr) →ₗ[E.Fr] E.G2 where
  toFun f := ev2 f β γ δ • H
  map_add' f g := by rw [← add_smul]; congr 1; simp only [ev2, Pi.add_apply]; ring
  map_smul' c f := by
    rw [RingHom.id_apply, smul_smul]; congr 1; simp only [ev2, Pi.smul_apply, smul_eq_mul]; ring

/-- the mixed element of variable `v`, over `gamma` -/
def mixG (cs : CS E.Fr) (u : ℕ → E.Fr) (v : Var) : Fin 11 → E.Fr :=
  ![0, 0, 0, 0, 0, qapB cs u v, qapA cs u v, qapC cs u v, 0, 0, 0]

/-- the published elements that do not depend on `t`, except `l_query` and `h_query` -/
def restA (cs : CS E.Fr) (u : ℕ → E.Fr) (n : ℕ) (s : ℕ → E.Fr) : List (Fin 11 → E.Fr) :=
  [![1, 0, 0, 0, 0, 0, 0, 0, 0, 0, 0], ![0, 1, 0, 0, 0, 0, 0, 0, 0, 0, 0],
    ![0, 0, 1, 0, 0, 0, 0, 0, 0, 0, 0], ![0, 0, 0, 1, 0, 0, 0, 0, 0, 0, 0],
    ![0, 0, 0, 0, -1, 0, 0, 0, 0, 0, 0]] ++
  (cs.vars.map (fun v => ![qapA cs u v, 0, 0, 0, 0, 0, 0, 0, 0, 0, 0]) ++
  (cs.vars.map (fun v => ![qapB cs u v, 0, 0, 0, 0, 0, 0, 0, 0, 0, 0]) ++
  (tab cs.numInst (fun i => mixG cs u (.inst i)) ++
  ([![0, 0, 0, 1, 0, 0, 0, 0, 0, 0, 0]] ++
  (tab n (fun i => ![0, 0, 0, s i, 0, 0, 0, 0, 0, 0, 0]) ++
  [![0, 0, 0, 0, -(1 + ∑ i ∈ Finset.range n, s i), 0, 0, 0, 0, 0, 0]])))))

def restT (cs : CS E.Fr) (u : ℕ → E.Fr) (n : ℕ) (s t : ℕ → E.Fr) : List (Fin 11 → E.Fr) :=
  tab n (fun i => t (i + 1) • mixG cs u (.inst (i + 1))) ++
  [![0, 0, 0, t 0 + ∑ i ∈ Finset.range n, s i * t (i + 1), 0, 0, 0, 0, 0, 0, 0]]

/-- `l_query` -/
def partL (cs : CS E.Fr) (u : ℕ → E.Fr) : List (Fin 11 → E.Fr) :=
  tab cs.numWit (fun i => ![0, 0, 0, 0, 0, 0, 0, 0, qapB cs u (.wit i), qapA cs u (.wit i),
    qapC cs u (.wit i)])

/-- `h_query` -/
def partH (d : EvalDomain E.Fr) (tau : E.Fr) : List (Fin 11 → E.Fr) :=
  tab (d.size - 1) (fun i => ![0, 0, 0, 0, 0, 0, 0, 0, 0, 0, d.vanishing tau * tau ^ i])

theorem public1_eq (cs : CS E.Fr) (d : EvalDomain E.Fr) (tau alpha beta gamma delta : E.Fr)
    (gens : EncryptionGens E) (n : ℕ) (s t : ℕ → E.Fr) (hn : cs.numInst = n + 1) (g_i : List E.G1)
    (hg : getGsForEncryption (srsKey cs d tau alpha beta gamma delta gens.G gens.H).pk.vk = .ok g_i) :
    public1 gens (srsKey cs d tau alpha beta gamma delta gens.G gens.H)
      (encKey n s t (fun i => g_i.getD i 0)
        (srsKey cs d tau alpha beta gamma delta gens.G gens.H).pk.delta_g1
        (srsKey cs d tau alpha beta gamma delta gens.G gens.H).gamma_g1 gens.H) =
    (partL cs (d.lagrange tau) ++ (partH d tau ++ (restA cs (d.lagrange tau) n s ++
      restT cs (d.lagrange tau) n s t))).map (evG alpha beta gamma delta gens.G) := by
  have hgi : ∀ i < n, g_i.getD i 0 =
      (mixAt cs (d.lagrange tau) alpha beta (.inst (i + 1)) * gamma⁻¹) • gens.G := by
    intro i hi
    rw [(getGs_inv hg).2 i]
    simp only [srsKey]
    rw [List.getD_eq_getElem?_getD, List.getElem?_map, List.getElem?_range (by omega)]
    rfl
  have hev : ∀ f, evG alpha beta gamma delta gens.G f = ev1 f alpha beta gamma delta • gens.G :=
    fun f => rfl
  unfold public1 partL partH restA restT
  simp only [List.map_append, map_tab, List.map_cons, List.map_nil, List.map_map, List.append_assoc]
  unfold srsKey encKey
  dsimp only
  refine congrArg₂ _ ?_ (congrArg₂ _ ?_ (congrArg₂ _ ?_ (congrArg₂ _ ?_ (congrArg₂ _ ?_
    (congrArg₂ _ ?_ (congrArg₂ _ ?_ (congrArg₂ _ ?_ (congrArg₂ _ ?_ (congrArg₂ _ ?_ ?_)))))))))
  · refine List.map_congr_left fun i _ => ?_
    rw [hev]
    congr 1
    simp [ev1, mixAt, -mul_eq_mul_right_iff]
    ring
  · refine List.map_congr_left fun i _ => ?_
    rw [hev]
    congr 1
    simp [ev1]
    ring
  · simp only [hev]
    simp [ev1]
  · refine List.map_congr_left fun v _ => ?_
    simp only [Function.comp_apply, hev]
    congr 1
    simp [ev1]
  · refine List.map_congr_left fun v _ => ?_
    simp only [Function.comp_apply, hev]
    congr 1
    simp [ev1]
  · refine List.map_congr_left fun i _ => ?_
    rw [hev]
    congr 1
    simp [ev1, mixAt, mixG, -mul_eq_mul_right_iff]
    ring
  · simp only [hev]
    simp [ev1]
  · refine List.map_congr_left fun i _ => ?_
    rw [hev, smul_smul]
    congr 1
    simp [ev1]
  · simp only [hev, smul_smul]
    simp [ev1]
    rw [← neg_smul]
    congr 1
    ring
  · refine List.map_congr_left fun i hi => ?_
    rw [hev, hgi i (List.mem_range.mp hi), smul_smul]
    congr 1
    simp [ev1, mixAt, mixG, -mul_eq_mul_right_iff]
    ring
  · simp only [hev, smul_smul]
    simp [ev1]

/-- the elements of the second group -/
def lf2 (cs : CS E.Fr) (u : ℕ → E.Fr) (n : ℕ) (s t v : ℕ → E.Fr) (rho : E.Fr) :
    List (Fin 4 → E.Fr) :=
  [![1, 0, 0, 0], ![0, 1, 0, 0], ![0, 0, 1, 0], ![0, 0, 0, 1]] ++
  (cs.vars.map (fun w => ![qapB cs u w, 0, 0, 0]) ++ (tab (n + 1) (fun i => ![t i, 0, 0, 0]) ++
  ([![rho, 0, 0, 0]] ++ (tab n (fun i => ![s i * v i, 0, 0, 0]) ++
    tab n (fun i => ![rho * v i, 0, 0, 0])))))

theorem public2_eq (cs : CS E.Fr) (d : EvalDomain E.Fr) (tau alpha beta gamma delta : E.Fr)
    (gens : EncryptionGens E) (n : ℕ) (s t v : ℕ → E.Fr) (rho : E.Fr) (g : ℕ → E.G1) (D C : E.G1) :
    public2 gens (srsKey cs d tau alpha beta gamma delta gens.G gens.H)
      (encKey n s t g D C gens.H) (decKey n rho s v gens.H) =
    (lf2 cs (d.lagrange tau) n s t v rho).map (evH beta gamma delta gens.H) := by
  have hev : ∀ f, evH beta gamma delta gens.H f = ev2 f beta gamma delta • gens.H :=
    fun f => rfl
  unfold public2 lf2
  simp only [List.map_append, map_tab, List.map_cons, List.map_nil, List.map_map]
  unfold srsKey encKey decKey
  dsimp only
  refine congrArg₂ _ ?_ (congrArg₂ _ ?_ (congrArg₂ _ ?_ (congrArg₂ _ ?_ (congrArg₂ _ ?_ ?_))))
  · simp only [hev]
    simp [ev2]
  · refine List.map_congr_left fun v _ => ?_
    simp only [Function.comp_apply, hev]
    congr 1
    simp [ev2]
  all_goals
    first
    | refine List.map_congr_left fun i _ => ?_
      rw [hev]
      congr 1
      simp [ev2]
    | simp only [hev]
      simp [ev2]

theorem componentSum_fieldCipher (n : ℕ) (s t : ℕ → E.Fr) (g : ℕ → E.G1) (D C : E.G1) (H : E.G2)
    (m : ℕ → E.Fr) (r : E.Fr) :
    componentSum (fieldCipher (encKey n s t g D C H) g m r) =
      (r * (1 + ∑ i ∈ Finset.range n, s i)) • D + ∑ i ∈ Finset.range n, m i • g i := by
  unfold componentSum fieldCipher encKey
  simp only [length_tab, sum_tab]
  have h : ∀ i ∈ Finset.range n, r • (tab n fun i => s i • D).getD i 0 + m i • g i =
      (r * s i) • D + m i • g i := by
    intro i hi
    rw [getD_tab, if_pos (Finset.mem_range.mp hi), smul_smul]
  rw [Finset.sum_congr rfl h, Finset.sum_add_distrib, ← Finset.sum_smul, ← Finset.mul_sum]
  module

/-- the third proof element's components on the witness part -/
theorem comb_components (k : ℕ → E.Fr) (cs : CS E.Fr) (d : EvalDomain E.Fr) (tau : E.Fr) (n : ℕ)
    (s t : ℕ → E.Fr) :
    let f := comb k (partL cs (d.lagrange tau) ++ (partH d tau ++ (restA cs (d.lagrange tau) n s ++
      restT cs (d.lagrange tau) n s t)))
    f 8 = ∑ i ∈ Finset.range cs.numWit, k i * qapB cs (d.lagrange tau) (.wit i) ∧
    f 9 = ∑ i ∈ Finset.range cs.numWit, k i * qapA cs (d.lagrange tau) (.wit i) ∧
    f 10 = (∑ i ∈ Finset.range cs.numWit, k i * qapC cs (d.lagrange tau) (.wit i)) +
      (∑ i ∈ Finset.range (d.size - 1), k (cs.numWit + i) * tau ^ i) * d.vanishing tau := by
  have hrest : ∀ j : Fin 11, j = 8 ∨ j = 9 ∨ j = 10 → ∀ f ∈ restA cs (d.lagrange tau) n s ++
      restT cs (d.lagrange tau) n s t, f j = 0 := by
    intro j hj f hf
    unfold restA restT tab at hf
    simp only [List.mem_append, List.mem_cons, List.mem_map, List.not_mem_nil, or_false] at hf
    rcases hf with (((rfl | rfl | rfl | rfl | rfl) | ⟨v, -, rfl⟩ | ⟨v, -, rfl⟩ | ⟨v, -, rfl⟩ | rfl |
      ⟨v, -, rfl⟩ | rfl) | ⟨v, -, rfl⟩ | rfl) <;> rcases hj with rfl | rfl | rfl <;>
      simp [mixG]
  intro f
  have hf : ∀ j : Fin 11, j = 8 ∨ j = 9 ∨ j = 10 → f j = comb k (partL cs (d.lagrange tau)) j +
      comb (fun i => k (cs.numWit + i)) (partH d tau) j := by
    intro j hj
    simp only [f]
    rw [comb_append, comb_append, Pi.add_apply, Pi.add_apply, comb_zero _ _ j (hrest j hj), add_zero]
    simp only [partL, length_tab]
  refine ⟨?_, ?_, ?_⟩
  · rw [hf 8 (by simp), partL, partH, comb_tab, comb_tab]
    simp [Finset.sum_apply]
  · rw [hf 9 (by simp), partL, partH, comb_tab, comb_tab]
    simp [Finset.sum_apply]
  · rw [hf 10 (by simp), partL, partH, comb_tab, comb_tab]
    simp only [Finset.sum_apply, Pi.smul_apply, smul_eq_mul]
    congr 1
    rw [Finset.sum_mul]
    apply Finset.sum_congr rfl
    intro i _
    simp
    ring

theorem smul_left_cancel {V : Type} [AddCommGroup V] [Module E.Fr V] {v : V} (hv : v ≠ 0)
    {x y : E.Fr} (h : x • v = y • v) : x = y :=
  smul_left_injective E.Fr hv h

/-- `ev1` as a linear map -/
def evL {F : Type} [Field F] (α β γ δ : F) : (Fin 11 → F) →ₗ[F] F where
  toFun f := ev1 f α β γ δ
  map_add' f g := by simp only [ev1, Pi.add_apply]; ring
  map_smul' c f := by
    rw [RingHom.id_apply]; simp only [ev1, Pi.smul_apply, smul_eq_mul]; ring

/-- all published elements of the first group, as coefficient vectors -/
def all1 (cs : CS E.Fr) (d : EvalDomain E.Fr) (tau : E.Fr) (n : ℕ) (s t : ℕ → E.Fr) :
    List (Fin 11 → E.Fr) :=
  partL cs (d.lagrange tau) ++ (partH d tau ++ (restA cs (d.lagrange tau) n s ++
    restT cs (d.lagrange tau) n s t))

/-- The proof check, in terms of discrete logarithms. -/
theorem verify_iff (cs : CS E.Fr) (d : EvalDomain E.Fr) (tau alpha beta gamma delta : E.Fr)
    (n : ℕ) (hn : cs.numInst = n + 1) (gens : EncryptionGens E) (hG : gens.G ≠ 0) (hH : gens.H ≠ 0)
    (s t v : ℕ → E.Fr) (rho : E.Fr) (ka kb kc : ℕ → E.Fr) (pk : ProvingKey E)
    (hpk : pk = srsKey cs d tau alpha beta gamma delta gens.G gens.H) (g_i : List E.G1)
    (hg : getGsForEncryption pk.pk.vk = .ok g_i) (ek : EncryptionKey E)
    (hek : ek = encKey n s t (fun i => g_i.getD i 0) pk.pk.delta_g1 pk.gamma_g1 gens.H)
    (ct : Ciphertext E) (q : E.Fr) (hct : ct.X_r + ct.enc_chunks.sum = q • gens.G) :
    verifyProof (prepareVerifyingKey pk.pk.vk)
      ⟨comb ka (public1 gens pk ek), comb kb (public2 gens pk ek (decKey n rho s v gens.H)),
        comb kc (public1 gens pk ek)⟩ ct = .ok () ↔
    ev1 (comb ka (all1 cs d tau n s t)) alpha beta gamma delta *
      ev2 (comb kb (lf2 cs (d.lagrange tau) n s t v rho)) beta gamma delta =
      alpha * beta + ev1 (comb kc (all1 cs d tau n s t)) alpha beta gamma delta * delta +
      (q + mixAt cs (d.lagrange tau) alpha beta (.inst 0) * gamma⁻¹) * gamma := by
  have hgt : E.e gens.G gens.H ≠ 0 := by
    intro h0
    rcases E.nondeg _ _ h0 with h0 | h0
    · exact hG h0
    · exact hH h0
  subst hpk hek
  rw [verifyProof_eq _ _ _ (getGs_inv hg).1, public1_eq cs d tau alpha beta gamma delta gens n s t hn g_i
    hg, public2_eq, comb_map, comb_map, comb_map, hct]
  have hgab : (srsKey cs d tau alpha beta gamma delta gens.G gens.H).pk.vk.gamma_abc_g1.getD 0 0 =
      (mixAt cs (d.lagrange tau) alpha beta (.inst 0) * gamma⁻¹) • gens.G := by
    simp only [srsKey]
    rw [List.getD_eq_getElem?_getD, List.getElem?_map, List.getElem?_range (by omega)]
    rfl
  have hev1 : ∀ f, evG alpha beta gamma delta gens.G f = ev1 f alpha beta gamma delta • gens.G :=
    fun f => rfl
  have hev2 : ∀ f, evH beta gamma delta gens.H f = ev2 f beta gamma delta • gens.H := fun f => rfl
  have hite : ∀ (P : Prop) [Decidable P], (if P then Res.ok () else Res.err SaverError.pairingCheckFailed)
      = Res.ok () ↔ P := by
    intro P _
    by_cases hP : P <;> simp [hP]
  rw [hite, hgab]
  dsimp only
  rw [hev1, hev2, hev1, ← add_smul]
  have hvk : (srsKey cs d tau alpha beta gamma delta gens.G gens.H).pk.vk.alpha_g1 = alpha • gens.G ∧
      (srsKey cs d tau alpha beta gamma delta gens.G gens.H).pk.vk.beta_g2 = beta • gens.H ∧
      (srsKey cs d tau alpha beta gamma delta gens.G gens.H).pk.vk.gamma_g2 = gamma • gens.H ∧
      (srsKey cs d tau alpha beta gamma delta gens.G gens.H).pk.vk.delta_g2 = delta • gens.H :=
    ⟨rfl, rfl, rfl, rfl⟩
  obtain ⟨v1, v2, v3, v4⟩ := hvk
  rw [v1, v2, v3, v4]
  simp only [map_smul, LinearMap.smul_apply, smul_smul, ← add_smul]
  constructor
  · intro h
    have := smul_left_cancel hgt h
    unfold all1
    linear_combination this
  · intro h
    congr 1
    unfold all1 at h
    linear_combination h

/-- If the check accepts for all trapdoors, the coefficients of the third proof element on `l_query` are
a witness. -/
theorem witness_of_accepted (cs : CS E.Fr) (d : EvalDomain E.Fr)
    (hN : cs.cons.length + cs.numInst ≤ d.size) (hp : 3 * d.size < E.fr.p) (hp5 : 5 ≤ E.fr.p)
    (n : ℕ) (hn : cs.numInst = n + 1)
    (s t v : ℕ → E.Fr) (rho : E.Fr) (ka kb kc : ℕ → E.Fr) (m : ℕ → E.Fr) (r : E.Fr)
    (h : ∀ tau alpha beta gamma delta : E.Fr, d.vanishing tau ≠ 0 → gamma ≠ 0 → delta ≠ 0 →
      ev1 (comb ka (all1 cs d tau n s t)) alpha beta gamma delta *
      ev2 (comb kb (lf2 cs (d.lagrange tau) n s t v rho)) beta gamma delta =
      alpha * beta + ev1 (comb kc (all1 cs d tau n s t)) alpha beta gamma delta * delta +
      ((r * (1 + ∑ i ∈ Finset.range n, s i)) * delta + (∑ i ∈ Finset.range n, m i *
        (mixAt cs (d.lagrange tau) alpha beta (.inst (i + 1)) * gamma⁻¹)) +
        mixAt cs (d.lagrange tau) alpha beta (.inst 0) * gamma⁻¹) * gamma) :
    ∀ row ∈ cs.cons, row.Holds (lookup (1 :: tab n m)) (lookup (tab cs.numWit kc)) := by
  have hcard : Fintype.card E.Fr = E.fr.p := ZMod.card _
  have key := qap_sound { cs with inst := 1 :: tab n m, wit := tab cs.numWit kc } (by simp [hn])
    (by simp) d hN (by rw [hcard]; exact hp) (fun i => kc (cs.numWit + i)) ?_
  · exact key
  intro tau htau
  obtain ⟨c8, c9, c10⟩ := comb_components kc cs d tau n s t
  have hcore := core (by rw [hcard]; exact hp5) (comb ka (all1 cs d tau n s t))
    (comb kc (all1 cs d tau n s t))
    (comb kb (lf2 cs (d.lagrange tau) n s t v rho))
    (∑ i ∈ Finset.range (n + 1), lookup (1 :: tab n m) i * qapB cs (d.lagrange tau) (.inst i))
    (∑ i ∈ Finset.range (n + 1), lookup (1 :: tab n m) i * qapA cs (d.lagrange tau) (.inst i))
    (∑ i ∈ Finset.range (n + 1), lookup (1 :: tab n m) i * qapC cs (d.lagrange tau) (.inst i))
    (r * (1 + ∑ i ∈ Finset.range n, s i)) ?_
  · unfold all1 at hcore
    rw [c8, c9, c10] at hcore
    unfold wsum
    have e : ∀ f : Var → E.Fr, ∑ i ∈ Finset.range cs.numWit, kc i * f (.wit i) =
        ∑ i ∈ Finset.range cs.numWit, lookup (tab cs.numWit kc) i * f (.wit i) := by
      intro f
      apply Finset.sum_congr rfl
      intro i hi
      unfold lookup
      rw [getD_tab, if_pos (Finset.mem_range.mp hi)]
    rw [e, e, e] at hcore
    have hcs : ∀ u, qapA { cs with inst := 1 :: tab n m, wit := tab cs.numWit kc } u = qapA cs u ∧
        qapB { cs with inst := 1 :: tab n m, wit := tab cs.numWit kc } u = qapB cs u ∧
        qapC { cs with inst := 1 :: tab n m, wit := tab cs.numWit kc } u = qapC cs u := by
      intro u
      refine ⟨?_, rfl, rfl⟩
      funext w
      cases w <;> rfl
    rw [(hcs _).1, (hcs _).2.1, (hcs _).2.2]
    dsimp only
    rw [hn]
    linear_combination hcore
  intro alpha beta gamma delta hgam hdel
  have hacc := h tau alpha beta gamma delta htau hgam hdel
  have hmix : ∑ i ∈ Finset.range (n + 1), lookup (1 :: tab n m) i *
      mixAt cs (d.lagrange tau) alpha beta (.inst i) =
      (∑ i ∈ Finset.range (n + 1), lookup (1 :: tab n m) i * qapB cs (d.lagrange tau) (.inst i)) * alpha +
      (∑ i ∈ Finset.range (n + 1), lookup (1 :: tab n m) i * qapA cs (d.lagrange tau) (.inst i)) * beta +
      ∑ i ∈ Finset.range (n + 1), lookup (1 :: tab n m) i * qapC cs (d.lagrange tau) (.inst i) := by
    rw [Finset.sum_mul, Finset.sum_mul, ← Finset.sum_add_distrib, ← Finset.sum_add_distrib]
    apply Finset.sum_congr rfl
    intro i _
    unfold mixAt
    ring
  have hin : (∑ i ∈ Finset.range n, m i *
        (mixAt cs (d.lagrange tau) alpha beta (.inst (i + 1)) * gamma⁻¹)) +
        mixAt cs (d.lagrange tau) alpha beta (.inst 0) * gamma⁻¹ =
      (∑ i ∈ Finset.range (n + 1), lookup (1 :: tab n m) i *
        mixAt cs (d.lagrange tau) alpha beta (.inst i)) * gamma⁻¹ := by
    rw [Finset.sum_range_succ', add_mul]
    congr 1
    · rw [Finset.sum_mul]
      apply Finset.sum_congr rfl
      intro i hi
      have hi := Finset.mem_range.mp hi
      have : lookup (1 :: tab n m) (i + 1) = m i := by
        unfold lookup
        rw [List.getD_cons_succ, getD_tab, if_pos hi]
      rw [this, mul_assoc]
    · have : lookup (1 :: tab n m) 0 = 1 := rfl
      rw [this, one_mul]
  rw [add_assoc (r * _ * delta), hin, hmix] at hacc
  linear_combination hacc

/-- position of `Y_0` in the list of published elements -/
def baseLen (cs : CS E.Fr) (d : EvalDomain E.Fr) (n : ℕ) : ℕ :=
  cs.numWit + ((d.size - 1) + (5 + (cs.vars.length + (cs.vars.length + (cs.numInst + (1 + (n + 1)))))))

/-- the part of a combination that does not depend on `t` -/
def freePart (cs : CS E.Fr) (d : EvalDomain E.Fr) (tau alpha beta gamma delta : E.Fr) (n : ℕ)
    (s : ℕ → E.Fr) (k : ℕ → E.Fr) : E.Fr :=
  ev1 (comb k (partL cs (d.lagrange tau) ++ (partH d tau ++ restA cs (d.lagrange tau) n s)))
    alpha beta gamma delta

theorem comb_all1 (cs : CS E.Fr) (d : EvalDomain E.Fr) (tau alpha beta gamma delta : E.Fr) (n : ℕ)
    (s t : ℕ → E.Fr) (k : ℕ → E.Fr) :
    ev1 (comb k (all1 cs d tau n s t)) alpha beta gamma delta =
      freePart cs d tau alpha beta gamma delta n s k +
      (∑ l ∈ Finset.range n, k (baseLen cs d n + l) *
        (t (l + 1) * (mixAt cs (d.lagrange tau) alpha beta (.inst (l + 1)) * gamma⁻¹))) +
      k (baseLen cs d n + n) * ((t 0 + ∑ i ∈ Finset.range n, s i * t (i + 1)) * delta) := by
  have hlen : (partL cs (d.lagrange tau) ++ (partH d tau ++ restA cs (d.lagrange tau) n s)).length =
      baseLen cs d n := by
    simp [partL, partH, restA, baseLen]
    omega
  have hL : ∀ f, ev1 f alpha beta gamma delta = evL alpha beta gamma delta f := fun f => rfl
  have happ : all1 cs d tau n s t = (partL cs (d.lagrange tau) ++ (partH d tau ++
      restA cs (d.lagrange tau) n s)) ++ restT cs (d.lagrange tau) n s t := by
    simp [all1]
  rw [happ, comb_append, hlen, hL, map_add, ← hL, freePart, add_assoc]
  congr 1
  unfold restT
  rw [comb_append, comb_tab, map_add, map_sum, length_tab]
  congr 1
  · apply Finset.sum_congr rfl
    intro l _
    rw [map_smul, map_smul, smul_eq_mul, smul_eq_mul]
    congr 2
    rw [← hL]
    simp [ev1, mixG, mixAt, -mul_eq_mul_right_iff]
    ring
  · unfold comb
    simp only [List.length_singleton, Finset.sum_range_one, List.getD_cons_zero, add_zero, map_smul,
      smul_eq_mul]
    congr 1
    rw [← hL]
    simp [ev1]

/-- the coefficient of `t_l` in a combination -/
def lin (cs : CS E.Fr) (d : EvalDomain E.Fr) (tau alpha beta gamma delta : E.Fr) (n : ℕ)
    (s : ℕ → E.Fr) (k : ℕ → E.Fr) : ℕ → E.Fr
  | 0 => k (baseLen cs d n + n) * delta
  | l + 1 => k (baseLen cs d n + l) * (mixAt cs (d.lagrange tau) alpha beta (.inst (l + 1)) * gamma⁻¹) +
      k (baseLen cs d n + n) * (s l * delta)

theorem comb_lin (cs : CS E.Fr) (d : EvalDomain E.Fr) (tau alpha beta gamma delta : E.Fr) (n : ℕ)
    (s t : ℕ → E.Fr) (k : ℕ → E.Fr) :
    ev1 (comb k (all1 cs d tau n s t)) alpha beta gamma delta =
      freePart cs d tau alpha beta gamma delta n s k +
      ∑ l ∈ Finset.range (n + 1), lin cs d tau alpha beta gamma delta n s k l * t l := by
  rw [comb_all1, add_assoc]
  congr 1
  rw [Finset.sum_range_succ']
  simp only [lin]
  rw [add_mul, Finset.sum_mul, mul_add, Finset.mul_sum, ← add_assoc, add_right_comm,
    ← Finset.sum_add_distrib]
  congr 1
  · apply Finset.sum_congr rfl
    intro i _
    ring
  · ring

theorem exists_outside (d : EvalDomain E.Fr) (hp : 3 * d.size < E.fr.p) :
    ∃ tau, d.vanishing tau ≠ 0 := by
  have h := card_outside d
  have hcard : Fintype.card E.Fr = E.fr.p := ZMod.card _
  have : 0 < (Finset.univ.filter fun t => d.vanishing t ≠ 0).card := by omega
  obtain ⟨t, ht⟩ := Finset.card_pos.mp this
  exact ⟨t, (Finset.mem_filter.mp ht).2⟩

/-- Extraction from the commitment check: a strategy whose ciphertext satisfies the commitment equation
for all trapdoors and secrets outputs the SAVER ciphertext of the coefficients of `psi`. -/
theorem commit_extract (cs : CS E.Fr) (d : EvalDomain E.Fr)
    (hN : cs.cons.length + cs.numInst ≤ d.size) (hp : 3 * d.size < E.fr.p)
    (n : ℕ) (hn : cs.numInst = n + 1) (kx kpsi : ℕ → E.Fr) (kc : ℕ → ℕ → E.Fr)
    (h : ∀ (tau alpha beta gamma delta : E.Fr) (s t : ℕ → E.Fr), d.vanishing tau ≠ 0 → gamma ≠ 0 →
      delta ≠ 0 →
      ev1 (comb kpsi (all1 cs d tau n s t)) alpha beta gamma delta =
        t 0 * ev1 (comb kx (all1 cs d tau n s t)) alpha beta gamma delta +
        ∑ i ∈ Finset.range n, t (i + 1) *
          ev1 (comb (kc i) (all1 cs d tau n s t)) alpha beta gamma delta)
    (tau alpha beta gamma delta : E.Fr) (s t : ℕ → E.Fr) (htau : d.vanishing tau ≠ 0)
    (hgam : gamma ≠ 0) (hdel : delta ≠ 0) :
    ev1 (comb kx (all1 cs d tau n s t)) alpha beta gamma delta =
      kpsi (baseLen cs d n + n) * delta ∧
    (∀ i < n, ev1 (comb (kc i) (all1 cs d tau n s t)) alpha beta gamma delta =
      kpsi (baseLen cs d n + n) * (s i * delta) + kpsi (baseLen cs d n + i) *
        (mixAt cs (d.lagrange tau) alpha beta (.inst (i + 1)) * gamma⁻¹)) ∧
    ev1 (comb kpsi (all1 cs d tau n s t)) alpha beta gamma delta =
      (∑ i ∈ Finset.range n, kpsi (baseLen cs d n + i) * (t (i + 1) *
        (mixAt cs (d.lagrange tau) alpha beta (.inst (i + 1)) * gamma⁻¹))) +
      kpsi (baseLen cs d n + n) * ((t 0 + ∑ i ∈ Finset.range n, s i * t (i + 1)) * delta) := by
  have hcard : Fintype.card E.Fr = E.fr.p := ZMod.card _
  have hF : 3 * d.size < Fintype.card E.Fr := by rw [hcard]; exact hp
  have hsz := d.size_pos
  have h2 : (2 : E.Fr) ≠ 0 := by
    intro h0
    have h1 : ((2 : ℕ) : ZMod E.fr.p) = 0 := by exact_mod_cast h0
    rw [ZMod.natCast_eq_zero_iff] at h1
    have := Nat.le_of_dvd (by norm_num) h1
    omega
  let kk : ℕ → ℕ → E.Fr := fun j => match j with
    | 0 => kx
    | j + 1 => kc j
  have key : ∀ (tau alpha beta gamma delta : E.Fr) (s : ℕ → E.Fr), d.vanishing tau ≠ 0 → gamma ≠ 0 →
      delta ≠ 0 → freePart cs d tau alpha beta gamma delta n s kpsi = 0 ∧
      (∀ k < n + 1, lin cs d tau alpha beta gamma delta n s kpsi k =
        freePart cs d tau alpha beta gamma delta n s (kk k) ∧
        lin cs d tau alpha beta gamma delta n s (kk k) k = 0) ∧
      ∀ k < n + 1, ∀ l < n + 1, lin cs d tau alpha beta gamma delta n s (kk k) l +
        lin cs d tau alpha beta gamma delta n s (kk l) k = 0 := by
    intro tau alpha beta gamma delta s h1 h3 h4
    apply quad h2 (n + 1) _ _ _ (fun k l => lin cs d tau alpha beta gamma delta n s (kk k) l)
    intro t
    have := h tau alpha beta gamma delta s t h1 h3 h4
    simp only [comb_lin] at this
    refine (this.trans (add_comm _ _)).trans (Finset.sum_range_succ' (fun k => t k *
      (freePart cs d tau alpha beta gamma delta n s (kk k) +
        ∑ l ∈ Finset.range (n + 1), lin cs d tau alpha beta gamma delta n s (kk k) l * t l)) n).symm
  obtain ⟨tau0, ht0⟩ := exists_outside d hp
  have hone : (-1 : E.Fr) ≠ 0 := neg_ne_zero.mpr one_ne_zero
  -- coefficients on `P_1`
  have p0 : kx (baseLen cs d n + n) = 0 := by
    have := ((key tau0 0 0 1 1 (fun _ => 0) ht0 one_ne_zero one_ne_zero).2.1 0 (by omega)).2
    simpa [lin, kk] using this
  have cross : ∀ l < n, kc l (baseLen cs d n + n) = 0 ∧ kx (baseLen cs d n + l) = 0 := by
    intro l hl
    have hx : ∀ tau beta delta : E.Fr, d.vanishing tau ≠ 0 → delta ≠ 0 →
        kx (baseLen cs d n + l) * mixAt cs (d.lagrange tau) 0 beta (.inst (l + 1)) +
          kc l (baseLen cs d n + n) * delta = 0 := by
      intro tau beta delta h1 h3
      have := (key tau 0 beta 1 delta (fun _ => 0) h1 one_ne_zero h3).2.2 0 (by omega) (l + 1)
        (by omega)
      simpa [lin, kk, p0] using this
    have hc : kc l (baseLen cs d n + n) = 0 := by
      have e1 := hx tau0 0 1 ht0 one_ne_zero
      have e2 := hx tau0 0 (-1) ht0 hone
      have : (2 : E.Fr) * kc l (baseLen cs d n + n) = 0 := by linear_combination e1 - e2
      exact (mul_eq_zero.mp this).resolve_left h2
    refine ⟨hc, ?_⟩
    have := inst_indep cs d hN hF (fun i => if i = l + 1 then kx (baseLen cs d n + l) else 0) (by
      intro tau htau
      have e1 := hx tau 1 1 htau one_ne_zero
      have e0 := hx tau 0 1 htau one_ne_zero
      simp only [ite_mul, zero_mul, Finset.sum_ite_eq', Finset.mem_range]
      rw [if_pos (by omega)]
      unfold mixAt at e1 e0
      linear_combination e1 - e0) (l + 1) (by omega)
    simpa using this
  have inner : ∀ k < n, ∀ l < n, kc k (baseLen cs d n + l) = 0 := by
    intro k hk l hl
    have hx : ∀ tau beta : E.Fr, d.vanishing tau ≠ 0 →
        kc k (baseLen cs d n + l) * mixAt cs (d.lagrange tau) 0 beta (.inst (l + 1)) +
        kc l (baseLen cs d n + k) * mixAt cs (d.lagrange tau) 0 beta (.inst (k + 1)) = 0 := by
      intro tau beta h1
      have := (key tau 0 beta 1 1 (fun _ => 0) h1 one_ne_zero one_ne_zero).2.2 (k + 1) (by omega) (l + 1)
        (by omega)
      simpa [lin, kk] using this
    have := inst_indep cs d hN hF (fun i => (if i = l + 1 then kc k (baseLen cs d n + l) else 0) +
        if i = k + 1 then kc l (baseLen cs d n + k) else 0) (by
      intro tau htau
      have e1 := hx tau 1 htau
      have e0 := hx tau 0 htau
      simp only [add_mul, ite_mul, zero_mul, Finset.sum_add_distrib, Finset.sum_ite_eq',
        Finset.mem_range]
      rw [if_pos (by omega), if_pos (by omega)]
      unfold mixAt at e1 e0
      linear_combination e1 - e0) (l + 1) (by omega)
    by_cases hkl : k = l
    · subst hkl
      simp only [if_true] at this
      have : (2 : E.Fr) * kc k (baseLen cs d n + k) = 0 := by linear_combination this
      exact (mul_eq_zero.mp this).resolve_left h2
    · simpa [Ne.symm hkl] using this
  have zero0 : ∀ l < n + 1, lin cs d tau alpha beta gamma delta n s kx l = 0 := by
    rintro (_ | l) hl
    · simp [lin, p0]
    · simp [lin, p0, (cross l (by omega)).2]
  have zero1 : ∀ i < n, ∀ l < n + 1, lin cs d tau alpha beta gamma delta n s (kc i) l = 0 := by
    rintro i hi (_ | l) hl
    · simp [lin, (cross i hi).1]
    · simp [lin, (cross i hi).1, inner i hi l (by omega)]
  obtain ⟨f0, f1, -⟩ := key tau alpha beta gamma delta s htau hgam hdel
  refine ⟨?_, ?_, ?_⟩
  · rw [comb_lin, Finset.sum_eq_zero (fun l hl => by
      rw [zero0 l (Finset.mem_range.mp hl), zero_mul]), add_zero]
    exact (f1 0 (by omega)).1.symm
  · intro i hi
    rw [comb_lin, Finset.sum_eq_zero (fun l hl => by
      rw [zero1 i hi l (Finset.mem_range.mp hl), zero_mul]), add_zero]
    refine (f1 (i + 1) (by omega)).1.symm.trans ?_
    simp only [lin]
    ring
  · rw [comb_all1, f0, zero_add]

end Agm

theorem after_tape (f : ℕ → E.Fr) (k : ℕ) : after (tape E) f k = fun i => f (k + i) := by
  induction k with
  | zero => funext i; rw [Nat.zero_add]; rfl
  | succ k ih =>
    refine (after_after (tape E) f k 1).symm.trans ((congrArg (fun g => after (tape E) g 1) ih).trans
      (funext fun i => ?_))
    show f (k + (i + 1)) = f (k + 1 + i)
    congr 1
    omega

theorem draw_tape (f : ℕ → E.Fr) (k : ℕ) : draw (tape E) f k = f k := by
  unfold draw
  rw [after_tape]
  rfl

/-- `generate_srs` for the bit-size circuit, when the first candidate for the evaluation point is
outside the domain -/
theorem srs_run (T : FftCfg E.Fr) (R : RngCore E) (fuel : ℕ) (hf : 0 < fuel) (st : R.σ) (b n : UInt8)
    (hn : chunksCount E.fr b = .ok n) (hbm : b.toNat ≤ E.fr.modBits) (c0 : BitsizeCheckCircuit E.fr)
    (hc0 : BitsizeCheckCircuit.new (K := E.fr) b none none true = .ok c0) (cs : CS E.Fr)
    (hcs : c0.generateConstraints (CS.new true) = .ok cs) (gens : EncryptionGens E)
    (d : EvalDomain E.Fr)
    (hd : T.newDomain (n.toNat * constraintsPerValue E.fr.modBits b.toNat + (n.toNat + 1)) = some d)
    (h2 : draw R st 2 ≠ 0) (h3 : draw R st 3 ≠ 0) (h4 : d.vanishing (draw R st 4) ≠ 0) :
    generateSrs T R fuel st c0.generateConstraints gens =
      .ok (srsKey cs d (draw R st 4) (draw R st 0) (draw R st 1) (draw R st 2) (draw R st 3)
        gens.G gens.H, after R st 5) := by
  have hb0 : b ≠ 0 := by
    rintro rfl
    simp [chunksCount] at hn
  obtain ⟨c0', N, hc0', hN, -, hsome⟩ := C49_srs_cases T R fuel st b hb0 hbm gens
  rw [hc0] at hc0'
  cases hc0'
  obtain ⟨e1, e2, e3, e4, -⟩ := new_ok hc0
  have hn0 : c0.num_values = n := by
    have := e4 rfl
    rw [hn] at this
    exact (Res.ok.inj this).symm
  have hnum : numValues c0 = n.toNat := by simp [numValues, e2, hn0]
  rw [hnum] at hN
  rw [← hN] at hd
  obtain ⟨pk, hsrs⟩ := (hsome d hd 0 hf h4 (by simp)).2 h2 h3
  obtain ⟨cs', d', k, hcs', hd', hk, hv, hv', -, -, hst, hpk⟩ := srs_inv_draws hsrs
  rw [hcs] at hcs'
  cases hcs'
  obtain ⟨cs1, hcs1, hI, hC, -⟩ := (C44_shape c0 true).1 (Or.inl rfl) (by rw [e1]; exact hbm)
  rw [hcs] at hcs1
  cases hcs1
  rw [e3, if_pos rfl, hnum] at hI
  rw [e1, hnum] at hC
  rw [hI, hC, ← hN, hd] at hd'
  cases hd'
  have hk0 : k = 0 := by
    by_contra hc
    exact h4 (hv' 0 (by omega))
  subst hk0
  rw [hsrs, hpk]

theorem gs_of_srs (cs : CS E.Fr) (d : EvalDomain E.Fr) (tau alpha beta gamma delta : E.Fr) (G : E.G1)
    (H : E.G2) (n : ℕ) (hn : cs.numInst = n + 1) :
    getGsForEncryption (srsKey cs d tau alpha beta gamma delta G H).pk.vk =
      .ok (tab n fun i => (mixAt cs (d.lagrange tau) alpha beta (.inst (i + 1)) * gamma⁻¹) • G) := by
  unfold getGsForEncryption
  simp only [srsKey, hn, List.range_succ_eq_map, List.map_cons]
  refine congrArg Res.ok ?_
  unfold tab
  simp only [List.map_map]
  rfl

/-- `setup_for_groth16` under the same conditions -/
theorem setup_run (T : FftCfg E.Fr) (R : RngCore E) (fuel : ℕ) (hf : 0 < fuel) (st : R.σ) (b n : UInt8)
    (hn : chunksCount E.fr b = .ok n) (hbm : b.toNat ≤ E.fr.modBits) (c0 : BitsizeCheckCircuit E.fr)
    (hc0 : BitsizeCheckCircuit.new (K := E.fr) b none none true = .ok c0) (cs : CS E.Fr)
    (hcs : c0.generateConstraints (CS.new true) = .ok cs) (hI : cs.numInst = n.toNat + 1)
    (gens : EncryptionGens E) (d : EvalDomain E.Fr)
    (hd : T.newDomain (n.toNat * constraintsPerValue E.fr.modBits b.toNat + (n.toNat + 1)) = some d)
    (h2 : draw R st 2 ≠ 0) (h3 : draw R st 3 ≠ 0) (h4 : d.vanishing (draw R st 4) ≠ 0) :
    setupForGroth16 T R fuel st b gens =
      .ok ((srsKey cs d (draw R st 4) (draw R st 0) (draw R st 1) (draw R st 2) (draw R st 3)
          gens.G gens.H, ⟨draw R st 5⟩,
        encKey n.toNat (fun i => draw R st (6 + i)) (fun i => draw R st (6 + n.toNat + i))
          (fun i => (tab n.toNat fun i => (mixAt cs (d.lagrange (draw R st 4)) (draw R st 0) (draw R st 1)
            (.inst (i + 1)) * (draw R st 2)⁻¹) • gens.G).getD i 0)
          (draw R st 3 • gens.G) ((-draw R st 2) • gens.G) gens.H,
        decKey n.toNat (draw R st 5) (fun i => draw R st (6 + i))
          (fun i => draw R st (7 + 2 * n.toNat + i)) gens.H),
        after R st (7 + 3 * n.toNat)) := by
  unfold setupForGroth16
  rw [hc0, Res.ok_bind, srs_run T R fuel hf st b n hn hbm c0 hc0 cs hcs gens d hd h2 h3 h4, Res.ok_bind]
  dsimp only
  rw [gs_of_srs cs d _ _ _ _ _ _ _ n.toNat hI, Res.ok_bind,
    keygen_eq R _ gens _ _ _ hn (by simp), Res.ok_bind]
  simp only [draw_after, after_after, Res.pure_eq]
  have a1 : ∀ i, 5 + (1 + i) = 6 + i := fun i => by omega
  have a2 : ∀ i, 5 + (1 + n.toNat + i) = 6 + n.toNat + i := fun i => by omega
  have a3 : ∀ i, 5 + (2 + 2 * n.toNat + i) = 7 + 2 * n.toNat + i := fun i => by omega
  have a4 : 5 + (2 + 3 * n.toNat) = 7 + 3 * n.toNat := by omega
  simp only [a1, a2, a3, a4, Nat.add_zero]
  rfl

namespace Agm

/-- the commitment equation, in terms of discrete logarithms -/
def CommitEqn (cs : CS E.Fr) (d : EvalDomain E.Fr) (n : ℕ) (S : Strategy E.Fr)
    (tau alpha beta gamma delta : E.Fr) (s t : ℕ → E.Fr) : Prop :=
  ev1 (comb S.psi (all1 cs d tau n s t)) alpha beta gamma delta =
    t 0 * ev1 (comb S.x (all1 cs d tau n s t)) alpha beta gamma delta +
    ∑ i ∈ Finset.range n, t (i + 1) *
      ev1 (comb (S.chunk i) (all1 cs d tau n s t)) alpha beta gamma delta

/-- the proof equation, in terms of discrete logarithms -/
def ProofEqn (cs : CS E.Fr) (d : EvalDomain E.Fr) (n : ℕ) (S : Strategy E.Fr)
    (tau alpha beta gamma delta rho : E.Fr) (s t v : ℕ → E.Fr) : Prop :=
  ev1 (comb S.a (all1 cs d tau n s t)) alpha beta gamma delta *
    ev2 (comb S.b (lf2 cs (d.lagrange tau) n s t v rho)) beta gamma delta =
    alpha * beta + ev1 (comb S.c (all1 cs d tau n s t)) alpha beta gamma delta * delta +
    (ev1 (comb S.x (all1 cs d tau n s t)) alpha beta gamma delta +
      (∑ i ∈ Finset.range n, ev1 (comb (S.chunk i) (all1 cs d tau n s t)) alpha beta gamma delta) +
      mixAt cs (d.lagrange tau) alpha beta (.inst 0) * gamma⁻¹) * gamma

theorem accept_iff (cs : CS E.Fr) (d : EvalDomain E.Fr) (tau alpha beta gamma delta : E.Fr)
    (n : ℕ) (hn : cs.numInst = n + 1) (hn256 : n < 256) (gens : EncryptionGens E) (hG : gens.G ≠ 0)
    (hH : gens.H ≠ 0) (s t v : ℕ → E.Fr) (rho : E.Fr) (S : Strategy E.Fr) (pk : ProvingKey E)
    (hpk : pk = srsKey cs d tau alpha beta gamma delta gens.G gens.H) (g_i : List E.G1)
    (hg : getGsForEncryption pk.pk.vk = .ok g_i) (ek : EncryptionKey E)
    (hek : ek = encKey n s t (fun i => g_i.getD i 0) pk.pk.delta_g1 pk.gamma_g1 gens.H)
    (dk : DecryptionKey E) (hdk : dk = decKey n rho s v gens.H) :
    (S.cipher (public1 gens pk ek)).verifyCommitmentAndProof
      (S.proof (public1 gens pk ek) (public2 gens pk ek dk)) (prepareVerifyingKey pk.pk.vk)
      ek.prepare gens.prepare = .ok () ↔
    S.len = n ∧ CommitEqn cs d n S tau alpha beta gamma delta s t ∧
      ProofEqn cs d n S tau alpha beta gamma delta rho s t v := by
  have hX : ek.X.length = n := by rw [hek]; simp [encKey]
  have hP : public1 gens pk ek = (all1 cs d tau n s t).map (evG alpha beta gamma delta gens.G) := by
    subst hpk hek
    exact public1_eq cs d tau alpha beta gamma delta gens n s t hn g_i hg
  have hc : ∀ k : ℕ → E.Fr, comb k (public1 gens pk ek) =
      ev1 (comb k (all1 cs d tau n s t)) alpha beta gamma delta • gens.G := by
    intro k
    rw [hP, comb_map]
    rfl
  have h1 := (C16_accept_iff ek gens t (by rw [hek]; exact encKey_wf _ _ _ _ _ _ _)
    (by rw [hX]; exact hn256) hH (by
      intro i hi
      rw [hX] at hi
      rw [hek]
      simp only [encKey]
      rw [getD_tab, if_pos hi]) (comb S.x (public1 gens pk ek))
      (tab S.len fun i => comb (S.chunk i) (public1 gens pk ek)) (comb S.psi (public1 gens pk ek))).1
  rw [hX, length_tab] at h1
  have hbind : (S.cipher (public1 gens pk ek)).verifyCommitmentAndProof
      (S.proof (public1 gens pk ek) (public2 gens pk ek dk)) (prepareVerifyingKey pk.pk.vk)
      ek.prepare gens.prepare = .ok () ↔
      verifyCiphertextCommitment (comb S.x (public1 gens pk ek))
        (tab S.len fun i => comb (S.chunk i) (public1 gens pk ek)) (comb S.psi (public1 gens pk ek))
        ek.prepare gens.prepare = .ok () ∧
      verifyProof (prepareVerifyingKey pk.pk.vk)
        (S.proof (public1 gens pk ek) (public2 gens pk ek dk)) (S.cipher (public1 gens pk ek)) = .ok () := by
    unfold Ciphertext.verifyCommitmentAndProof
    rw [Res.bind_eq_ok]
    constructor
    · rintro ⟨u, h, h'⟩
      exact ⟨h, h'⟩
    · rintro ⟨h, h'⟩
      exact ⟨(), h, h'⟩
  rw [hbind, h1, and_assoc]
  refine and_congr_right fun hlen => ?_
  refine and_congr ?_ ?_
  · rw [hc, hc, CommitEqn]
    have : ∑ i ∈ Finset.range S.len, t (i + 1) •
        (tab S.len fun i => comb (S.chunk i) (public1 gens pk ek)).getD i 0 =
        (∑ i ∈ Finset.range n, t (i + 1) *
          ev1 (comb (S.chunk i) (all1 cs d tau n s t)) alpha beta gamma delta) • gens.G := by
      rw [hlen, Finset.sum_smul]
      apply Finset.sum_congr rfl
      intro i hi
      rw [getD_tab, if_pos (Finset.mem_range.mp hi), hc, smul_smul]
    rw [this, smul_smul, ← add_smul]
    exact ⟨fun h => smul_left_cancel hG h, fun h => by rw [h]⟩
  · subst hdk
    refine (verify_iff cs d tau alpha beta gamma delta n hn gens hG hH s t v rho S.a S.b S.c pk hpk g_i hg
      ek hek _ (ev1 (comb S.x (all1 cs d tau n s t)) alpha beta gamma delta +
      ∑ i ∈ Finset.range n, ev1 (comb (S.chunk i) (all1 cs d tau n s t)) alpha beta gamma delta) ?_)
    simp only [Strategy.cipher]
    rw [hc, sum_tab, hlen, add_smul, Finset.sum_smul]
    congr 1
    apply Finset.sum_congr rfl
    intro i _
    rw [hc]

/-- Extraction from a strategy that passes both checks for all trapdoors and secrets. -/
theorem extract (cs : CS E.Fr) (d : EvalDomain E.Fr)
    (hN : cs.cons.length + cs.numInst ≤ d.size) (hp : 3 * d.size < E.fr.p) (hp5 : 5 ≤ E.fr.p)
    (n : ℕ) (hn : cs.numInst = n + 1) (S : Strategy E.Fr)
    (h : ∀ (tau alpha beta gamma delta rho : E.Fr) (s t v : ℕ → E.Fr), d.vanishing tau ≠ 0 →
      gamma ≠ 0 → delta ≠ 0 → CommitEqn cs d n S tau alpha beta gamma delta s t ∧
        ProofEqn cs d n S tau alpha beta gamma delta rho s t v) :
    ∀ row ∈ cs.cons, row.Holds (lookup (1 :: tab n fun i => S.psi (baseLen cs d n + i)))
      (lookup (tab cs.numWit S.c)) := by
  have hex := commit_extract cs d hN hp n hn S.x S.psi S.chunk
    (fun tau alpha beta gamma delta s t h1 h2 h3 =>
      (h tau alpha beta gamma delta 0 s t (fun _ => 0) h1 h2 h3).1)
  refine witness_of_accepted cs d hN hp hp5 n hn (fun _ => 0) (fun _ => 0) (fun _ => 0) 0 S.a S.b S.c _
    (S.psi (baseLen cs d n + n)) ?_
  intro tau alpha beta gamma delta h1 h2 h3
  have hp := (h tau alpha beta gamma delta 0 (fun _ => 0) (fun _ => 0) (fun _ => 0) h1 h2 h3).2
  obtain ⟨x1, x2, -⟩ := hex tau alpha beta gamma delta (fun _ => 0) (fun _ => 0) h1 h2 h3
  unfold ProofEqn at hp
  rw [x1, Finset.sum_congr rfl (fun i hi => x2 i (Finset.mem_range.mp hi))] at hp
  rw [hp]
  simp

end Agm

end
end Verif
