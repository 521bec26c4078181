/-
Helper lemmas for C61: the honest encryptor is an algebraic strategy.
-/
import Verif.Lemmas.Sound
import Verif.Props.Verified

namespace Verif
open Spec

section
variable {E : Engine}

/-- coefficients for two consecutive segments -/
def glue {F : Type} (L : ℕ) (k k' : ℕ → F) : ℕ → F := fun i => if i < L then k i else k' (i - L)

theorem comb_congr {F G : Type} [Semiring F] [AddCommMonoid G] [Module F G] {k k' : ℕ → F}
    {l : List G} (h : ∀ i < l.length, k i = k' i) : comb k l = comb k' l :=
  Finset.sum_congr rfl fun i hi => by rw [h i (Finset.mem_range.mp hi)]

theorem comb_glue {F G : Type} [Semiring F] [AddCommMonoid G] [Module F G] {L : ℕ} (k k' : ℕ → F)
    {l : List G} (l' : List G) (hl : l.length = L) :
    comb (glue L k k') (l ++ l') = comb k l + comb k' l' := by
  rw [comb_append]
  congr 1
  · refine comb_congr fun i hi => ?_
    unfold glue
    rw [if_pos (by omega)]
  · refine comb_congr fun i _ => ?_
    unfold glue
    rw [if_neg (by omega), hl, Nat.add_sub_cancel_left]

theorem comb_nul {F G : Type} [Semiring F] [AddCommMonoid G] [Module F G] (l : List G) :
    comb (fun _ => (0 : F)) l = 0 :=
  Finset.sum_eq_zero fun _ _ => zero_smul _ _

theorem comb_one {F G : Type} [Semiring F] [AddCommMonoid G] [Module F G] (k : ℕ → F) (g : G) :
    comb k [g] = k 0 • g := by
  simp [comb]

theorem comb_single {F G : Type} [Semiring F] [AddCommMonoid G] [Module F G] (l : List G) (j : ℕ)
    (x : F) (hj : j < l.length) : comb (fun i => if i = j then x else 0) l = x • l.getD j 0 := by
  unfold comb
  rw [Finset.sum_eq_single j]
  · dsimp only
    rw [if_pos rfl]
  · intro i _ hi
    dsimp only
    rw [if_neg hi, zero_smul]
  · intro h
    exact absurd (Finset.mem_range.mpr hj) h

theorem msm_comb {G : Type} [AddCommGroup G] [Module E.Fr G] (l : List G) (zs : List E.Fr) :
    msmBigint l (zs.map (intoBigint (K := E.fr))) = comb (lookup zs) l := by
  unfold msmBigint comb
  induction l generalizing zs with
  | nil => simp
  | cons g l ih =>
    cases zs with
    | nil => simp [lookup]
    | cons z zs =>
      rw [List.map_cons, List.zipWith_cons_cons, List.sum_cons, ih, List.length_cons,
        Finset.sum_range_succ', add_comm]
      congr 1
      rw [nsmul_eq_cast_smul (K := E.fr), intoBigint]
      show ((ZMod.val z : ℕ) : E.Fr) • g = z • g
      rw [show ((ZMod.val z : ℕ) : E.Fr) = z from ZMod.natCast_zmod_val z]

theorem coeff_comb {G : Type} [AddCommGroup G] [Module E.Fr G] (initial param : G) (query : List G)
    (hq : query ≠ []) (zs : List E.Fr) :
    calculateCoeff (K := E.fr) initial query param zs =
      .ok (initial + param + comb (lookup (1 :: zs)) query) := by
  obtain ⟨g, l, rfl⟩ := List.exists_cons_of_ne_nil hq
  unfold calculateCoeff
  simp only [idx, List.getElem?_cons_zero, Res.ok_bind, Res.pure_eq, List.tail_cons]
  rw [msm_comb]
  refine congrArg Res.ok ?_
  have : comb (lookup (1 :: zs)) (g :: l) = g + comb (lookup zs) l := by
    unfold comb
    rw [List.length_cons, Finset.sum_range_succ', add_comm]
    simp [lookup]
  rw [this]
  abel

/-- the proof with zero randomness is a fixed linear combination of the proving key -/
theorem proof_comb (pk : Groth16ProvingKey E) (h input aux : List E.Fr) (ha : pk.a_query ≠ [])
    (hb : pk.b_g2_query ≠ []) :
    createProofWithAssignment pk 0 0 h input aux = .ok
      ⟨pk.vk.alpha_g1 + comb (lookup (1 :: (input ++ aux))) pk.a_query,
        pk.vk.beta_g2 + comb (lookup (1 :: (input ++ aux))) pk.b_g2_query,
        comb (lookup aux) pk.l_query + comb (lookup h) pk.h_query⟩ := by
  unfold createProofWithAssignment
  dsimp only
  rw [coeff_comb _ _ _ ha, Res.ok_bind, if_neg (by simp), Res.ok_bind, coeff_comb _ _ _ hb, Res.ok_bind,
    msm_comb, msm_comb]
  simp

/-- the honest strategy for chunks `m`, randomness `r`, quotient `h` and witness `aux` -/
def honest (W N V I n : ℕ) (m : ℕ → E.Fr) (r : E.Fr) (h input aux : List E.Fr) : Strategy E.Fr where
  x := glue W (fun _ => 0) (glue (N - 1) (fun _ => 0) (glue 5 (fun _ => 0) (glue V (fun _ => 0)
    (glue V (fun _ => 0) (glue I (fun _ => 0) (glue 1 (fun _ => r) (fun _ => 0)))))))
  len := n
  chunk := fun i => glue W (fun _ => 0) (glue (N - 1) (fun _ => 0) (glue 5 (fun _ => 0)
    (glue V (fun _ => 0) (glue V (fun _ => 0) (glue I (fun j => if j = i + 1 then m i else 0)
    (glue 1 (fun _ => 0) (glue n (fun j => if j = i then r else 0) (fun _ => 0))))))))
  psi := glue W (fun _ => 0) (glue (N - 1) (fun _ => 0) (glue 5 (fun _ => 0) (glue V (fun _ => 0)
    (glue V (fun _ => 0) (glue I (fun _ => 0) (glue 1 (fun _ => 0) (glue n (fun _ => 0)
    (glue 1 (fun _ => 0) (glue n m (fun _ => r))))))))))
  a := glue W (fun _ => 0) (glue (N - 1) (fun _ => 0) (glue 5 (fun j => if j = 1 then 1 else 0)
    (glue V (lookup (1 :: (input ++ aux))) (fun _ => 0))))
  b := glue 4 (fun j => if j = 1 then 1 else 0) (glue V (lookup (1 :: (input ++ aux))) (fun _ => 0))
  c := glue W (lookup aux) (glue (N - 1) (lookup h) (glue 5 (fun _ => 0) (glue V (fun _ => 0)
    (glue V (fun _ => 0) (glue I (fun _ => 0) (glue 1 (fun _ => 0) (glue n (fun _ => 0)
    (glue 1 (fun _ => r) (fun _ => 0)))))))))

theorem honest_outputs (W N V I n : ℕ) (m : ℕ → E.Fr) (r : E.Fr) (h input aux : List E.Fr)
    (gens : EncryptionGens E) (pk : ProvingKey E) (ek : EncryptionKey E) (dk : DecryptionKey E)
    (h1 : pk.pk.l_query.length = W) (h2 : pk.pk.h_query.length = N - 1) (h3 : pk.pk.a_query.length = V)
    (h4 : pk.pk.b_g1_query.length = V) (h5 : pk.pk.vk.gamma_abc_g1.length = I) (h6 : ek.X.length = n)
    (h7 : ek.Y.length = n) (h8 : pk.pk.b_g2_query.length = V) (h9 : I = n + 1) :
    (honest (E := E) W N V I n m r h input aux).cipher (public1 gens pk ek) =
      fieldCipher ek (fun i => pk.pk.vk.gamma_abc_g1.tail.getD i 0) m r ∧
    (honest (E := E) W N V I n m r h input aux).proof (public1 gens pk ek) (public2 gens pk ek dk) =
      ⟨pk.pk.vk.alpha_g1 + comb (lookup (1 :: (input ++ aux))) pk.pk.a_query,
        pk.pk.vk.beta_g2 + comb (lookup (1 :: (input ++ aux))) pk.pk.b_g2_query,
        comb (lookup aux) pk.pk.l_query + comb (lookup h) pk.pk.h_query + r • ek.P_2⟩ := by
  have tl : ∀ i, pk.pk.vk.gamma_abc_g1.tail.getD i 0 = pk.pk.vk.gamma_abc_g1.getD (i + 1) 0 := by
    intro i
    rw [List.getD_eq_getElem?_getD, List.getD_eq_getElem?_getD, List.getElem?_tail]
  constructor
  · unfold Strategy.cipher fieldCipher honest public1
    rw [h6]
    congr 1
    · simp only [comb_glue _ _ _ h1, comb_glue _ _ _ h2, comb_glue _ _ _ h3, comb_glue _ _ _ h4,
        comb_glue _ _ _ h5, comb_glue _ _ _ (show [gens.G, pk.pk.vk.alpha_g1, pk.pk.beta_g1,
          pk.pk.delta_g1, pk.gamma_g1].length = 5 from rfl),
        comb_glue _ _ _ (show [ek.X_0].length = 1 from rfl), comb_nul, zero_add, add_zero, comb_one, zero_smul]
    · refine List.map_congr_left fun i hi => ?_
      have hi : i < n := List.mem_range.mp hi
      simp only [comb_glue _ _ _ h1, comb_glue _ _ _ h2, comb_glue _ _ _ h3, comb_glue _ _ _ h4,
        comb_glue _ _ _ h5, comb_glue _ _ _ (show [gens.G, pk.pk.vk.alpha_g1, pk.pk.beta_g1,
          pk.pk.delta_g1, pk.gamma_g1].length = 5 from rfl), comb_glue _ _ _ h6,
        comb_glue _ _ _ (show [ek.X_0].length = 1 from rfl), comb_nul, zero_add, add_zero]
      rw [comb_single _ _ _ (by omega), comb_single _ _ _ (by omega), tl, add_comm]
    · simp only [comb_glue _ _ _ h1, comb_glue _ _ _ h2, comb_glue _ _ _ h3, comb_glue _ _ _ h4,
        comb_glue _ _ _ h5, comb_glue _ _ _ (show [gens.G, pk.pk.vk.alpha_g1, pk.pk.beta_g1,
          pk.pk.delta_g1, pk.gamma_g1].length = 5 from rfl), comb_glue _ _ _ h6, comb_glue _ _ _ h7,
        comb_glue _ _ _ (show [ek.X_0].length = 1 from rfl),
        comb_glue _ _ _ (show [ek.P_2].length = 1 from rfl), comb_nul, zero_add, add_zero, comb_one, zero_smul]
      unfold comb
      rw [h7]
  · unfold Strategy.proof honest public1 public2
    congr 1
    · simp only [comb_glue _ _ _ h1, comb_glue _ _ _ h2, comb_glue _ _ _ h3,
        comb_glue _ _ _ (show [gens.G, pk.pk.vk.alpha_g1, pk.pk.beta_g1,
          pk.pk.delta_g1, pk.gamma_g1].length = 5 from rfl), comb_nul, zero_add, add_zero]
      rw [comb_single _ _ _ (by simp)]
      simp
    · simp only [comb_glue _ _ _ h8,
        comb_glue _ _ _ (show [gens.H, pk.pk.vk.beta_g2, pk.pk.vk.gamma_g2,
          pk.pk.vk.delta_g2].length = 4 from rfl), comb_nul, zero_add, add_zero]
      rw [comb_single _ _ _ (by simp)]
      simp
    · simp only [comb_glue _ _ _ h1, comb_glue _ _ _ h2, comb_glue _ _ _ h3, comb_glue _ _ _ h4,
        comb_glue _ _ _ h5, comb_glue _ _ _ (show [gens.G, pk.pk.vk.alpha_g1, pk.pk.beta_g1,
          pk.pk.delta_g1, pk.gamma_g1].length = 5 from rfl), comb_glue _ _ _ h6,
        comb_glue _ _ _ (show [ek.X_0].length = 1 from rfl),
        comb_glue _ _ _ (show [ek.P_2].length = 1 from rfl), comb_nul, zero_add, add_zero, comb_one, zero_smul]
      rw [add_assoc]

end
end Verif
