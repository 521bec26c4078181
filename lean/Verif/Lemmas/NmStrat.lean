/-
Helper lemmas for C81: the strategies that re-randomise an honest ciphertext, and those that ignore the honest
ciphertexts.
-/
import Verif.Lemmas.NmLink
import Verif.Lemmas.Span

namespace Verif
open Spec

namespace Nm
variable {E : Engine}

/-- the elements of one ciphertext and proof -/
def blockOf (p : Ciphertext E × Proof E) : List E.G1 :=
  [p.1.X_r] ++ p.1.enc_chunks ++ [p.1.commitment, p.2.a, p.2.c]

theorem blockOf_getD (p : Ciphertext E × Proof E) (n : ℕ) (h : p.1.enc_chunks.length = n) :
    (blockOf p).length = n + 4 ∧ (blockOf p).getD 0 0 = p.1.X_r ∧
    (∀ i < n, (blockOf p).getD (1 + i) 0 = p.1.enc_chunks.getD i 0) ∧
    (blockOf p).getD (1 + n) 0 = p.1.commitment ∧ (blockOf p).getD (n + 2) 0 = p.2.a ∧
    (blockOf p).getD (n + 3) 0 = p.2.c := by
  unfold blockOf
  have h1 : ([p.1.X_r] ++ p.1.enc_chunks).length = 1 + n := by simp [h]; omega
  refine ⟨by simp [h], by simp, ?_, ?_, ?_, ?_⟩
  · intro i hi
    rw [List.getD_append _ _ _ _ (by rw [h1]; omega), getD_skip (N := 1) rfl]
  · have := getD_skip h1 [p.1.commitment, p.2.a, p.2.c] 0
    simpa using this
  · have := getD_skip h1 [p.1.commitment, p.2.a, p.2.c] 1
    rw [show n + 2 = 1 + n + 1 by omega, this]
    rfl
  · have := getD_skip h1 [p.1.commitment, p.2.a, p.2.c] 2
    rw [show n + 3 = 1 + n + 2 by omega, this]
    rfl

theorem seen_getD (n : ℕ) (l : List (Ciphertext E × Proof E)) (hl : ∀ p ∈ l, p.1.enc_chunks.length = n)
    (j : ℕ) (p : Ciphertext E × Proof E) (hp : l[j]? = some p) (i : ℕ) (hi : i < n + 4) :
    (seen1 l).getD (j * (n + 4) + i) 0 = (blockOf p).getD i 0 := by
  induction l generalizing j with
  | nil => simp at hp
  | cons a l ih =>
    have ha := (blockOf_getD a n (hl a (by simp))).1
    have e : seen1 (a :: l) = blockOf a ++ seen1 l := by
      unfold seen1
      rw [List.map_cons, List.flatten_cons]
      rfl
    rw [e]
    cases j with
    | zero =>
      simp only [List.getElem?_cons_zero, Option.some.injEq] at hp
      subst hp
      rw [Nat.zero_mul, Nat.zero_add, List.getD_append _ _ _ _ (by omega)]
    | succ j =>
      rw [show (j + 1) * (n + 4) + i = (n + 4) + (j * (n + 4) + i) by ring, getD_skip ha]
      exact ih (fun p hp => hl p (by simp [hp])) j (by simpa using hp)

/-- lengths of the lists in the published data -/
structure Shape (nW nH V nI n : ℕ) (pk : ProvingKey E) (ek : EncryptionKey E) (dk : DecryptionKey E) : Prop where
  l : pk.pk.l_query.length = nW
  h : pk.pk.h_query.length = nH
  a : pk.pk.a_query.length = V
  b1 : pk.pk.b_g1_query.length = V
  g : pk.pk.vk.gamma_abc_g1.length = nI
  b2 : pk.pk.b_g2_query.length = V
  X : ek.X.length = n
  Y : ek.Y.length = n
  Z : ek.Z.length = n + 1
  V1 : dk.V_1.length = n
  V2 : dk.V_2.length = n

theorem public_getD {nW nH V nI n : ℕ} {pk : ProvingKey E} {ek : EncryptionKey E} {dk : DecryptionKey E}
    (h : Shape nW nH V nI n pk ek dk) (gens : EncryptionGens E) :
    (public1 gens pk ek).length = nW + (nH + (5 + (V + (V + (nI + (1 + (n + (1 + (n + 1))))))))) ∧
    (public1 gens pk ek).getD (nW + (nH + (5 + (V + (V + (nI + 0)))))) 0 = ek.X_0 ∧
    (∀ i < n, (public1 gens pk ek).getD (nW + (nH + (5 + (V + (V + (nI + (1 + i))))))) 0 = ek.X.getD i 0) ∧
    (public1 gens pk ek).getD (nW + (nH + (5 + (V + (V + (nI + (1 + (n + 0)))))))) 0 = ek.P_2 ∧
    (public1 gens pk ek).getD (nW + (nH + (5 + (V + (V + (nI + (1 + (n + (1 + (n + 0)))))))))) 0 = ek.P_1 ∧
    (public2 gens pk ek dk).length = 4 + (V + (n + 1 + (1 + (n + n)))) ∧
    (public2 gens pk ek dk).getD 3 0 = pk.pk.vk.delta_g2 := by
  unfold public1 public2
  refine ⟨?_, ?_, ?_, ?_, ?_, ?_, ?_⟩
  · simp only [List.length_append, h.l, h.h, h.a, h.b1, h.g, h.X, h.Y, List.length_cons, List.length_nil]
  · rw [getD_skip h.l, getD_skip h.h, getD_skip (N := 5) rfl, getD_skip h.a, getD_skip h.b1, getD_skip h.g]
    rfl
  · intro i hi
    rw [getD_skip h.l, getD_skip h.h, getD_skip (N := 5) rfl, getD_skip h.a, getD_skip h.b1, getD_skip h.g,
      getD_skip (N := 1) rfl, List.getD_append _ _ _ _ (by rw [h.X]; exact hi)]
  · rw [getD_skip h.l, getD_skip h.h, getD_skip (N := 5) rfl, getD_skip h.a, getD_skip h.b1, getD_skip h.g,
      getD_skip (N := 1) rfl, getD_skip h.X]
    rfl
  · rw [getD_skip h.l, getD_skip h.h, getD_skip (N := 5) rfl, getD_skip h.a, getD_skip h.b1, getD_skip h.g,
      getD_skip (N := 1) rfl, getD_skip h.X, getD_skip (N := 1) rfl, getD_skip h.Y]
    rfl
  · simp only [List.length_append, h.b2, h.Z, h.V1, h.V2, List.length_cons, List.length_nil]
  · rfl

/-- The re-randomising strategies. -/
theorem rerand_strategy (nW nH V nI n q j : ℕ) (hj : j < q) (u z w : E.Fr) :
    ∃ S : Strategy E.Fr, ∀ (gens : EncryptionGens E) (pk : ProvingKey E) (ek : EncryptionKey E)
      (dk : DecryptionKey E) (l : List (Ciphertext E × Proof E)), Shape nW nH V nI n pk ek dk →
      l.length = q → (∀ p ∈ l, p.1.enc_chunks.length = n) →
      ∃ ct proof, l[j]? = some (ct, proof) ∧ S.cipher (view1 gens pk ek l) = rerandomise ek u ct ∧
        S.proof (view1 gens pk ek l) (view2 gens pk ek dk l) = rerandomiseProof pk.pk.vk ek u z w proof := by
  let N := nW + (nH + (5 + (V + (V + (nI + (1 + (n + (1 + (n + 1)))))))))
  let N2 := 4 + (V + (n + 1 + (1 + (n + n))))
  let Ω := {ω : EncryptionGens E × ProvingKey E × EncryptionKey E × DecryptionKey E ×
    List (Ciphertext E × Proof E) // Shape nW nH V nI n ω.2.1 ω.2.2.1 ω.2.2.2.1 ∧ ω.2.2.2.2.length = q ∧
      ∀ p ∈ ω.2.2.2.2, p.1.enc_chunks.length = n}
  let L1 : Ω → List E.G1 := fun ω => view1 ω.1.1 ω.1.2.1 ω.1.2.2.1 ω.1.2.2.2.2
  let L2 : Ω → List E.G2 := fun ω => view2 ω.1.1 ω.1.2.1 ω.1.2.2.1 ω.1.2.2.2.1 ω.1.2.2.2.2
  have hpub : ∀ i < N, Span.In E.Fr L1 fun ω => (public1 ω.1.1 ω.1.2.1 ω.1.2.2.1).getD i 0 := by
    intro i hi
    refine (Span.In.get i).congr fun ω => ?_
    have hl := (public_getD ω.2.1 ω.1.1).1
    exact (List.getD_append _ _ _ _ (by rw [hl]; exact hi)).symm
  have hX0 : Span.In E.Fr L1 fun ω => ω.1.2.2.1.X_0 :=
    (hpub _ (by show _ < N; simp only [N]; omega)).congr fun ω => (public_getD ω.2.1 ω.1.1).2.1.symm
  have hX : ∀ i < n, Span.In E.Fr L1 fun ω => ω.1.2.2.1.X.getD i 0 := fun i hi =>
    (hpub _ (by show _ < N; simp only [N]; omega)).congr fun ω => ((public_getD ω.2.1 ω.1.1).2.2.1 i hi).symm
  have hP2 : Span.In E.Fr L1 fun ω => ω.1.2.2.1.P_2 :=
    (hpub _ (by show _ < N; simp only [N]; omega)).congr fun ω => (public_getD ω.2.1 ω.1.1).2.2.2.1.symm
  have hP1 : Span.In E.Fr L1 fun ω => ω.1.2.2.1.P_1 :=
    (hpub _ (by show _ < N; simp only [N]; omega)).congr fun ω => (public_getD ω.2.1 ω.1.1).2.2.2.2.1.symm
  have hjl : ∀ ω : Ω, j < ω.1.2.2.2.2.length := fun ω => by rw [ω.2.2.1]; exact hj
  have hsome : ∀ ω : Ω, ω.1.2.2.2.2[j]? = some (ω.1.2.2.2.2[j]'(hjl ω)) := fun ω => List.getElem?_eq_getElem _
  have hseen : ∀ i < n + 4, Span.In E.Fr L1 fun ω => (blockOf (ω.1.2.2.2.2[j]'(hjl ω))).getD i 0 := by
    intro i hi
    refine (Span.In.get (N + (j * (n + 4) + i))).congr fun ω => ?_
    have hl := (public_getD ω.2.1 ω.1.1).1
    rw [← seen_getD n _ ω.2.2.2 j _ (hsome ω) i hi]
    exact (getD_skip hl _ _).symm
  have hblk := fun ω : Ω => blockOf_getD (ω.1.2.2.2.2[j]'(hjl ω)) n (ω.2.2.2 _ (List.getElem_mem _))
  have hb : Span.In E.Fr L2 fun ω => (ω.1.2.2.2.2[j]'(hjl ω)).2.b := by
    refine (Span.In.get (N2 + j)).congr fun ω => ?_
    have hl := (public_getD ω.2.1 ω.1.1).2.2.2.2.2.1
    have : (L2 ω).getD (N2 + j) 0 = (seen2 ω.1.2.2.2.2).getD j 0 := getD_skip hl _ _
    rw [this]
    unfold seen2
    rw [List.getD_eq_getElem?_getD, List.getElem?_map, hsome ω]
    rfl
  have hd2 : Span.In E.Fr L2 fun ω => ω.1.2.1.pk.vk.delta_g2 := by
    refine (Span.In.get 3).congr fun ω => ?_
    obtain ⟨-, -, -, -, -, hl, h3⟩ := public_getD ω.2.1 ω.1.1
    rw [← h3]
    exact (List.getD_append _ _ _ _ (by rw [hl]; omega)).symm
  obtain ⟨kx, hkx⟩ := ((hseen 0 (by omega)).add (hX0.smul u))
  obtain ⟨kp, hkp⟩ := ((hseen (1 + n) (by omega)).add (hP1.smul u))
  have hch : ∀ i, ∃ k : ℕ → E.Fr, i < n → ∀ ω, (blockOf (ω.1.2.2.2.2[j]'(hjl ω))).getD (1 + i) 0 +
      u • ω.1.2.2.1.X.getD i 0 = comb k (L1 ω) := by
    intro i
    by_cases hi : i < n
    · obtain ⟨k, hk⟩ := ((hseen (1 + i) (by omega)).add ((hX i hi).smul u))
      exact ⟨k, fun _ => hk⟩
    · exact ⟨fun _ => 0, fun h => absurd h hi⟩
  choose kc hkc using hch
  obtain ⟨ka, hka⟩ := ((hseen (n + 2) (by omega)).smul z⁻¹)
  obtain ⟨kb, hkb⟩ := ((hb.smul z).add (hd2.smul (z * w)))
  obtain ⟨kcc, hkcc⟩ := (((hseen (n + 3) (by omega)).add ((hseen (n + 2) (by omega)).smul w)).add (hP2.smul u))
  refine ⟨⟨kx, n, kc, kp, ka, kb, kcc⟩, ?_⟩
  intro gens pk ek dk l hs hq hl
  let ω : Ω := ⟨(gens, pk, ek, dk, l), hs, hq, hl⟩
  refine ⟨(l[j]'(hjl ω)).1, (l[j]'(hjl ω)).2, hsome ω, ?_, ?_⟩
  · obtain ⟨b0, b1, b2, b3, b4, b5⟩ := hblk ω
    have e1 := hkx ω
    have e2 := fun i hi => hkc i hi ω
    have e3 := hkp ω
    beta_reduce at e1 e3
    rw [b1] at e1
    rw [b3] at e3
    simp only [Strategy.cipher, rerandomise]
    rw [hl _ (List.getElem_mem (hjl ω))]
    refine congr (congrArg₂ _ e1.symm (tab_congr fun i hi => ?_)) e3.symm
    refine (e2 i hi).symm.trans ?_
    rw [b2 i hi]
  · obtain ⟨b0, b1, b2, b3, b4, b5⟩ := hblk ω
    have e1 := hka ω
    have e2 := hkb ω
    have e3 := hkcc ω
    beta_reduce at e1 e2 e3
    rw [b4] at e1
    rw [b5, b4] at e3
    simp only [Strategy.proof, rerandomiseProof]
    exact congr (congrArg₂ _ e1.symm e2.symm) e3.symm

/-- Strategies that ignore the honest ciphertexts. -/
theorem comb_extend {F G : Type} [Semiring F] [AddCommMonoid G] [Module F G] (N : ℕ) (k : ℕ → F) (l l' : List G)
    (h : l.length = N) : comb (fun i => if i < N then k i else 0) (l ++ l') = comb k l := by
  rw [comb_append]
  have e : comb (fun i => (fun i => if i < N then k i else 0) (l.length + i)) l' = 0 := by
    unfold comb
    refine Finset.sum_eq_zero fun i _ => ?_
    dsimp only
    rw [if_neg (by omega), zero_smul]
  rw [e, add_zero]
  unfold comb
  refine Finset.sum_congr rfl fun i hi => ?_
  have := Finset.mem_range.mp hi
  dsimp only
  rw [if_pos (by omega)]

theorem extend_strategy (nW nH V nI n : ℕ) (S : Strategy E.Fr) :
    ∃ S' : Strategy E.Fr, ∀ (gens : EncryptionGens E) (pk : ProvingKey E) (ek : EncryptionKey E)
      (dk : DecryptionKey E) (l : List (Ciphertext E × Proof E)), Shape nW nH V nI n pk ek dk →
      S'.cipher (view1 gens pk ek l) = S.cipher (public1 gens pk ek) ∧
      S'.proof (view1 gens pk ek l) (view2 gens pk ek dk l) =
        S.proof (public1 gens pk ek) (public2 gens pk ek dk) := by
  let N := nW + (nH + (5 + (V + (V + (nI + (1 + (n + (1 + (n + 1)))))))))
  let N2 := 4 + (V + (n + 1 + (1 + (n + n))))
  refine ⟨⟨fun i => if i < N then S.x i else 0, S.len, fun c i => if i < N then S.chunk c i else 0,
    fun i => if i < N then S.psi i else 0, fun i => if i < N then S.a i else 0,
    fun i => if i < N2 then S.b i else 0, fun i => if i < N then S.c i else 0⟩, ?_⟩
  intro gens pk ek dk l hs
  obtain ⟨h1, -, -, -, -, h2, -⟩ := public_getD hs gens
  unfold Strategy.cipher Strategy.proof view1 view2
  have e1 := fun (k : ℕ → E.Fr) l' => comb_extend N k (public1 gens pk ek) l' h1
  have e2 := fun (k : ℕ → E.Fr) l' => comb_extend N2 k (public2 gens pk ek dk) l' h2
  beta_reduce
  simp only [e1, e2]
  trivial

end Nm
end Verif
