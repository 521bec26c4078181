/-
Normal forms for ciphertext addition, re-encryption shares and decryption after re-encryption.
-/
import Verif.Lemmas.Dec
import Verif.Lemmas.Combine

universe u

namespace Verif
open Spec

variable {E : Engine}

theorem addCts_eq_addInto (a b : List E.G1) : addCts a b = addInto a b := rfl

theorem combineReEncryptShare_eq (g1 g2 : E.G1) (w1 w2 : List E.G1) :
    combineReEncryptShare g1 g2 w1 w2 = (do
      let w ← addInto w1 w2
      return (w, g1 + g2)) := rfl

theorem combineCtWithW_eq (c : List E.G1) (g : E.G1) (w : List E.G1) :
    combineCtWithW c g w = (do
      let cs ← addInto c w
      return g :: cs) := rfl

theorem combineShares_eq (x : List E.G1 × E.G1) (xs : List (List E.G1 × E.G1))
    (h : ∀ s ∈ xs, x.1.length ≤ s.1.length) :
    combineShares (x :: xs) = .ok (tab x.1.length fun i => ((x :: xs).map (·.1.getD i 0)).sum,
      ((x :: xs).map (·.2)).sum) := by
  show foldRes (fun acc y => combineReEncryptShare acc.2 y.2 acc.1 y.1) x xs = _
  simp only [combineReEncryptShare_eq]
  induction xs generalizing x with
  | nil =>
    simp only [foldRes, List.map_cons, List.map_nil, List.sum_cons, List.sum_nil, add_zero]
    rw [← eq_tab rfl 0]
  | cons y ys ih =>
    have hy := h y (by simp)
    simp only [foldRes, addInto_eq hy, Res.ok_bind, Res.pure_eq] at ih ⊢
    rw [ih]
    · simp only [length_tab, List.map_cons, List.sum_cons]
      congr 2
      · apply tab_congr
        intro i hi
        rw [getD_tab, if_pos hi, add_assoc]
      · rw [add_assoc]
    · intro s hs
      rw [length_tab]
      exact h s (by simp [hs])

theorem reEncryptShare_eq (R : RngCore E) (st : R.σ) (gens : EncryptionGens E) (c_0 : E.G1)
    (c : List E.G1) (ekd : FEncryptionKeyDest E) (sk : SecretKeyST E)
    (h : c.length ≤ sk.s.length) :
    reEncryptShare R st gens c_0 c ekd sk = .ok ((tab c.length fun i =>
      -(sk.s.getD i 0 • c_0) + draw R st 0 • ekd.pk, draw R st 0 • gens.G), after R st 1) := by
  unfold reEncryptShare
  rw [fr_eq R st]
  dsimp only
  rw [mapRes_range_ok (g := fun i => -(sk.s.getD i 0 • c_0) + draw R st 0 • ekd.pk)]
  · simp only [Res.ok_bind, Res.pure_eq, intoBigint_smul]
  · intro i hi
    rw [idx_ok 0 (show i < sk.s.length by omega)]
    simp only [Res.ok_bind, Res.pure_eq, intoBigint_smul, neg_smul]

theorem reEncryptShare_panic (R : RngCore E) (st : R.σ) (gens : EncryptionGens E) (c_0 : E.G1)
    (c : List E.G1) (ekd : FEncryptionKeyDest E) (sk : SecretKeyST E)
    (h : sk.s.length < c.length) :
    reEncryptShare R st gens c_0 c ekd sk = .panic := by
  unfold reEncryptShare
  rw [fr_eq R st]
  dsimp only
  rw [mapRes_range_panic h]
  · rfl
  · rw [idx_panic le_rfl]
    rfl
  · intro j hj e
    cases hb : idx sk.s j with
    | ok x => simp
    | panic => simp
    | err e' => exact absurd hb idx_ne_err

/-- the sum of the scalars drawn for the shares -/
def rhoSum (parties : List (SecretKeyST E × Party E)) : E.Fr :=
  (parties.map fun P => draw P.2.1 P.2.2 0).sum

/-- the sum of the parties' `s_i` -/
def sSum (parties : List (SecretKeyST E × Party E)) (i : ℕ) : E.Fr :=
  (parties.map fun P => P.1.s.getD i 0).sum

theorem reEncryptAll_eq (gens : EncryptionGens E) (c_0 : E.G1) (c : List E.G1)
    (ekd : FEncryptionKeyDest E) (parties : List (SecretKeyST E × Party E))
    (hne : parties ≠ []) (h : ∀ P ∈ parties, c.length ≤ P.1.s.length) :
    reEncryptAll gens c_0 c ekd parties = .ok (rhoSum parties • gens.G ::
      tab c.length fun i => c.getD i 0 + (-(sSum parties i • c_0) + rhoSum parties • ekd.pk)) := by
  unfold reEncryptAll
  rw [mapRes_ok (g := fun P : SecretKeyST E × Party E => ((tab c.length fun i =>
      -(P.1.s.getD i 0 • c_0) + draw P.2.1 P.2.2 0 • ekd.pk), draw P.2.1 P.2.2 0 • gens.G))]
  · simp only [Res.ok_bind]
    obtain ⟨P, ps, rfl⟩ := List.exists_cons_of_ne_nil hne
    rw [List.map_cons, combineShares_eq]
    · rw [← List.map_cons (f := fun P : SecretKeyST E × Party E => ((tab c.length fun i =>
        -(P.1.s.getD i 0 • c_0) + draw P.2.1 P.2.2 0 • ekd.pk), draw P.2.1 P.2.2 0 • gens.G))]
      simp only [Res.ok_bind, combineCtWithW_eq, length_tab]
      rw [addInto_eq (by simp)]
      simp only [Res.ok_bind, Res.pure_eq, List.map_map, Function.comp_def]
      congr 2
      · rw [sum_map_smul]; rfl
      · apply tab_congr
        intro i hi
        rw [getD_tab, if_pos hi]
        congr 1
        have : ∀ P : SecretKeyST E × Party E, (tab c.length fun i =>
            -(P.1.s.getD i 0 • c_0) + draw P.2.1 P.2.2 0 • ekd.pk).getD i 0
            = (-(P.1.s.getD i 0)) • c_0 + draw P.2.1 P.2.2 0 • ekd.pk := by
          intro P
          rw [getD_tab, if_pos hi, neg_smul]
        simp only [this]
        rw [sum_map_add, sum_map_smul, sum_map_smul]
        congr 1
        rw [← neg_smul]
        congr 1
        simp only [sSum]
        generalize P :: ps = l
        induction l with
        | nil => simp
        | cons a l ih => simp only [List.map_cons, List.sum_cons, ih, neg_add]
    · intro s hs
      obtain ⟨Q, _, rfl⟩ := List.mem_map.mp hs
      simp
  · intro P hP
    rw [reEncryptShare_eq P.2.1 P.2.2 gens c_0 c ekd P.1 (h P hP)]
    rfl

theorem decryptAfter_eq (chk : Bool) (c_0 : E.G1) (c : List E.G1) (sk : SecretKey E)
    (g_i : List E.G1) (b : UInt8) (hb : b.toNat < 32) (hg : c.length ≤ g_i.length) :
    decryptAfterReEncryption chk c_0 c sk g_i b
      = mapRes (fun i => chunkSearch (UInt16.ofNat (2 ^ b.toNat - 1)) (g_i.getD i 0)
          (c.getD i 0 - sk.rho • c_0)) (List.range c.length) := by
  unfold decryptAfterReEncryption
  dsimp only
  rw [if_neg (by omega), mapRes_range_ok (g := fun i => c.getD i 0 - sk.rho • c_0)]
  · rw [chunkMaxU32_eq chk hb]
    simp only [Res.ok_bind]
    apply mapRes_congr
    intro i hi
    have hi' := List.mem_range.mp hi
    rw [idx_tab, if_pos hi', idx_ok 0 (show i < g_i.length by omega)]
    rfl
  · intro i hi
    rw [idx_ok 0 hi, intoBigint_smul, neg_smul, sub_eq_add_neg]
    rfl

/-- sums of ciphertexts -/
theorem addCts_cipher (ek : EncryptionKey E) (g : ℕ → E.G1) (m m' : ℕ → ℕ) (r r' : E.Fr) :
    addCts (flat (cipher ek g m r)) (flat (cipher ek g m' r'))
      = .ok (flat (cipher ek g (fun i => m i + m' i) (r + r'))) := by
  have hl : ∀ m r, (flat (cipher ek g m r)).length = ek.X.length + 2 := by
    intro m r; simp [flat, cipher]
  rw [addCts_eq_addInto, addInto_eq (by rw [hl, hl])]
  congr 1
  apply List.ext_getElem?
  intro i
  rw [getElem?_tab, hl]
  by_cases hi : i < ek.X.length + 2
  · rw [if_pos hi]
    rcases i with _ | i
    · simp [flat, cipher, add_smul]
    · rcases Nat.lt_or_ge i ek.X.length with h | h
      · have e : ∀ m r, (flat (cipher ek g m r))[i + 1]? = some (r • ek.X.getD i 0 + m i • g i) := by
          intro m r
          simp only [flat, cipher, List.getElem?_cons_succ]
          rw [List.getElem?_append_left (by simpa using h), getElem?_tab, if_pos h]
        simp only [List.getD_eq_getElem?_getD (l := flat _), e, Option.getD_some, add_smul]
        congr 1
        abel
      · obtain rfl : i = ek.X.length := by omega
        have e : ∀ m r, (flat (cipher ek g m r))[ek.X.length + 1]?
            = some ((∑ i ∈ Finset.range ek.X.length, m i • ek.Y.getD i 0) + r • ek.P_1) := by
          intro m r
          simp only [flat, cipher, List.getElem?_cons_succ]
          rw [List.getElem?_append_right (by simp)]
          simp
        simp only [List.getD_eq_getElem?_getD (l := flat _), e, Option.getD_some, add_smul,
          Finset.sum_add_distrib]
        congr 1
        abel
  · rw [if_neg hi, List.getElem?_eq_none (by rw [hl]; omega)]

theorem aggregate_cipher {α : Type u} (ek : EncryptionKey E) (g : ℕ → E.G1) (l : List α) (hne : l ≠ [])
    (m : α → ℕ → ℕ) (r : α → E.Fr) :
    aggregate (l.map fun a => flat (cipher ek g (m a) (r a)))
      = .ok (flat (cipher ek g (fun i => (l.map fun a => m a i).sum) (l.map r).sum)) := by
  obtain ⟨x, xs, rfl⟩ := List.exists_cons_of_ne_nil hne
  simp only [List.map_cons, aggregate, List.sum_cons]
  have gen : ∀ (xs : List α) (m0 : ℕ → ℕ) (r0 : E.Fr),
      foldRes addCts (flat (cipher ek g m0 r0))
        (xs.map fun a => flat (cipher ek g (m a) (r a)))
      = .ok (flat (cipher ek g (fun i => m0 i + (xs.map fun a => m a i).sum)
          (r0 + (xs.map r).sum))) := by
    intro xs
    induction xs with
    | nil => intro m0 r0; simp [foldRes]
    | cons y ys ih =>
      intro m0 r0
      simp only [List.map_cons, foldRes, addCts_cipher, Res.ok_bind, ih, List.sum_cons]
      congr 3
      · funext i; omega
      · rw [add_assoc]
  exact gen xs (m x) (r x)

end Verif
