/-
Properties C07-C13 and C51: key generation, distributed key generation, window tables.
-/
import Verif.Lemmas.Combine
import Verif.Instances

namespace Verif
open Spec

variable {E : Engine}

/-! ### C51 -/

/-- **C51** a window table built for any size hint multiplies every scalar correctly. -/
theorem C51_window_table (K : FieldCfg) (G : Type) [AddCommGroup G] [Module (ZMod K.p) G]
    (hint : ℕ) (g : G) :
    (∀ x : K.F, (WindowTable.new K hint g).multiply x = .ok (x • g)) ∧
    (∀ xs : List K.F, (WindowTable.new K hint g).multiplyMany xs = .ok (xs.map fun x => x • g)) ∧
    (∀ xs : List K.F, multiplyFieldElems (K := K) g xs = .ok (xs.map fun x => x • g)) :=
  ⟨WindowTable.multiply_new hint g, WindowTable.multiplyMany_new hint g, multiplyFieldElems_eq g⟩

example : (WindowTable.new blsFr 1000 (5 : ZMod blsFr.p)).multiply (K := blsFr) 7 =
    .ok ((7 : blsFr.F) • (5 : ZMod blsFr.p)) := (C51_window_table blsFr _ 1000 5).1 7

/-! ### C07 -/

/-- **C07** `keygen`: success exactly with enough generators; shapes; validation. -/
theorem C07_keygen (R : RngCore E) (st : R.σ) (b n : UInt8) (gens : EncryptionGens E)
    (g_i : List E.G1) (D C : E.G1) (hn : chunksCount E.fr b = .ok n) :
    (n.toNat ≤ g_i.length → ∃ sk ek dk st', keygen R st b gens g_i D C = .ok ((sk, ek, dk), st') ∧
      ek.X.length = n.toNat ∧ ek.Y.length = n.toNat ∧ ek.Z.length = n.toNat + 1 ∧
      dk.V_1.length = n.toNat ∧ dk.V_2.length = n.toNat ∧
      ek.validate = .ok () ∧ dk.validate = .ok () ∧
      ek.supportedChunksCount = .ok n ∧ dk.supportedChunksCount = .ok n ∧
      ek.commitmentKey = ek.Y ++ [ek.P_1]) ∧
    (g_i.length < n.toNat →
      keygen R st b gens g_i D C = .err (.vectorShorterThanExpected g_i.length n.toNat)) := by
  constructor
  · intro hg
    refine ⟨_, _, _, _, keygen_eq R st gens g_i D C hn hg, ?_⟩
    simp [encKey, decKey, EncryptionKey.validate, EncryptionKey.supportedChunksCount,
      DecryptionKey.validate, DecryptionKey.supportedChunksCount, encKeyChunks, decKeyChunks,
      EncryptionKey.commitmentKey]
  · intro hg
    unfold keygen
    rw [hn]
    simp only [Res.ok_bind]
    rw [if_pos hg]

/-- **C07** `FkeygenPartial`: success exactly with enough generators; shapes. -/
theorem C07_fkeygenPartial (R : RngCore E) (st : R.σ) (b n : UInt8) (gens : EncryptionGens E)
    (g_i : List E.G1) (D C : E.G1) (hn : chunksCount E.fr b = .ok n) :
    (n.toNat ≤ g_i.length → ∃ sk ek st', fkeygenPartial R st b gens g_i D C = .ok ((sk, ek), st') ∧
      sk.s.length = n.toNat ∧ sk.t.length = n.toNat + 1 ∧
      ek.X.length = n.toNat ∧ ek.Y.length = n.toNat ∧ ek.Z.length = n.toNat + 1) ∧
    (g_i.length < n.toNat →
      fkeygenPartial R st b gens g_i D C
        = .err (.vectorShorterThanExpected g_i.length n.toNat)) := by
  constructor
  · intro hg
    refine ⟨_, _, _, fkeygenPartial_eq R st gens g_i D C hn hg, ?_⟩
    simp [partialKey]
  · intro hg
    unfold fkeygenPartial
    rw [hn]
    simp only [Res.ok_bind]
    rw [if_pos hg]

/-- **C07** chunk size 0 aborts both. -/
theorem C07_zero_size (R : RngCore E) (st : R.σ) (gens : EncryptionGens E)
    (g_i : List E.G1) (D C : E.G1) :
    keygen R st 0 gens g_i D C = .panic ∧ fkeygenPartial R st 0 gens g_i D C = .panic := by
  constructor
  · unfold keygen; simp [chunksCount]
  · unfold fkeygenPartial; simp [chunksCount]

theorem chunksCount_bls16 : chunksCount blsFr 16 = .ok 16 := by
  simp [chunksCount, blsFr_modBits]
theorem chunksCount_bls8 : chunksCount blsFr 8 = .ok 32 := by
  simp [chunksCount, blsFr_modBits]
theorem chunksCount_bls4 : chunksCount blsFr 4 = .ok 64 := by
  simp [chunksCount, blsFr_modBits]

/-- the hypotheses of C07-C10 are met by BLS12-381 with 16-bit chunks and 16 generators -/
example : chunksCount (Engine.scalar blsFr).fr 16 = .ok 16 ∧
    (16 : UInt8).toNat ≤ (List.replicate 16 (1 : ZMod blsFr.p)).length :=
  ⟨chunksCount_bls16, by simp⟩

/-! ### C08 -/

/-- **C08** every output of `keygen` satisfies the public pairing equations. -/
theorem C08_keygen_pairing_equations (R : RngCore E) (st st' : R.σ) (b : UInt8)
    (gens : EncryptionGens E) (g_i : List E.G1) (D C : E.G1)
    (sk : SecretKey E) (ek : EncryptionKey E) (dk : DecryptionKey E)
    (h : keygen R st b gens g_i D C = .ok ((sk, ek, dk), st')) :
    ek.X_0 = D ∧
    (∀ i < ek.X.length, E.e (ek.Y.getD i 0) gens.H = E.e (g_i.getD i 0) (ek.Z.getD (i + 1) 0)) ∧
    E.e ek.P_1 gens.H = E.e ek.X_0 (ek.Z.getD 0 0) +
      ∑ i ∈ Finset.range ek.X.length, E.e (ek.X.getD i 0) (ek.Z.getD (i + 1) 0) ∧
    (∀ i < ek.X.length,
      E.e (ek.X.getD i 0) (dk.V_2.getD i 0) = sk.rho • E.e ek.X_0 (dk.V_1.getD i 0)) ∧
    dk.V_0 = sk.rho • gens.H ∧
    (∃ k : E.Fr, ek.P_2 = k • C ∧ ek.X_0 + ek.X.sum = k • ek.X_0) := by
  have hn : ∃ n, chunksCount E.fr b = .ok n := by
    unfold keygen at h
    obtain ⟨n, hn, _⟩ := Res.bind_eq_ok.mp h
    exact ⟨n, hn⟩
  obtain ⟨n8, hn⟩ := hn
  have hg : n8.toNat ≤ g_i.length := by
    by_contra hc
    rw [(C07_keygen R st b n8 gens g_i D C hn).2 (by omega)] at h
    cases h
  rw [keygen_eq R st gens g_i D C hn hg] at h
  simp only [Res.ok.injEq, Prod.mk.injEq] at h
  obtain ⟨⟨rfl, rfl, rfl⟩, _⟩ := h
  generalize n8.toNat = n at *
  simp only [encKey, decKey, length_tab]
  refine ⟨trivial, ?_, ?_, ?_, trivial, ?_⟩
  · intro i hi
    simp only [getD_tab, hi, show i + 1 < n + 1 by omega, if_true]
    simp
  · simp only [getD_tab, Nat.zero_lt_succ, if_true, add_zero]
    rw [map_smul, LinearMap.smul_apply, add_smul, Finset.sum_smul]
    congr 1
    · simp
    · apply Finset.sum_congr rfl
      intro i hi
      have hi' : i < n := Finset.mem_range.mp hi
      simp only [hi', show i + 1 < n + 1 by omega, if_true]
      simp [smul_smul, mul_comm]
  · intro i hi
    simp only [getD_tab, hi, if_true]
    simp only [map_smul, LinearMap.smul_apply, smul_smul]
    congr 1
    ring
  · refine ⟨_, rfl, ?_⟩
    rw [sum_tab, add_smul, one_smul, Finset.sum_smul]

example : ∃ sk ek dk st',
    keygen (listRng (Engine.scalar blsFr)) (List.replicate 60 (3 : blsFr.F), [], []) 16
      ⟨(1 : ZMod blsFr.p), (2 : ZMod blsFr.p)⟩ (List.replicate 16 (5 : ZMod blsFr.p))
      (7 : ZMod blsFr.p) (11 : ZMod blsFr.p)
      = .ok ((sk, ek, dk), st') := by
  obtain ⟨sk, ek, dk, st', h, _⟩ := (C07_keygen (E := Engine.scalar blsFr)
    (listRng (Engine.scalar blsFr)) (List.replicate 60 (3 : blsFr.F), [], []) 16 16
      ⟨(1 : ZMod blsFr.p), (2 : ZMod blsFr.p)⟩ (List.replicate 16 (5 : ZMod blsFr.p))
      (7 : ZMod blsFr.p) (11 : ZMod blsFr.p) chunksCount_bls16).1
      (by rw [List.length_replicate]; decide)
  exact ⟨sk, ek, dk, st', h⟩

/-! ### C09 -/

theorem listRng_after (st : List E.Fr × List E.G1 × List E.G2) (k : ℕ) :
    after (listRng E) st k = (st.1.drop k, st.2) := by
  unfold after
  induction k generalizing st with
  | zero => rfl
  | succ k ih =>
    refine (ih _).trans ?_
    simp only [List.drop_tail]

theorem listRng_draw (st : List E.Fr × List E.G1 × List E.G2) (k : ℕ) :
    draw (listRng E) st k = st.1.getD k 0 := by
  unfold draw
  rw [listRng_after]
  simp only
  rw [List.headD_eq_head?_getD, List.head?_drop, List.getD_eq_getElem?_getD]

theorem getD_append_tab {α : Type} (n : ℕ) (f : ℕ → α) (l : List α) (i : ℕ) (d : α) :
    (tab n f ++ l).getD i d = if i < n then f i else l.getD (i - n) d := by
  by_cases h : i < n
  · rw [if_pos h, List.getD_append _ _ _ _ (by simpa using h), getD_tab, if_pos h]
  · rw [if_neg h, List.getD_append_right _ _ _ _ (by simpa using h), length_tab]

theorem encKey_congr {n : ℕ} {s s' t t' : ℕ → E.Fr} {g g' : ℕ → E.G1} (D C : E.G1) (H : E.G2)
    (hs : ∀ i < n, s i = s' i) (ht : ∀ i < n + 1, t i = t' i) (hg : ∀ i < n, g i = g' i) :
    encKey n s t g D C H = encKey n s' t' g' D C H := by
  unfold encKey
  have e1 : ∑ i ∈ Finset.range n, s i * t (i + 1) = ∑ i ∈ Finset.range n, s' i * t' (i + 1) :=
    Finset.sum_congr rfl fun i hi => by
      have := Finset.mem_range.mp hi
      rw [hs i this, ht (i + 1) (by omega)]
  have e2 : ∑ i ∈ Finset.range n, s i = ∑ i ∈ Finset.range n, s' i :=
    Finset.sum_congr rfl fun i hi => hs i (Finset.mem_range.mp hi)
  rw [e1, e2, ht 0 (by omega)]
  congr 1
  · exact tab_congr fun i hi => by rw [hs i hi]
  · exact tab_congr fun i hi => by rw [ht (i + 1) (by omega), hg i hi]
  · exact tab_congr fun i hi => by rw [ht i hi]

/-- **C09** For any number of honest parties the distributed key generation yields exactly the
encryption key that `keygen` outputs when the randomness source hands it the component-wise sums of
the parties' secret `s` and `t` vectors (and any `rho`, `v`). -/
theorem C09_dkg_equals_keygen (parties : List (Party E)) (hne : parties ≠ []) (b n : UInt8)
    (gens : EncryptionGens E) (g_i : List E.G1) (D C : E.G1)
    (hn : chunksCount E.fr b = .ok n) (hg : n.toNat ≤ g_i.length) :
    ∃ sks ek, dkg parties b gens g_i D C = .ok (sks, ek) ∧ sks.length = parties.length ∧
      ∀ (rho : E.Fr) (v : List E.Fr), ∃ sk dk st',
        keygen (listRng E)
          (rho :: (tab n.toNat (fun i => (sks.map fun sk => sk.s.getD i 0).sum)
            ++ tab (n.toNat + 1) (fun i => (sks.map fun sk => sk.t.getD i 0).sum) ++ v), [], [])
          b gens g_i D C = .ok ((sk, ek, dk), st') := by
  refine ⟨_, _, dkg_eq parties hne gens g_i D C hn hg, by simp, fun rho v => ?_⟩
  have h := keygen_eq (listRng E)
    (rho :: (tab n.toNat (fun i => ((parties.map (partySK n.toNat)).map fun sk => sk.s.getD i 0).sum)
      ++ tab (n.toNat + 1) (fun i => ((parties.map (partySK n.toNat)).map
        fun sk => sk.t.getD i 0).sum) ++ v), [], []) gens g_i D C hn hg
  rw [encKey_congr (s' := sumS parties) (t' := sumT n.toNat parties)
    (g' := fun i => g_i.getD i 0) D C gens.H ?_ ?_ (fun _ _ => rfl)] at h
  · exact ⟨_, _, _, h⟩
  · intro i hi
    rw [listRng_draw]
    simp only [Nat.add_comm 1 i, List.getD_cons_succ, List.append_assoc, getD_append_tab, hi,
      if_true, List.map_map, Function.comp_def, partySK, getD_tab, sumS]
  · intro i hi
    rw [listRng_draw]
    rw [show 1 + n.toNat + i = n.toNat + i + 1 by omega]
    simp only [List.getD_cons_succ, List.append_assoc, getD_append_tab,
      show ¬ (n.toNat + i < n.toNat) by omega, if_false, Nat.add_sub_cancel_left, hi,
      if_true, List.map_map, Function.comp_def, partySK, getD_tab, sumT]

/-- three parties with different randomness meet the hypotheses -/
example : ([⟨listRng (Engine.scalar blsFr), ([1, 2, 3], [], [])⟩,
    ⟨listRng (Engine.scalar blsFr), ([4], [], [])⟩,
    ⟨listRng (Engine.scalar blsFr), ([], [], [])⟩] : List (Party (Engine.scalar blsFr))) ≠ [] := by
  simp

/-! ### C10 -/

theorem perm_sum_eq {α : Type} {M : Type} [AddCommMonoid M] {l l' : List α} (h : l.Perm l')
    (f : α → M) : (l.map f).sum = (l'.map f).sum := (h.map f).sum_eq

/-- **C10** combining partial keys does not depend on their order, if all parties agree on `X_0`
and on the vector lengths. -/
theorem C10_combineEKs_order (C : E.G1) (eks eks' : List (FEncryptionKeyPartial E))
    (hp : eks.Perm eks') (D : E.G1) (nx ny nz : ℕ)
    (h : ∀ e ∈ eks, e.X_0 = D ∧ e.X.length = nx ∧ e.Y.length = ny ∧ e.Z.length = nz) :
    combineEKs C eks = combineEKs C eks' := by
  cases eks with
  | nil => rw [List.nil_perm.mp hp]
  | cons a l =>
    cases eks' with
    | nil => exact absurd hp.symm (by simp)
    | cons a' l' =>
      have h' : ∀ e ∈ a' :: l', e.X_0 = D ∧ e.X.length = nx ∧ e.Y.length = ny ∧ e.Z.length = nz :=
        fun e he => h e (hp.mem_iff.mpr he)
      have ha := h a (by simp)
      have ha' := h' a' (by simp)
      rw [combineEKs_eq, combineEKs_eq]
      · rw [ha.1, ha.2.1, ha.2.2.1, ha.2.2.2, ha'.1, ha'.2.1, ha'.2.2.1, ha'.2.2.2]
        congr 2
        · exact tab_congr fun i _ => perm_sum_eq hp _
        · exact tab_congr fun i _ => perm_sum_eq hp _
        · exact tab_congr fun i _ => perm_sum_eq hp _
        · rw [perm_sum_eq hp]
      · intro e he
        have := h' e (by simp [he])
        unfold FEncryptionKeyPartial.Fits
        omega
      · intro e he
        have := h e (by simp [he])
        unfold FEncryptionKeyPartial.Fits
        omega

/-- **C10** combining `P_1` shares does not depend on their order. -/
theorem C10_combineP1share_order (shares shares' : List (P1share E)) (hp : shares.Perm shares') :
    combineP1share shares = combineP1share shares' := by
  cases shares with
  | nil => rw [List.nil_perm.mp hp]
  | cons a l =>
    have hne' : shares' ≠ [] := fun h => by subst h; exact absurd hp.symm (by simp)
    rw [combineP1share_eq (by simp), combineP1share_eq hne', perm_sum_eq hp]

theorem chunksCount_cases (K : FieldCfg) (b : UInt8) :
    chunksCount K b = .panic ∨ ∃ n, chunksCount K b = .ok n := by
  unfold chunksCount
  split
  · exact .inl rfl
  · exact .inr ⟨_, rfl⟩

/-- `FkeygenPartial` fails for all parties alike, so a run with too few generators fails with the
same error however many parties take part. -/
theorem dkg_fail (parties : List (Party E)) (hne : parties ≠ []) (b : UInt8)
    (gens : EncryptionGens E) (g_i : List E.G1) (D C : E.G1) :
    (chunksCount E.fr b = .panic → dkg parties b gens g_i D C = .panic) ∧
    (∀ n, chunksCount E.fr b = .ok n → g_i.length < n.toNat →
      dkg parties b gens g_i D C = .err (.vectorShorterThanExpected g_i.length n.toNat)) := by
  obtain ⟨P, ps, rfl⟩ := List.exists_cons_of_ne_nil hne
  constructor
  · intro hn
    have : fkeygenPartial P.1 P.2 b gens g_i D C = .panic := by
      unfold fkeygenPartial; rw [hn]; rfl
    simp [dkg, dkgRound1, mapRes, this]
  · intro n hn hg
    simp [dkg, dkgRound1, mapRes, (C07_fkeygenPartial P.1 P.2 b n gens g_i D C hn).2 hg]

/-- **C10** the result key of the whole distributed key generation does not depend on the order of
the parties (for every input, including failing ones). -/
theorem C10_dkg_order (parties parties' : List (Party E)) (hp : parties.Perm parties') (b : UInt8)
    (gens : EncryptionGens E) (g_i : List E.G1) (D C : E.G1) :
    Prod.snd <$> dkg parties b gens g_i D C = Prod.snd <$> dkg parties' b gens g_i D C := by
  by_cases hne : parties = []
  · subst hne
    rw [List.nil_perm.mp hp]
  · have hne' : parties' ≠ [] := fun h => by subst h; exact hne (List.perm_nil.mp hp)
    rcases chunksCount_cases E.fr b with hc | ⟨n, hn⟩
    · rw [(dkg_fail parties hne b gens g_i D C).1 hc, (dkg_fail parties' hne' b gens g_i D C).1 hc]
    · by_cases hg : n.toNat ≤ g_i.length
      · rw [dkg_eq parties hne gens g_i D C hn hg, dkg_eq parties' hne' gens g_i D C hn hg]
        have e1 : sumS parties = sumS parties' := by
          funext i; exact (hp.map _).sum_eq
        have e2 : sumT n.toNat parties = sumT n.toNat parties' := by
          funext i; exact (hp.map _).sum_eq
        rw [e1, e2]
        rfl
      · rw [(dkg_fail parties hne b gens g_i D C).2 n hn (by omega),
          (dkg_fail parties' hne' b gens g_i D C).2 n hn (by omega)]

example : ∀ e ∈ [partialKey (E := Engine.scalar smallFr) 2 (fun i => (i : ZMod 101))
      (fun i => (i + 5 : ZMod 101)) (fun _ => (1 : ZMod 101)) (7 : ZMod 101) (9 : ZMod 101)
      (2 : ZMod 101),
    partialKey (E := Engine.scalar smallFr) 2 (fun i => (i + 3 : ZMod 101))
      (fun i => (i + 8 : ZMod 101)) (fun _ => (1 : ZMod 101)) (7 : ZMod 101) (9 : ZMod 101)
      (2 : ZMod 101)],
    e.X_0 = (7 : ZMod 101) ∧ e.X.length = 2 ∧ e.Y.length = 2 ∧ e.Z.length = 3 := by
  intro e he
  simp only [List.mem_cons, List.not_mem_nil, or_false] at he
  rcases he with rfl | rfl <;> exact ⟨rfl, rfl, rfl, rfl⟩

/-! ### C11 -/

/-- **C11** `combineEKs` aborts exactly on an empty list or when a later key is shorter than the
first one; otherwise it succeeds with the shape (and `X_0`) of the first key. It never returns an
error. -/
theorem C11_combineEKs (C : E.G1) (eks : List (FEncryptionKeyPartial E)) :
    (combineEKs C eks = .panic ↔ eks = [] ∨ ∃ first rest, eks = first :: rest ∧ ∃ e ∈ rest,
      e.X.length < first.X.length ∨ e.Y.length < first.Y.length ∨ e.Z.length < first.Z.length) ∧
    (∀ r, combineEKs C eks = .ok r → ∃ first rest, eks = first :: rest ∧ r.X_0 = first.X_0 ∧
      r.X.length = first.X.length ∧ r.Y.length = first.Y.length ∧ r.Z.length = first.Z.length) ∧
    (∀ e, combineEKs C eks ≠ .err e) := by
  cases eks with
  | nil => refine ⟨by simp [combineEKs, idx], ?_, ?_⟩ <;> simp [combineEKs, idx]
  | cons a l =>
    by_cases h : ∀ e ∈ l, a.Fits e
    · rw [combineEKs_eq C a l h]
      refine ⟨?_, ?_, by simp⟩
      · simp only [reduceCtorEq, List.cons.injEq, false_or, false_iff, not_exists]
        rintro f r ⟨⟨rfl, rfl⟩, e, he, hlt⟩
        have := h e he
        unfold FEncryptionKeyPartial.Fits at this
        omega
      · intro r hr
        injection hr with hr
        subst hr
        exact ⟨a, l, rfl, by simp⟩
    · push Not at h
      rw [combineEKs_panic C a l h]
      refine ⟨?_, by simp, by simp⟩
      simp only [true_iff]
      right
      obtain ⟨e, he, hf⟩ := h
      refine ⟨a, l, rfl, e, he, ?_⟩
      unfold FEncryptionKeyPartial.Fits at hf
      omega

/-- **C11** extra elements of later keys are ignored: appending anything to the vectors of a later
key does not change the result. -/
theorem C11_combineEKs_ignores_extra (C : E.G1) (first e : FEncryptionKeyPartial E)
    (pre post : List (FEncryptionKeyPartial E)) (xs ys : List E.G1) (zs : List E.G2)
    (hfit : first.X.length ≤ e.X.length ∧ first.Y.length ≤ e.Y.length ∧
      first.Z.length ≤ e.Z.length) :
    combineEKs C (first :: (pre ++ { e with X := e.X ++ xs, Y := e.Y ++ ys, Z := e.Z ++ zs } :: post))
      = combineEKs C (first :: (pre ++ e :: post)) := by
  have key : ∀ acc : FEncryptionKeyPartial E, acc.X.length = first.X.length →
      acc.Y.length = first.Y.length → acc.Z.length = first.Z.length →
      combineStep acc { e with X := e.X ++ xs, Y := e.Y ++ ys, Z := e.Z ++ zs }
        = combineStep acc e := by
    intro acc h1 h2 h3
    have f1 : acc.Fits e := by unfold FEncryptionKeyPartial.Fits; omega
    have f2 : acc.Fits { e with X := e.X ++ xs, Y := e.Y ++ ys, Z := e.Z ++ zs } := by
      unfold FEncryptionKeyPartial.Fits at f1 ⊢
      simp only [List.length_append]
      omega
    rw [combineStep_eq f1, combineStep_eq f2]
    simp only [Res.ok.injEq, FEncryptionKeyPartial.mk.injEq, and_true, true_and]
    refine ⟨?_, ?_, ?_⟩
    · exact tab_congr fun i hi => by rw [List.getD_append _ _ _ _ (by omega)]
    · exact tab_congr fun i hi => by rw [List.getD_append _ _ _ _ (by omega)]
    · exact tab_congr fun i hi => by rw [List.getD_append _ _ _ _ (by omega)]
  have fold : ∀ (pre : List (FEncryptionKeyPartial E)) (acc : FEncryptionKeyPartial E),
      acc.X.length = first.X.length →
      acc.Y.length = first.Y.length → acc.Z.length = first.Z.length →
      foldRes combineStep acc
        (pre ++ { e with X := e.X ++ xs, Y := e.Y ++ ys, Z := e.Z ++ zs } :: post)
        = foldRes combineStep acc (pre ++ e :: post) := by
    intro pre
    induction pre with
    | nil =>
      intro acc h1 h2 h3
      simp only [List.nil_append, foldRes, key acc h1 h2 h3]
    | cons p pre ih =>
      intro acc h1 h2 h3
      simp only [List.cons_append, foldRes]
      by_cases hp : acc.Fits p
      · rw [combineStep_eq hp]
        simp only [Res.ok_bind]
        exact ih _ (by simpa using h1) (by simpa using h2) (by simpa using h3)
      · rw [combineStep_panic hp]
        rfl
  unfold combineEKs
  simp only [show ∀ l, idx (first :: l) 0 = .ok first from fun _ => rfl, Res.ok_bind,
    List.tail_cons]
  rw [fold pre first rfl rfl rfl]

/-- **C11** `combineP1share` aborts exactly on the empty list, never errs. -/
theorem C11_combineP1share (shares : List (P1share E)) :
    (combineP1share shares = .panic ↔ shares = []) ∧ (∀ e, combineP1share shares ≠ .err e) := by
  by_cases h : shares = []
  · subst h; simp [combineP1share, idx]
  · rw [combineP1share_eq h]; simp [h]

/-- **C11** `genP1share` aborts exactly when `t` is not longer than `X`, never errs. -/
theorem C11_genP1share (ek : FEncryptionKeyPartial E) (sk : SecretKeyST E) :
    (genP1share ek sk = .panic ↔ sk.t.length ≤ ek.X.length) ∧
    (∀ e, genP1share ek sk ≠ .err e) := by
  by_cases h : sk.t.length ≤ ek.X.length
  · rw [genP1share_panic h]; simp [h]
  · rw [genP1share_eq (by omega)]; simp [h]

/-! ### C12 -/

theorem listRng_party_s (s t : List E.Fr) (i : ℕ) (h : i < s.length) :
    partyS (⟨listRng E, (s ++ t, [], [])⟩ : Party E) i = s.getD i 0 := by
  unfold partyS
  rw [listRng_draw]
  exact List.getD_append _ _ _ _ h

theorem listRng_party_t (s t : List E.Fr) (i : ℕ) :
    partyT s.length (⟨listRng E, (s ++ t, [], [])⟩ : Party E) i = t.getD i 0 := by
  unfold partyT
  rw [listRng_draw]
  show (s ++ t).getD _ _ = _
  rw [List.getD_append_right _ _ _ _ (by omega), Nat.add_sub_cancel_left]

theorem smul_left_inj_of_ne {M : Type} [AddCommGroup M] [Module (ZMod E.fr.p) M] {x : M}
    (hx : x ≠ 0) {a b : E.Fr} (h : a • x = b • x) : a = b :=
  smul_left_injective (E.Fr) hx h

/-- **C12** Given the other parties (any number of them), every candidate joint secret `(s, t)` is
reached by exactly one secret of one additional party: there is exactly one pair of vectors which,
drawn by that party, makes the joint key the key of the candidate. -/
theorem C12_additive_sharing (others : List (Party E)) (b n : UInt8) (gens : EncryptionGens E)
    (g_i : List E.G1) (D C : E.G1) (hn : chunksCount E.fr b = .ok n)
    (hg : n.toNat ≤ g_i.length) (hD : D ≠ 0) (hH : gens.H ≠ 0) (s t : ℕ → E.Fr) :
    ∃! x : List E.Fr × List E.Fr, x.1.length = n.toNat ∧ x.2.length = n.toNat + 1 ∧
      Prod.snd <$> dkg (others ++ [⟨listRng E, (x.1 ++ x.2, [], [])⟩]) b gens g_i D C
        = .ok (encKey n.toNat s t (fun i => g_i.getD i 0) D C gens.H) := by
  have run : ∀ x : List E.Fr × List E.Fr, x.1.length = n.toNat → x.2.length = n.toNat + 1 →
      Prod.snd <$> dkg (others ++ [⟨listRng E, (x.1 ++ x.2, [], [])⟩]) b gens g_i D C
        = .ok (encKey n.toNat (fun i => sumS others i + x.1.getD i 0)
          (fun i => sumT n.toNat others i + x.2.getD i 0) (fun i => g_i.getD i 0) D C gens.H) := by
    intro x h1 h2
    rw [dkg_eq _ (by simp) gens g_i D C hn hg]
    simp only [Res.map_ok]
    congr 1
    apply encKey_congr
    · intro i hi
      simp only [sumS, List.map_append, List.sum_append, List.map_cons, List.map_nil,
        List.sum_cons, List.sum_nil, add_zero]
      rw [listRng_party_s _ _ _ (by omega)]
    · intro i hi
      simp only [sumT, List.map_append, List.sum_append, List.map_cons, List.map_nil,
        List.sum_cons, List.sum_nil, add_zero]
      rw [← h1, listRng_party_t]
    · intro _ _; rfl
  refine ⟨(tab n.toNat fun i => s i - sumS others i,
    tab (n.toNat + 1) fun i => t i - sumT n.toNat others i), ⟨by simp, by simp, ?_⟩, ?_⟩
  · rw [run _ (by simp) (by simp)]
    congr 1
    apply encKey_congr
    · intro i hi; simp only [getD_tab, hi, if_true]; ring
    · intro i hi; simp only [getD_tab, hi, if_true]; ring
    · intro _ _; rfl
  · rintro ⟨x1, x2⟩ ⟨h1, h2, h3⟩
    simp only at h1 h2
    rw [run (x1, x2) h1 h2] at h3
    injection h3 with h3
    have hX := congrArg EncryptionKey.X h3
    have hZ := congrArg EncryptionKey.Z h3
    simp only [encKey] at hX hZ
    refine Prod.ext ?_ ?_
    · rw [eq_tab h1 0]
      apply tab_congr
      intro i hi
      have := smul_left_inj_of_ne hD (tab_inj hX i hi)
      show x1.getD i 0 = _
      rw [← this]; ring
    · rw [eq_tab h2 0]
      apply tab_congr
      intro i hi
      have := smul_left_inj_of_ne hH (tab_inj hZ i hi)
      show x2.getD i 0 = _
      rw [← this]; ring

example : (7 : (Engine.scalar blsFr).G1) ≠ 0 := by
  show (7 : ZMod blsR) ≠ 0
  have h : ((7 : ℕ) : ZMod blsR) ≠ 0 := by
    intro h
    rw [ZMod.natCast_eq_zero_iff] at h
    exact absurd (Nat.le_of_dvd (by norm_num) h) (by decide +kernel)
  exact_mod_cast h

/-! ### C13 -/

theorem sum_map_concat {α M : Type} [AddCommMonoid M] (l : List α) (a : α) (f : α → M) :
    ((l ++ [a]).map f).sum = (l.map f).sum + f a := by simp


/-- **C13** Rogue keys: whatever the honest parties submit, and for every target key of the same
shape with the same `X_0`, there is a last submission that makes `combineEKs` return the target. -/
theorem C13_rogue_key (C : E.G1) (first : FEncryptionKeyPartial E)
    (rest : List (FEncryptionKeyPartial E))
    (hfit : ∀ e ∈ rest, first.X.length ≤ e.X.length ∧ first.Y.length ≤ e.Y.length ∧
      first.Z.length ≤ e.Z.length)
    (target : FEncryptionKeyPartial E) (h0 : target.X_0 = first.X_0)
    (hX : target.X.length = first.X.length) (hY : target.Y.length = first.Y.length)
    (hZ : target.Z.length = first.Z.length) :
    ∃ rogue, combineEKs C (first :: rest ++ [rogue]) = .ok target := by
  let rogue : FEncryptionKeyPartial E :=
    { X_0 := first.X_0
      X := tab first.X.length fun i =>
        target.X.getD i 0 - ((first :: rest).map fun e => e.X.getD i 0).sum
      Y := tab first.Y.length fun i =>
        target.Y.getD i 0 - ((first :: rest).map fun e => e.Y.getD i 0).sum
      Z := tab first.Z.length fun i =>
        target.Z.getD i 0 - ((first :: rest).map fun e => e.Z.getD i 0).sum
      P_2 := target.P_2 - C - ((first :: rest).map fun e => e.P_2).sum }
  refine ⟨rogue, ?_⟩
  rw [List.cons_append, combineEKs_eq]
  · rw [← List.cons_append]
    simp only [sum_map_concat]
    congr 1
    ext1
    · exact h0.symm
    · show tab _ _ = _
      rw [eq_tab hX 0]
      apply tab_congr
      intro i hi
      simp only [rogue, getD_tab, hi, if_true]
      abel
    · show tab _ _ = _
      rw [eq_tab hY 0]
      apply tab_congr
      intro i hi
      simp only [rogue, getD_tab, hi, if_true]
      abel
    · show tab _ _ = _
      rw [eq_tab hZ 0]
      apply tab_congr
      intro i hi
      simp only [rogue, getD_tab, hi, if_true]
      abel
    · simp only [rogue]
      abel
  · intro e he
    rcases List.mem_append.mp he with he | he
    · exact hfit e he
    · rw [List.mem_singleton.mp he]
      simp [FEncryptionKeyPartial.Fits, rogue]

/-- the hypotheses of C13 are met by two honest partial keys and any target key of their shape -/
example : ∃ rogue, combineEKs (E := Engine.scalar smallFr) (5 : ZMod 101)
    (partialKey 2 (fun i => (i + 2 : ZMod 101)) (fun i => (3 * i : ZMod 101)) (fun _ => (7 : ZMod 101))
        (11 : ZMod 101) (13 : ZMod 101) (17 : ZMod 101) ::
      [partialKey 2 (fun i => (i + 4 : ZMod 101)) (fun i => (5 * i : ZMod 101))
        (fun _ => (7 : ZMod 101)) (11 : ZMod 101) (13 : ZMod 101) (17 : ZMod 101)] ++ [rogue])
    = .ok ⟨(11 : ZMod 101), ([0, 1] : List (ZMod 101)), ([2, 3] : List (ZMod 101)),
        ([4, 5, 6] : List (ZMod 101)), (8 : ZMod 101)⟩ :=
  C13_rogue_key (E := Engine.scalar smallFr) _ _ _ (by simp [partialKey, tab]) _ rfl
    (by simp [partialKey, tab]; rfl) (by simp [partialKey, tab]; rfl)
    (by simp [partialKey, tab]; rfl)

end Verif
