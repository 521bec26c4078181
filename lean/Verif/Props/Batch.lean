/-
Properties C33 to C35: verification of several ciphertext commitments at once.
-/
import Verif.Props.Encrypt
import Mathlib.LinearAlgebra.Dual.Lemmas
import Mathlib.Algebra.Polynomial.Roots

namespace Verif
open Spec

variable {E : Engine}

/-- the ciphertext at position `i` (a dummy outside the range) -/
def ctAt (cts : List (Ciphertext E)) (i : ℕ) : Ciphertext E := cts.getD i ⟨0, [], 0⟩

theorem batchShapes_ok {cts : List (Ciphertext E)} {n : ℕ}
    (h : ∀ ct ∈ cts, ct.enc_chunks.length = n) : batchShapes n cts = .ok () := by
  induction cts with
  | nil => rfl
  | cons c cs ih =>
    unfold batchShapes
    rw [if_neg (by simpa using h c (by simp))]
    exact ih fun ct hct => h ct (by simp [hct])

theorem batchShapes_err {pre post : List (Ciphertext E)} {c : Ciphertext E} {n : ℕ}
    (h : ∀ ct ∈ pre, ct.enc_chunks.length = n) (hc : c.enc_chunks.length ≠ n) :
    batchShapes n (pre ++ c :: post)
      = .err (.incompatibleEncryptionKey c.enc_chunks.length n) := by
  induction pre with
  | nil =>
    show batchShapes n (c :: post) = _
    unfold batchShapes
    rw [if_pos hc]
  | cons x xs ih =>
    rw [List.cons_append]
    unfold batchShapes
    rw [if_neg (by simpa using h x (by simp))]
    exact ih fun ct hct => h ct (by simp [hct])

/-- The batch check is the single check on the linear combination. -/
theorem batch_eq (cts : List (Ciphertext E)) (rp : List E.Fr) (ek : EncryptionKey E)
    (gens : EncryptionGens E) (hw : WellFormed ek) (hn : ek.X.length < 256) (hne : cts ≠ [])
    (hl : rp.length = cts.length) (hs : ∀ ct ∈ cts, ct.enc_chunks.length = ek.X.length) :
    verifyCommitmentsInBatch cts rp ek.prepare gens.prepare =
      verifyCiphertextCommitment
        (∑ i ∈ Finset.range cts.length, rp.getD i 0 • (ctAt cts i).X_r)
        (tab ek.X.length fun j =>
          ∑ i ∈ Finset.range cts.length, rp.getD i 0 • (ctAt cts i).enc_chunks.getD j 0)
        (∑ i ∈ Finset.range cts.length, rp.getD i 0 • (ctAt cts i).commitment)
        ek.prepare gens.prepare := by
  have hcnt : (UInt8.ofNat ek.X.length).toNat = ek.X.length := by simp; omega
  have hmsm : ∀ f : ℕ → E.G1, msmBigint (tab rp.length f) (rp.map (intoBigint (K := E.fr)))
      = ∑ i ∈ Finset.range cts.length, rp.getD i 0 • f i := by
    intro f
    conv_lhs => rw [eq_tab (l := rp) rfl 0]
    rw [map_tab, length_tab, msmBigint_tab, hl]
    refine Finset.sum_congr rfl fun i _ => ?_
    exact mulBigint_intoBigint (K := E.fr) _ _
  have hat : ∀ i < rp.length, idx cts i = .ok (ctAt cts i) := by
    intro i hi
    rw [idx_ok ⟨0, [], 0⟩ (by omega)]
    rfl
  have hlen : ∀ i < rp.length, (ctAt cts i).enc_chunks.length = ek.X.length := by
    intro i hi
    apply hs
    unfold ctAt
    rw [List.getD_eq_getElem?_getD, List.getElem?_eq_getElem (by omega)]
    exact List.getElem_mem _
  have hpos : 0 < rp.length := by rw [hl]; exact List.length_pos_iff.mpr hne
  have ha : getG1ForBatchChecks cts rp = .ok (getG1ForCommitmentChecks
        (∑ i ∈ Finset.range cts.length, rp.getD i 0 • (ctAt cts i).X_r)
        (tab ek.X.length fun j =>
          ∑ i ∈ Finset.range cts.length, rp.getD i 0 • (ctAt cts i).enc_chunks.getD j 0)
        (∑ i ∈ Finset.range cts.length, rp.getD i 0 • (ctAt cts i).commitment)) := by
    unfold getG1ForBatchChecks
    rw [hat 0 hpos]
    simp only [Res.ok_bind]
    rw [mapRes_range_ok (g := fun i => (ctAt cts i).X_r) (fun i hi => by rw [hat i hi]; rfl)]
    simp only [Res.ok_bind]
    rw [hlen 0 hpos]
    rw [mapRes_range_ok (n := ek.X.length) (g := fun j => ∑ i ∈ Finset.range cts.length,
        rp.getD i 0 • (ctAt cts i).enc_chunks.getD j 0)]
    · simp only [Res.ok_bind]
      rw [mapRes_range_ok (g := fun i => (ctAt cts i).commitment)
        (fun i hi => by rw [hat i hi]; rfl)]
      simp only [Res.ok_bind, Res.pure_eq, hmsm]
      rfl
    · intro j hj
      rw [mapRes_range_ok (g := fun i => (ctAt cts i).enc_chunks.getD j 0)]
      · simp only [Res.ok_bind, Res.pure_eq, hmsm]
      · intro i hi
        rw [hat i hi]
        simp only [Res.ok_bind]
        exact idx_ok 0 (by rw [hlen i hi]; exact hj)
  unfold verifyCommitmentsInBatch verifyCiphertextCommitment
  rw [if_neg (by simpa using hl), supportedChunks_prepare, supportedChunks_eq ek hw]
  simp only [Res.ok_bind, hcnt]
  rw [batchShapes_ok hs, ha, if_neg (by simp)]
  rfl

/-- the defect of a ciphertext under the pairing equation -/
def defect (ek : EncryptionKey E) (H : E.G2) (ct : Ciphertext E) : E.GT :=
  E.e ct.X_r (ek.Z.getD 0 0)
    + ∑ j ∈ Finset.range ek.X.length, E.e (ct.enc_chunks.getD j 0) (ek.Z.getD (j + 1) 0)
    - E.e ct.commitment H

theorem verify_iff_defect (ct : Ciphertext E) (ek : EncryptionKey E) (gens : EncryptionGens E)
    (hw : WellFormed ek) (hn : ek.X.length < 256) (hs : ct.enc_chunks.length = ek.X.length) :
    ct.verifyCommitment ek.prepare gens.prepare
      = if defect ek gens.H ct = 0 then .ok () else .err .invalidCommitment := by
  unfold Ciphertext.verifyCommitment
  rw [verify_eq _ _ _ _ _ hw hn, if_neg (by simpa using hs), hs]
  unfold defect
  congr 1
  exact propext sub_eq_zero.symm

theorem batch_iff_defect (cts : List (Ciphertext E)) (rp : List E.Fr) (ek : EncryptionKey E)
    (gens : EncryptionGens E) (hw : WellFormed ek) (hn : ek.X.length < 256) (hne : cts ≠ [])
    (hl : rp.length = cts.length) (hs : ∀ ct ∈ cts, ct.enc_chunks.length = ek.X.length) :
    verifyCommitmentsInBatch cts rp ek.prepare gens.prepare
      = if ∑ i ∈ Finset.range cts.length, rp.getD i 0 • defect ek gens.H (ctAt cts i) = 0
        then .ok () else .err .invalidCommitment := by
  rw [batch_eq cts rp ek gens hw hn hne hl hs]
  have := verify_iff_defect (⟨∑ i ∈ Finset.range cts.length, rp.getD i 0 • (ctAt cts i).X_r,
        (tab ek.X.length fun j =>
          ∑ i ∈ Finset.range cts.length, rp.getD i 0 • (ctAt cts i).enc_chunks.getD j 0),
        (∑ i ∈ Finset.range cts.length, rp.getD i 0 • (ctAt cts i).commitment)⟩ : Ciphertext E)
        ek gens hw hn (by simp)
  unfold Ciphertext.verifyCommitment at this
  rw [this]
  congr 1
  have e : defect ek gens.H (⟨∑ i ∈ Finset.range cts.length, rp.getD i 0 • (ctAt cts i).X_r,
        (tab ek.X.length fun j =>
          ∑ i ∈ Finset.range cts.length, rp.getD i 0 • (ctAt cts i).enc_chunks.getD j 0),
        (∑ i ∈ Finset.range cts.length, rp.getD i 0 • (ctAt cts i).commitment)⟩ : Ciphertext E)
      = ∑ i ∈ Finset.range cts.length, rp.getD i 0 • defect ek gens.H (ctAt cts i) := by
    unfold defect
    have h2 : ∀ j ∈ Finset.range ek.X.length,
        E.e ((tab ek.X.length fun j => ∑ i ∈ Finset.range cts.length,
          rp.getD i 0 • (ctAt cts i).enc_chunks.getD j 0).getD j 0) (ek.Z.getD (j + 1) 0)
        = ∑ i ∈ Finset.range cts.length, rp.getD i 0 •
          E.e ((ctAt cts i).enc_chunks.getD j 0) (ek.Z.getD (j + 1) 0) := by
      intro j hj
      rw [getD_tab, if_pos (Finset.mem_range.mp hj)]
      simp only [map_sum, map_smul, LinearMap.sum_apply, LinearMap.smul_apply]
    dsimp only
    rw [Finset.sum_congr rfl h2, Finset.sum_comm]
    simp only [map_sum, map_smul, LinearMap.sum_apply, LinearMap.smul_apply]
    rw [← Finset.sum_add_distrib, ← Finset.sum_sub_distrib]
    refine Finset.sum_congr rfl fun i _ => ?_
    rw [smul_sub, smul_add, Finset.smul_sum]
  rw [e]

/-! ### C33 -/

/-- **C33** completeness: if every ciphertext of a non-empty batch passes individually, the batch
passes for every vector of multipliers of the right length. -/
theorem C33_batch_complete (cts : List (Ciphertext E)) (rp : List E.Fr) (ek : EncryptionKey E)
    (gens : EncryptionGens E) (hn : ek.X.length < 256) (hne : cts ≠ [])
    (hl : rp.length = cts.length)
    (hacc : ∀ ct ∈ cts, ct.verifyCommitment ek.prepare gens.prepare = .ok ()) :
    verifyCommitmentsInBatch cts rp ek.prepare gens.prepare = .ok () := by
  -- an accepted ciphertext forces the key to be well-formed and the length to match
  have hshape : ∀ ct ∈ cts, WellFormed ek ∧ ct.enc_chunks.length = ek.X.length := by
    intro ct hct
    have h := hacc ct hct
    have hw : WellFormed ek := by
      unfold Ciphertext.verifyCommitment verifyCiphertextCommitment at h
      obtain ⟨n, h1, -⟩ := Res.bind_eq_ok.mp h
      rw [supportedChunks_prepare] at h1
      exact ((supportedChunks_ok_iff ek n).mp h1).1
    refine ⟨hw, ?_⟩
    unfold Ciphertext.verifyCommitment at h
    rw [verify_eq _ _ _ _ _ hw hn] at h
    by_contra hc
    rw [if_pos hc] at h
    cases h
  obtain ⟨ct0, hct0⟩ := List.exists_mem_of_ne_nil cts hne
  have hw := (hshape ct0 hct0).1
  have hs : ∀ ct ∈ cts, ct.enc_chunks.length = ek.X.length := fun ct h => (hshape ct h).2
  rw [batch_iff_defect cts rp ek gens hw hn hne hl hs]
  apply if_pos
  apply Finset.sum_eq_zero
  intro i hi
  have hmem : ctAt cts i ∈ cts := by
    unfold ctAt
    rw [List.getD_eq_getElem?_getD, List.getElem?_eq_getElem (Finset.mem_range.mp hi)]
    exact List.getElem_mem _
  have h := hacc _ hmem
  rw [verify_iff_defect _ ek gens hw hn (hs _ hmem)] at h
  by_cases hd : defect ek gens.H (ctAt cts i) = 0
  · rw [hd, smul_zero]
  · rw [if_neg hd] at h; cases h

/-- the hypotheses of C33 are met by a batch of two honest ciphertexts -/
example : verifyCommitmentsInBatch [Fix.ct1, Fix.ct1] ([5, 6] : List Fix.F) Fix.ek.prepare
    Fix.gens.prepare = .ok () := by
  have h : Fix.ct1.verifyCommitment Fix.ek.prepare Fix.gens.prepare = .ok () := by
    unfold Ciphertext.verifyCommitment
    decide +kernel
  exact C33_batch_complete [Fix.ct1, Fix.ct1] ([5, 6] : List Fix.F) Fix.ek Fix.gens (by decide +kernel)
    (List.cons_ne_nil _ _) rfl (by
      intro ct hct
      simp only [List.mem_cons, List.not_mem_nil, or_false, or_self] at hct
      rw [hct]
      exact h)

/-! ### C34 -/

/-- a nonzero linear combination with powers has few roots -/
theorem few_roots {F V : Type} [Field F] [AddCommGroup V] [Module F V] (k : ℕ) (d : ℕ → V)
    (i₀ : ℕ) (hi₀ : i₀ < k) (hd : d i₀ ≠ 0) (S : Finset F)
    (hS : ∀ r ∈ S, ∑ i ∈ Finset.range k, r ^ i • d i = 0) : S.card ≤ k - 1 := by
  classical
  obtain ⟨f, hf⟩ : ∃ f : Module.Dual F V, f (d i₀) ≠ 0 := by
    by_contra h
    push Not at h
    exact hd ((Module.forall_dual_apply_eq_zero_iff F _).mp h)
  let q : Polynomial F := ∑ i ∈ Finset.range k, Polynomial.monomial i (f (d i))
  have hcoeff : q.coeff i₀ = f (d i₀) := by
    simp only [q, Polynomial.finsetSum_coeff, Polynomial.coeff_monomial]
    rw [Finset.sum_ite_eq' (Finset.range k) i₀ (fun i => f (d i)), if_pos (Finset.mem_range.mpr hi₀)]
  have hq : q ≠ 0 := by
    intro h
    rw [h, Polynomial.coeff_zero] at hcoeff
    exact hf hcoeff.symm
  have hdeg : q.natDegree ≤ k - 1 := by
    apply Polynomial.natDegree_sum_le_of_forall_le
    intro i hi
    exact le_trans (Polynomial.natDegree_monomial_le _) (by have := Finset.mem_range.mp hi; omega)
  have hroot : S ⊆ q.roots.toFinset := by
    intro r hr
    rw [Multiset.mem_toFinset, Polynomial.mem_roots hq, Polynomial.IsRoot, Polynomial.eval_finsetSum]
    have := congrArg f (hS r hr)
    rw [map_sum, map_zero] at this
    rw [← this]
    refine Finset.sum_congr rfl fun i _ => ?_
    rw [Polynomial.eval_monomial, map_smul, smul_eq_mul, mul_comm]
  calc S.card ≤ q.roots.toFinset.card := Finset.card_le_card hroot
    _ ≤ q.roots.card := Multiset.toFinset_card_le _
    _ ≤ q.natDegree := Polynomial.card_roots' q
    _ ≤ k - 1 := hdeg

/-- **C34** soundness: if one of `k` ciphertexts is individually rejected, at most `k - 1` field
elements `r` make the batch with multipliers `1, r, ..., r^(k-1)` accept; for all others the
result is `InvalidCommitment`. -/
theorem C34_batch_sound (cts : List (Ciphertext E)) (ek : EncryptionKey E)
    (gens : EncryptionGens E) (hw : WellFormed ek) (hn : ek.X.length < 256)
    (hs : ∀ ct ∈ cts, ct.enc_chunks.length = ek.X.length)
    (bad : Ciphertext E) (hbad : bad ∈ cts)
    (hrej : bad.verifyCommitment ek.prepare gens.prepare ≠ .ok ()) :
    (Finset.univ.filter fun r : E.Fr =>
      verifyCommitmentsInBatch cts (tab cts.length fun i => r ^ i) ek.prepare gens.prepare
        = .ok ()).card ≤ cts.length - 1 ∧
    ∀ r : E.Fr,
      verifyCommitmentsInBatch cts (tab cts.length fun i => r ^ i) ek.prepare gens.prepare ≠ .ok () →
      verifyCommitmentsInBatch cts (tab cts.length fun i => r ^ i) ek.prepare gens.prepare
        = .err .invalidCommitment := by
  have hne : cts ≠ [] := List.ne_nil_of_mem hbad
  have key : ∀ r : E.Fr,
      verifyCommitmentsInBatch cts (tab cts.length fun i => r ^ i) ek.prepare gens.prepare
      = if ∑ i ∈ Finset.range cts.length, r ^ i • defect ek gens.H (ctAt cts i) = 0
        then .ok () else .err .invalidCommitment := by
    intro r
    rw [batch_iff_defect cts _ ek gens hw hn hne (by simp) hs]
    have e : ∑ i ∈ Finset.range cts.length,
        (tab cts.length fun i => r ^ i).getD i 0 • defect ek gens.H (ctAt cts i)
        = ∑ i ∈ Finset.range cts.length, r ^ i • defect ek gens.H (ctAt cts i) :=
      Finset.sum_congr rfl fun i hi => by rw [getD_tab, if_pos (Finset.mem_range.mp hi)]
    rw [e]
  constructor
  · obtain ⟨i₀, hi₀, hget⟩ := List.mem_iff_getElem.mp hbad
    have hat : ctAt cts i₀ = bad := by
      unfold ctAt
      rw [List.getD_eq_getElem?_getD, List.getElem?_eq_getElem hi₀, Option.getD_some, hget]
    have hd : defect ek gens.H (ctAt cts i₀) ≠ 0 := by
      intro h
      rw [hat] at h
      rw [verify_iff_defect bad ek gens hw hn (hs bad hbad), if_pos h] at hrej
      exact hrej rfl
    apply few_roots cts.length (fun i => defect ek gens.H (ctAt cts i)) i₀ hi₀ hd
    intro r hr
    have h := (Finset.mem_filter.mp hr).2
    rw [key r] at h
    by_contra hc
    rw [if_neg hc] at h
    cases h
  · intro r h
    rw [key r] at h ⊢
    by_cases hz : ∑ i ∈ Finset.range cts.length, r ^ i • defect ek gens.H (ctAt cts i) = 0
    · rw [if_pos hz] at h; exact absurd rfl h
    · rw [if_neg hz]

/-- the hypotheses of C34 are met by an honest and a forged ciphertext: at most one field element `r`
makes the batch pass -/
example : (Finset.univ.filter fun r : Fix.E.Fr =>
      verifyCommitmentsInBatch [Fix.ct1, { Fix.ct1 with commitment := Fix.psiBad }]
        (tab 2 fun i => r ^ i) Fix.ek.prepare Fix.gens.prepare = .ok ()).card ≤ 1 :=
  (C34_batch_sound [Fix.ct1, { Fix.ct1 with commitment := Fix.psiBad }] Fix.ek Fix.gens Fix.wf
    (by decide +kernel) (by
      intro ct hct
      rcases List.mem_cons.mp hct with rfl | hct
      · decide +kernel
      · rcases List.mem_singleton.mp hct with rfl
        decide +kernel) { Fix.ct1 with commitment := Fix.psiBad }
    (List.mem_cons_of_mem _ (List.mem_singleton.mpr rfl)) (by
      unfold Ciphertext.verifyCommitment
      decide +kernel)).1

/-- **C34** the bound is about the challenge, not the multipliers: with multipliers all equal to
one, two individually rejected ciphertexts whose errors cancel are accepted. -/
theorem C34_constant_multipliers_unsound (ct : Ciphertext E) (ek : EncryptionKey E)
    (gens : EncryptionGens E) (hw : WellFormed ek) (hn : ek.X.length < 256) (hH : gens.H ≠ 0)
    (hacc : ct.verifyCommitment ek.prepare gens.prepare = .ok ()) (x : E.G1) (hx : x ≠ 0) :
    ({ ct with commitment := ct.commitment + x } : Ciphertext E).verifyCommitment ek.prepare
      gens.prepare = .err .invalidCommitment ∧
    ({ ct with commitment := ct.commitment - x } : Ciphertext E).verifyCommitment ek.prepare
      gens.prepare = .err .invalidCommitment ∧
    verifyCommitmentsInBatch [{ ct with commitment := ct.commitment + x },
      { ct with commitment := ct.commitment - x }] [1, 1] ek.prepare gens.prepare = .ok () := by
  have hs : ct.enc_chunks.length = ek.X.length := by
    by_contra hc
    unfold Ciphertext.verifyCommitment at hacc
    rw [verify_eq _ _ _ _ _ hw hn, if_pos hc] at hacc
    cases hacc
  rw [verify_iff_defect ct ek gens hw hn hs] at hacc
  have h0 : defect ek gens.H ct = 0 := by
    by_contra h
    rw [if_neg h] at hacc
    cases hacc
  have hp : ∀ y : E.G1, defect ek gens.H { ct with commitment := ct.commitment + y }
      = - E.e y gens.H := by
    intro y
    have : defect ek gens.H { ct with commitment := ct.commitment + y }
        = defect ek gens.H ct - E.e y gens.H := by
      unfold defect
      dsimp only
      rw [map_add, LinearMap.add_apply]
      abel
    rw [this, h0, zero_sub]
  have hne : ∀ y : E.G1, y ≠ 0 → - E.e y gens.H ≠ 0 := by
    intro y hy h
    rcases E.nondeg _ _ (neg_eq_zero.mp h) with h | h
    · exact hy h
    · exact hH h
  refine ⟨?_, ?_, ?_⟩
  · rw [verify_iff_defect _ ek gens hw hn (by exact hs), hp, if_neg (hne x hx)]
  · rw [sub_eq_add_neg, verify_iff_defect _ ek gens hw hn (by exact hs), hp,
      if_neg (hne (-x) (neg_ne_zero.mpr hx))]
  · rw [batch_iff_defect _ _ ek gens hw hn (by simp) (by simp) (by
      intro c hc
      simp only [List.mem_cons, List.not_mem_nil, or_false] at hc
      rcases hc with rfl | rfl <;> exact hs)]
    apply if_pos
    simp only [List.length_cons, List.length_nil, Finset.sum_range_succ,
      Finset.sum_range_zero, ctAt, List.getD_cons_zero, List.getD_cons_succ, zero_add, one_smul]
    rw [sub_eq_add_neg ct.commitment x, hp, hp, map_neg, LinearMap.neg_apply]
    abel

/-! ### C35 -/

/-- **C35** complete case list of `verify_commitments_in_batch`. -/
theorem C35_batch_cases (cts : List (Ciphertext E)) (rp : List E.Fr) (ek : EncryptionKey E)
    (gens : EncryptionGens E) :
    (rp.length ≠ cts.length →
      verifyCommitmentsInBatch cts rp ek.prepare gens.prepare = .panic) ∧
    (rp.length = cts.length → ek.Y.length ≠ ek.X.length →
      verifyCommitmentsInBatch cts rp ek.prepare gens.prepare
        = .err (.malformedEncryptionKey ek.Y.length ek.X.length)) ∧
    (rp.length = cts.length → ek.Y.length = ek.X.length → ek.Z.length ≠ ek.X.length + 1 →
      verifyCommitmentsInBatch cts rp ek.prepare gens.prepare
        = .err (.malformedEncryptionKey ek.Z.length ek.X.length)) ∧
    (rp.length = cts.length → WellFormed ek → cts = [] →
      verifyCommitmentsInBatch cts rp ek.prepare gens.prepare = .panic) ∧
    (∀ pre c post, cts = pre ++ c :: post → rp.length = cts.length → WellFormed ek →
      ek.X.length < 256 → (∀ ct ∈ pre, ct.enc_chunks.length = ek.X.length) →
      c.enc_chunks.length ≠ ek.X.length →
      verifyCommitmentsInBatch cts rp ek.prepare gens.prepare
        = .err (.incompatibleEncryptionKey c.enc_chunks.length ek.X.length)) ∧
    (rp.length = cts.length → WellFormed ek → ek.X.length < 256 → cts ≠ [] →
      (∀ ct ∈ cts, ct.enc_chunks.length = ek.X.length) →
      verifyCommitmentsInBatch cts rp ek.prepare gens.prepare = .ok () ∨
      verifyCommitmentsInBatch cts rp ek.prepare gens.prepare = .err .invalidCommitment) := by
  refine ⟨?_, ?_, ?_, ?_, ?_, ?_⟩
  · intro h
    unfold verifyCommitmentsInBatch
    exact if_pos h
  · intro h h1
    unfold verifyCommitmentsInBatch
    rw [if_neg (by simpa using h), supportedChunks_prepare]
    unfold EncryptionKey.supportedChunksCount encKeyChunks
    rw [if_pos h1]; rfl
  · intro h h1 h2
    unfold verifyCommitmentsInBatch
    rw [if_neg (by simpa using h), supportedChunks_prepare]
    unfold EncryptionKey.supportedChunksCount encKeyChunks
    rw [if_neg (by simpa using h1), if_pos h2]; rfl
  · rintro h hw rfl
    unfold verifyCommitmentsInBatch
    rw [if_neg (by simpa using h), supportedChunks_prepare, supportedChunks_eq ek hw]
    rfl
  · rintro pre c post rfl hl hw hn hpre hc
    have hcnt : (UInt8.ofNat ek.X.length).toNat = ek.X.length := by simp; omega
    unfold verifyCommitmentsInBatch
    rw [if_neg (by simpa using hl), supportedChunks_prepare, supportedChunks_eq ek hw]
    simp only [Res.ok_bind, hcnt]
    rw [batchShapes_err hpre hc]
    rfl
  · intro hl hw hn hne hs
    rw [batch_iff_defect cts rp ek gens hw hn hne hl hs]
    by_cases h : ∑ i ∈ Finset.range cts.length, rp.getD i 0 • defect ek gens.H (ctAt cts i) = 0
    · exact .inl (if_pos h)
    · exact .inr (if_neg h)

/-- a concrete batch with one accepted and one rejected ciphertext (two chunks each) -/
example :
    let ek : EncryptionKey (Engine.scalar smallFr) :=
      encKey (E := Engine.scalar smallFr) 2 (fun i => (i + 3 : ZMod 101))
        (fun i => (i + 5 : ZMod 101)) (fun _ => (1 : ZMod 101)) (7 : ZMod 101) (9 : ZMod 101)
        (2 : ZMod 101)
    let gens : EncryptionGens (Engine.scalar smallFr) := ⟨(1 : ZMod 101), (2 : ZMod 101)⟩
    let good := cipher ek (fun _ => (1 : ZMod 101)) (fun i => i + 4) (11 : ZMod 101)
    let bad : Ciphertext (Engine.scalar smallFr) := { good with commitment := (0 : ZMod 101) }
    WellFormed ek ∧ good.enc_chunks.length = ek.X.length ∧
      good.verifyCommitment ek.prepare gens.prepare = .ok () ∧
      bad.verifyCommitment ek.prepare gens.prepare = .err .invalidCommitment := by
  refine ⟨encKey_wf _ _ _ _ _ _ _, rfl, ?_, ?_⟩ <;> decide +kernel

end Verif
