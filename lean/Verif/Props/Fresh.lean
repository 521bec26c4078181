/-
Property C86: fresh keys and fresh setups reject whatever was fixed before they were drawn.
-/
import Verif.Props.WrongKey
import Verif.Props.Verified

namespace Verif
open Spec

section
variable {E : Engine}

/-- a nonzero vector is detected by some linear functional -/
theorem exists_functional {M : Type*} [AddCommGroup M] [Module E.Fr M] (x : M) (hx : x ≠ 0) :
    ∃ φ : M →ₗ[E.Fr] E.Fr, φ x = 1 := by
  have : ¬ ∀ φ : Module.Dual E.Fr M, φ x = 0 := fun h => hx ((Module.forall_dual_apply_eq_zero_iff E.Fr x).mp h)
  push Not at this
  obtain ⟨φ, hφ⟩ := this
  refine ⟨(φ x)⁻¹ • φ, ?_⟩
  rw [LinearMap.smul_apply, smul_eq_mul, inv_mul_cancel₀ hφ]

/-- counting with a polynomial on all draws -/
theorem ncard_le_of_poly {K D : ℕ} {Good : (Fin K → E.Fr) → Prop} {φ : (Fin K → E.Fr) → E.Fr}
    (h : Agm.PolyOn Good D φ) (S : Set (Fin K → E.Fr)) (hS : ∀ g ∈ S, Good g ∧ φ g = 0)
    (hne : ∀ g ∈ S, ∃ g0, Good g0 ∧ φ g0 ≠ 0) : S.ncard ≤ D * E.fr.p ^ (K - 1) := by
  classical
  have hcard : Fintype.card E.Fr = E.fr.p := ZMod.card _
  rcases S.eq_empty_or_nonempty with rfl | ⟨g, hg⟩
  · simp
  · obtain ⟨g0, h0, hn⟩ := hne g hg
    have := h.count g0 h0 hn (Set.toFinite S).toFinset (fun g hg => hS g (by simpa using hg))
    rwa [hcard, ← Set.ncard_eq_toFinset_card S] at this

/-- **C86** (commitments) A ciphertext fixed before the keys are drawn, unless all its components but the last are
the neutral element, passes `verify_commitment` on at most `p^(K-1)` of the `p^K` possible draws of `keygen`. -/
theorem C86_fresh_key_rejects (b n : UInt8) (hn : chunksCount E.fr b = .ok n) (gens : EncryptionGens E)
    (hH : gens.H ≠ 0) (g_i : List E.G1) (D C : E.G1) (ct : Ciphertext E)
    (hct : ct.X_r ≠ 0 ∨ ∃ x ∈ ct.enc_chunks, x ≠ 0) :
    {g : Fin (2 + 3 * n.toNat) → E.Fr | ∃ sk ek dk f',
      keygen (tape E) (tapeOf g) b gens g_i D C = .ok ((sk, ek, dk), f') ∧
      ct.verifyCommitment ek.prepare gens.prepare = .ok ()}.ncard ≤ E.fr.p ^ (1 + 3 * n.toNat) := by
  obtain ⟨w, hw0, hw⟩ : ∃ w, w ≤ ct.enc_chunks.length ∧ (ct.X_r :: ct.enc_chunks).getD w 0 ≠ 0 := by
    rcases hct with h | ⟨x, hx, h⟩
    · exact ⟨0, by omega, by simpa using h⟩
    · obtain ⟨i, hi, rfl⟩ := List.getElem_of_mem hx
      exact ⟨i + 1, by omega, by simpa [List.getD_eq_getElem?_getD, List.getElem?_eq_getElem hi] using h⟩
  obtain ⟨φ, hφ⟩ := exists_functional (E := E) _ hw
  have hpoly : Agm.PolyOn (fun _ : Fin (2 + 3 * n.toNat) → E.Fr => True) 1 (fun g =>
      (∑ i ∈ Finset.range (ct.enc_chunks.length + 1),
        φ ((ct.X_r :: ct.enc_chunks).getD i 0) * tapeOf g (1 + n.toNat + i)) - φ ct.commitment) :=
    (Agm.PolyOn.sum _ _ fun i _ => (tapeOf_poly _ _).cmul _).sub (Agm.PolyOn.const _ _)
  have key : ∀ g : Fin (2 + 3 * n.toNat) → E.Fr, (∃ sk ek dk f',
      keygen (tape E) (tapeOf g) b gens g_i D C = .ok ((sk, ek, dk), f') ∧
      ct.verifyCommitment ek.prepare gens.prepare = .ok ()) → ct.enc_chunks.length = n.toNat ∧
      (∑ i ∈ Finset.range (ct.enc_chunks.length + 1),
        φ ((ct.X_r :: ct.enc_chunks).getD i 0) * tapeOf g (1 + n.toNat + i)) - φ ct.commitment = 0 := by
    rintro g ⟨sk, ek, dk, f', hk, hv⟩
    obtain ⟨n', hn', hg⟩ := keygen_ok_inv hk
    rw [hn] at hn'
    cases hn'
    rw [keygen_eq (tape E) (tapeOf g) gens g_i D C hn hg] at hk
    simp only [Res.ok.injEq, Prod.mk.injEq] at hk
    obtain ⟨⟨rfl, rfl, rfl⟩, -⟩ := hk
    simp only [draw_tape] at hv
    have hX : (encKey n.toNat (fun i => tapeOf g (1 + i)) (fun i => tapeOf g (1 + n.toNat + i))
        (fun i => g_i.getD i 0) D C gens.H).X.length = n.toNat := by simp [encKey]
    obtain ⟨hlen, hpsi⟩ := ((C16_accept_iff _ gens (fun i => tapeOf g (1 + n.toNat + i))
      (encKey_wf _ _ _ _ _ _ _) (by rw [hX]; exact n.toNat_lt) hH (by
        intro i hi
        rw [hX] at hi
        simp only [encKey, getD_tab, if_pos hi]) ct.X_r ct.enc_chunks ct.commitment).1).mp hv
    rw [hX] at hlen
    refine ⟨hlen, ?_⟩
    rw [hpsi, Finset.sum_range_succ']
    simp only [map_add, map_smul, map_sum, smul_eq_mul, List.getD_cons_succ, List.getD_cons_zero]
    rw [sub_eq_zero, add_comm]
    congr 1
    · ring
    · exact Finset.sum_congr rfl fun i _ => by ring
  refine (ncard_le_of_poly hpoly _ (fun g hg => ⟨trivial, (key g hg).2⟩) ?_).trans ?_
  · intro g hg
    obtain ⟨hlen, hz⟩ := key g hg
    -- move the draw `w` of the accepting run by one
    refine ⟨fun i => g i + if i.val = 1 + n.toNat + w then 1 else 0, trivial, ?_⟩
    have hsh : ∀ i, i < ct.enc_chunks.length + 1 →
        tapeOf (fun i : Fin (2 + 3 * n.toNat) => g i + if i.val = 1 + n.toNat + w then 1 else 0) (1 + n.toNat + i)
        = tapeOf g (1 + n.toNat + i) + if i = w then 1 else 0 := by
      intro i hi
      unfold tapeOf
      rw [dif_pos (by omega), dif_pos (by omega)]
      simp
    rw [Finset.sum_congr rfl fun i hi => by rw [hsh i (Finset.mem_range.mp hi), mul_add], Finset.sum_add_distrib,
      add_sub_right_comm, hz, zero_add]
    simp only [mul_ite, mul_one, mul_zero]
    rw [Finset.sum_ite_eq' (Finset.range _) w, if_pos (Finset.mem_range.mpr (by omega)), hφ]
    exact one_ne_zero
  · rw [one_mul]
    exact le_of_eq (congrArg _ (by omega))

/-- **C86** (decryption) A ciphertext with a nonzero first component and at least one chunk, fixed before the keys
are drawn, decrypts to anything at all on at most `(2^b + 2) p^(K-1)` of the `p^K` possible draws of `keygen`. -/
theorem C86_fresh_key_decrypts_nothing (b n : UInt8) (hn : chunksCount E.fr b = .ok n) (h1 : 1 ≤ b.toNat)
    (h2 : b.toNat ≤ 16) (gens : EncryptionGens E) (hH : gens.H ≠ 0) (g_i : List E.G1) (D C : E.G1)
    (chk : Bool) (ct : Ciphertext E) (hct : ct.X_r ≠ 0) (hne : ct.enc_chunks ≠ []) :
    {g : Fin (2 + 3 * n.toNat) → E.Fr | ∃ sk ek dk f' ds nu,
      keygen (tape E) (tapeOf g) b gens g_i D C = .ok ((sk, ek, dk), f') ∧
      decryptToChunks chk ct.X_r ct.enc_chunks sk dk.prepare g_i b = .ok (ds, nu)}.ncard
      ≤ (2 ^ b.toNat + 2) * E.fr.p ^ (1 + 3 * n.toNat) := by
  classical
  have hcard : Fintype.card E.Fr = E.fr.p := ZMod.card _
  obtain ⟨φ, hφ⟩ := exists_functional (E := E) _ hct
  have hn1 : 1 ≤ n.toNat ∨ n.toNat = 0 := by omega
  obtain ⟨K, hK⟩ : ∃ K, K = 2 + 3 * n.toNat := ⟨_, rfl⟩
  rw [← hK, show 1 + 3 * n.toNat = K - 1 by omega]
  generalize hq : E.fr.p ^ (K - 1) = q
  have hB := C20_bound b.toNat h1 h2
  have hpos : 0 < 2 ^ b.toNat := by positivity
  have hb32 : b.toNat < 32 := by omega
  let A : ℕ → Finset (Fin K → E.Fr) := fun i => Finset.univ.filter fun g => tapeOf g i = 0
  let M : ℕ → Finset (Fin K → E.Fr) := fun m => Finset.univ.filter fun g =>
    tapeOf g 1 - (φ (ct.enc_chunks.getD 0 0) - (m : E.Fr) * φ (g_i.getD 0 0)) = 0
  have hsub : {g : Fin K → E.Fr | ∃ sk ek dk f' ds nu,
      keygen (tape E) (tapeOf g) b gens g_i D C = .ok ((sk, ek, dk), f') ∧
      decryptToChunks chk ct.X_r ct.enc_chunks sk dk.prepare g_i b = .ok (ds, nu)} ⊆
      ((A 0 ∪ A (2 + 2 * n.toNat)) ∪ (Finset.range (2 ^ b.toNat)).biUnion M : Finset (Fin K → E.Fr)) := by
    rintro g ⟨sk, ek, dk, f', ds, nu, hk, hdec⟩
    obtain ⟨n', hn', hg⟩ := keygen_ok_inv hk
    rw [hn] at hn'
    cases hn'
    rw [keygen_eq (tape E) (tapeOf g) gens g_i D C hn hg] at hk
    simp only [Res.ok.injEq, Prod.mk.injEq] at hk
    obtain ⟨⟨rfl, rfl, rfl⟩, -⟩ := hk
    simp only [draw_tape] at hdec
    simp only [Finset.coe_union, Set.mem_union, Finset.mem_coe]
    by_cases e0 : tapeOf g 0 = 0
    · exact .inl (.inl (Finset.mem_filter.mpr ⟨Finset.mem_univ _, e0⟩))
    by_cases ev : tapeOf g (2 + 2 * n.toNat) = 0
    · exact .inl (.inr (Finset.mem_filter.mpr ⟨Finset.mem_univ _, ev⟩))
    have hall := C20_decrypt_cases chk ct.X_r ct.enc_chunks ⟨tapeOf g 0⟩ (decKey n.toNat (tapeOf g 0)
      (fun i => tapeOf g (1 + i)) (fun i => tapeOf g (2 + 2 * n.toNat + i)) gens.H) g_i b hb32
    have hV1 : (decKey n.toNat (tapeOf g 0) (fun i => tapeOf g (1 + i))
      (fun i => tapeOf g (2 + 2 * n.toNat + i)) gens.H).V_1.length = n.toNat := by simp [decKey]
    have hV2 : (decKey n.toNat (tapeOf g 0) (fun i => tapeOf g (1 + i))
      (fun i => tapeOf g (2 + 2 * n.toNat + i)) gens.H).V_2.length = n.toNat := by simp [decKey]
    have hN256 : n.toNat < 256 := n.toNat_lt
    by_cases hl : ct.enc_chunks.length = n.toNat
    swap
    · rw [hall.2.1 (hV2.trans hV1.symm) (by rw [hV1, Nat.mod_eq_of_lt hN256]; exact hl)] at hdec
      cases hdec
    have hpos' : 0 < ct.enc_chunks.length := List.length_pos_iff.mpr hne
    obtain ⟨hle, heq, -⟩ := (((hall.2.2.2 (hV2.trans hV1.symm) (by rw [hV1, hl, Nat.mod_eq_of_lt hN256])
      (by omega)).1 ds nu).mp hdec).2.2 0 hpos'
    generalize (nums ds).getD 0 0 = m at hle heq
    refine .inr (Finset.mem_biUnion.mpr ⟨m, Finset.mem_range.mpr (by omega),
      Finset.mem_filter.mpr ⟨Finset.mem_univ _, ?_⟩⟩)
    unfold chunkBase chunkValue at heq
    simp only [decKey, getD_tab, if_pos (show 0 < n.toNat by omega), Nat.add_zero] at heq
    have hz : E.e (tapeOf g 1 • ct.X_r - (ct.enc_chunks.getD 0 0 - (m : E.Fr) • g_i.getD 0 0))
        ((tapeOf g 0 * tapeOf g (2 + 2 * n.toNat)) • gens.H) = 0 := by
      simp only [nsmul_fr (E := E), map_sub, LinearMap.sub_apply, map_smul, LinearMap.smul_apply] at heq ⊢
      rw [← sub_eq_zero] at heq
      rw [← heq]
      module
    rcases E.nondeg _ _ hz with h | h
    · have := congrArg φ h
      simpa [hφ] using this
    · rcases smul_eq_zero.mp h with h | h
      · exact absurd h (mul_ne_zero e0 ev)
      · exact absurd h hH
  have hA : ∀ i, i < K → (A i).card ≤ q := by
    intro i hi
    have := count_coord (E := E) i hi (A i) fun g hg => (Finset.mem_filter.mp hg).2
    rwa [one_mul, hq] at this
  have hM : ∀ m, (M m).card ≤ q := by
    intro m
    have hpoly : Agm.PolyOn (fun _ : Fin K → E.Fr => True) 1
        (fun g => tapeOf g 1 - (φ (ct.enc_chunks.getD 0 0) - (m : E.Fr) * φ (g_i.getD 0 0))) :=
      (tapeOf_poly _ _).sub (Agm.PolyOn.const _ _)
    have := hpoly.count (fun _ => φ (ct.enc_chunks.getD 0 0) - (m : E.Fr) * φ (g_i.getD 0 0) + 1) trivial (by
      unfold tapeOf
      rw [dif_pos (by omega), add_sub_cancel_left]
      exact one_ne_zero) (M m) (fun g hg => ⟨trivial, (Finset.mem_filter.mp hg).2⟩)
    rwa [hcard, hq, one_mul] at this
  by_cases hn0 : n.toNat = 0
  · -- no chunks at all: nothing decrypts
    have : {g : Fin K → E.Fr | ∃ sk ek dk f' ds nu,
        keygen (tape E) (tapeOf g) b gens g_i D C = .ok ((sk, ek, dk), f') ∧
        decryptToChunks chk ct.X_r ct.enc_chunks sk dk.prepare g_i b = .ok (ds, nu)} = ∅ := by
      rw [Set.eq_empty_iff_forall_notMem]
      rintro g ⟨sk, ek, dk, f', ds, nu, hk, hdec⟩
      obtain ⟨n', hn', hg⟩ := keygen_ok_inv hk
      rw [hn] at hn'
      cases hn'
      rw [keygen_eq (tape E) (tapeOf g) gens g_i D C hn hg] at hk
      simp only [Res.ok.injEq, Prod.mk.injEq] at hk
      obtain ⟨⟨rfl, rfl, rfl⟩, -⟩ := hk
      have hall := C20_decrypt_cases chk ct.X_r ct.enc_chunks ⟨draw (tape E) (tapeOf g) 0⟩ (decKey n.toNat
        (draw (tape E) (tapeOf g) 0) (fun i => draw (tape E) (tapeOf g) (1 + i))
        (fun i => draw (tape E) (tapeOf g) (2 + 2 * n.toNat + i)) gens.H) g_i b hb32
      have hpos' : 0 < ct.enc_chunks.length := List.length_pos_iff.mpr hne
      rw [hall.2.1 (by simp [decKey]) (by simp [decKey, hn0]; omega)] at hdec
      cases hdec
    rw [this]
    simp
  have cA := hA 0 (by omega)
  have cA' := hA (2 + 2 * n.toNat) (by omega)
  have cM : ((Finset.range (2 ^ b.toNat)).biUnion M).card ≤ 2 ^ b.toNat * q := by
    have := Finset.card_biUnion_le_card_mul (Finset.range (2 ^ b.toNat)) M q fun m _ => hM m
    rwa [Finset.card_range] at this
  have htot := Set.ncard_le_ncard hsub (Finset.finite_toSet _)
  rw [Set.ncard_coe_finset] at htot
  have u1 := Finset.card_union_le (A 0 ∪ A (2 + 2 * n.toNat)) ((Finset.range (2 ^ b.toNat)).biUnion M)
  have u2 := Finset.card_union_le (A 0) (A (2 + 2 * n.toNat))
  calc _ ≤ _ := htot
    _ ≤ 2 ^ b.toNat * q + 2 * q := by omega
    _ = _ := by ring

/-- **C86** (proofs) A proof and a ciphertext fixed before the SRS is drawn pass `verify_proof` on at most
`(size + 1) p^(K-1)` of the `p^K` possible draws of `generate_srs`, for every circuit; `size` is the size of the
evaluation domain. -/
theorem C86_fresh_srs_rejects (T : FftCfg E.Fr) (S : Synthesizer E.Fr) (cs : CS E.Fr) (hcs : S (CS.new true) = .ok cs)
    (hI : 0 < cs.numInst) (d : EvalDomain E.Fr) (hd : T.newDomain (cs.cons.length + cs.numInst) = some d)
    (gens : EncryptionGens E) (hG : gens.G ≠ 0) (hH : gens.H ≠ 0) (K : ℕ) (hK : 5 ≤ K) (proof : Proof E)
    (ct : Ciphertext E) :
    {g : Fin K → E.Fr | ∃ pk f', generateSrs T (tape E) 1 (tapeOf g) S gens = .ok (pk, f') ∧
      verifyProof (prepareVerifyingKey pk.pk.vk) proof ct = .ok ()}.ncard ≤ (d.size + 1) * E.fr.p ^ (K - 1) := by
  have hgt : E.e gens.G gens.H ≠ 0 := fun h => (E.nondeg _ _ h).elim hG hH
  obtain ⟨φ, hφ⟩ := exists_functional (E := E) _ hgt
  generalize hz : φ (E.e proof.a proof.b) = z
  generalize hx : φ (E.e proof.c gens.H) = x
  generalize hy : φ (E.e (ct.X_r + ct.enc_chunks.sum) gens.H) = y
  let P := srsParams (E := E) d K 0 (fun _ => 0) (fun _ => 0) (fun _ => 0)
  have hN := d.size_pos
  have hpoly : Agm.PolyOn (fun g : Fin K → E.Fr => d.vanishing (tapeOf g 4) ≠ 0 ∧ tapeOf g 2 ≠ 0 ∧ tapeOf g 3 ≠ 0)
      (d.size + 1) (fun g => tapeOf g 0 * tapeOf g 1 + x * tapeOf g 3 + y * tapeOf g 2 +
        mixAt cs (d.lagrange (tapeOf g 4)) (tapeOf g 0) (tapeOf g 1) (.inst 0) - z) :=
    ((((P.halpha.mul P.hbeta (by omega)).add ((P.hdelta.cmul x).mono (by omega))).add
      ((P.hgamma.cmul y).mono (by omega))).add ((P.mix cs (.inst 0)).mono (by omega))).sub (Agm.PolyOn.const _ _)
  have key : ∀ g : Fin K → E.Fr, (∃ pk f', generateSrs T (tape E) 1 (tapeOf g) S gens = .ok (pk, f') ∧
      verifyProof (prepareVerifyingKey pk.pk.vk) proof ct = .ok ()) →
      (d.vanishing (tapeOf g 4) ≠ 0 ∧ tapeOf g 2 ≠ 0 ∧ tapeOf g 3 ≠ 0) ∧
      tapeOf g 0 * tapeOf g 1 + x * tapeOf g 3 + y * tapeOf g 2 +
        mixAt cs (d.lagrange (tapeOf g 4)) (tapeOf g 0) (tapeOf g 1) (.inst 0) - z = 0 := by
    rintro g ⟨pk, f', hsrs, hv⟩
    obtain ⟨cs', d', k, hcs', hd', hk, hvan, -, hg2, hg3, -, hpk⟩ := srs_inv_draws hsrs
    rw [hcs] at hcs'
    cases hcs'
    rw [hd] at hd'
    cases hd'
    have : k = 0 := by omega
    subst this
    simp only [draw_tape, Nat.add_zero] at hvan hg2 hg3 hpk
    refine ⟨⟨hvan, hg2, hg3⟩, ?_⟩
    subst hpk
    have hne : (srsKey cs d (tapeOf g 4) (tapeOf g 0) (tapeOf g 1) (tapeOf g 2) (tapeOf g 3)
        gens.G gens.H).pk.vk.gamma_abc_g1 ≠ [] := by
      simp only [srsKey, ne_eq, List.map_eq_nil_iff, List.range_eq_nil]
      omega
    rw [verifyProof_eq _ _ _ hne] at hv
    split at hv
    swap
    · cases hv
    rename_i he
    have h0 : (srsKey cs d (tapeOf g 4) (tapeOf g 0) (tapeOf g 1) (tapeOf g 2) (tapeOf g 3)
        gens.G gens.H).pk.vk.gamma_abc_g1.getD 0 0 =
        (mixAt cs (d.lagrange (tapeOf g 4)) (tapeOf g 0) (tapeOf g 1) (.inst 0) * (tapeOf g 2)⁻¹) • gens.G := by
      simp [srsKey, List.getD_eq_getElem?_getD, List.getElem?_range hI]
    rw [h0] at he
    have he' := congrArg φ he
    simp only [srsKey] at he'
    rw [map_add (E.e) (ct.X_r + ct.enc_chunks.sum)] at he'
    simp only [LinearMap.add_apply, map_smul, LinearMap.smul_apply] at he'
    rw [map_add φ, map_add φ] at he'
    simp only [map_smul, smul_eq_mul, hz, hφ, smul_add, map_add φ, hx, mul_one] at he'
    rw [hy] at he'
    rw [he']
    field_simp
    ring
  refine ncard_le_of_poly hpoly _ key ?_
  intro g hg
  obtain ⟨⟨hvan, hg2, hg3⟩, -⟩ := key g hg
  -- vary the first two draws
  have main : ∃ a b : E.Fr, a * b + x * tapeOf g 3 + y * tapeOf g 2 +
      mixAt cs (d.lagrange (tapeOf g 4)) a b (.inst 0) - z ≠ 0 := by
    unfold mixAt
    generalize qapA cs (d.lagrange (tapeOf g 4)) (.inst 0) = u1
    generalize qapB cs (d.lagrange (tapeOf g 4)) (.inst 0) = u2
    generalize qapC cs (d.lagrange (tapeOf g 4)) (.inst 0) = u3
    by_contra hall
    push Not at hall
    have e00 := hall 0 0
    have e10 := hall 1 0
    have e01 := hall 0 1
    have e11 := hall 1 1
    apply one_ne_zero (α := E.Fr)
    linear_combination e11 - e10 - e01 + e00
  obtain ⟨a, b', hab⟩ := main
  let g0 : Fin K → E.Fr := fun i => if i.val = 0 then a else if i.val = 1 then b' else g i
  have t0 : tapeOf g0 0 = a := by
    unfold tapeOf; rw [dif_pos (by omega)]; rfl
  have t1 : tapeOf g0 1 = b' := by
    unfold tapeOf; rw [dif_pos (by omega)]; rfl
  have ti : ∀ i, 2 ≤ i → tapeOf g0 i = tapeOf g i := by
    intro i hi
    unfold tapeOf
    by_cases h : i < K
    · rw [dif_pos h, dif_pos h]
      show (if i = 0 then a else if i = 1 then b' else g ⟨i, h⟩) = _
      rw [if_neg (by omega), if_neg (by omega)]
    · rw [dif_neg h, dif_neg h]
  refine ⟨g0, ?_, ?_⟩
  · rw [ti 4 (by omega), ti 3 (by omega), ti 2 (by omega)]
    exact ⟨hvan, hg2, hg3⟩
  · rw [ti 4 (by omega), ti 3 (by omega), ti 2 (by omega), t0, t1]
    exact hab

/-- **C86** (whole setup) A ciphertext and a proof fixed before `setup_for_groth16` is run pass
`verify_commitment_and_proof` on at most `(size + 1) p^(K-1)` of its `p^K` possible draws. -/
theorem C86_fresh_setup_rejects (T : FftCfg E.Fr) (b n : UInt8) (hn : chunksCount E.fr b = .ok n)
    (hbm : b.toNat ≤ E.fr.modBits) (d : EvalDomain E.Fr)
    (hd : T.newDomain (n.toNat * constraintsPerValue E.fr.modBits b.toNat + (n.toNat + 1)) = some d)
    (gens : EncryptionGens E) (hG : gens.G ≠ 0) (hH : gens.H ≠ 0) (proof : Proof E) (ct : Ciphertext E) :
    {g : Fin (7 + 3 * n.toNat) → E.Fr | ∃ pk sk ek dk f',
      setupForGroth16 T (tape E) 1 (tapeOf g) b gens = .ok ((pk, sk, ek, dk), f') ∧
      ct.verifyCommitmentAndProof proof (prepareVerifyingKey pk.pk.vk) ek.prepare gens.prepare = .ok ()}.ncard
      ≤ (d.size + 1) * E.fr.p ^ (6 + 3 * n.toNat) := by
  classical
  rcases Set.eq_empty_or_nonempty {g : Fin (7 + 3 * n.toNat) → E.Fr | ∃ pk sk ek dk f',
      setupForGroth16 T (tape E) 1 (tapeOf g) b gens = .ok ((pk, sk, ek, dk), f') ∧
      ct.verifyCommitmentAndProof proof (prepareVerifyingKey pk.pk.vk) ek.prepare gens.prepare = .ok ()}
    with hem | ⟨g1, pk1, sk1, ek1, dk1, f1, hs1, -⟩
  · rw [hem]; simp
  unfold setupForGroth16 at hs1
  obtain ⟨c0, hc0, hs1⟩ := Res.bind_eq_ok.mp hs1
  obtain ⟨e1, e2, e3, e4, -⟩ := new_ok hc0
  have hnum : numValues c0 = n.toNat := by
    have := e4 rfl
    rw [hn] at this
    simp [numValues, e2, ← Res.ok.inj this]
  obtain ⟨cs, hcs, hI, hC, -⟩ := (C44_shape c0 true).1 (Or.inl rfl) (by rw [e1]; exact hbm)
  rw [e3, if_pos rfl, hnum] at hI
  rw [e1, hnum] at hC
  rw [← hC, ← hI] at hd
  have := C86_fresh_srs_rejects T c0.generateConstraints cs hcs (by omega) d hd gens hG hH (7 + 3 * n.toNat)
    (by omega) proof ct
  rw [show 7 + 3 * n.toNat - 1 = 6 + 3 * n.toNat by omega] at this
  refine (Set.ncard_le_ncard ?_ (Set.toFinite _)).trans this
  rintro g ⟨pk, sk, ek, dk, f', hs, hv⟩
  unfold setupForGroth16 at hs
  obtain ⟨c0', hc0', hs⟩ := Res.bind_eq_ok.mp hs
  rw [hc0] at hc0'
  cases hc0'
  obtain ⟨⟨pk', st1⟩, hsrs, hs⟩ := Res.bind_eq_ok.mp hs
  dsimp only at hs
  obtain ⟨g_i, hg, hs⟩ := Res.bind_eq_ok.mp hs
  obtain ⟨⟨⟨sk', ek', dk'⟩, st2⟩, hkg, hs⟩ := Res.bind_eq_ok.mp hs
  simp only [Res.pure_eq, Res.ok.injEq, Prod.mk.injEq] at hs
  obtain ⟨⟨rfl, rfl, rfl, rfl⟩, rfl⟩ := hs
  unfold Ciphertext.verifyCommitmentAndProof at hv
  obtain ⟨u, h1, h2⟩ := Res.bind_eq_ok.mp hv
  exact ⟨pk', st1, hsrs, h2⟩

/-- **C86** (the exception) the ciphertext whose components are all the neutral element passes `verify_commitment`
under every key of `keygen`: the condition of `C86_fresh_key_rejects` cannot be dropped. -/
theorem C86_neutral_accepted (R : RngCore E) (st st' : R.σ) (b n : UInt8) (hn : chunksCount E.fr b = .ok n)
    (gens : EncryptionGens E) (hH : gens.H ≠ 0) (g_i : List E.G1) (D C : E.G1) (sk : SecretKey E)
    (ek : EncryptionKey E) (dk : DecryptionKey E)
    (hk : keygen R st b gens g_i D C = .ok ((sk, ek, dk), st')) :
    (⟨0, List.replicate n.toNat 0, 0⟩ : Ciphertext E).verifyCommitment ek.prepare gens.prepare = .ok () := by
  obtain ⟨n', hn', hg⟩ := keygen_ok_inv hk
  rw [hn] at hn'
  cases hn'
  rw [keygen_eq R st gens g_i D C hn hg] at hk
  simp only [Res.ok.injEq, Prod.mk.injEq] at hk
  obtain ⟨⟨rfl, rfl, rfl⟩, -⟩ := hk
  have hX : (encKey n.toNat (fun i => draw R st (1 + i)) (fun i => draw R st (1 + n.toNat + i))
      (fun i => g_i.getD i 0) D C gens.H).X.length = n.toNat := by simp [encKey]
  refine ((C16_accept_iff _ gens (fun i => draw R st (1 + n.toNat + i)) (encKey_wf _ _ _ _ _ _ _)
    (by rw [hX]; exact n.toNat_lt) hH (by
      intro i hi
      rw [hX] at hi
      simp only [encKey, getD_tab, if_pos hi]) _ _ _).1).mpr ⟨by rw [hX]; simp, ?_⟩
  rw [smul_zero, zero_add, Finset.sum_eq_zero]
  intro i hi
  have hi : i < n.toNat := by simpa using hi
  have : (List.replicate n.toNat (0 : E.G1)).getD i 0 = 0 := by
    simp [List.getD_eq_getElem?_getD, hi]
  rw [this, smul_zero]

end

/-- the hypotheses of `C86_fresh_key_rejects` are met by the ciphertext `ct1` of `Fix`, which its own key accepts -/
example : Fix.ct1.verifyCommitment Fix.ek.prepare Fix.gens.prepare = .ok () ∧
    {g : Fin (2 + 3 * (4 : UInt8).toNat) → Fix.E.Fr | ∃ sk ek dk f',
      keygen (tape Fix.E) (tapeOf g) 16 Fix.gens Fix.gi Fix.D Fix.C = .ok ((sk, ek, dk), f') ∧
      Fix.ct1.verifyCommitment ek.prepare Fix.gens.prepare = .ok ()}.ncard
      ≤ Fix.E.fr.p ^ (1 + 3 * (4 : UInt8).toNat) :=
  ⟨by decide +kernel, C86_fresh_key_rejects 16 4 Fix.count Fix.gens Fix.gens_ne.2 Fix.gi Fix.D Fix.C Fix.ct1
    (.inl (by decide +kernel))⟩

/-- the hypotheses of `C86_fresh_key_decrypts_nothing` are met, and its set is not empty: the ciphertext
`(1, [1, 1])` over the field of 101 elements decrypts on the draws that are all 1 -/
example : (∃ sk ek dk f' ds nu, keygen (tape (Engine.scalar smallFr)) (tapeOf (K := 8) fun _ => (1 : ZMod 101)) 4
      ⟨(1 : ZMod 101), (1 : ZMod 101)⟩ [(1 : ZMod 101), (1 : ZMod 101)] (1 : ZMod 101) (1 : ZMod 101)
        = .ok ((sk, ek, dk), f') ∧
      decryptToChunks true (1 : ZMod 101) [(1 : ZMod 101), (1 : ZMod 101)] sk dk.prepare
        [(1 : ZMod 101), (1 : ZMod 101)] 4 = .ok (ds, nu)) ∧
    {g : Fin (2 + 3 * (2 : UInt8).toNat) → (Engine.scalar smallFr).Fr | ∃ sk ek dk f' ds nu,
      keygen (tape (Engine.scalar smallFr)) (tapeOf g) 4 ⟨(1 : ZMod 101), (1 : ZMod 101)⟩
        [(1 : ZMod 101), (1 : ZMod 101)] (1 : ZMod 101) (1 : ZMod 101) = .ok ((sk, ek, dk), f') ∧
      decryptToChunks true (1 : ZMod 101) [(1 : ZMod 101), (1 : ZMod 101)] sk dk.prepare
        [(1 : ZMod 101), (1 : ZMod 101)] 4 = .ok (ds, nu)}.ncard
      ≤ (2 ^ 4 + 2) * (Engine.scalar smallFr).fr.p ^ (1 + 3 * (2 : UInt8).toNat) := by
  have hn : chunksCount (Engine.scalar smallFr).fr 4 = .ok 2 := by
    show chunksCount smallFr 4 = .ok 2
    simp [chunksCount, smallFr_modBits]
  refine ⟨⟨_, _, _, _, [0, 0], (1 : ZMod 101), keygen_eq (n8 := 2) (tape (Engine.scalar smallFr)) _ _ _ _ _ hn
    (by decide), ?_⟩, ?_⟩
  · decide +kernel
  · exact C86_fresh_key_decrypts_nothing (E := Engine.scalar smallFr) 4 2 hn (by decide) (by decide)
      ⟨(1 : ZMod 101), (1 : ZMod 101)⟩ (show (1 : ZMod 101) ≠ 0 by decide) _ _ _ true
      ⟨(1 : ZMod 101), [(1 : ZMod 101), (1 : ZMod 101)], (1 : ZMod 101)⟩ (show (1 : ZMod 101) ≠ 0 by decide) (by simp)

/-- the hypotheses of `C86_fresh_setup_rejects` are met, for every ciphertext and proof, over the Goldilocks field
with 8-bit chunks; the bound there is below one in `2^53` -/
example (proof : Proof Fix.E) (ct : Ciphertext Fix.E) :
    2 ^ 53 * {g : Fin (7 + 3 * (8 : UInt8).toNat) → Fix.E.Fr | ∃ pk sk ek dk f',
      setupForGroth16 goldFft (tape Fix.E) 1 (tapeOf g) 8 Fix.gens = .ok ((pk, sk, ek, dk), f') ∧
      ct.verifyCommitmentAndProof proof (prepareVerifyingKey pk.pk.vk) ek.prepare Fix.gens.prepare = .ok ()}.ncard
      ≤ Fix.E.fr.p ^ (7 + 3 * (8 : UInt8).toNat) := by
  have := C86_fresh_setup_rejects (E := Fix.E) goldFft 8 8 Fix.count8
    (by rw [show Fix.E.fr.modBits = 64 from goldFr_modBits]; decide) Fix.dom8 Fix.dom8_count Fix.gens
    Fix.gens_ne.1 Fix.gens_ne.2 proof ct
  refine (Nat.mul_le_mul_left _ this).trans ?_
  rw [show 7 + 3 * (8 : UInt8).toNat = (6 + 3 * (8 : UInt8).toNat) + 1 by omega,
    pow_succ (Fix.E.fr.p), ← Nat.mul_assoc, Nat.mul_comm _ Fix.E.fr.p]
  refine Nat.mul_le_mul_right _ ?_
  rw [show Fix.dom8.size = 2 ^ 10 from rfl]
  decide +kernel

end Verif
