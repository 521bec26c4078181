/-
Property C78: combining combined partial keys again (a hierarchy of groups) gives a key that cannot be used.
-/
import Verif.Props.ReEncrypt
import Verif.Props.Forge
import Verif.Props.Verified

namespace Verif
open Spec

variable {E : Engine}

namespace Spec

/-- Distributed key generation in two levels: every group combines the partial keys of its members with
`combineEKs`, then the groups' keys are combined with `combineEKs`; the `P_1` shares of all members are made and
combined as in `dkg`. -/
def dkgInGroups (groups : List (List (Party E))) (b : UInt8) (gens : EncryptionGens E) (g_i : List E.G1)
    (delta_g gamma_g : E.G1) : Res (List (SecretKeyST E) × EncryptionKey E) := do
  let outs ← mapRes (fun g => dkgRound1 g b gens g_i delta_g gamma_g) groups
  let keys ← mapRes (fun (o : List (SecretKeyST E × FEncryptionKeyPartial E)) =>
    combineEKs gamma_g (o.map (·.2))) outs
  let ek ← combineEKs gamma_g keys
  let shares ← mapRes (fun sk => genP1share ek sk) (outs.flatten.map (·.1))
  let p1 ← combineP1share shares
  return (outs.flatten.map (·.1), keygenFinal ek p1)

end Spec

namespace Nested

theorem combineEKs_fits {C : E.G1} {ek k : FEncryptionKeyPartial E} {rest : List (FEncryptionKeyPartial E)}
    (h : combineEKs C (ek :: rest) = .ok k) : ∀ e ∈ rest, ek.Fits e := by
  by_contra hc
  push Not at hc
  rw [combineEKs_panic C ek rest hc] at h
  cases h

end Nested

/-- **C78** Replacing, in the list of partial keys to combine, a group of partial keys by its own combination: if both
combinations succeed, so does the flat one, with the same `X_0, X, Y, Z`; `P_2` of the nested one has one more
`gamma_g`. -/
theorem C78_nested (C : E.G1) (pre grp post : List (FEncryptionKeyPartial E)) (k kk : FEncryptionKeyPartial E)
    (h1 : combineEKs C grp = .ok k) (h2 : combineEKs C (pre ++ k :: post) = .ok kk) :
    combineEKs C (pre ++ grp ++ post) = .ok { kk with P_2 := kk.P_2 - C } := by
  cases grp with
  | nil => cases h1
  | cons g gs =>
    have hf := Nested.combineEKs_fits h1
    rw [combineEKs_eq C g gs hf] at h1
    injection h1 with h1
    cases pre with
    | nil =>
      rw [List.nil_append] at h2
      have hf2 := Nested.combineEKs_fits h2
      rw [combineEKs_eq C k post hf2] at h2
      injection h2 with h2
      have hk : k.X.length = g.X.length ∧ k.Y.length = g.Y.length ∧ k.Z.length = g.Z.length := by
        rw [← h1]
        simp only [length_tab, and_self]
      rw [List.nil_append, List.cons_append, combineEKs_eq C g (gs ++ post)]
      · rw [← h2]
        simp only [hk.1, hk.2.1, hk.2.2]
        rw [← h1]
        simp only [List.map_cons, List.map_append, List.sum_cons, List.sum_append]
        congr 2
        · refine tab_congr fun i hi => ?_
          rw [getD_tab, if_pos hi]
          abel
        · refine tab_congr fun i hi => ?_
          rw [getD_tab, if_pos hi]
          abel
        · refine tab_congr fun i hi => ?_
          rw [getD_tab, if_pos hi]
          abel
        · abel
      · intro e he
        rcases List.mem_append.mp he with he | he
        · exact hf e he
        · have := hf2 e he
          unfold FEncryptionKeyPartial.Fits at this ⊢
          omega
    | cons p ps =>
      rw [List.cons_append] at h2
      have hf2 := Nested.combineEKs_fits h2
      rw [combineEKs_eq C p _ hf2] at h2
      injection h2 with h2
      have hk : k.X.length = g.X.length ∧ k.Y.length = g.Y.length ∧ k.Z.length = g.Z.length := by
        rw [← h1]
        simp only [length_tab, and_self]
      have hpk := hf2 k (by simp)
      unfold FEncryptionKeyPartial.Fits at hpk
      rw [List.cons_append, List.cons_append, combineEKs_eq C p (ps ++ g :: gs ++ post)]
      · rw [← h2]
        rw [← h1]
        simp only [List.map_cons, List.map_append, List.sum_cons, List.sum_append]
        congr 2
        · refine tab_congr fun i hi => ?_
          rw [getD_tab, if_pos (by omega)]
          abel
        · refine tab_congr fun i hi => ?_
          rw [getD_tab, if_pos (by omega)]
          abel
        · refine tab_congr fun i hi => ?_
          rw [getD_tab, if_pos (by omega)]
          abel
        · abel
      · intro e he
        rcases List.mem_append.mp he with he | he
        · rcases List.mem_append.mp he with he | he
          · exact hf2 e (by simp [he])
          · have hge : g.Fits e ∨ e = g := by
              rcases List.mem_cons.mp he with he | he
              · exact .inr he
              · exact .inl (hf e he)
            rcases hge with h | rfl
            · unfold FEncryptionKeyPartial.Fits at h ⊢
              omega
            · unfold FEncryptionKeyPartial.Fits
              omega
        · exact hf2 e (by simp [he])

namespace Nested

theorem sumS_flatten (groups : List (List (Party E))) (i : ℕ) :
    (groups.map fun g => sumS g i).sum = sumS groups.flatten i := by
  induction groups with
  | nil => rfl
  | cons g gs ih =>
    rw [List.map_cons, List.sum_cons, ih]
    simp only [sumS, List.flatten_cons, List.map_append, List.sum_append]

theorem sumT_flatten (n : ℕ) (groups : List (List (Party E))) (i : ℕ) :
    (groups.map fun g => sumT n g i).sum = sumT n groups.flatten i := by
  induction groups with
  | nil => rfl
  | cons g gs ih =>
    rw [List.map_cons, List.sum_cons, ih]
    simp only [sumT, List.flatten_cons, List.map_append, List.sum_append]

theorem p2 (groups : List (List (Party E))) (n : ℕ) (C : E.G1) :
    C + (groups.map fun g => (1 + ∑ i ∈ Finset.range n, sumS g i) • C).sum =
      (1 + ∑ i ∈ Finset.range n, sumS groups.flatten i) • C + groups.length • C := by
  have h : ∀ gs : List (List (Party E)), (gs.map fun g => (1 + ∑ i ∈ Finset.range n, sumS g i) • C).sum =
      (∑ i ∈ Finset.range n, sumS gs.flatten i) • C + gs.length • C := by
    intro gs
    induction gs with
    | nil => simp [sumS]
    | cons g gs ih =>
      rw [List.map_cons, List.sum_cons, ih, List.length_cons, succ_nsmul]
      have : ∑ i ∈ Finset.range n, sumS (g :: gs).flatten i =
          ∑ i ∈ Finset.range n, sumS g i + ∑ i ∈ Finset.range n, sumS gs.flatten i := by
        rw [← Finset.sum_add_distrib]
        refine Finset.sum_congr rfl fun i _ => ?_
        simp only [sumS, List.flatten_cons, List.map_append, List.sum_append]
      rw [this]
      simp only [add_smul, one_smul]
      abel
  rw [h, add_smul, one_smul]
  abel

end Nested

/-- **C78** Two-level distributed key generation, of any number of nonempty groups, gives the same secret keys and the
same key as flat distributed key generation of all their members, except that `P_2` has as many `gamma_g` too many
as there are groups. -/
theorem C78_groups (groups : List (List (Party E))) (hg : ∀ g ∈ groups, g ≠ []) (b : UInt8)
    (gens : EncryptionGens E) (g_i : List E.G1) (D C : E.G1) (sks : List (SecretKeyST E)) (ek : EncryptionKey E)
    (h : dkg groups.flatten b gens g_i D C = .ok (sks, ek)) :
    dkgInGroups groups b gens g_i D C = .ok (sks, { ek with P_2 := ek.P_2 + groups.length • C }) := by
  obtain ⟨hne, n8, hn, hgn⟩ := dkg_ok_inv h
  unfold dkg at h
  rw [dkgRound1_eq _ gens g_i D C hn hgn] at h
  unfold dkgInGroups
  rw [mapRes_ok (g := fun g : List (Party E) => g.map fun P => (partySK n8.toNat P,
    partialKey n8.toNat (partyS P) (partyT n8.toNat P) (fun i => g_i.getD i 0) D C gens.H))
    (fun g _ => dkgRound1_eq g gens g_i D C hn hgn)]
  generalize n8.toNat = n at h hgn ⊢
  have hmap : ∀ g : List (Party E), (g.map fun P => (partySK n P,
      partialKey n (partyS P) (partyT n P) (fun i => g_i.getD i 0) D C gens.H)).map (·.2) =
      g.map fun P => partialKey n (partyS P) (partyT n P) (fun i => g_i.getD i 0) D C gens.H := by
    intro g
    rw [List.map_map]
    rfl
  simp only [Res.ok_bind] at h ⊢
  rw [hmap, combine_honest _ hne] at h
  rw [mapRes_ok (g := fun o : List (SecretKeyST E × FEncryptionKeyPartial E) =>
    (match combineEKs C (o.map (·.2)) with
      | .ok k => k
      | _ => ⟨0, [], [], [], 0⟩))]
  · simp only [Res.ok_bind]
    rw [List.map_map]
    have hcomb : List.map ((fun o : List (SecretKeyST E × FEncryptionKeyPartial E) =>
        (match combineEKs C (o.map (·.2)) with
          | .ok k => k
          | _ => ⟨0, [], [], [], 0⟩)) ∘ fun g : List (Party E) => g.map fun P => (partySK n P,
            partialKey n (partyS P) (partyT n P) (fun i => g_i.getD i 0) D C gens.H)) groups =
        groups.map fun g => (⟨D, tab n fun i => sumS g i • D, tab n fun i => sumT n g (i + 1) • g_i.getD i 0,
          tab (n + 1) fun i => sumT n g i • gens.H,
          (1 + ∑ i ∈ Finset.range n, sumS g i) • C⟩ : FEncryptionKeyPartial E) := by
      refine List.map_congr_left fun g hgm => ?_
      simp only [Function.comp_apply]
      rw [hmap, combine_honest g (hg g hgm)]
    rw [hcomb]
    have hgne : groups ≠ [] := by
      rintro rfl
      exact hne rfl
    have hall : combineEKs C (groups.map fun g => (⟨D, tab n fun i => sumS g i • D,
        tab n fun i => sumT n g (i + 1) • g_i.getD i 0, tab (n + 1) fun i => sumT n g i • gens.H,
          (1 + ∑ i ∈ Finset.range n, sumS g i) • C⟩ : FEncryptionKeyPartial E)) = .ok
        ⟨D, tab n fun i => sumS groups.flatten i • D,
          tab n fun i => sumT n groups.flatten (i + 1) • g_i.getD i 0,
          tab (n + 1) fun i => sumT n groups.flatten i • gens.H,
          (1 + ∑ i ∈ Finset.range n, sumS groups.flatten i) • C + groups.length • C⟩ := by
      rw [← Nested.p2]
      obtain ⟨g, gs, rfl⟩ := List.exists_cons_of_ne_nil hgne
      rw [List.map_cons, combineEKs_eq]
      · rw [← List.map_cons (f := fun g : List (Party E) => (⟨D, tab n fun i => sumS g i • D,
          tab n fun i => sumT n g (i + 1) • g_i.getD i 0, tab (n + 1) fun i => sumT n g i • gens.H,
          (1 + ∑ i ∈ Finset.range n, sumS g i) • C⟩ : FEncryptionKeyPartial E))]
        simp only [List.map_map, Function.comp_def, length_tab]
        congr 2
        · refine tab_congr fun i hi => ?_
          simp only [getD_tab, hi, if_true]
          rw [sum_map_smul, Nested.sumS_flatten]
        · refine tab_congr fun i hi => ?_
          simp only [getD_tab, hi, if_true]
          rw [sum_map_smul, Nested.sumT_flatten]
        · refine tab_congr fun i hi => ?_
          simp only [getD_tab, hi, if_true]
          rw [sum_map_smul, Nested.sumT_flatten]
      · intro e he
        obtain ⟨Q, _, rfl⟩ := List.mem_map.mp he
        simp [FEncryptionKeyPartial.Fits]
    rw [hall]
    simp only [Res.ok_bind] at h ⊢
    rw [← List.map_flatten]
    have hshare : ∀ (sk : SecretKeyST E) (p : E.G1) (Y : List E.G1) (Z : List E.G2), genP1share ⟨D, tab n fun i => sumS groups.flatten i • D,
        Y, Z, p⟩ sk = genP1share ⟨D, tab n fun i => sumS groups.flatten i • D, Y, Z, 0⟩ sk := fun _ _ _ _ => rfl
    simp only [hshare _ ((1 + ∑ i ∈ Finset.range n, sumS groups.flatten i) • C)] at h
    simp only [hshare _ (_ + groups.length • C)]
    obtain ⟨shares, hs, h⟩ := Res.bind_eq_ok.mp h
    obtain ⟨p1, hp, h⟩ := Res.bind_eq_ok.mp h
    rw [hs]
    simp only [Res.ok_bind]
    rw [hp]
    simp only [Res.ok_bind, Res.pure_eq, Res.ok.injEq, Prod.mk.injEq] at h ⊢
    obtain ⟨h3, rfl⟩ := h
    exact ⟨h3, rfl⟩
  · intro o ho
    obtain ⟨g, hgm, rfl⟩ := List.mem_map.mp ho
    rw [hmap, combine_honest g (hg g hgm)]

namespace Nested

theorem groups_inv (groups : List (List (Party E))) (hgr : ∀ g ∈ groups, g ≠ []) {b : UInt8}
    {gens : EncryptionGens E} {g_i : List E.G1} {D C : E.G1} {out : List (SecretKeyST E) × EncryptionKey E}
    (h : dkgInGroups groups b gens g_i D C = .ok out) :
    ∃ n, chunksCount E.fr b = .ok n ∧ n.toNat ≤ g_i.length := by
  unfold dkgInGroups at h
  obtain ⟨outs, h1, h⟩ := Res.bind_eq_ok.mp h
  cases groups with
  | nil =>
    cases h1
    cases h
  | cons g gs =>
    unfold mapRes at h1
    obtain ⟨o, h1, -⟩ := Res.bind_eq_ok.mp h1
    cases g with
    | nil => exact absurd rfl (hgr [] (by simp))
    | cons P Ps =>
      unfold dkgRound1 mapRes at h1
      obtain ⟨o1, h1, -⟩ := Res.bind_eq_ok.mp h1
      obtain ⟨o2, h1, -⟩ := Res.bind_eq_ok.mp h1
      unfold fkeygenPartial at h1
      obtain ⟨n, hn, h1⟩ := Res.bind_eq_ok.mp h1
      refine ⟨n, hn, ?_⟩
      by_contra hc
      dsimp only at h1
      rw [if_pos (by omega)] at h1
      cases h1

theorem shift (T : FftCfg E.Fr) (chk : Bool) (R : RngCore E) (st st2 : R.σ) (m : E.Fr) (ek : EncryptionKey E)
    (pk : ProvingKey E) (b : UInt8) (ct : Ciphertext E) (r : E.Fr) (proof : Proof E) (Q : E.G1)
    (h : encryptWithProof T chk R st m ek pk b = .ok ((ct, r, proof), st2)) :
    encryptWithProof T chk R st m { ek with P_2 := ek.P_2 + Q } pk b =
      .ok ((ct, r, { proof with c := proof.c + r • Q }), st2) := by
  unfold encryptWithProof at h ⊢
  obtain ⟨g_i, hg, h⟩ := Res.bind_eq_ok.mp h
  obtain ⟨⟨⟨ct', r'⟩, st1⟩, h1, h⟩ := Res.bind_eq_ok.mp h
  obtain ⟨d, h2, h⟩ := Res.bind_eq_ok.mp h
  obtain ⟨c, h3, h⟩ := Res.bind_eq_ok.mp h
  obtain ⟨⟨p, st3⟩, h4, h⟩ := Res.bind_eq_ok.mp h
  have h1' : encrypt R st m { ek with P_2 := ek.P_2 + Q } g_i b = .ok ((ct', r'), st1) := h1
  rw [hg, Res.ok_bind, h1', Res.ok_bind]
  dsimp only
  rw [h2, Res.ok_bind, h3, Res.ok_bind]
  unfold createProof at h4 ⊢
  obtain ⟨p0, h5, h4⟩ := Res.bind_eq_ok.mp h4
  dsimp only
  have h5' : createProofWithReduction T chk c.generateConstraints pk.pk (R.fr st1).1 (R.fr (R.fr st1).2).1 =
    .ok p0 := h5
  rw [h5']
  simp only [Res.pure_eq, Res.ok_bind, Res.ok.injEq, Prod.mk.injEq, mulBigint_intoBigint] at h h4 ⊢
  obtain ⟨⟨rfl, rfl, rfl⟩, rfl⟩ := h
  obtain ⟨rfl, rfl⟩ := h4
  refine ⟨⟨rfl, rfl, ?_⟩, rfl⟩
  congr 1
  rw [smul_add, add_assoc]

end Nested

/-- **C78** Consequence: with the key of two-level key generation (number of groups not a multiple of the group order)
`encrypt_with_proof` succeeds and the commitment is accepted, but the proof is rejected by `verify_proof` unless
the encryption randomness is 0. -/
theorem C78_proofs_rejected (T : FftCfg E.Fr) (R : RngCore E) (fuel : ℕ) (st st' : R.σ)
    (b : UInt8) (hb : Supported b)
    (hal : 64 * E.fr.limbs < E.fr.modBits + b.toNat ∧ chunksNeeded E.fr b.toNat ≤ 255)
    (c0 : BitsizeCheckCircuit E.fr) (gens : EncryptionGens E) (hG : gens.G ≠ 0) (hH : gens.H ≠ 0)
    (pk : ProvingKey E)
    (hc0 : BitsizeCheckCircuit.new (K := E.fr) b none none true = .ok c0)
    (hsrs : generateSrs T R fuel st c0.generateConstraints gens = .ok (pk, st'))
    (g_i : List E.G1) (hg : getGsForEncryption pk.pk.vk = .ok g_i)
    (groups : List (List (Party E))) (hgr : ∀ g ∈ groups, g ≠ [])
    (hq : ((groups.length : ℕ) : E.Fr) ≠ 0) (sks : List (SecretKeyST E)) (ek : EncryptionKey E)
    (hek : dkgInGroups groups b gens g_i pk.pk.delta_g1 pk.gamma_g1 = .ok (sks, ek))
    (chk : Bool) (R' : RngCore E) (st1 : R'.σ) (m : E.Fr) :
    ∃ ct r proof st2, encryptWithProof T chk R' st1 m ek pk b = .ok ((ct, r, proof), st2) ∧
      r = draw R' st1 0 ∧
      ct.verifyCommitment ek.prepare gens.prepare = .ok () ∧
      verifyProof (prepareVerifyingKey pk.pk.vk) proof ct =
        if r = 0 then .ok () else .err .pairingCheckFailed := by
  obtain ⟨ek0, hd, rfl⟩ : ∃ ek0, dkg groups.flatten b gens g_i pk.pk.delta_g1 pk.gamma_g1 = .ok (sks, ek0) ∧
      ek = { ek0 with P_2 := ek0.P_2 + groups.length • pk.gamma_g1 } := by
    obtain ⟨n, hn, hgn⟩ := Nested.groups_inv groups hgr hek
    have hne : groups.flatten ≠ [] := by
      intro h
      rw [List.flatten_eq_nil_iff] at h
      cases groups with
      | nil => exact hq Nat.cast_zero
      | cons g gs => exact hgr g (by simp) (h g (by simp))
    have hd := dkg_eq groups.flatten hne gens g_i pk.pk.delta_g1 pk.gamma_g1 hn hgn
    have hd2 := C78_groups groups hgr b gens g_i _ _ _ _ hd
    rw [hek] at hd2
    injection hd2 with hd2
    obtain ⟨rfl, rfl⟩ := Prod.mk.inj hd2
    exact ⟨_, hd, rfl⟩
  obtain ⟨ct, r, proof, st2, h1, h2, h3⟩ := C46_encrypt_with_proof T R fuel st st' b hb hal c0 gens pk hc0 hsrs g_i hg
    ek0 (.inr ⟨_, _, hd⟩) chk R' st1 m
  have hr : r = draw R' st1 0 := by
    obtain ⟨d, hd, hs, -⟩ := C14_encrypt_splits R' st1 m ek0 g_i b hb
    obtain ⟨-, -, -, -, -, hr, -⟩ := encryptDecomposed_inv (hs _ _ _ h2)
    exact hr
  unfold Ciphertext.verifyCommitmentAndProof at h3
  obtain ⟨u, h3, h4⟩ := Res.bind_eq_ok.mp h3
  refine ⟨ct, r, { proof with c := proof.c + r • groups.length • pk.gamma_g1 }, st2,
    Nested.shift T chk R' st1 st2 m ek0 pk b ct r proof _ h1, hr, h3, ?_⟩
  obtain ⟨hne, -⟩ := getGs_inv hg
  rw [verifyProof_eq _ _ _ hne] at h4 ⊢
  have hv : E.e proof.a proof.b = E.e pk.pk.vk.alpha_g1 pk.pk.vk.beta_g2 + E.e proof.c pk.pk.vk.delta_g2 +
      E.e (ct.X_r + ct.enc_chunks.sum + pk.pk.vk.gamma_abc_g1.getD 0 0) pk.pk.vk.gamma_g2 := by
    by_contra hc
    rw [if_neg hc] at h4
    cases h4
  refine if_congr ?_ rfl rfl
  dsimp only
  rw [hv, map_add (E.e) proof.c, LinearMap.add_apply]
  have hz : E.e (r • groups.length • pk.gamma_g1) pk.pk.vk.delta_g2 = 0 ↔ r = 0 := by
    obtain ⟨cs, d, tau, alpha, beta, gamma, delta, -, -, -, hgam, hdel, rfl⟩ := srs_inv hsrs
    simp only [srsKey]
    constructor
    · intro h
      rw [map_smul, smul_eq_zero, or_iff_right hdel] at h
      have h0 := e_left_inj hH (h.trans (by rw [map_zero, LinearMap.zero_apply] : (0 : _) = E.e 0 gens.H))
      rw [nsmul_fr (E := E), smul_eq_zero, smul_eq_zero, or_iff_right hq] at h0
      rcases h0 with h0 | h0
      · exact h0
      · exact absurd h0 (smul_ne_zero (neg_ne_zero.mpr hgam) hG)
    · rintro rfl
      rw [zero_smul, map_zero, LinearMap.zero_apply]
  rw [← hz]
  constructor
  · intro h
    rw [add_left_inj, add_right_inj] at h
    exact left_eq_add.mp h
  · intro h
    rw [h, add_zero]

/-- the hypotheses are met: the 16-bit run of the fixtures, two groups with two and one members -/
example : ∃ (pk : ProvingKey Fix.E) (g_i : List Fix.E.G1) (sks : List (SecretKeyST Fix.E))
    (ek : EncryptionKey Fix.E),
    dkgInGroups [[⟨listRng Fix.E, Fix.st⟩, ⟨listRng Fix.E, Fix.st1⟩], [⟨listRng Fix.E, Fix.st⟩]] 16 Fix.gens g_i
      pk.pk.delta_g1 pk.gamma_g1 = .ok (sks, ek) ∧
    ∀ m : Fix.E.Fr, ∃ ct r proof st2,
      encryptWithProof goldFft true (listRng Fix.E) Fix.st1 m ek pk 16 = .ok ((ct, r, proof), st2) ∧
      ct.verifyCommitment ek.prepare Fix.gens.prepare = .ok () ∧
      verifyProof (prepareVerifyingKey pk.pk.vk) proof ct = .err .pairingCheckFailed := by
  obtain ⟨c0, pk, sk, ek, dk, g_i, st1, st2, hc0, hsrs, hg, hkg, hk, -⟩ := fix_run
  obtain ⟨n, hn, hgn⟩ := keygen_ok_inv hkg
  have h4 := Fix.count
  rw [h4] at hn
  cases hn
  have hd := dkg_eq (E := Fix.E) ([[⟨listRng Fix.E, Fix.st⟩, ⟨listRng Fix.E, Fix.st1⟩],
    [⟨listRng Fix.E, Fix.st⟩]] : List (List (Party Fix.E))).flatten (by simp) Fix.gens g_i
    pk.pk.delta_g1 pk.gamma_g1 Fix.count hgn
  have hd2 := C78_groups _ (by simp) 16 Fix.gens g_i _ _ _ _ hd
  refine ⟨pk, g_i, _, _, hd2, fun m => ?_⟩
  obtain ⟨ct, r, proof, st3, h1, h2, h3, h4⟩ := C78_proofs_rejected goldFft (listRng Fix.E) 1 Fix.stFull
    st1 16 (Or.inr (Or.inr rfl)) Fix.aligned c0 Fix.gens (by exact (by decide +kernel : (2 : Fix.F) ≠ 0))
    (by exact (by decide +kernel : (3 : Fix.F) ≠ 0)) pk hc0 hsrs g_i hg _ (by simp)
    (by exact (by decide +kernel : (2 : Fix.F) ≠ 0)) _ _ hd2 true (listRng Fix.E) Fix.st1 m
  refine ⟨ct, r, proof, st3, h1, h3, ?_⟩
  rw [h4, if_neg]
  rw [h2]
  exact (by decide +kernel : (draw (listRng Fix.E) Fix.st1 0 : Fix.F) ≠ 0)

end Verif
