/-
Helper lemmas for C81, C83: what honest users publish, and acceptance in terms of discrete logarithms.
-/
import Verif.SpecNm
import Verif.Lemmas.Nm
import Verif.Lemmas.SecProof
import Verif.Props.Rerandomise
import Verif.Props.Sound

namespace Verif
open Spec Agm

noncomputable section
namespace Nm
variable {E : Engine}

/-- `encrypt_with_proof` for a fixed message, over all setups: chunks and the constraint system with the
prover's values do not depend on the setup -/
theorem withProof_form (T : FftCfg E.Fr) (b n : UInt8) (hb : Supported b) (hn : chunksCount E.fr b = .ok n)
    (hbm : b.toNat ≤ E.fr.modBits)
    (hal : 64 * E.fr.limbs < E.fr.modBits + b.toNat ∧ chunksNeeded E.fr b.toNat ≤ 255)
    (c0 : BitsizeCheckCircuit E.fr) (gens : EncryptionGens E) (hH : gens.H ≠ 0)
    (hc0 : BitsizeCheckCircuit.new (K := E.fr) b none none true = .ok c0) (cs0 : CS E.Fr)
    (hcs0 : c0.generateConstraints (CS.new true) = .ok cs0) (d : EvalDomain E.Fr)
    (hd : T.newDomain (cs0.cons.length + cs0.numInst) = some d) (m : E.Fr) :
    ∃ (mc : ℕ → ℕ) (cs1 : CS E.Fr), (∀ i, mc i < 2 ^ b.toNat) ∧ cs1.cons.length = cs0.cons.length ∧
      cs1.numInst = cs0.numInst ∧
      ∀ (R : RngCore E) (fuel : ℕ) (st st' : R.σ) (pk : ProvingKey E) (g_i : List E.G1)
      (tau alpha beta gamma delta : E.Fr) (_ : d.vanishing tau ≠ 0) (_ : gamma ≠ 0) (_ : delta ≠ 0)
      (_ : pk = srsKey cs0 d tau alpha beta gamma delta gens.G gens.H)
      (_ : generateSrs T R fuel st c0.generateConstraints gens = .ok (pk, st'))
      (_ : getGsForEncryption pk.pk.vk = .ok g_i) (ek : EncryptionKey E)
      (_ : FromSetup ek b gens g_i pk.pk.delta_g1 pk.gamma_g1) (chk : Bool) (R' : RngCore E) (st1 : R'.σ),
      encryptWithProof T chk R' st1 m ek pk b = .ok ((cipher ek (fun i => g_i.getD i 0) mc (draw R' st1 0),
        draw R' st1 0, simulate gens pk.pk.vk alpha beta gamma delta
          (cipher ek (fun i => g_i.getD i 0) mc (draw R' st1 0))
          (alpha + wsum cs1 (qapA cs1 (d.lagrange tau)) + draw R' st1 1 * delta)
          (beta + wsum cs1 (qapB cs1 (d.lagrange tau)) + draw R' st1 2 * delta)), after R' st1 3) := by
  obtain ⟨ds, hds, hlen, hlt, -⟩ := decompose_spec m hb
  have hl := (decomp_len_eq_iff E.fr b n hb hn).mpr hal
  obtain ⟨a1, a2, a3, a4, -⟩ := new_ok hc0
  have hnum : numValues c0 = n.toNat := by
    have := a4 rfl
    rw [hn] at this
    simp [numValues, a2, (Res.ok.inj this).symm]
  obtain ⟨c, hc⟩ : ∃ c, BitsizeCheckCircuit.new (K := E.fr) b none
      (some (ds.map fun c => ((c.toNat : ℕ) : E.Fr))) true = .ok c := by
    unfold BitsizeCheckCircuit.new
    simp only [hn, Res.ok_bind]
    exact ⟨_, rfl⟩
  obtain ⟨b1, b2, b3, -, -⟩ := new_ok hc
  obtain ⟨cs1, k1, k2, hab⟩ := groth16_complete_cs T c0 c gens cs0 d hcs0 hd (a1.trans b1.symm)
    (by rw [b1]; exact hbm) a3 b3 _ b2 (by rw [hnum, List.length_map]; omega)
    (by
      intro x hx
      obtain ⟨y, hy, rfl⟩ := List.mem_map.mp hx
      rw [ZMod.val_natCast, b1]
      exact lt_of_le_of_lt (Nat.mod_le _ _) (hlt y hy))
  refine ⟨fun i => (nums ds).getD i 0, cs1, ?_, k1, k2, ?_⟩
  · intro i
    unfold nums
    dsimp only
    rw [List.getD_eq_getElem?_getD, List.getElem?_map]
    cases h : ds[i]? with
    | none => simp
    | some y => simpa using hlt y (List.mem_of_getElem? h)
  intro R fuel st st' pk g_i tau alpha beta gamma delta hvan hgam hdel hpk hsrs hg ek hk chk R' st1
  obtain ⟨n', s, t, hn', hgn, hek⟩ := fromSetup_inv hk
  rw [hn] at hn'
  cases hn'
  have hX : ek.X.length = n.toNat := by rw [hek]; simp [encKey]
  have hw : WellFormed ek := by rw [hek]; exact encKey_wf _ _ _ _ _ _ _
  have hX256 : ek.X.length < 256 := by rw [hX]; exact n.toNat_lt
  have h1 := encryptDecomposed_ok R' st1 ds ek g_i hw hX256 (by omega) (by omega)
  have h2 := encrypt_ok R' st1 m ek g_i b hds hw hX256 (by omega) (by omega)
  obtain ⟨proof0, h0, -, ha, hbb⟩ := hab tau alpha beta gamma delta hvan hgam hdel chk
    (draw R' st1 1) (draw R' st1 2)
  obtain ⟨ct', proof, st4, hv, hp, hver⟩ := C46_chunk_level T R fuel st st' b c0 gens pk hc0 hsrs g_i hg
    ek hk R' st1 _ ds _ _ h1 hlt none c hc chk R' (after R' st1 1)
  have hct := flat_inj hv
  subst hct
  have hver' : verifyProof (prepareVerifyingKey pk.pk.vk) proof
      (cipher ek (fun i => g_i.getD i 0) (fun i => (nums ds).getD i 0) (draw R' st1 0)) = .ok () := by
    unfold Ciphertext.verifyCommitmentAndProof at hver
    obtain ⟨_, _, h⟩ := Res.bind_eq_ok.mp hver
    exact h
  have hrun : createProof T chk R' (after R' st1 1) c.generateConstraints (draw R' st1 0) pk ek =
      .ok ({ proof0 with c := proof0.c + draw R' st1 0 • ek.P_2 }, after R' st1 3) := by
    show (createProofWithReduction T chk c.generateConstraints pk.pk (draw R' (after R' st1 1) 0)
      (draw R' (after R' (after R' st1 1) 1) 0) >>= _) = _
    have h0' : createProofWithReduction T chk c.generateConstraints pk.pk (draw R' (after R' st1 1) 0)
        (draw R' (after R' (after R' st1 1) 1) 0) = .ok proof0 := by
      rw [hpk, draw_after, after_after, draw_after]; exact h0
    rw [h0', Res.ok_bind, mulBigint_intoBigint]
    rfl
  have hpe : ({ proof0 with c := proof0.c + draw R' st1 0 • ek.P_2 } : Proof E) = simulate gens pk.pk.vk
      alpha beta gamma delta
      (cipher ek (fun i => g_i.getD i 0) (fun i => (nums ds).getD i 0) (draw R' st1 0))
      (alpha + wsum cs1 (qapA cs1 (d.lagrange tau)) + draw R' st1 1 * delta)
      (beta + wsum cs1 (qapB cs1 (d.lagrange tau)) + draw R' st1 2 * delta) := by
    rw [hrun] at hp
    simp only [Res.ok.injEq, Prod.mk.injEq] at hp
    have hne := (getGs_inv hg).1
    rw [← hp.1, ha, hbb, hpk] at hver'
    rw [hpk] at hne
    have := (verifyProof_srs cs0 d _ _ _ _ _ gens hdel hH hne _ _ _ _).mp hver'
    rw [← hpk] at this
    rw [ha, hbb, this]
    rfl
  unfold encryptWithProof
  rw [hg, Res.ok_bind, h2, Res.ok_bind]
  simp only
  rw [hds, Res.ok_bind, hc, Res.ok_bind, hrun, Res.ok_bind, hpe]
  rfl

/-- what the honest users publish -/
def pubs (gens : EncryptionGens E) (pk : ProvingKey E) (ek : EncryptionKey E) (g : ℕ → E.G1)
    (alpha beta gamma delta : E.Fr) (q : ℕ) (mc : ℕ → ℕ → ℕ) (r a b : ℕ → E.Fr) :
    List (Ciphertext E × Proof E) :=
  tab q fun j => (cipher ek g (mc j) (r j),
    simulate gens pk.pk.vk alpha beta gamma delta (cipher ek g (mc j) (r j)) (a j) (b j))

/-- `encryptAll` in closed form -/
theorem encryptAll_eq (T : FftCfg E.Fr) (b n : UInt8) (hb : Supported b) (hn : chunksCount E.fr b = .ok n)
    (hbm : b.toNat ≤ E.fr.modBits)
    (hal : 64 * E.fr.limbs < E.fr.modBits + b.toNat ∧ chunksNeeded E.fr b.toNat ≤ 255)
    (c0 : BitsizeCheckCircuit E.fr) (gens : EncryptionGens E) (hH : gens.H ≠ 0)
    (hc0 : BitsizeCheckCircuit.new (K := E.fr) b none none true = .ok c0) (cs0 : CS E.Fr)
    (hcs0 : c0.generateConstraints (CS.new true) = .ok cs0) (d : EvalDomain E.Fr)
    (hd : T.newDomain (cs0.cons.length + cs0.numInst) = some d) (ms : List E.Fr) :
    ∃ (mc : ℕ → ℕ → ℕ) (cs1 : ℕ → CS E.Fr), (∀ j i, mc j i < 2 ^ b.toNat) ∧
      (∀ j, (cs1 j).cons.length = cs0.cons.length ∧ (cs1 j).numInst = cs0.numInst) ∧
      ∀ (R : RngCore E) (fuel : ℕ) (st st' : R.σ) (pk : ProvingKey E) (g_i : List E.G1)
      (tau alpha beta gamma delta : E.Fr) (_ : d.vanishing tau ≠ 0) (_ : gamma ≠ 0) (_ : delta ≠ 0)
      (_ : pk = srsKey cs0 d tau alpha beta gamma delta gens.G gens.H)
      (_ : generateSrs T R fuel st c0.generateConstraints gens = .ok (pk, st'))
      (_ : getGsForEncryption pk.pk.vk = .ok g_i) (ek : EncryptionKey E)
      (_ : FromSetup ek b gens g_i pk.pk.delta_g1 pk.gamma_g1) (chk : Bool) (R' : RngCore E) (st1 : R'.σ),
      encryptAll T chk R' ek pk b ms st1 = .ok (pubs gens pk ek (fun i => g_i.getD i 0) alpha beta gamma delta
        ms.length mc (fun j => draw R' st1 (3 * j))
        (fun j => alpha + wsum (cs1 j) (qapA (cs1 j) (d.lagrange tau)) + draw R' st1 (3 * j + 1) * delta)
        (fun j => beta + wsum (cs1 j) (qapB (cs1 j) (d.lagrange tau)) + draw R' st1 (3 * j + 2) * delta),
        after R' st1 (3 * ms.length)) := by
  induction ms with
  | nil =>
    refine ⟨fun _ _ => 0, fun _ => cs0, fun _ _ => by positivity, fun _ => ⟨rfl, rfl⟩, ?_⟩
    intros
    rfl
  | cons m ms ih =>
    obtain ⟨mc, cs1, h1, h2, h3⟩ := ih
    obtain ⟨mc0, cs10, k1, k2, k2', k3⟩ := withProof_form T b n hb hn hbm hal c0 gens hH hc0 cs0 hcs0 d hd m
    refine ⟨fun j => if j = 0 then mc0 else mc (j - 1), fun j => if j = 0 then cs10 else cs1 (j - 1), ?_, ?_, ?_⟩
    · intro j i
      dsimp only
      split
      · exact k1 i
      · exact h1 _ i
    · intro j
      dsimp only
      split
      · exact ⟨k2, k2'⟩
      · exact h2 _
    · intro R fuel st st' pk g_i tau alpha beta gamma delta hv hga hde hpk hsrs hg ek hk chk R' st1
      unfold encryptAll
      rw [k3 R fuel st st' pk g_i tau alpha beta gamma delta hv hga hde hpk hsrs hg ek hk chk R' st1, Res.ok_bind]
      dsimp only
      rw [h3 R fuel st st' pk g_i tau alpha beta gamma delta hv hga hde hpk hsrs hg ek hk chk R' _, Res.ok_bind]
      simp only [draw_after, after_after, Res.pure_eq, Res.ok.injEq, Prod.mk.injEq, List.length_cons]
      refine ⟨?_, by congr 1; omega⟩
      unfold pubs
      rw [tab_succ]
      refine congrArg₂ _ ?_ ?_
      · simp
      · refine tab_congr fun j hj => ?_
        have e1 : 3 + 3 * j = 3 * (j + 1) := by omega
        have e2 : 3 + (3 * j + 1) = 3 * (j + 1) + 1 := by omega
        have e3 : 3 + (3 * j + 2) = 3 * (j + 1) + 2 := by omega
        simp [e1, e2, e3]

/-! ### Combinations of what the adversary sees -/

theorem comb_blocks {F G : Type} [Semiring F] [AddCommMonoid G] [Module F G] (N : ℕ) (blk : ℕ → List G)
    (hN : ∀ j, (blk j).length = N) (k : ℕ → F) (q : ℕ) :
    (tab q blk).flatten.length = q * N ∧
    comb k (tab q blk).flatten = ∑ j ∈ Finset.range q, comb (fun i => k (j * N + i)) (blk j) := by
  induction q with
  | zero => exact ⟨by simp [tab], by simp [tab, comb]⟩
  | succ q ih =>
    rw [tab_succ_last, List.flatten_append]
    simp only [List.flatten_cons, List.flatten_nil, List.append_nil]
    refine ⟨by rw [List.length_append, ih.1, hN]; ring, ?_⟩
    rw [comb_append, ih.2, ih.1, Finset.sum_range_succ]

theorem comb_block {F G : Type} [Semiring F] [AddCommMonoid G] [Module F G] (k : ℕ → F) (x psi a c : G) (n : ℕ)
    (l : ℕ → G) : comb k ([x] ++ tab n l ++ [psi, a, c]) =
      k 0 • x + (∑ i ∈ Finset.range n, k (1 + i) • l i) + k (1 + n) • psi + k (n + 2) • a + k (n + 3) • c := by
  rw [comb_append, comb_append, comb_tab]
  simp only [List.length_append, List.length_cons, List.length_nil, length_tab]
  have e1 : comb k [x] = k 0 • x := by simp [comb]
  have e2 : comb (fun i => k (0 + 1 + n + i)) [psi, a, c] = k (1 + n) • psi + k (n + 2) • a + k (n + 3) • c := by
    unfold comb
    simp only [List.length_cons, List.length_nil, Finset.sum_range_succ, Finset.sum_range_zero]
    simp only [List.getD_cons_zero, List.getD_cons_succ]
    rw [show 0 + 1 + n + 0 = 1 + n by omega, show 0 + 1 + n + (0 + 1) = n + 2 by omega,
      show 0 + 1 + n + (0 + 1 + 1) = n + 3 by omega, zero_add]
  rw [e1, e2]
  simp only [zero_add, add_assoc]

/-- the encryption key, in terms of discrete logarithms -/
theorem key_logs (cs : CS E.Fr) (d : EvalDomain E.Fr) (P : Pt E) (n : ℕ) (hn : cs.numInst = n + 1)
    (gens : EncryptionGens E) (pk : ProvingKey E)
    (hpk : pk = srsKey cs d P.tau P.alpha P.beta P.gamma P.delta gens.G gens.H) (g_i : List E.G1)
    (hg : getGsForEncryption pk.pk.vk = .ok g_i) (ek : EncryptionKey E)
    (hek : ek = encKey n P.s P.t (fun i => g_i.getD i 0) pk.pk.delta_g1 pk.gamma_g1 gens.H) :
    ek.X_0 = P.delta • gens.G ∧ ek.X.length = n ∧
    (∀ i < n, ek.X.getD i 0 = (P.s i * P.delta) • gens.G) ∧
    (∀ i < n, ek.Y.getD i 0 = (P.t (i + 1) * gel cs d P (i + 1)) • gens.G) ∧
    ek.P_1 = (p1 n P * P.delta) • gens.G ∧
    (∀ i < n, g_i.getD i 0 = gel cs d P (i + 1) • gens.G) ∧
    pk.pk.vk.gamma_abc_g1.getD 0 0 = gel cs d P 0 • gens.G := by
  have hgi : ∀ i < n, g_i.getD i 0 = gel cs d P (i + 1) • gens.G := by
    intro i hi
    rw [hpk, gs_of_srs cs d _ _ _ _ _ _ _ n hn] at hg
    cases hg
    rw [getD_tab, if_pos hi]
    rfl
  have hD : pk.pk.delta_g1 = P.delta • gens.G := by rw [hpk]; rfl
  refine ⟨by rw [hek]; exact hD, by rw [hek]; simp [encKey], ?_, ?_, ?_, hgi, ?_⟩
  · intro i hi
    rw [hek, hD]
    simp only [encKey]
    rw [getD_tab, if_pos hi, smul_smul]
  · intro i hi
    rw [hek]
    simp only [encKey]
    rw [getD_tab, if_pos hi, hgi i hi, smul_smul]
  · rw [hek, hD]
    simp only [encKey]
    rw [smul_smul]
    rfl
  · rw [hpk]
    simp only [srsKey]
    rw [List.getD_eq_getElem?_getD, List.getElem?_map, List.getElem?_range (by omega)]
    rfl

/-- an honest ciphertext, in terms of discrete logarithms -/
theorem cipher_logs (cs : CS E.Fr) (d : EvalDomain E.Fr) (P : Pt E) (n : ℕ) (hn : cs.numInst = n + 1)
    (gens : EncryptionGens E) (pk : ProvingKey E)
    (hpk : pk = srsKey cs d P.tau P.alpha P.beta P.gamma P.delta gens.G gens.H) (g_i : List E.G1)
    (hg : getGsForEncryption pk.pk.vk = .ok g_i) (ek : EncryptionKey E)
    (hek : ek = encKey n P.s P.t (fun i => g_i.getD i 0) pk.pk.delta_g1 pk.gamma_g1 gens.H)
    (m : ℕ → ℕ) (r : E.Fr) :
    (cipher ek (fun i => g_i.getD i 0) m r).X_r = (r * P.delta) • gens.G ∧
    (cipher ek (fun i => g_i.getD i 0) m r).enc_chunks = tab n (fun i =>
      (r * (P.s i * P.delta) + (m i : E.Fr) * gel cs d P (i + 1)) • gens.G) ∧
    (cipher ek (fun i => g_i.getD i 0) m r).commitment =
      ((∑ i ∈ Finset.range n, (m i : E.Fr) * (P.t (i + 1) * gel cs d P (i + 1))) + r * (p1 n P * P.delta)) •
        gens.G ∧
    ∀ x y, simulate gens pk.pk.vk P.alpha P.beta P.gamma P.delta (cipher ek (fun i => g_i.getD i 0) m r) x y =
      ⟨x • gens.G, y • gens.H, cel cs d n (fun i => (m i : E.Fr)) P r x y • gens.G⟩ := by
  obtain ⟨h1, h2, h3, h4, h5, h6, h7⟩ := key_logs cs d P n hn gens pk hpk g_i hg ek hek
  have c1 : (cipher ek (fun i => g_i.getD i 0) m r).X_r = (r * P.delta) • gens.G := by
    simp only [cipher]
    rw [h1, smul_smul]
  have c2 : (cipher ek (fun i => g_i.getD i 0) m r).enc_chunks = tab n (fun i =>
      (r * (P.s i * P.delta) + (m i : E.Fr) * gel cs d P (i + 1)) • gens.G) := by
    simp only [cipher]
    rw [h2]
    refine tab_congr fun i hi => ?_
    rw [h3 i hi, h6 i hi, nsmul_fr (E := E), smul_smul, smul_smul, ← add_smul]
  refine ⟨c1, c2, ?_, ?_⟩
  · simp only [cipher]
    rw [h2, h5, smul_smul, add_smul, Finset.sum_smul]
    congr 1
    refine Finset.sum_congr rfl fun i hi => ?_
    rw [h4 i (Finset.mem_range.mp hi), nsmul_fr (E := E), smul_smul]
  · intro x y
    have hs : componentSum (cipher ek (fun i => g_i.getD i 0) m r) =
        (r * sig n P * P.delta + ∑ i ∈ Finset.range n, (m i : E.Fr) * gel cs d P (i + 1)) • gens.G := by
      unfold componentSum
      rw [c1, c2, sum_tab, ← Finset.sum_smul, ← add_smul, Finset.sum_add_distrib]
      congr 1
      unfold sig
      rw [mul_add, mul_one, add_mul, Finset.mul_sum, Finset.sum_mul]
      rw [Finset.sum_congr rfl fun i _ => (mul_assoc r (P.s i) P.delta).symm]
      ring
    unfold simulate
    rw [h7, hs]
    congr 1
    rw [← add_smul, smul_smul, ← sub_smul, smul_smul]
    congr 1
    unfold cel
    ring

/-- combinations of everything seen, in terms of discrete logarithms -/
theorem view_logs (cs : CS E.Fr) (d : EvalDomain E.Fr) (P : Pt E) (n : ℕ) (hn : cs.numInst = n + 1)
    (gens : EncryptionGens E) (pk : ProvingKey E)
    (hpk : pk = srsKey cs d P.tau P.alpha P.beta P.gamma P.delta gens.G gens.H) (g_i : List E.G1)
    (hg : getGsForEncryption pk.pk.vk = .ok g_i) (ek : EncryptionKey E)
    (hek : ek = encKey n P.s P.t (fun i => g_i.getD i 0) pk.pk.delta_g1 pk.gamma_g1 gens.H)
    (dk : DecryptionKey E) (hdk : dk = decKey n P.rho P.s P.v gens.H)
    (q : ℕ) (mc : ℕ → ℕ → ℕ) (r a b : ℕ → E.Fr) (l : List (Ciphertext E × Proof E))
    (hl : l = pubs gens pk ek (fun i => g_i.getD i 0) P.alpha P.beta P.gamma P.delta q mc r a b)
    (k : ℕ → E.Fr) :
    comb k (view1 gens pk ek l) = v1 cs d n q (fun j i => (mc j i : E.Fr)) k P r a b • gens.G ∧
    comb k (view2 gens pk ek dk l) = v2 cs d n q k P b • gens.H := by
  have hP : public1 gens pk ek = (all1 cs d P.tau n P.s P.t).map (evG P.alpha P.beta P.gamma P.delta gens.G) := by
    subst hpk hek
    exact public1_eq cs d P.tau P.alpha P.beta P.gamma P.delta gens n P.s P.t hn g_i hg
  have hP2 : public2 gens pk ek dk = (lf2 cs (d.lagrange P.tau) n P.s P.t P.v P.rho).map
      (evH P.beta P.gamma P.delta gens.H) := by
    subst hpk hek hdk
    exact public2_eq cs d P.tau P.alpha P.beta P.gamma P.delta gens n P.s P.t P.v P.rho _ _ _
  have hcl := fun m r => cipher_logs cs d P n hn gens pk hpk g_i hg ek hek m r
  constructor
  · unfold view1
    rw [comb_append, hP, comb_map, List.length_map, all1_length]
    have hs : seen1 l = (tab q fun j => [(r j * P.delta) • gens.G] ++ tab n (fun i =>
        (r j * (P.s i * P.delta) + (mc j i : E.Fr) * gel cs d P (i + 1)) • gens.G) ++
        [((∑ i ∈ Finset.range n, (mc j i : E.Fr) * (P.t (i + 1) * gel cs d P (i + 1))) +
          r j * (p1 n P * P.delta)) • gens.G, a j • gens.G,
          cel cs d n (fun i => (mc j i : E.Fr)) P (r j) (a j) (b j) • gens.G]).flatten := by
      unfold seen1 pubs at *
      rw [hl, map_tab]
      congr 1
      refine tab_congr fun j _ => ?_
      obtain ⟨h1, h2, h3, h4⟩ := hcl (mc j) (r j)
      dsimp only
      rw [h4, h1, h2, h3]
    rw [hs, (comb_blocks (n + 4) _ (fun j => by simp) _ q).2]
    unfold v1
    rw [add_smul, Finset.sum_smul]
    refine congrArg₂ _ rfl (Finset.sum_congr rfl fun j _ => ?_)
    rw [comb_block]
    have e : ∀ i, baseLen cs d n + n + 1 + (j * (n + 4) + i) = off cs d n j + i := fun i => by unfold off; omega
    simp only [e, Nat.add_zero, smul_smul]
    rw [add_smul, add_smul, add_smul, add_smul, Finset.sum_smul]
    rfl
  · unfold view2
    rw [comb_append, hP2, comb_map, List.length_map]
    have hlen : (lf2 cs (d.lagrange P.tau) n P.s P.t P.v P.rho).length = off2 cs n := by
      unfold lf2 off2
      simp only [List.length_append, List.length_map, length_tab, List.length_cons, List.length_nil]
    have hs : seen2 l = tab q fun j => b j • gens.H := by
      unfold seen2 pubs at *
      rw [hl, map_tab]
      refine tab_congr fun j _ => ?_
      dsimp only
      rw [(hcl (mc j) (r j)).2.2.2]
    rw [hlen, hs, comb_tab]
    unfold v2
    rw [add_smul, Finset.sum_smul]
    refine congrArg₂ _ rfl (Finset.sum_congr rfl fun j _ => ?_)
    rw [smul_smul]

/-- acceptance in terms of discrete logarithms -/
theorem accept_iff (cs : CS E.Fr) (d : EvalDomain E.Fr) (P : Pt E) (n : ℕ) (hn : cs.numInst = n + 1)
    (hn256 : n < 256) (gens : EncryptionGens E) (hG : gens.G ≠ 0) (hH : gens.H ≠ 0) (pk : ProvingKey E)
    (hpk : pk = srsKey cs d P.tau P.alpha P.beta P.gamma P.delta gens.G gens.H) (g_i : List E.G1)
    (hg : getGsForEncryption pk.pk.vk = .ok g_i) (ek : EncryptionKey E)
    (hek : ek = encKey n P.s P.t (fun i => g_i.getD i 0) pk.pk.delta_g1 pk.gamma_g1 gens.H)
    (dk : DecryptionKey E) (hdk : dk = decKey n P.rho P.s P.v gens.H)
    (q : ℕ) (mc : ℕ → ℕ → ℕ) (r a b : ℕ → E.Fr) (l : List (Ciphertext E × Proof E))
    (hl : l = pubs gens pk ek (fun i => g_i.getD i 0) P.alpha P.beta P.gamma P.delta q mc r a b)
    (S : Strategy E.Fr) :
    (S.cipher (view1 gens pk ek l)).verifyCommitmentAndProof
      (S.proof (view1 gens pk ek l) (view2 gens pk ek dk l)) (prepareVerifyingKey pk.pk.vk)
      ek.prepare gens.prepare = .ok () ↔
    S.len = n ∧ CEq cs d n q (fun j i => (mc j i : E.Fr)) S P r a b ∧
      PEq cs d n q (fun j i => (mc j i : E.Fr)) S P r a b := by
  have hX : ek.X.length = n := by rw [hek]; simp [encKey]
  have hc := fun k => (view_logs cs d P n hn gens pk hpk g_i hg ek hek dk hdk q mc r a b l hl k).1
  have hc2 := fun k => (view_logs cs d P n hn gens pk hpk g_i hg ek hek dk hdk q mc r a b l hl k).2
  have h7 := (key_logs cs d P n hn gens pk hpk g_i hg ek hek).2.2.2.2.2.2
  have hgt : E.e gens.G gens.H ≠ 0 := by
    intro h0
    rcases E.nondeg _ _ h0 with h0 | h0
    · exact hG h0
    · exact hH h0
  have h1 := (C16_accept_iff ek gens P.t (by rw [hek]; exact encKey_wf _ _ _ _ _ _ _)
    (by rw [hX]; exact hn256) hH (by
      intro i hi
      rw [hX] at hi
      rw [hek]
      simp only [encKey]
      rw [getD_tab, if_pos hi]) (comb S.x (view1 gens pk ek l))
      (tab S.len fun i => comb (S.chunk i) (view1 gens pk ek l)) (comb S.psi (view1 gens pk ek l))).1
  rw [hX, length_tab] at h1
  have hbind : (S.cipher (view1 gens pk ek l)).verifyCommitmentAndProof
      (S.proof (view1 gens pk ek l) (view2 gens pk ek dk l)) (prepareVerifyingKey pk.pk.vk)
      ek.prepare gens.prepare = .ok () ↔
      verifyCiphertextCommitment (comb S.x (view1 gens pk ek l))
        (tab S.len fun i => comb (S.chunk i) (view1 gens pk ek l)) (comb S.psi (view1 gens pk ek l))
        ek.prepare gens.prepare = .ok () ∧
      verifyProof (prepareVerifyingKey pk.pk.vk)
        (S.proof (view1 gens pk ek l) (view2 gens pk ek dk l)) (S.cipher (view1 gens pk ek l)) = .ok () := by
    unfold Ciphertext.verifyCommitmentAndProof
    rw [Res.bind_eq_ok]
    constructor
    · rintro ⟨u, h, h'⟩
      exact ⟨h, h'⟩
    · rintro ⟨h, h'⟩
      exact ⟨(), h, h'⟩
  rw [hbind, h1, and_assoc]
  refine and_congr_right fun hlen => ?_
  refine and_congr ?_ ?_
  · rw [hc, hc, CEq]
    have : ∑ i ∈ Finset.range S.len, P.t (i + 1) •
        (tab S.len fun i => comb (S.chunk i) (view1 gens pk ek l)).getD i 0 =
        (∑ i ∈ Finset.range n, P.t (i + 1) * v1 cs d n q (fun j i => (mc j i : E.Fr)) (S.chunk i) P r a b) •
          gens.G := by
      rw [hlen, Finset.sum_smul]
      apply Finset.sum_congr rfl
      intro i hi
      rw [getD_tab, if_pos (Finset.mem_range.mp hi), hc, smul_smul]
    rw [this, smul_smul, ← add_smul]
    exact ⟨fun h => smul_left_cancel hG h, fun h => by rw [h]⟩
  · rw [verifyProof_eq _ _ _ (getGs_inv hg).1, h7]
    have hite : ∀ (Q : Prop) [Decidable Q], (if Q then Res.ok () else Res.err SaverError.pairingCheckFailed)
        = Res.ok () ↔ Q := by
      intro Q _
      by_cases hQ : Q <;> simp [hQ]
    rw [hite]
    simp only [Strategy.cipher, Strategy.proof]
    rw [hc, hc, hc, hc2, sum_tab, hlen, Finset.sum_congr rfl fun i _ => hc (S.chunk i), ← Finset.sum_smul,
      ← add_smul, ← add_smul]
    have hvk : pk.pk.vk.alpha_g1 = P.alpha • gens.G ∧ pk.pk.vk.beta_g2 = P.beta • gens.H ∧
        pk.pk.vk.gamma_g2 = P.gamma • gens.H ∧ pk.pk.vk.delta_g2 = P.delta • gens.H := by
      rw [hpk]
      exact ⟨rfl, rfl, rfl, rfl⟩
    obtain ⟨v1, v2, v3, v4⟩ := hvk
    rw [v1, v2, v3, v4]
    simp only [map_smul, LinearMap.smul_apply, smul_smul, ← add_smul]
    unfold PEq
    constructor
    · intro h
      have := smul_left_cancel hgt h
      linear_combination this
    · intro h
      congr 1
      linear_combination h

theorem setup_parts {T : FftCfg E.Fr} {R : RngCore E} {fuel : ℕ} {st st' : R.σ} {b : UInt8}
    {c0 : BitsizeCheckCircuit E.fr} (hc0 : BitsizeCheckCircuit.new (K := E.fr) b none none true = .ok c0)
    {gens : EncryptionGens E}
    {pk : ProvingKey E} {sk : SecretKey E} {ek : EncryptionKey E} {dk : DecryptionKey E}
    (h : setupForGroth16 T R fuel st b gens = .ok ((pk, sk, ek, dk), st')) :
    ∃ g_i st1, generateSrs T R fuel st c0.generateConstraints gens = .ok (pk, st1) ∧
      getGsForEncryption pk.pk.vk = .ok g_i ∧ FromSetup ek b gens g_i pk.pk.delta_g1 pk.gamma_g1 := by
  unfold setupForGroth16 at h
  rw [hc0, Res.ok_bind] at h
  obtain ⟨⟨pk1, st1⟩, hsrs, h⟩ := Res.bind_eq_ok.mp h
  dsimp only at h
  obtain ⟨g_i, hg, h⟩ := Res.bind_eq_ok.mp h
  obtain ⟨⟨⟨sk1, ek1, dk1⟩, st2⟩, hkg, h⟩ := Res.bind_eq_ok.mp h
  simp only [Res.pure_eq, Res.ok.injEq, Prod.mk.injEq] at h
  obtain ⟨⟨rfl, rfl, rfl, rfl⟩, rfl⟩ := h
  exact ⟨g_i, st1, hsrs, hg, Or.inl ⟨R, st1, st2, sk1, dk1, hkg⟩⟩

/-- `P` collects the scalars that a setup reads from the tape `f` -/
structure OnTape (n : ℕ) (f : ℕ → E.Fr) (P : Pt E) : Prop where
  tau : P.tau = f 4
  alpha : P.alpha = f 0
  beta : P.beta = f 1
  gamma : P.gamma = f 2
  delta : P.delta = f 3
  rho : P.rho = f 5
  s : ∀ i < n, P.s i = f (6 + i)
  t : ∀ i < n + 1, P.t i = f (6 + n + i)
  v : ∀ i < n, P.v i = f (7 + 2 * n + i)

/-- the randomness of user `j` -/
def rOf (n : ℕ) (f : ℕ → E.Fr) (j : ℕ) : E.Fr := f (7 + 3 * n + 3 * j)

/-- discrete logarithm of the first proof element of user `j` -/
def aOf (d : EvalDomain E.Fr) (n : ℕ) (cs1 : ℕ → CS E.Fr) (f : ℕ → E.Fr) (j : ℕ) : E.Fr :=
  f 0 + wsum (cs1 j) (qapA (cs1 j) (d.lagrange (f 4))) + f (7 + 3 * n + (3 * j + 1)) * f 3

/-- discrete logarithm of the second proof element of user `j` -/
def bOf (d : EvalDomain E.Fr) (n : ℕ) (cs1 : ℕ → CS E.Fr) (f : ℕ → E.Fr) (j : ℕ) : E.Fr :=
  f 1 + wsum (cs1 j) (qapB (cs1 j) (d.lagrange (f 4))) + f (7 + 3 * n + (3 * j + 2)) * f 3

/-- a run of everything on a tape -/
theorem run_iff (T : FftCfg E.Fr) (b n : UInt8) (hb : Supported b) (hn : chunksCount E.fr b = .ok n)
    (hbm : b.toNat ≤ E.fr.modBits)
    (hal : 64 * E.fr.limbs < E.fr.modBits + b.toNat ∧ chunksNeeded E.fr b.toNat ≤ 255)
    (c0 : BitsizeCheckCircuit E.fr) (gens : EncryptionGens E) (hG : gens.G ≠ 0) (hH : gens.H ≠ 0)
    (hc0 : BitsizeCheckCircuit.new (K := E.fr) b none none true = .ok c0) (cs : CS E.Fr)
    (hcs : c0.generateConstraints (CS.new true) = .ok cs) (hI : cs.numInst = n.toNat + 1) (d : EvalDomain E.Fr)
    (hC : cs.cons.length = n.toNat * constraintsPerValue E.fr.modBits b.toNat)
    (hd : T.newDomain (n.toNat * constraintsPerValue E.fr.modBits b.toNat + (n.toNat + 1)) = some d)
    (ms : List E.Fr) :
    ∃ (mc : ℕ → ℕ → ℕ) (cs1 : ℕ → CS E.Fr), (∀ j i, mc j i < 2 ^ b.toNat) ∧
      (∀ j, (cs1 j).cons.length = cs.cons.length ∧ (cs1 j).numInst = cs.numInst) ∧
      (∀ (f : ℕ → E.Fr), d.vanishing (f 4) ≠ 0 → f 2 ≠ 0 → f 3 ≠ 0 → ∀ chk, ∃ pk sk ek dk f1 l f2,
        setupForGroth16 T (tape E) 1 f b gens = .ok ((pk, sk, ek, dk), f1) ∧
        encryptAll T chk (tape E) ek pk b ms f1 = .ok (l, f2) ∧
        ∀ (P : Pt E) (_ : OnTape n.toNat f P) (S : Strategy E.Fr), (S.cipher (view1 gens pk ek l)).verifyCommitmentAndProof
          (S.proof (view1 gens pk ek l) (view2 gens pk ek dk l)) (prepareVerifyingKey pk.pk.vk)
          ek.prepare gens.prepare = .ok () ↔
        S.len = n.toNat ∧ CEq cs d n.toNat ms.length (fun j i => (mc j i : E.Fr)) S P (rOf n.toNat f)
            (aOf d n.toNat cs1 f) (bOf d n.toNat cs1 f) ∧
          PEq cs d n.toNat ms.length (fun j i => (mc j i : E.Fr)) S P (rOf n.toNat f)
            (aOf d n.toNat cs1 f) (bOf d n.toNat cs1 f)) ∧
      ∀ (R : RngCore E) (fuel : ℕ) (st st' : R.σ) pk sk ek dk,
        setupForGroth16 T R fuel st b gens = .ok ((pk, sk, ek, dk), st') →
        ∀ (chk : Bool) (R' : RngCore E) (st1 st2 : R'.σ) (l : List (Ciphertext E × Proof E)),
        encryptAll T chk R' ek pk b ms st1 = .ok (l, st2) →
        ∃ (P : Pt E) (g_i : List E.G1) (a bb : ℕ → E.Fr), Good d P ∧
          pk = srsKey cs d P.tau P.alpha P.beta P.gamma P.delta gens.G gens.H ∧
          getGsForEncryption pk.pk.vk = .ok g_i ∧
          ek = encKey n.toNat P.s P.t (fun i => g_i.getD i 0) pk.pk.delta_g1 pk.gamma_g1 gens.H ∧
          dk = decKey n.toNat P.rho P.s P.v gens.H ∧
          l = pubs gens pk ek (fun i => g_i.getD i 0) P.alpha P.beta P.gamma P.delta ms.length mc
            (fun j => draw R' st1 (3 * j)) a bb := by
  have hd' : T.newDomain (cs.cons.length + cs.numInst) = some d := by rw [hC, hI]; exact hd
  obtain ⟨mc, cs1, h1, h2, h3⟩ := encryptAll_eq T b n hb hn hbm hal c0 gens hH hc0 cs hcs d hd' ms
  refine ⟨mc, cs1, h1, h2, ?_, ?_⟩
  · intro f hv hga hde chk
    have hrun := setup_run T (tape E) 1 (by omega) f b n hn hbm c0 hc0 cs hcs hI gens d hd
      (by rw [draw_tape]; exact hga) (by rw [draw_tape]; exact hde) (by rw [draw_tape]; exact hv)
    simp only [draw_tape] at hrun
    obtain ⟨g_i, st1, hsrs, hg, hk⟩ := setup_parts hc0 hrun
    have henc := h3 (tape E) 1 f st1 _ g_i (f 4) (f 0) (f 1) (f 2) (f 3) hv hga hde rfl hsrs hg _ hk chk (tape E)
      (after (tape E) f (7 + 3 * n.toNat))
    have hdr : ∀ i, draw (tape E) (after (tape E) f (7 + 3 * n.toNat)) i = f (7 + 3 * n.toNat + i) := by
      intro i
      exact (draw_after (tape E) f _ i).trans (draw_tape f _)
    refine ⟨_, _, _, _, _, _, _, hrun, henc, fun P hP S => ?_⟩
    have hgi := gs_of_srs cs d (f 4) (f 0) (f 1) (f 2) (f 3) gens.G gens.H n.toNat hI
    rw [hg] at hgi
    cases hgi
    refine accept_iff cs d P n.toNat hI n.toNat_lt gens hG hH _ ?_ _ hg _ ?_ _ ?_ ms.length mc
      (rOf n.toNat f) (aOf d n.toNat cs1 f) (bOf d n.toNat cs1 f) _ ?_ S
    · rw [hP.tau, hP.alpha, hP.beta, hP.gamma, hP.delta]
    · refine encKey_congr _ _ _ ?_ ?_ ?_
      · intro i hi
        exact (hP.s i hi).symm
      · intro i hi
        exact (hP.t i hi).symm
      · intro i hi
        rfl
    · unfold decKey
      refine congr (congrArg₂ _ ?_ ?_) ?_
      · rw [hP.rho]
      · refine tab_congr fun i hi => ?_
        rw [hP.s i hi, hP.v i hi]
      · refine tab_congr fun i hi => ?_
        rw [hP.v i hi, hP.rho]
    · rw [hP.alpha, hP.beta, hP.gamma, hP.delta]
      refine congr (congr (congrArg _ ?_) ?_) ?_
      · funext j
        exact hdr _
      · funext j
        unfold aOf
        rw [← hdr]
      · funext j
        unfold bOf
        rw [← hdr]
  · intro R fuel st st' pk sk ek dk hset chk R' st1 st2 l hl
    obtain ⟨tau, alpha, beta, gamma, delta, s, t, v, g_i, hv, hgam, hdel, hpk, hg, hgl, hek, hdk⟩ :=
      setup_inv hn hc0 hcs hd' hset
    obtain ⟨g_i', st1', hsrs, hg', hk⟩ := setup_parts hc0 hset
    rw [hg] at hg'
    cases hg'
    have henc := h3 R fuel st st1' pk g_i tau alpha beta gamma delta hv hgam hdel hpk hsrs hg ek hk chk R' st1
    rw [hl] at henc
    simp only [Res.ok.injEq, Prod.mk.injEq] at henc
    exact ⟨⟨tau, alpha, beta, gamma, delta, sk.rho, s, t, v⟩, g_i, _, _, ⟨hv, hgam, hdel⟩, hpk, hg, hek, hdk,
      henc.1⟩

end Nm
end
end Verif
