/-
Property C72: the range proof under a distributedly generated key, against all parties together.
-/
import Verif.Props.SoundDkg
import Verif.Props.Rogue

namespace Verif
open Spec

variable {E : Engine}

namespace SDkg
open Sec Span

/-- the environment in which all key secrets are fixed -/
def fixEnv {pk0 : ProvingKey E} (S T v : ℕ → E.Fr) (rho : E.Fr) (pk : {pk // Same pk0 pk}) : Env pk0 :=
  ⟨pk.1, pk.2, S, T, v, rho⟩

/-- translation of coefficients when all parties are fixed -/
theorem exists_conv_all {pk0 : ProvingKey E} (gens : EncryptionGens E) (n : ℕ) (parties : List (Party E))
    (v : ℕ → E.Fr) (rho : E.Fr) : ∃ (c1 c2 : (ℕ → E.Fr) → ℕ → E.Fr),
    ∀ (k : ℕ → E.Fr) (pk : {pk : ProvingKey E // Same pk0 pk}) (keys : List (FEncryptionKeyPartial E))
      (shares : List (P1share E)) (ek : EncryptionKey E),
      keys = parties.map (fun P => partialKey n (partyS P) (partyT n P) (gs pk.1) pk.1.pk.delta_g1 pk.1.gamma_g1
        gens.H) →
      shares = parties.map (fun P => ⟨partyT n P 0 • pk.1.pk.delta_g1 +
        ∑ j ∈ Finset.range n, partyT n P (j + 1) • sumS parties j • pk.1.pk.delta_g1⟩) →
      ek = key gens n pk.1 (sumS parties) (sumT n parties) →
      comb k (dkgPublic1 gens pk.1 keys shares ek) =
        comb (c1 k) (public1 gens pk.1 ek) ∧
      comb k (dkgPublic2 gens pk.1 keys ek) =
        comb (c2 k) (public2 gens pk.1 ek (decKey n rho (sumS parties) v gens.H)) := by
  obtain ⟨hp, hD, hC, hg, hX, hY, hP2, hP1⟩ := pieces (pk0 := pk0) gens n
  obtain ⟨hp2, hH, hZ⟩ := pieces2 (pk0 := pk0) gens n
  have hD := hD.comp (fixEnv (sumS parties) (sumT n parties) v rho)
  have hC := hC.comp (fixEnv (sumS parties) (sumT n parties) v rho)
  have hg := fun i => (hg i).comp (fixEnv (sumS parties) (sumT n parties) v rho)
  have hp := hp.comp (fixEnv (sumS parties) (sumT n parties) v rho)
  have hp2 := hp2.comp (fixEnv (sumS parties) (sumT n parties) v rho)
  have hH := hH.comp (fixEnv (sumS parties) (sumT n parties) v rho)
  have a1 : All E.Fr (fun ω : {pk // Same pk0 pk} => L1 gens n (fixEnv (sumS parties) (sumT n parties) v rho ω))
      fun ω => (par1 gens ω.1 ++ ([ω.1.pk.delta_g1] ++ (tab n (fun i => sumS parties i • ω.1.pk.delta_g1) ++
        ([(1 + ∑ i ∈ Finset.range n, sumS parties i) • ω.1.gamma_g1] ++
          (tab n (fun i => sumT n parties (i + 1) • gs ω.1 i) ++ [(sumT n parties 0 +
            ∑ i ∈ Finset.range n, sumS parties i * sumT n parties (i + 1)) • ω.1.pk.delta_g1]))))) ++
        ((parties.map fun P => partialElems1 (partialKey n (partyS P) (partyT n P) (gs ω.1) ω.1.pk.delta_g1
          ω.1.gamma_g1 gens.H)).flatten ++ parties.map fun P => partyT n P 0 • ω.1.pk.delta_g1 +
        ∑ j ∈ Finset.range n, partyT n P (j + 1) • sumS parties j • ω.1.pk.delta_g1) := by
    refine All.append (hp.append ((All.single hD).append (All.append (All.tab fun i _ => hD.smul (sumS parties i))
      (All.append (All.single (hC.smul (1 + ∑ i ∈ Finset.range n, sumS parties i))) (All.append (All.tab fun i _ =>
        (hg i).smul (sumT n parties (i + 1))) (All.single (hD.smul (sumT n parties 0 +
            ∑ i ∈ Finset.range n, sumS parties i * sumT n parties (i + 1))))))))) (All.append
      (All.flattenMap _ fun P _ => ?_) (All.map _ fun P _ => ?_))
    · unfold partialElems1 partialKey
      exact All.append (All.cons hD (All.single (hC.smul (∑ i ∈ Finset.range n, partyS P i))))
          (All.append (All.tab fun i hi => hD.smul (partyS P i))
            (All.tab fun i hi => (hg i).smul (partyT n P (i + 1))))
    · exact (hD.smul (partyT n P 0)).add (In.sum n fun j hj => (hD.smul (sumS parties j)).smul (partyT n P (j + 1)))
  have a2 : All E.Fr (fun ω : {pk // Same pk0 pk} => L2 gens n (fixEnv (sumS parties) (sumT n parties) v rho ω))
      fun ω => par2 gens ω.1 ++ (tab (n + 1) (fun i => sumT n parties i • gens.H) ++
        (parties.map fun P => tab (n + 1) fun i => partyT n P i • gens.H).flatten) :=
    All.append hp2 (All.append (All.tab fun i _ => hH.smul (sumT n parties i))
      (All.flattenMap _ fun P _ => All.tab fun i _ => hH.smul (partyT n P i)))
  choose c1 h1 using fun k => a1.comb k
  choose c2 h2 using fun k => a2.comb k
  refine ⟨c1, c2, fun k pk keys shares ek hk hs he => ?_⟩
  subst hk hs he
  refine ⟨Eq.trans ?_ (h1 k pk), Eq.trans ?_ (h2 k pk)⟩
  · unfold dkgPublic1
    rw [public1_split]
    simp only [List.map_map, Function.comp_def]
    rfl
  · unfold dkgPublic2 par2
    simp only [List.map_map, Function.comp_def, List.append_assoc]
    rfl

/-- the tape on which `keygen` draws the joint secrets -/
def joint (n : ℕ) (parties : List (Party E)) (j : ℕ) : E.Fr :=
  if j = 0 then 0 else if j < 1 + n then sumS parties (j - 1) else
    if j < 2 + 2 * n then sumT n parties (j - (1 + n)) else 0

/-- `keygen` on that tape ends with the same key as distributed key generation -/
theorem keygen_joint {b n8 : UInt8} (hn : chunksCount E.fr b = .ok n8) (gens : EncryptionGens E) (g_i : List E.G1)
    (hg : n8.toNat ≤ g_i.length) (D C : E.G1) (parties : List (Party E)) :
    ∃ sk f', keygen (tape E) (joint n8.toNat parties) b gens g_i D C = .ok ((sk,
      encKey n8.toNat (sumS parties) (sumT n8.toNat parties) (fun i => g_i.getD i 0) D C gens.H,
      decKey n8.toNat 0 (sumS parties) (fun _ => 0) gens.H), f') := by
  have hkey := keygen_eq (tape E) (joint n8.toNat parties) gens g_i D C hn hg
  simp only [draw_tape] at hkey
  have hs : ∀ i < n8.toNat, joint n8.toNat parties (1 + i) = sumS parties i := by
    intro i hi
    unfold joint
    rw [if_neg (by omega), if_pos (by omega), Nat.add_sub_cancel_left]
  have ht : ∀ i < n8.toNat + 1, joint n8.toNat parties (1 + n8.toNat + i) = sumT n8.toNat parties i := by
    intro i hi
    unfold joint
    rw [if_neg (by omega), if_neg (by omega), if_pos (by omega), Nat.add_sub_cancel_left]
  have hv : ∀ i, joint n8.toNat parties (2 + 2 * n8.toNat + i) = 0 := by
    intro i
    unfold joint
    rw [if_neg (by omega), if_neg (by omega), if_neg (by omega)]
  have h0 : joint n8.toNat parties 0 = 0 := by
    unfold joint
    rw [if_pos rfl]
  have hdec : decKey n8.toNat (joint n8.toNat parties 0) (fun i => joint n8.toNat parties (1 + i))
      (fun i => joint n8.toNat parties (2 + 2 * n8.toNat + i)) gens.H =
      decKey n8.toNat 0 (sumS parties) (fun _ => 0) gens.H := by
    unfold decKey
    rw [h0]
    congr 1
    · exact tab_congr fun i hi => by
        dsimp only
        rw [hs i hi, hv]
    · exact tab_congr fun i hi => by
        dsimp only
        rw [hv]
  rw [Sec.encKey_congr' _ _ _ _ hs ht, hdec] at hkey
  exact ⟨_, _, hkey⟩

/-- one run, both ways -/
theorem range_core {b n : UInt8} (hn : chunksCount E.fr b = .ok n) (cs : CS E.Fr) (hI : cs.numInst = n.toNat + 1)
    (d : EvalDomain E.Fr) (gens : EncryptionGens E) (parties : List (Party E)) (hne : parties ≠ [])
    (ka kb kc : ℕ → E.Fr) :
    ∃ ka' kb' kc' : ℕ → E.Fr, ∀ (tau alpha beta gamma delta : E.Fr) (pk : ProvingKey E) (g_i : List E.G1),
      pk = srsKey cs d tau alpha beta gamma delta gens.G gens.H →
      getGsForEncryption pk.pk.vk = .ok g_i →
      ∃ keys shares ek sk dk f',
        dkgTranscript parties b gens g_i pk.pk.delta_g1 pk.gamma_g1 = .ok (keys, shares, ek) ∧
        keygen (tape E) (joint n.toNat parties) b gens g_i pk.pk.delta_g1 pk.gamma_g1 =
          .ok ((sk, ek, dk), f') ∧
        comb ka (dkgPublic1 gens pk keys shares ek) = comb ka' (public1 gens pk ek) ∧
        comb kb (dkgPublic2 gens pk keys ek) = comb kb' (public2 gens pk ek dk) ∧
        comb kc (dkgPublic1 gens pk keys shares ek) = comb kc' (public1 gens pk ek) := by
  obtain ⟨c1, c2, hc⟩ := exists_conv_all (pk0 := srsKey cs d 0 0 0 0 0 gens.G gens.H) gens n.toNat parties
    (fun _ => 0) 0
  refine ⟨c1 ka, c2 kb, c1 kc, ?_⟩
  intro tau alpha beta gamma delta pk g_i hpk hg
  have hsame : Same (srsKey cs d 0 0 0 0 0 gens.G gens.H) pk := by
    rw [hpk]
    simp [Same, srsKey]
  have hgi : (fun i => g_i.getD i 0) = gs pk := funext fun i => (getGs_inv hg).2 i
  have hgl : n.toNat ≤ g_i.length := by
    rw [hpk, gs_of_srs cs d _ _ _ _ _ _ _ n.toNat hI] at hg
    cases hg
    simp
  obtain ⟨sk, f', hkg⟩ := keygen_joint hn gens g_i hgl pk.pk.delta_g1 pk.gamma_g1 parties
  refine ⟨_, _, _, sk, _, f', dkgTranscript_eq parties hne gens g_i _ _ hn hgl, hkg, ?_⟩
  have h := fun k => hc k ⟨pk, hsame⟩ _ _ _ rfl rfl rfl
  rw [hgi]
  exact ⟨(h ka).1, (h kb).2, (h kc).1⟩

theorem tail_eq_gs {pk : ProvingKey E} {g_i : List E.G1} (hg : getGsForEncryption pk.pk.vk = .ok g_i) :
    (fun i => pk.pk.vk.gamma_abc_g1.tail.getD i 0) = fun i => g_i.getD i 0 := by
  funext i
  rw [(getGs_inv hg).2 i, List.getD_eq_getElem?_getD, List.getD_eq_getElem?_getD, List.getElem?_tail]

end SDkg

section
variable (T : FftCfg E.Fr) (b n : UInt8) (hn : chunksCount E.fr b = .ok n)
    (hbm : b.toNat ≤ E.fr.modBits) (gens : EncryptionGens E) (hG : gens.G ≠ 0) (hH : gens.H ≠ 0)
    (d : EvalDomain E.Fr)
    (hd : T.newDomain (n.toNat * constraintsPerValue E.fr.modBits b.toNat + (n.toNat + 1)) = some d)
    (parties : List (Party E)) (hne : parties ≠ []) (ka kb kc m : ℕ → E.Fr) (r : E.Fr)
include hn hbm hG hH hd hne

open SDkg Sec in
/-- **C72** The range proof holds against all parties of the distributed key generation together.  Fix all of
them (so that the prover knows all key secrets), and let the prover choose a ciphertext of the SAVER form under the
joint key, with arbitrary field elements `m_i` instead of chunks, and a proof, by fixed linear combinations of all
published elements.  If `verify_proof` accepts for all draws of `generate_srs` for which the setup succeeds, all
`m_i` are below `2^b`. -/
theorem C72_range_sound_all_parties (hp : 3 * d.size < E.fr.p)
    (hacc : ∀ (f : ℕ → E.Fr) pk keys shares ek,
      setupForDkg T (tape E) 1 f b gens parties = .ok (pk, keys, shares, ek) →
      verifyProof (prepareVerifyingKey pk.pk.vk)
        ⟨comb ka (dkgPublic1 gens pk keys shares ek), comb kb (dkgPublic2 gens pk keys ek),
          comb kc (dkgPublic1 gens pk keys shares ek)⟩
        (fieldCipher ek (fun i => pk.pk.vk.gamma_abc_g1.tail.getD i 0) m r) = .ok ()) :
    ∀ i < n.toNat, (m i).val < 2 ^ b.toNat := by
  obtain ⟨c0, cs, hc0, hcs, hI, hC, -⟩ := setup_shape hn hbm
  obtain ⟨ka', kb', kc', hcore⟩ := range_core hn cs hI d gens parties hne ka kb kc
  refine C60_range_sound T b n hn hbm c0 hc0 gens hG hH d hd hp (tape E) (joint n.toNat parties) ka' kb' kc' m r ?_
  intro f pk f' g_i sk ek dk st2 hsrs hg hkg
  obtain ⟨cs', d', tau, alpha, beta, gamma, delta, hcs', hd', -, -, -, hpk⟩ := srs_inv hsrs
  rw [hcs] at hcs'
  cases hcs'
  rw [hC, hI, hd] at hd'
  cases hd'
  obtain ⟨keys, shares, ek1, sk1, dk1, f1, hk1, hkg1, e1, e2, e3⟩ := hcore tau alpha beta gamma delta pk g_i hpk hg
  rw [hkg] at hkg1
  cases hkg1
  have hset : setupForDkg T (tape E) 1 f b gens parties = .ok (pk, keys, shares, ek) := by
    unfold setupForDkg
    rw [hc0, Res.ok_bind, hsrs, Res.ok_bind]
    simp only [hg, hk1, Res.ok_bind, Res.pure_eq]
  have h := hacc f pk keys shares ek hset
  rw [e1, e2, e3, tail_eq_gs hg] at h
  exact h

open SDkg Sec in
/-- **C72** The error bound: a prover that is accepted on more than a `(3 size + 5) / p` fraction of the draws of
`generate_srs` has encrypted elements below `2^b`. -/
theorem C72_range_error_all_parties
    (hmany : (3 * d.size + 5) * E.fr.p ^ 4 <
      {g : Fin 5 → E.Fr | DkgRangeAccepts T b gens parties ka kb kc m r (tapeOf g)}.ncard) :
    ∀ i < n.toNat, (m i).val < 2 ^ b.toNat := by
  obtain ⟨c0, cs, hc0, hcs, hI, hC, -⟩ := setup_shape hn hbm
  obtain ⟨ka', kb', kc', hcore⟩ := range_core hn cs hI d gens parties hne ka kb kc
  refine C63_range_error T b n hn hbm c0 hc0 gens hG hH d hd (tape E) (joint n.toNat parties) ka' kb' kc' m r
    (lt_of_lt_of_le hmany (Set.ncard_le_ncard ?_ (Set.toFinite _)))
  rintro x ⟨pk, keys, shares, ek, hset, hver⟩
  unfold setupForDkg at hset
  rw [hc0, Res.ok_bind] at hset
  obtain ⟨⟨pk1, f'⟩, hsrs, h⟩ := Res.bind_eq_ok.mp hset
  dsimp only at h
  obtain ⟨g_i, hg, h⟩ := Res.bind_eq_ok.mp h
  obtain ⟨⟨k1, s1, e1⟩, hk, h⟩ := Res.bind_eq_ok.mp h
  simp only [Res.pure_eq, Res.ok.injEq, Prod.mk.injEq] at h
  obtain ⟨rfl, rfl, rfl, rfl⟩ := h
  obtain ⟨cs', d', tau, alpha, beta, gamma, delta, hcs', hd', -, -, -, hpk⟩ := srs_inv hsrs
  rw [hcs] at hcs'
  cases hcs'
  rw [hC, hI, hd] at hd'
  cases hd'
  obtain ⟨keys, shares, ek1, sk1, dk1, f1, hk1, hkg1, e1, e2, e3⟩ := hcore tau alpha beta gamma delta pk1 g_i hpk hg
  rw [hk] at hk1
  cases hk1
  rw [e1, e2, e3, tail_eq_gs hg] at hver
  exact ⟨pk1, f', g_i, sk1, _, dk1, f1, hsrs, hg, hkg1, hver⟩

end

open SDkg Sec in
/-- **C72** The hypotheses are met for all chunks in range, by the honest prover, whoever the parties are. -/
theorem C72_honest_prover (T : FftCfg E.Fr) (b n : UInt8) (hn : chunksCount E.fr b = .ok n)
    (hbm : b.toNat ≤ E.fr.modBits) (gens : EncryptionGens E) (d : EvalDomain E.Fr)
    (hd : T.newDomain (n.toNat * constraintsPerValue E.fr.modBits b.toNat + (n.toNat + 1)) = some d)
    (m : ℕ → ℕ) (hm : ∀ i < n.toNat, m i < 2 ^ b.toNat) (r : E.Fr) :
    ∃ ka kb kc : ℕ → E.Fr, ∀ (R : RngCore E) (fuel : ℕ) (st : R.σ) (parties : List (Party E)) pk keys shares ek,
      parties ≠ [] → setupForDkg T R fuel st b gens parties = .ok (pk, keys, shares, ek) →
      verifyProof (prepareVerifyingKey pk.pk.vk)
        ⟨comb ka (dkgPublic1 gens pk keys shares ek), comb kb (dkgPublic2 gens pk keys ek),
          comb kc (dkgPublic1 gens pk keys shares ek)⟩
        (fieldCipher ek (fun i => pk.pk.vk.gamma_abc_g1.tail.getD i 0) (fun i => ((m i : ℕ) : E.Fr)) r) = .ok () := by
  obtain ⟨S, hS⟩ := C71_honest_strategy T b n hn hbm gens d hd m hm r
  refine ⟨S.a, S.b, S.c, fun R fuel st parties pk keys shares ek hne hset => ?_⟩
  obtain ⟨h1, h2⟩ := hS R fuel st parties pk keys shares ek hne hset
  unfold Ciphertext.verifyCommitmentAndProof at h2
  obtain ⟨-, -, h2⟩ := Res.bind_eq_ok.mp h2
  have hfc : fieldCipher ek (fun i => pk.pk.vk.gamma_abc_g1.tail.getD i 0) (fun i => ((m i : ℕ) : E.Fr)) r =
      cipher ek (fun i => pk.pk.vk.gamma_abc_g1.tail.getD i 0) m r := by
    unfold fieldCipher Spec.cipher
    simp only [nsmul_fr (E := E)]
  rw [hfc, ← h1]
  exact h2

/-- no strategy, known secrets or not, gets the field element 256 through the 8-bit range proof -/
example (ka kb kc : ℕ → Fix.E.Fr) (r : Fix.E.Fr) :
    ¬ ∀ (f : ℕ → Fix.E.Fr) pk keys shares ek,
      setupForDkg goldFft (tape Fix.E) 1 f 8 Fix.gens [⟨listRng Fix.E, Fix.st⟩, ⟨listRng Fix.E, Fix.st1⟩] =
        .ok (pk, keys, shares, ek) →
      verifyProof (prepareVerifyingKey pk.pk.vk)
        ⟨comb ka (dkgPublic1 Fix.gens pk keys shares ek), comb kb (dkgPublic2 Fix.gens pk keys ek),
          comb kc (dkgPublic1 Fix.gens pk keys shares ek)⟩
        (fieldCipher ek (fun i => pk.pk.vk.gamma_abc_g1.tail.getD i 0) (fun _ => (256 : Fix.F)) r) = .ok () := by
  intro h
  have := C72_range_sound_all_parties (E := Fix.E) goldFft 8 8 Fix.count8 Fix.bits8 Fix.gens Fix.gens_ne.1
    Fix.gens_ne.2 Fix.dom8 Fix.dom8_count [⟨listRng Fix.E, Fix.st⟩, ⟨listRng Fix.E, Fix.st1⟩] (by simp) ka kb kc
    (fun _ => (256 : Fix.F)) r Fix.dom8_small h 0 (by decide)
  revert this
  decide +kernel

end Verif
