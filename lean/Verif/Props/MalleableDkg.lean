/-
Property C90: non-malleability under a distributedly generated key, against adaptive adversaries that control all
parties but one.
-/
import Verif.Lemmas.NmDkg
import Verif.Props.AdaptiveMalleable

namespace Verif
open Spec

section
variable {E : Engine}

section
variable (T : FftCfg E.Fr) (b n : UInt8) (hb : Supported b) (hn : chunksCount E.fr b = .ok n)
    (hbm : b.toNat ≤ E.fr.modBits)
    (hal : 64 * E.fr.limbs < E.fr.modBits + b.toNat ∧ chunksNeeded E.fr b.toNat ≤ 255)
    (gens : EncryptionGens E) (hG : gens.G ≠ 0) (hH : gens.H ≠ 0) (d : EvalDomain E.Fr)
    (hd : T.newDomain (n.toNat * constraintsPerValue E.fr.modBits b.toNat + (n.toNat + 1)) = some d)
    (others1 others2 : List (Party E))

namespace NmDkg
open Sec SDkg

include hb hn hal in
/-- honest ciphertexts have `n` chunks -/
theorem honest_lists {R : RngCore E} {fuel : ℕ} {st st' : R.σ} {c0 : BitsizeCheckCircuit E.fr}
    {pk : ProvingKey E}
    (hc0 : BitsizeCheckCircuit.new (K := E.fr) b none none true = .ok c0)
    (hsrs : generateSrs T R fuel st c0.generateConstraints gens = .ok (pk, st'))
    {g_i : List E.G1} (hg : getGsForEncryption pk.pk.vk = .ok g_i) {ek : EncryptionKey E}
    (hk : FromSetup ek b gens g_i pk.pk.delta_g1 pk.gamma_g1)
    {chk : Bool} {R' : RngCore E} {ms : List E.Fr} {st1 st2 : R'.σ} {l : List (Ciphertext E × Proof E)}
    (hl : encryptAll T chk R' ek pk b ms st1 = .ok (l, st2)) :
    l.length = ms.length ∧ (∀ p ∈ l, p.1.enc_chunks.length = n.toNat) ∧
    ∀ p ∈ l, Accepted gens pk ek p.1 p.2 := by
  obtain ⟨h1, h2⟩ := Nm.encryptAll_facts T R fuel st st' b hb hal c0 gens pk hc0 hsrs g_i hg ek hk chk R' ms st1 st2 l
    hl
  refine ⟨h1, ?_, ?_⟩
  · intro p hp
    obtain ⟨i, hi⟩ := List.mem_iff_getElem?.mp hp
    obtain ⟨m, st4, r, -, henc, -⟩ := h2 i p hi
    obtain ⟨n', s, t, hn', hgn, hek⟩ := fromSetup_inv hk
    rw [hn] at hn'
    cases hn'
    obtain ⟨dd, hdd, hdl, -, -⟩ := decompose_spec m hb
    have hl2 := (decomp_len_eq_iff E.fr b n hb hn).mpr hal
    exact Nm.encrypt_chunks_len n.toNat_lt (by rw [hek]; simp [encKey]) (by rw [hek]; exact encKey_wf _ _ _ _ _ _ _)
      hgn hdd (by omega) henc
  · intro p hp
    obtain ⟨i, hi⟩ := List.mem_iff_getElem?.mp hp
    obtain ⟨m, st4, r, -, -, h⟩ := h2 i p hi
    exact h

include hb hn hbm hal hd in
/-- the two games side by side -/
theorem bridge (q : ℕ) (A : Prover E (Strategy E.Fr)) : ∃ A' : Prover E (Strategy E.Fr),
    A'.questions = A.questions ∧
    ∀ (f z : ℕ → E.Fr) (chk : Bool) (ms : List E.Fr), ms.length = q →
      ∀ P : ProvingKey E → EncryptionKey E → List (Ciphertext E × Proof E) → Ciphertext E → Proof E → Prop,
      NmDkgOutcome T chk b gens others1 others2 ms A f P →
      NmOutcome T chk b gens ms A' (merge2 n.toNat (othersS others1 others2) (othersT n.toNat others1 others2) f z)
        (fun pk _ ek _ l ct proof => P pk ek l ct proof) := by
  obtain ⟨c0, cs, hc0, hcs, hI, hC, -⟩ := setup_shape hn hbm
  obtain ⟨A', hq, hA'⟩ := exists_adversary (pk0 := srsKey cs d 0 0 0 0 0 gens.G gens.H) gens n.toNat others1 others2 q A
  refine ⟨A', hq, ?_⟩
  rintro f z chk ms hms P ⟨pk, keys, shares, ek, l, f', hset, hl, hP⟩
  have hgood : d.vanishing (f 4) ≠ 0 ∧ f 2 ≠ 0 ∧ f 3 ≠ 0 := by
    have h := hset
    unfold setupForDkg at h
    rw [hc0, Res.ok_bind] at h
    obtain ⟨⟨pk', st2⟩, hsrs, -⟩ := Res.bind_eq_ok.mp h
    obtain ⟨cs', d', hcs', hd', h1, h2, h3⟩ := setup_tape_good hsrs
    rw [hcs] at hcs'
    cases hcs'
    rw [hC, hI, hd] at hd'
    cases hd'
    exact ⟨h1, h2, h3⟩
  obtain ⟨h4, h2, h3⟩ := hgood
  generalize hm : merge2 n.toNat (othersS others1 others2) (othersT n.toNat others1 others2) f z = F
  have F_lt : ∀ j < 5, F j = f j := fun j hj => by rw [← hm]; exact merge2_lt _ _ _ _ _ hj
  have hsr := setup_run T (tape E) 1 (by omega) F b n hn hbm c0 hc0 cs hcs hI gens d hd
    (by rw [draw_tape, F_lt _ (by omega)]; exact h2) (by rw [draw_tape, F_lt _ (by omega)]; exact h3)
    (by rw [draw_tape, F_lt _ (by omega)]; exact h4)
  simp only [draw_tape] at hsr
  have hg := gs_of_srs cs d (f 4) (f 0) (f 1) (f 2) (f 3) gens.G gens.H n.toNat hI
  rw [F_lt 4 (by omega), F_lt 0 (by omega), F_lt 1 (by omega), F_lt 2 (by omega), F_lt 3 (by omega)] at hsr
  have hsame : Same (srsKey cs d 0 0 0 0 0 gens.G gens.H)
      (srsKey cs d (f 4) (f 0) (f 1) (f 2) (f 3) gens.G gens.H) := by
    simp [Same, srsKey]
  generalize hgi0 : (tab n.toNat fun i => (mixAt cs (d.lagrange (f 4)) (f 0) (f 1) (.inst (i + 1)) * (f 2)⁻¹) • gens.G)
    = g_i at hsr hg
  have hgi : ∀ i, g_i.getD i 0 = gs (srsKey cs d (f 4) (f 0) (f 1) (f 2) (f 3) gens.G gens.H) i :=
    fun i => (getGs_inv hg).2 i
  have hgl : n.toNat ≤ g_i.length := by rw [← hgi0]; simp
  obtain ⟨keys1, shares1, ek1, hk, hek, hl1, hl2⟩ := dkg_lists gens others1 others2 hn _ hsame
    ⟨tape E, fun i => f (5 + i)⟩ (fun i => F (7 + 2 * n.toNat + i)) (F 5) g_i hgi hgl
  have hdk := dkg_run T b n hn hbm c0 hc0 cs hcs gens d hd f h2 h3 h4 _ rfl _ hg _ keys1 shares1 ek1 hk
  rw [hset] at hdk
  simp only [Res.ok.injEq, Prod.mk.injEq] at hdk
  obtain ⟨hpk, rfl, rfl, rfl⟩ := hdk
  rw [Adapt.partyS_tape, Adapt.partyT_tape] at hek
  have hX : ek.X.length = n.toNat := by rw [hek]; simp [key, encKey]
  have hF' : after (tape E) F (7 + 3 * n.toNat) = fun i => f (6 + 2 * ek.X.length + i) := by
    rw [after_tape, hX, ← hm]
    funext i
    exact merge2_u _ _ _ _ _ i
  have hekc : encKey n.toNat (fun i => F (6 + i)) (fun i => F (6 + n.toNat + i)) (fun i => g_i.getD i 0) (f 3 • gens.G)
      ((-f 2) • gens.G) gens.H = ek := by
    rw [hek, funext hgi]
    refine encKey_congr' _ _ _ _ (fun i hi => ?_) (fun i hi => ?_)
    · rw [← hm]
      exact merge2_s _ _ _ _ _ hi
    · rw [← hm]
      exact merge2_t _ _ _ _ _ hi
  rw [hekc, hF'] at hsr
  rw [← hpk] at hsr
  refine ⟨_, _, _, _, _, l, f', hsr, hl, ?_⟩
  obtain ⟨g_i2, st3, hsrs2, hg2, hk2⟩ := Nm.setup_parts hc0 hsr
  obtain ⟨hll, hlc, -⟩ := honest_lists T b n hb hn hal gens hc0 hsrs2 hg2 hk2 hl
  let ω : Env (srsKey cs d 0 0 0 0 0 gens.G gens.H) := ⟨pk, hpk ▸ hsame,
    fun i => f (5 + i) + othersS others1 others2 i, fun i => f (5 + (n.toNat + i)) + othersT n.toNat others1 others2 i,
    fun i => F (7 + 2 * n.toNat + i), F 5⟩
  obtain ⟨e1, e2⟩ := hA' ω ⟨l, hll.trans hms, hlc⟩
  have v1 : L1 gens n.toNat ω = public1 gens pk ek := by
    rw [hek, ← hpk]
    rfl
  have v2 : L2 gens n.toNat ω = public2 gens pk ek (decKey n.toNat (F 5) (fun i => F (6 + i))
      (fun i => F (7 + 2 * n.toNat + i)) gens.H) := by
    rw [hek, ← hpk]
    unfold L2
    congr 1
    unfold decKey
    congr 1
    refine tab_congr fun i hi => ?_
    have hs := merge2_s n.toNat (othersS others1 others2) (othersT n.toNat others1 others2) f z hi
    rw [hm] at hs
    show (ω.s i * F (7 + 2 * n.toNat + i)) • gens.H = (F (6 + i) * F (7 + 2 * n.toNat + i)) • gens.H
    rw [hs]
  have w1 : D1 gens n.toNat others1 others2 (sh n.toNat others1 others2 ω) = dkgPublic1 gens pk keys shares ek := by
    rw [hpk, hl1]
    congr 1
    unfold env
    rw [Adapt.partyS_tape, Adapt.partyT_tape]
    subst hpk
    simp only [sh, ω, add_sub_cancel_right]
  have w2 : D2 gens n.toNat others1 others2 (sh n.toNat others1 others2 ω) = dkgPublic2 gens pk keys ek := by
    rw [hpk, hl2]
    congr 1
    unfold env
    rw [Adapt.partyS_tape, Adapt.partyT_tape]
    subst hpk
    simp only [sh, ω, add_sub_cancel_right]
  rw [v1, v2, w1, w2] at e1 e2
  unfold Spec.view1 Spec.view2
  rw [e1, e2]
  exact hP

end NmDkg

include hb hn hbm hal hG hH hd in
/-- **C90** Adaptive non-malleability under a distributed key.  The key is generated by any number of parties, all but one
of which are arbitrary machines known to the adversary.  The adversary sees everything published and the ciphertexts and
proofs of the honest users, asks up to `Q` questions about all these group elements, and chooses the coefficients of its own
ciphertext and proof depending on the answers.  If for some honest messages it is accepted on more than a
`(Q + 1) (3 size + 6) / p` fraction of the draws (of parameter generation, the honest party and the honest users), then
either there are chunks below `2^b` and a scalar `r` such that, whatever the honest messages, it encrypts these chunks with
randomness `r`; or there are a user and a scalar `u` such that, whatever the honest messages, it re-randomises this user's
ciphertext by `u`: in both cases on all but a `Q (3 size + 6) / p` fraction of the draws. -/
theorem C90_adaptive_non_malleable (chk : Bool) (ms0 : List E.Fr) (A : Prover E (Strategy E.Fr))
    (hmany : (A.questions + 1) * (3 * d.size + 6) * E.fr.p ^ (5 + 2 * n.toNat + 3 * ms0.length) <
      {g : Fin (6 + 2 * n.toNat + 3 * ms0.length) → E.Fr | NmDkgOutcome T chk b gens others1 others2 ms0 A (tapeOf g)
        (fun pk ek _ ct proof => Accepted gens pk ek ct proof)}.ncard) :
    (∃ (m : ℕ → ℕ) (r : E.Fr), (∀ i < n.toNat, m i < 2 ^ b.toNat ∧ m i < E.fr.p) ∧
      ∀ (chk' : Bool) (ms : List E.Fr), ms.length = ms0.length →
        {g : Fin (6 + 2 * n.toNat + 3 * ms0.length) → E.Fr | NmDkgOutcome T chk' b gens others1 others2 ms A (tapeOf g)
          (fun pk ek _ ct _ => ¬ Encrypts pk ek m r ct)}.ncard ≤
        A.questions * (3 * d.size + 6) * E.fr.p ^ (5 + 2 * n.toNat + 3 * ms0.length)) ∨
    ∃ (j : ℕ) (u : E.Fr), j < ms0.length ∧
      ∀ (chk' : Bool) (ms : List E.Fr), ms.length = ms0.length →
        {g : Fin (6 + 2 * n.toNat + 3 * ms0.length) → E.Fr | NmDkgOutcome T chk' b gens others1 others2 ms A (tapeOf g)
          (fun _ ek l ct _ => ¬ Rerandomises ek l j u ct)}.ncard ≤
        A.questions * (3 * d.size + 6) * E.fr.p ^ (5 + 2 * n.toNat + 3 * ms0.length) := by
  obtain ⟨A', hq, hA'⟩ := NmDkg.bridge T b n hb hn hbm hal gens d hd others1 others2 ms0.length A
  have hpos : 0 < E.fr.p ^ (n.toNat + 1) := pow_pos (Nat.Prime.pos E.fr.prime) _
  have hcount := fun (chk : Bool) (ms : List E.Fr) (hms : ms.length = ms0.length)
      (P : ProvingKey E → EncryptionKey E → List (Ciphertext E × Proof E) → Ciphertext E → Proof E → Prop) =>
    NmDkg.count_le n.toNat (Sec.othersS others1 others2) (Sec.othersT n.toNat others1 others2) ms0.length
      (fun f => NmDkgOutcome T chk b gens others1 others2 ms A f P)
      (fun f => NmOutcome T chk b gens ms A' f fun pk _ ek _ l ct proof => P pk ek l ct proof)
      (fun f z h => hA' f z chk ms hms P h)
  have hmany' : (A'.questions + 1) * (3 * d.size + 6) * E.fr.p ^ (6 + 3 * n.toNat + 3 * ms0.length) <
      {g : Fin (7 + 3 * n.toNat + 3 * ms0.length) → E.Fr | NmOutcome T chk b gens ms0 A' (tapeOf g)
        (fun pk _ ek _ _ ct proof => Accepted gens pk ek ct proof)}.ncard := by
    rw [hq, NmDkg.pow_split, ← mul_assoc]
    exact lt_of_lt_of_le (Nat.mul_lt_mul_of_pos_right hmany hpos)
      (hcount chk ms0 rfl fun pk ek _ ct proof => Accepted gens pk ek ct proof)
  have hback : ∀ {c B : ℕ}, c * E.fr.p ^ (n.toNat + 1) ≤ B * E.fr.p ^ (6 + 3 * n.toNat + 3 * ms0.length) →
      c ≤ B * E.fr.p ^ (5 + 2 * n.toNat + 3 * ms0.length) := by
    intro c B h
    rw [NmDkg.pow_split, ← mul_assoc] at h
    exact Nat.le_of_mul_le_mul_right h hpos
  rcases C87_adaptive_non_malleable T b n hb hn hbm hal gens hG hH d hd chk ms0 A' hmany' with
    ⟨m, r, hm, h⟩ | ⟨j, u, hj, h⟩
  · refine Or.inl ⟨m, r, hm, fun chk' ms hms => hback ?_⟩
    rw [← hq]
    exact (hcount chk' ms hms fun pk ek _ ct _ => ¬ Encrypts pk ek m r ct).trans (h chk' ms hms)
  · refine Or.inr ⟨j, u, hj, fun chk' ms hms => hback ?_⟩
    rw [← hq]
    exact (hcount chk' ms hms fun _ ek l ct _ => ¬ Rerandomises ek l j u ct).trans (h chk' ms hms)

include hb hn hbm hal hG hH hd in
/-- **C90** The bound, for every adaptive adversary, whatever its success probability: either there are chunks below
`2^b` and a scalar, or a user and a scalar, such that, whatever the honest messages are, on at most a
`(Q + 1) (3 size + 6) / p` fraction of the draws does it output an accepted ciphertext that is not the SAVER encryption of
these chunks, or not the re-randomisation of the ciphertext of this user. -/
theorem C90_adaptive_bound (chk : Bool) (q : ℕ) (A : Prover E (Strategy E.Fr)) :
    (∃ (m : ℕ → ℕ) (r : E.Fr), (∀ i < n.toNat, m i < 2 ^ b.toNat ∧ m i < E.fr.p) ∧
      ∀ (ms : List E.Fr), ms.length = q →
        {g : Fin (6 + 2 * n.toNat + 3 * q) → E.Fr | NmDkgOutcome T chk b gens others1 others2 ms A (tapeOf g)
          (fun pk ek _ ct proof => Accepted gens pk ek ct proof ∧ ¬ Encrypts pk ek m r ct)}.ncard ≤
        (A.questions + 1) * (3 * d.size + 6) * E.fr.p ^ (5 + 2 * n.toNat + 3 * q)) ∨
    ∃ (j : ℕ) (u : E.Fr), j < q ∧
      ∀ (ms : List E.Fr), ms.length = q →
        {g : Fin (6 + 2 * n.toNat + 3 * q) → E.Fr | NmDkgOutcome T chk b gens others1 others2 ms A (tapeOf g)
          (fun pk ek l ct proof => Accepted gens pk ek ct proof ∧ ¬ Rerandomises ek l j u ct)}.ncard ≤
        (A.questions + 1) * (3 * d.size + 6) * E.fr.p ^ (5 + 2 * n.toNat + 3 * q) := by
  obtain ⟨A', hq, hA'⟩ := NmDkg.bridge T b n hb hn hbm hal gens d hd others1 others2 q A
  have hpos : 0 < E.fr.p ^ (n.toNat + 1) := pow_pos (Nat.Prime.pos E.fr.prime) _
  have hcount := fun (ms : List E.Fr) (hms : ms.length = q)
      (P : ProvingKey E → EncryptionKey E → List (Ciphertext E × Proof E) → Ciphertext E → Proof E → Prop) =>
    NmDkg.count_le n.toNat (Sec.othersS others1 others2) (Sec.othersT n.toNat others1 others2) q
      (fun f => NmDkgOutcome T chk b gens others1 others2 ms A f P)
      (fun f => NmOutcome T chk b gens ms A' f fun pk _ ek _ l ct proof => P pk ek l ct proof)
      (fun f z h => hA' f z chk ms hms P h)
  have hback : ∀ {c B : ℕ}, c * E.fr.p ^ (n.toNat + 1) ≤ B * E.fr.p ^ (6 + 3 * n.toNat + 3 * q) →
      c ≤ B * E.fr.p ^ (5 + 2 * n.toNat + 3 * q) := by
    intro c B h
    rw [NmDkg.pow_split, ← mul_assoc] at h
    exact Nat.le_of_mul_le_mul_right h hpos
  rcases C87_adaptive_bound T b n hb hn hbm hal gens hG hH d hd chk q A' with ⟨m, r, hm, h⟩ | ⟨j, u, hj, h⟩
  · refine Or.inl ⟨m, r, hm, fun ms hms => hback ?_⟩
    rw [← hq]
    exact (hcount ms hms fun pk ek _ ct proof => Accepted gens pk ek ct proof ∧ ¬ Encrypts pk ek m r ct).trans
      (h ms hms)
  · refine Or.inr ⟨j, u, hj, fun ms hms => hback ?_⟩
    rw [← hq]
    exact (hcount ms hms fun pk ek l ct proof => Accepted gens pk ek ct proof ∧ ¬ Rerandomises ek l j u ct).trans
      (h ms hms)

namespace NmDkg
open Sec SDkg

/-- a decryption key of zeros -/
def dk0 (n : ℕ) : DecryptionKey E := ⟨0, List.replicate n 0, List.replicate n 0⟩

/-- The re-randomising strategies. -/
theorem rerand_strategy (nW nH V nI n K Q q j : ℕ) (hj : j < q) (u z w : E.Fr) :
    ∃ S : Strategy E.Fr, ∀ (gens : EncryptionGens E) (pk : ProvingKey E) (keys : List (FEncryptionKeyPartial E))
      (shares : List (P1share E)) (ek : EncryptionKey E) (l : List (Ciphertext E × Proof E)),
      Nm.Shape nW nH V nI n pk ek (dk0 n) → ((keys.map partialElems1).flatten ++ shares.map (·.P_1)).length = K →
      ((keys.map (·.Z)).flatten).length = Q → l.length = q → (∀ p ∈ l, p.1.enc_chunks.length = n) →
      ∃ ct proof, l[j]? = some (ct, proof) ∧ S.cipher (dkgView1 gens pk keys shares ek l) = rerandomise ek u ct ∧
        S.proof (dkgView1 gens pk keys shares ek l) (dkgView2 gens pk keys ek l) =
          rerandomiseProof pk.pk.vk ek u z w proof := by
  obtain ⟨S, hS⟩ := Nm.rerand_strategy (E := E) nW nH V nI n q j hj u z w
  let N := nW + (nH + (5 + (V + (V + (nI + (1 + (n + (1 + (n + 1)))))))))
  let Ω := {ω : EncryptionGens E × ProvingKey E × List (FEncryptionKeyPartial E) × List (P1share E) ×
    EncryptionKey E × List (Ciphertext E × Proof E) // Nm.Shape nW nH V nI n ω.2.1 ω.2.2.2.2.1 (dk0 n) ∧
      ((ω.2.2.1.map partialElems1).flatten ++ ω.2.2.2.1.map (·.P_1)).length = K ∧
      ((ω.2.2.1.map (·.Z)).flatten).length = Q ∧
      ω.2.2.2.2.2.length = q ∧ ∀ p ∈ ω.2.2.2.2.2, p.1.enc_chunks.length = n}
  let L1 : Ω → List E.G1 := fun ω => dkgView1 ω.1.1 ω.1.2.1 ω.1.2.2.1 ω.1.2.2.2.1 ω.1.2.2.2.2.1 ω.1.2.2.2.2.2
  let L2 : Ω → List E.G2 := fun ω => dkgView2 ω.1.1 ω.1.2.1 ω.1.2.2.1 ω.1.2.2.2.2.1 ω.1.2.2.2.2.2
  have hs1 : ∀ ω : Ω, (seen1 ω.1.2.2.2.2.2).length = q * (n + 4) := fun ω =>
    (len_seen n q ⟨ω.1.2.2.2.2.2, ω.2.2.2.2⟩).1
  have hs2 : ∀ ω : Ω, (seen2 ω.1.2.2.2.2.2).length = q := fun ω => (len_seen n q ⟨ω.1.2.2.2.2.2, ω.2.2.2.2⟩).2
  have hp1 : ∀ ω : Ω, (public1 ω.1.1 ω.1.2.1 ω.1.2.2.2.2.1).length = N := fun ω => (Nm.public_getD ω.2.1 ω.1.1).1
  have h1 : Span.All E.Fr L1 L1 := Span.All.refl (N := N + K + q * (n + 4)) fun ω => by
    show (dkgView1 _ _ _ _ _ _).length = _
    unfold dkgView1 dkgPublic1
    rw [List.length_append, List.length_append, hp1, ω.2.2.1, hs1]
  have hd1 : ∀ ω : Ω, (dkgPublic1 ω.1.1 ω.1.2.1 ω.1.2.2.1 ω.1.2.2.2.1 ω.1.2.2.2.2.1).length = N + K := fun ω => by
    unfold dkgPublic1
    rw [List.length_append, hp1, ω.2.2.1]
  have k1 : Span.All E.Fr L1 fun ω => view1 ω.1.1 ω.1.2.1 ω.1.2.2.2.2.1 ω.1.2.2.2.2.2 :=
    ((h1.left hd1).left hp1).append (h1.right hd1)
  have e2 : ∀ ω : Ω, dkgPublic2 ω.1.1 ω.1.2.1 ω.1.2.2.1 ω.1.2.2.2.2.1 =
      (par2 ω.1.1 ω.1.2.1 ++ ω.1.2.2.2.2.1.Z) ++ (ω.1.2.2.1.map (·.Z)).flatten := fun ω => by
    unfold dkgPublic2 par2
    simp only [List.append_assoc]
  have hp2 : ∀ ω : Ω, (par2 ω.1.1 ω.1.2.1 ++ ω.1.2.2.2.2.1.Z).length = 4 + V + (n + 1) := fun ω => by
    unfold par2
    rw [List.length_append, List.length_append, ω.2.1.b2, ω.2.1.Z]
    rfl
  have hd2 : ∀ ω : Ω, (dkgPublic2 ω.1.1 ω.1.2.1 ω.1.2.2.1 ω.1.2.2.2.2.1).length = 4 + V + (n + 1) + Q := fun ω => by
    rw [e2, List.length_append, hp2, ω.2.2.2.1]
  have h2 : Span.All E.Fr L2 L2 := Span.All.refl (N := 4 + V + (n + 1) + Q + q) fun ω => by
    show (dkgView2 _ _ _ _ _).length = _
    unfold dkgView2
    rw [List.length_append, hd2, hs2]
  have k2 : Span.All E.Fr L2 fun ω => view2 ω.1.1 ω.1.2.1 ω.1.2.2.2.2.1 (dk0 n) ω.1.2.2.2.2.2 := by
    have q2 := (((h2.left hd2).congr fun ω => (e2 ω).symm).left hp2).append (Span.All.tab (n := 1 + (n + n))
      (f := fun _ _ => (0 : E.G2)) fun i _ => Span.In.zero)
    refine (q2.append (h2.right hd2)).congr fun ω => ?_
    unfold Spec.view2 public2 par2
    have e : tab (1 + (n + n)) (fun _ => (0 : E.G2)) = [(dk0 n : DecryptionKey E).V_0] ++ ((dk0 n : DecryptionKey E).V_1 ++
        (dk0 n : DecryptionKey E).V_2) := by
      unfold tab dk0
      simp only [List.map_const', List.length_range, List.replicate_add]
      rfl
    rw [e]
    simp only [List.append_assoc]
  choose c1 hc1 using fun k => k1.comb k
  choose c2 hc2 using fun k => k2.comb k
  refine ⟨Adapt.mapStrategy c1 c2 S, ?_⟩
  intro gens pk keys shares ek l hsh hK hQ hq hl
  let ω : Ω := ⟨(gens, pk, keys, shares, ek, l), hsh, hK, hQ, hq, hl⟩
  obtain ⟨ct, proof, g1, g2, g3⟩ := hS gens pk ek (dk0 n) l hsh hq hl
  refine ⟨ct, proof, g1, ?_, ?_⟩
  · rw [← g2]
    have e1 : ∀ k, comb (c1 k) (dkgView1 gens pk keys shares ek l) = comb k (view1 gens pk ek l) :=
      fun k => (hc1 k ω).symm
    unfold Strategy.cipher Adapt.mapStrategy
    simp only [e1]
  · rw [← g3]
    have e1 : ∀ k, comb (c1 k) (dkgView1 gens pk keys shares ek l) = comb k (view1 gens pk ek l) :=
      fun k => (hc1 k ω).symm
    have e2 : ∀ k, comb (c2 k) (dkgView2 gens pk keys ek l) = comb k (view2 gens pk ek (dk0 n) l) :=
      fun k => (hc2 k ω).symm
    unfold Strategy.proof Adapt.mapStrategy
    simp only [e1, e2]

include hn hd in
/-- what distributed key generation makes -/
theorem dkg_facts {c0 : BitsizeCheckCircuit E.fr}
    (hc0 : BitsizeCheckCircuit.new (K := E.fr) b none none true = .ok c0) {cs : CS E.Fr}
    (hcs : c0.generateConstraints (CS.new true) = .ok cs) (hI : cs.numInst = n.toNat + 1)
    (hC : cs.cons.length = n.toNat * constraintsPerValue E.fr.modBits b.toNat)
    {R : RngCore E} {fuel : ℕ} {st : R.σ} {parties : List (Party E)} (hne : parties ≠ []) {pk keys shares ek}
    (h : setupForDkg T R fuel st b gens parties = .ok (pk, keys, shares, ek)) :
    Nm.Shape cs.numWit (d.size - 1) cs.vars.length cs.numInst n.toNat pk ek (dk0 n.toNat) ∧
    ((keys.map partialElems1).flatten ++ shares.map (·.P_1)).length =
      parties.length * (2 + 2 * n.toNat) + parties.length ∧
    ((keys.map (·.Z)).flatten).length = parties.length * (n.toNat + 1) ∧
    ∃ st' g_i, generateSrs T R fuel st c0.generateConstraints gens = .ok (pk, st') ∧
      getGsForEncryption pk.pk.vk = .ok g_i ∧ FromSetup ek b gens g_i pk.pk.delta_g1 pk.gamma_g1 := by
  obtain ⟨tau, alpha, beta, gamma, delta, g_i, hv, hgam, hdel, hpk, hg, hk⟩ :=
    dkg_run_inv hc0 hcs (by rw [hC, hI]; exact hd) h
  have hgl : n.toNat ≤ g_i.length := by
    rw [hpk, gs_of_srs cs d _ _ _ _ _ _ _ n.toNat hI] at hg
    cases hg
    simp
  have hk' := hk
  rw [dkgTranscript_eq parties hne gens g_i _ _ hn hgl] at hk'
  simp only [Res.ok.injEq, Prod.mk.injEq] at hk'
  obtain ⟨hkeys, hshares, hek⟩ := hk'
  refine ⟨?_, ?_, ?_, ?_⟩
  · refine ⟨?_, ?_, ?_, ?_, ?_, ?_, ?_, ?_, ?_, ?_, ?_⟩
    all_goals first | (rw [hpk]; simp [srsKey]) | (rw [← hek]; simp [encKey]) | simp [dk0]
  · rw [← hkeys, ← hshares, List.length_append, List.length_map, List.length_map, List.length_flatten, List.map_map,
      List.map_map]
    have e : ((List.length ∘ partialElems1) ∘ fun P => partialKey n.toNat (partyS P) (partyT n.toNat P)
        (fun i => g_i.getD i 0) pk.pk.delta_g1 pk.gamma_g1 gens.H) = fun _ : Party E => 2 + 2 * n.toNat := by
      funext P
      simp [partialElems1, partialKey]
      omega
    rw [e]
    simp
  · rw [← hkeys, List.length_flatten, List.map_map, List.map_map]
    have e : ((List.length ∘ (fun k : FEncryptionKeyPartial E => k.Z)) ∘ fun P => partialKey n.toNat (partyS P)
        (partyT n.toNat P) (fun i => g_i.getD i 0) pk.pk.delta_g1 pk.gamma_g1 gens.H) =
        fun _ : Party E => n.toNat + 1 := by
      funext P
      simp [partialKey]
    rw [e]
    simp
  · have h' := h
    unfold setupForDkg at h'
    rw [hc0, Res.ok_bind] at h'
    obtain ⟨⟨pk1, st1⟩, hsrs, h'⟩ := Res.bind_eq_ok.mp h'
    dsimp only at h'
    obtain ⟨g_i1, hg1, h'⟩ := Res.bind_eq_ok.mp h'
    obtain ⟨⟨k1, s1, e1⟩, hk1, h'⟩ := Res.bind_eq_ok.mp h'
    simp only [Res.pure_eq, Res.ok.injEq, Prod.mk.injEq] at h'
    obtain ⟨rfl, -, -, -⟩ := h'
    refine ⟨st1, g_i, hsrs, hg, Or.inr ⟨parties, parties.map (partySK n.toNat), ?_⟩⟩
    rw [dkg_eq parties hne gens g_i _ _ hn hgl, hek]

/-- honest users succeed -/
theorem encryptAll_ok (hb : Supported b)
    (hal : 64 * E.fr.limbs < E.fr.modBits + b.toNat ∧ chunksNeeded E.fr b.toNat ≤ 255)
    {R : RngCore E} {fuel : ℕ} {st st' : R.σ} {c0 : BitsizeCheckCircuit E.fr}
    {pk : ProvingKey E}
    (hc0 : BitsizeCheckCircuit.new (K := E.fr) b none none true = .ok c0)
    (hsrs : generateSrs T R fuel st c0.generateConstraints gens = .ok (pk, st'))
    {g_i : List E.G1} (hg : getGsForEncryption pk.pk.vk = .ok g_i) {ek : EncryptionKey E}
    (hk : FromSetup ek b gens g_i pk.pk.delta_g1 pk.gamma_g1) (chk : Bool) (R' : RngCore E) (ms : List E.Fr)
    (st1 : R'.σ) : ∃ l st2, encryptAll T chk R' ek pk b ms st1 = .ok (l, st2) := by
  induction ms generalizing st1 with
  | nil => exact ⟨[], st1, rfl⟩
  | cons m ms ih =>
    obtain ⟨ct, r, proof, st3, h1, h2, h3⟩ := C46_encrypt_with_proof T R fuel st st' b hb hal c0 gens pk hc0 hsrs
      g_i hg ek hk chk R' st1 m
    obtain ⟨l, st4, h4⟩ := ih st3
    refine ⟨(ct, proof) :: l, st4, ?_⟩
    unfold encryptAll
    rw [h1, Res.ok_bind]
    dsimp only
    rw [h4, Res.ok_bind]
    rfl

end NmDkg

include hb hn hbm hal hH hd in
/-- **C90** The second case of `C90_adaptive_non_malleable` occurs for every number of parties, every user and every shift: these
adversaries are accepted in every run of every group of that many parties. -/
theorem C90_rerandomiser (k : ℕ) (hk0 : 0 < k) (q j : ℕ) (hj : j < q) (u z w : E.Fr) (hz : z ≠ 0) :
    ∃ S : Strategy E.Fr, ∀ (R : RngCore E) (fuel : ℕ) (st : R.σ) (parties : List (Party E)) pk keys shares ek,
      parties.length = k → setupForDkg T R fuel st b gens parties = .ok (pk, keys, shares, ek) →
      ∀ (chk : Bool) (R' : RngCore E) (ms : List E.Fr) (st1 st2 : R'.σ) l, ms.length = q →
        encryptAll T chk R' ek pk b ms st1 = .ok (l, st2) →
        Rerandomises ek l j u (S.cipher (dkgView1 gens pk keys shares ek l)) ∧
        Accepted gens pk ek (S.cipher (dkgView1 gens pk keys shares ek l))
          (S.proof (dkgView1 gens pk keys shares ek l) (dkgView2 gens pk keys ek l)) := by
  obtain ⟨c0, cs, hc0, hcs, hI, hC, -⟩ := setup_shape hn hbm
  obtain ⟨S, hS⟩ := NmDkg.rerand_strategy (E := E) cs.numWit (d.size - 1) cs.vars.length cs.numInst n.toNat
    (k * (2 + 2 * n.toNat) + k) (k * (n.toNat + 1)) q j hj u z w
  refine ⟨S, ?_⟩
  intro R fuel st parties pk keys shares ek hlen hset chk R' ms st1 st2 l hms hl
  have hne : parties ≠ [] := by
    intro h
    rw [h] at hlen
    simp at hlen
    omega
  obtain ⟨hsh, hK, hQ, st', g_i, hsrs, hg, hk⟩ := NmDkg.dkg_facts T b n hn gens d hd hc0 hcs hI hC hne hset
  rw [hlen] at hK hQ
  obtain ⟨h1, h2, h3⟩ := NmDkg.honest_lists T b n hb hn hal gens hc0 hsrs hg hk hl
  obtain ⟨ct, proof, e1, e2, e3⟩ := hS gens pk keys shares ek l hsh hK hQ (h1.trans hms) h2
  refine ⟨⟨ct, proof, e1, e2⟩, ?_⟩
  unfold Accepted
  rw [e2, e3, C77_same_verdict T R fuel st st' _ gens hH pk hsrs g_i hg ek b hk ct proof u z w hz]
  exact h3 _ (List.mem_of_getElem? e1)

include hb hn hbm hal hH hd in
/-- **C90** and for adversaries that really are adaptive: one that asks a question and then re-randomises the ciphertext of
user `j` by `u` or by `u'`, depending on the answer, is accepted on all but a `(size + 2) / p` fraction of the draws. -/
theorem C90_adaptive_rerandomiser (hp : d.size < E.fr.p) (chk : Bool) (ms : List E.Fr) (Q : Question E) (j : ℕ)
    (hj : j < ms.length) (u u' : E.Fr) :
    ∃ S S' : Strategy E.Fr,
      (∀ f, ¬ NmDkgOutcome T chk b gens others1 others2 ms (.ask Q (.output S) (.output S')) f
        (fun _ ek l ct _ => ¬ Rerandomises ek l j u ct ∧ ¬ Rerandomises ek l j u' ct)) ∧
      E.fr.p ^ (6 + 2 * n.toNat + 3 * ms.length) ≤
        {g : Fin (6 + 2 * n.toNat + 3 * ms.length) → E.Fr | NmDkgOutcome T chk b gens others1 others2 ms
          (.ask Q (.output S) (.output S')) (tapeOf g) (fun pk ek _ ct proof => Accepted gens pk ek ct proof)}.ncard +
        (d.size + 2) * E.fr.p ^ (5 + 2 * n.toNat + 3 * ms.length) := by
  classical
  obtain ⟨c0, cs, hc0, hcs, hI, hC, -⟩ := setup_shape hn hbm
  obtain ⟨S, hS⟩ := C90_rerandomiser T b n hb hn hbm hal gens hH d hd (others1.length + 1 + others2.length) (by omega)
    ms.length j hj u 1 0 one_ne_zero
  obtain ⟨S', hS'⟩ := C90_rerandomiser T b n hb hn hbm hal gens hH d hd (others1.length + 1 + others2.length) (by omega)
    ms.length j hj u' 1 0 one_ne_zero
  have hlen : ∀ P : Party E, (others1 ++ P :: others2).length = others1.length + 1 + others2.length := by
    intro P
    simp
    omega
  refine ⟨S, S', ?_, ?_⟩
  · rintro f ⟨pk, keys, shares, ek, l, f', hset, hl, h1, h2⟩
    unfold Prover.cipher at h1 h2
    simp only [Prover.choice] at h1 h2
    split at h1
    · exact h1 (hS (tape E) 1 f _ pk keys shares ek (hlen _) hset chk (tape E) ms _ f' l rfl hl).1
    · next hq =>
      rw [if_neg hq] at h2
      exact h2 (hS' (tape E) 1 f _ pk keys shares ek (hlen _) hset chk (tape E) ms _ f' l rfl hl).1
  · generalize hAd : (Prover.ask Q (.output S) (.output S') : Prover E (Strategy E.Fr)) = Ad
    let A : Finset (Fin (6 + 2 * n.toNat + 3 * ms.length) → E.Fr) :=
      Finset.univ.filter fun g => NmDkgOutcome T chk b gens others1 others2 ms Ad (tapeOf g)
        (fun pk ek _ ct proof => Accepted gens pk ek ct proof)
    let B : Finset (Fin (6 + 2 * n.toNat + 3 * ms.length) → E.Fr) :=
      Finset.univ.filter fun g => d.vanishing (tapeOf g 4) * (tapeOf g 2 * tapeOf g 3) = 0
    have hAcard : {g : Fin (6 + 2 * n.toNat + 3 * ms.length) → E.Fr | NmDkgOutcome T chk b gens others1 others2 ms Ad
        (tapeOf g) (fun pk ek _ ct proof => Accepted gens pk ek ct proof)}.ncard = A.card := by
      rw [Set.ncard_eq_toFinset_card']
      congr 1
      ext g
      simp [A]
    rw [hAcard]
    have hcov : (Finset.univ : Finset (Fin (6 + 2 * n.toNat + 3 * ms.length) → E.Fr)) ⊆ A ∪ B := by
      intro g _
      by_cases hg : d.vanishing (tapeOf g 4) * (tapeOf g 2 * tapeOf g 3) = 0
      · exact Finset.mem_union_right _ (Finset.mem_filter.mpr ⟨Finset.mem_univ _, hg⟩)
      · refine Finset.mem_union_left _ (Finset.mem_filter.mpr ⟨Finset.mem_univ _, ?_⟩)
        have h1 := left_ne_zero_of_mul hg
        have h2 := left_ne_zero_of_mul (right_ne_zero_of_mul hg)
        have h3 := right_ne_zero_of_mul (right_ne_zero_of_mul hg)
        have hgs := gs_of_srs cs d (tapeOf g 4) (tapeOf g 0) (tapeOf g 1) (tapeOf g 2) (tapeOf g 3) gens.G gens.H
          n.toNat hI
        have hk := Sec.dkgTranscript_eq (others1 ++ ⟨tape E, fun i => tapeOf g (5 + i)⟩ :: others2) (by simp) gens _
          (srsKey cs d (tapeOf g 4) (tapeOf g 0) (tapeOf g 1) (tapeOf g 2) (tapeOf g 3) gens.G gens.H).pk.delta_g1
          (srsKey cs d (tapeOf g 4) (tapeOf g 0) (tapeOf g 1) (tapeOf g 2) (tapeOf g 3) gens.G gens.H).gamma_g1 hn
          (show n.toNat ≤ (tab n.toNat fun i => (mixAt cs (d.lagrange (tapeOf g 4)) (tapeOf g 0) (tapeOf g 1)
            (.inst (i + 1)) * (tapeOf g 2)⁻¹) • gens.G).length by simp)
        have hrun := SDkg.dkg_run T b n hn hbm c0 hc0 cs hcs gens d hd (tapeOf g) h2 h3 h1 _ rfl _ hgs _ _ _ _ hk
        obtain ⟨-, -, -, st', g_i, hsrs, hg, hk⟩ := NmDkg.dkg_facts T b n hn gens d hd hc0 hcs hI hC (by simp) hrun
        obtain ⟨l, f', hl⟩ := NmDkg.encryptAll_ok T b gens hb hal hc0 hsrs hg hk chk (tape E) ms
          (fun i => tapeOf g (6 + 2 * (encKey n.toNat
            (sumS (others1 ++ ⟨tape E, fun i => tapeOf g (5 + i)⟩ :: others2))
            (sumT n.toNat (others1 ++ ⟨tape E, fun i => tapeOf g (5 + i)⟩ :: others2))
            (fun i => (tab n.toNat fun i => (mixAt cs (d.lagrange (tapeOf g 4)) (tapeOf g 0) (tapeOf g 1)
            (.inst (i + 1)) * (tapeOf g 2)⁻¹) • gens.G).getD i 0)
            (srsKey cs d (tapeOf g 4) (tapeOf g 0) (tapeOf g 1) (tapeOf g 2) (tapeOf g 3) gens.G gens.H).pk.delta_g1
            (srsKey cs d (tapeOf g 4) (tapeOf g 0) (tapeOf g 1) (tapeOf g 2) (tapeOf g 3) gens.G gens.H).gamma_g1
            gens.H).X.length + i))
        refine ⟨_, _, _, _, l, f', hrun, hl, ?_⟩
        rw [← hAd]
        unfold Prover.cipher Prover.proof
        simp only [Prover.choice]
        split
        · exact (hS (tape E) 1 _ _ _ _ _ _ (hlen _) hrun chk (tape E) ms _ f' l rfl hl).2
        · exact (hS' (tape E) 1 _ _ _ _ _ _ (hlen _) hrun chk (tape E) ms _ f' l rfl hl).2
    have hB := Nm.bad_count d hp _ (by omega) B fun g hg => (Finset.mem_filter.mp hg).2
    rw [show 6 + 2 * n.toNat + 3 * ms.length - 1 = 5 + 2 * n.toNat + 3 * ms.length by omega] at hB
    rw [← Nm.card_draws]
    exact (Finset.card_le_card hcov).trans ((Finset.card_union_le _ _).trans (Nat.add_le_add_left hB _))

end
end

theorem NmDkg.many_of_fraction_ask {N p c k l L : ℕ} (hl : l = L) (hbig : 7 * N + 15 ≤ p)
    (h : p ^ (6 + k + 3 * l) ≤ c + (N + 2) * p ^ (5 + k + 3 * l)) :
    (1 + 1) * (3 * N + 6) * p ^ (5 + k + 3 * L) < c := by
  subst hl
  rw [show 6 + k + 3 * l = 5 + k + 3 * l + 1 by omega] at h
  have hpos : 0 < p ^ (5 + k + 3 * l) := Nat.pow_pos (by omega)
  rw [pow_succ] at h
  generalize p ^ (5 + k + 3 * l) = q at h hpos ⊢
  have h2 := Nat.mul_le_mul_left q hbig
  nlinarith

/-- The hypothesis of `C90_adaptive_non_malleable` is met by the concrete instance: three parties, two of which the
adversary controls, two users who encrypt 11 and 22, and an adversary that asks whether the first element it sees is zero,
and re-randomises the ciphertext of the second user by 5 or by 6. -/
example : ∃ A : Prover Fix.E (Strategy Fix.E.Fr), A.questions = 1 ∧
    (A.questions + 1) * (3 * Fix.dom8.size + 6) * Fix.E.fr.p ^ (5 + 2 * (8 : UInt8).toNat + 3 * 2) <
    {g : Fin (6 + 2 * (8 : UInt8).toNat + 3 * 2) → Fix.E.Fr | NmDkgOutcome goldFft true 8 Fix.gens
      [⟨listRng Fix.E, Fix.st⟩] [⟨listRng Fix.E, Fix.st1⟩]
      [(show Fix.E.Fr from (11 : Fix.F)), (show Fix.E.Fr from (22 : Fix.F))] A (tapeOf g)
      (fun pk ek _ ct proof => Accepted Fix.gens pk ek ct proof)}.ncard := by
  have hbig : 7 * Fix.dom8.size + 15 ≤ Fix.E.fr.p := by
    rw [show Fix.dom8.size = 2 ^ 10 from rfl]
    exact (by decide : 7 * 2 ^ 10 + 15 ≤ goldR)
  obtain ⟨S, S', -, h⟩ := C90_adaptive_rerandomiser (E := Fix.E) goldFft 8 8 (Or.inr (Or.inl rfl)) Fix.count8 Fix.bits8
    Fix.aligned8 Fix.gens Fix.gens_ne.2 Fix.dom8 Fix.dom8_count [⟨listRng Fix.E, Fix.st⟩] [⟨listRng Fix.E, Fix.st1⟩]
    (by omega) true
    [(show Fix.E.Fr from (11 : Fix.F)), (show Fix.E.Fr from (22 : Fix.F))]
    (.first fun i => if i = 0 then 1 else 0) 1 (by decide) (show Fix.E.Fr from (5 : Fix.F))
    (show Fix.E.Fr from (6 : Fix.F))
  generalize hA : (Prover.ask (.first fun i => if i = 0 then 1 else 0) (.output S) (.output S') :
    Prover Fix.E (Strategy Fix.E.Fr)) = A at h
  have hq : A.questions = 1 := by subst hA; rfl
  refine ⟨A, hq, ?_⟩
  rw [hq]
  change _ ≤ Set.ncard {g : Fin (6 + 2 * (8 : UInt8).toNat + 3 * 2) → Fix.E.Fr | NmDkgOutcome goldFft true 8 Fix.gens
      [⟨listRng Fix.E, Fix.st⟩] [⟨listRng Fix.E, Fix.st1⟩]
      [(show Fix.E.Fr from (11 : Fix.F)), (show Fix.E.Fr from (22 : Fix.F))] A (tapeOf g)
      (fun pk ek _ ct proof => Accepted Fix.gens pk ek ct proof)} + _ at h
  exact NmDkg.many_of_fraction_ask (N := Fix.dom8.size) (p := Fix.E.fr.p) (k := 2 * (8 : UInt8).toNat)
    (l := List.length [(show Fix.E.Fr from (11 : Fix.F)), (show Fix.E.Fr from (22 : Fix.F))]) (L := 2) rfl hbig h

end Verif
