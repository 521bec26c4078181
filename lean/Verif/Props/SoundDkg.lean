/-
Property C71: knowledge soundness under a distributedly generated key, against all parties but one.
-/
import Verif.Lemmas.SoundDkg

namespace Verif
open Spec

variable {E : Engine}

namespace SDkg
open Sec

/-- every adversary against the distributed key gives one against a single key -/
theorem core {b n : UInt8} (hn : chunksCount E.fr b = .ok n) (cs : CS E.Fr) (hI : cs.numInst = n.toNat + 1)
    (d : EvalDomain E.Fr) (gens : EncryptionGens E) (hH : gens.H ≠ 0) (o1 o2 : List (Party E)) (S : Strategy E.Fr) :
    ∃ S' : Strategy E.Fr, ∀ (tau alpha beta gamma delta : E.Fr) (pk : ProvingKey E) (g_i : List E.G1) (P : Party E)
      (s t v : ℕ → E.Fr) (rho : E.Fr),
      pk = srsKey cs d tau alpha beta gamma delta gens.G gens.H →
      getGsForEncryption pk.pk.vk = .ok g_i →
      (∀ i < n.toNat, s i = partyS P i + othersS o1 o2 i) → (∀ i < n.toNat + 1, t i = partyT n.toNat P i) →
      ∃ keys shares ek,
        dkgTranscript (o1 ++ P :: o2) b gens g_i pk.pk.delta_g1 pk.gamma_g1 = .ok (keys, shares, ek) ∧
        ∀ (ek' : EncryptionKey E) (dk : DecryptionKey E),
        ek' = encKey n.toNat s t (fun i => g_i.getD i 0) pk.pk.delta_g1 pk.gamma_g1 gens.H →
        dk = decKey n.toNat rho s v gens.H →
        ((S.cipher (dkgPublic1 gens pk keys shares ek)).verifyCommitmentAndProof
          (S.proof (dkgPublic1 gens pk keys shares ek) (dkgPublic2 gens pk keys ek)) (prepareVerifyingKey pk.pk.vk)
          ek.prepare gens.prepare = .ok () ↔
        (S'.cipher (public1 gens pk ek')).verifyCommitmentAndProof
          (S'.proof (public1 gens pk ek') (public2 gens pk ek' dk)) (prepareVerifyingKey pk.pk.vk)
          ek'.prepare gens.prepare = .ok ()) ∧
        ∀ (m : ℕ → ℕ) (r : E.Fr),
          S'.cipher (public1 gens pk ek') = cipher ek' (fun i => pk.pk.vk.gamma_abc_g1.tail.getD i 0) m r →
          S.cipher (dkgPublic1 gens pk keys shares ek) =
            cipher ek (fun i => pk.pk.vk.gamma_abc_g1.tail.getD i 0) m r := by
  obtain ⟨c1, c2, hc⟩ := exists_conv (pk0 := srsKey cs d 0 0 0 0 0 gens.G gens.H) gens n.toNat o1 o2
  refine ⟨translate (othersT n.toNat o1 o2) c1 c2 S, ?_⟩
  intro tau alpha beta gamma delta pk g_i P s t v rho hpk hg hs ht
  have hsame : Same (srsKey cs d 0 0 0 0 0 gens.G gens.H) pk := by
    rw [hpk]
    simp [Same, srsKey]
  have hgi : ∀ i, g_i.getD i 0 = gs pk i := fun i => (getGs_inv hg).2 i
  have htail : (fun i => pk.pk.vk.gamma_abc_g1.tail.getD i 0) = gs pk := by
    funext i
    unfold gs
    rw [List.getD_eq_getElem?_getD, List.getD_eq_getElem?_getD, List.getElem?_tail]
  have hgl : n.toNat ≤ g_i.length := by
    rw [hpk, gs_of_srs cs d _ _ _ _ _ _ _ n.toNat hI] at hg
    cases hg
    simp
  obtain ⟨keys, shares, ek, hrun, hek, hl1, hl2⟩ := dkg_lists gens o1 o2 hn pk hsame P v rho g_i hgi hgl
  refine ⟨keys, shares, ek, hrun, fun ek' dk hek' hdk => ?_⟩
  have hekk : ek' = key gens n.toNat pk (fun i => partyS P i + othersS o1 o2 i) (partyT n.toNat P) := by
    rw [hek', funext hgi]
    exact encKey_congr' _ _ _ _ hs ht
  have hdkk : dk = decKey n.toNat rho (fun i => partyS P i + othersS o1 o2 i) v gens.H := by
    rw [hdk]
    unfold decKey
    congr 1
    exact tab_congr fun i hi => by rw [hs i hi]
  have hout := translate_outputs (othersT n.toNat o1 o2) c1 c2 S
    (L1 gens n.toNat (env n.toNat o1 o2 pk hsame P v rho)) (D1 gens n.toNat o1 o2 (env n.toNat o1 o2 pk hsame P v rho))
    (L2 gens n.toNat (env n.toNat o1 o2 pk hsame P v rho)) (D2 gens n.toNat o1 o2 (env n.toNat o1 o2 pk hsame P v rho))
    (fun k => (hc k _).1) (fun k => (hc k _).2)
  have e1 : L1 gens n.toNat (env n.toNat o1 o2 pk hsame P v rho) = public1 gens pk ek' := by
    rw [hekk]
    rfl
  have e2 : L2 gens n.toNat (env n.toNat o1 o2 pk hsame P v rho) = public2 gens pk ek' dk := by
    rw [hekk, hdkk]
    rfl
  rw [e1, e2, ← hl1, ← hl2] at hout
  rw [hout.1, hout.2, htail]
  refine ⟨?_, fun m r h => ?_⟩
  · rw [hek, hekk]
    exact accept_iff gens n.toNat pk _ _ _ n.toNat_lt hH _ _ _
  · rw [hekk] at h
    have := cipher_of_unshift gens n.toNat pk _ _ _ _ m r h
    rw [this, hek]

/-- a run on a tape -/
theorem dkg_run (T : FftCfg E.Fr) (b n : UInt8) (hn : chunksCount E.fr b = .ok n)
    (hbm : b.toNat ≤ E.fr.modBits) (c0 : BitsizeCheckCircuit E.fr)
    (hc0 : BitsizeCheckCircuit.new (K := E.fr) b none none true = .ok c0) (cs : CS E.Fr)
    (hcs : c0.generateConstraints (CS.new true) = .ok cs) (gens : EncryptionGens E) (d : EvalDomain E.Fr)
    (hd : T.newDomain (n.toNat * constraintsPerValue E.fr.modBits b.toNat + (n.toNat + 1)) = some d)
    (f : ℕ → E.Fr) (h2 : f 2 ≠ 0) (h3 : f 3 ≠ 0) (h4 : d.vanishing (f 4) ≠ 0) (pk : ProvingKey E)
    (hpk : pk = srsKey cs d (f 4) (f 0) (f 1) (f 2) (f 3) gens.G gens.H) (g_i : List E.G1)
    (hg : getGsForEncryption pk.pk.vk = .ok g_i) (parties : List (Party E)) (keys shares ek)
    (hk : dkgTranscript parties b gens g_i pk.pk.delta_g1 pk.gamma_g1 = .ok (keys, shares, ek)) :
    setupForDkg T (tape E) 1 f b gens parties = .ok (pk, keys, shares, ek) := by
  have hrun := srs_run T (tape E) 1 (by omega) f b n hn hbm c0 hc0 cs hcs gens d hd
    (by rw [draw_tape]; exact h2) (by rw [draw_tape]; exact h3) (by rw [draw_tape]; exact h4)
  simp only [draw_tape] at hrun
  rw [← hpk] at hrun
  unfold setupForDkg
  rw [hc0, Res.ok_bind, hrun, Res.ok_bind]
  simp only [hg, hk, Res.ok_bind, Res.pure_eq]

/-- the parameters behind any run -/
theorem dkg_run_inv {T : FftCfg E.Fr} {R : RngCore E} {fuel : ℕ} {st : R.σ} {b : UInt8}
    {c0 : BitsizeCheckCircuit E.fr}
    (hc0 : BitsizeCheckCircuit.new (K := E.fr) b none none true = .ok c0) {cs : CS E.Fr}
    (hcs : c0.generateConstraints (CS.new true) = .ok cs) {d : EvalDomain E.Fr}
    (hd : T.newDomain (cs.cons.length + cs.numInst) = some d) {gens : EncryptionGens E}
    {parties : List (Party E)} {pk keys shares ek}
    (h : setupForDkg T R fuel st b gens parties = .ok (pk, keys, shares, ek)) :
    ∃ (tau alpha beta gamma delta : E.Fr) (g_i : List E.G1),
      d.vanishing tau ≠ 0 ∧ gamma ≠ 0 ∧ delta ≠ 0 ∧
      pk = srsKey cs d tau alpha beta gamma delta gens.G gens.H ∧
      getGsForEncryption pk.pk.vk = .ok g_i ∧
      dkgTranscript parties b gens g_i pk.pk.delta_g1 pk.gamma_g1 = .ok (keys, shares, ek) := by
  unfold setupForDkg at h
  rw [hc0, Res.ok_bind] at h
  obtain ⟨⟨pk1, st1⟩, hsrs, h⟩ := Res.bind_eq_ok.mp h
  dsimp only at h
  obtain ⟨g_i, hg, h⟩ := Res.bind_eq_ok.mp h
  obtain ⟨⟨k1, s1, e1⟩, hk, h⟩ := Res.bind_eq_ok.mp h
  simp only [Res.pure_eq, Res.ok.injEq, Prod.mk.injEq] at h
  obtain ⟨rfl, rfl, rfl, rfl⟩ := h
  obtain ⟨cs', d', tau, alpha, beta, gamma, delta, hcs', hd', hv, hgam, hdel, hpk⟩ := srs_inv hsrs
  rw [hcs] at hcs'
  cases hcs'
  rw [hd] at hd'
  cases hd'
  exact ⟨tau, alpha, beta, gamma, delta, g_i, hv, hgam, hdel, hpk, hg, hk⟩

/-- the tape of a single setup with the scalars of a distributed one; `z` is what the latter does not draw -/
def merge (n : ℕ) (S : ℕ → E.Fr) (f z : ℕ → E.Fr) (j : ℕ) : E.Fr :=
  if j < 5 then f j
  else if j = 5 then z 0
  else if j < 6 + n then f (j - 1) + S (j - 6)
  else if j < 7 + 2 * n then f (j - 1)
  else z (j - (7 + 2 * n) + 1)

theorem merge_lt (n : ℕ) (S f z : ℕ → E.Fr) {j : ℕ} (h : j < 5) : merge n S f z j = f j := by
  unfold merge
  rw [if_pos h]

theorem merge_s (n : ℕ) (S f z : ℕ → E.Fr) {i : ℕ} (h : i < n) : merge n S f z (6 + i) = f (5 + i) + S i := by
  unfold merge
  rw [if_neg (by omega), if_neg (by omega), if_pos (by omega), Nat.add_sub_cancel_left,
    show 6 + i - 1 = 5 + i by omega]

theorem merge_t (n : ℕ) (S f z : ℕ → E.Fr) {i : ℕ} (h : i < n + 1) :
    merge n S f z (6 + n + i) = f (5 + (n + i)) := by
  unfold merge
  rw [if_neg (by omega), if_neg (by omega), if_neg (by omega), if_pos (by omega),
    show 6 + n + i - 1 = 5 + (n + i) by omega]

theorem merge_5 (n : ℕ) (S f z : ℕ → E.Fr) : merge n S f z 5 = z 0 := by
  unfold merge
  rw [if_neg (by omega), if_pos rfl]

theorem merge_v (n : ℕ) (S f z : ℕ → E.Fr) (i : ℕ) : merge n S f z (7 + 2 * n + i) = z (i + 1) := by
  unfold merge
  rw [if_neg (by omega), if_neg (by omega), if_neg (by omega), if_neg (by omega), Nat.add_sub_cancel_left]

/-- the tape of a distributed setup with the scalars of a single one -/
def unmerge (n : ℕ) (S : ℕ → E.Fr) (f : ℕ → E.Fr) (j : ℕ) : E.Fr :=
  if j < 5 then f j else if j < 5 + n then f (j + 1) - S (j - 5) else f (j + 1)

theorem merge_unmerge (n : ℕ) (S f z : ℕ → E.Fr) (hz0 : z 0 = f 5) (hz : ∀ i, z (i + 1) = f (7 + 2 * n + i)) :
    merge n S (unmerge n S f) z = f := by
  funext j
  unfold merge unmerge
  by_cases h1 : j < 5
  · rw [if_pos h1, if_pos h1]
  · rw [if_neg h1]
    by_cases h2 : j = 5
    · rw [if_pos h2, hz0, h2]
    · rw [if_neg h2]
      by_cases h3 : j < 6 + n
      · rw [if_pos h3, if_neg (by omega), if_pos (by omega), show j - 1 - 5 = j - 6 by omega, sub_add_cancel,
          Nat.sub_add_cancel (by omega)]
      · rw [if_neg h3]
        by_cases h4 : j < 7 + 2 * n
        · rw [if_pos h4, if_neg (by omega), if_neg (by omega), Nat.sub_add_cancel (by omega)]
        · rw [if_neg h4, hz]
          congr 1
          omega

theorem tapeOf_merge (n : ℕ) (S : ℕ → E.Fr) (x : Fin (6 + 2 * n) → E.Fr) (z : Fin (n + 1) → E.Fr) :
    (tapeOf fun j : Fin (7 + 3 * n) => merge n S (tapeOf x) (tapeOf z) j) = merge n S (tapeOf x) (tapeOf z) := by
  funext j
  by_cases hj : j < 7 + 3 * n
  · rw [tapeOf, dif_pos hj]
  · rw [tapeOf, dif_neg hj]
    unfold merge
    rw [if_neg (by omega), if_neg (by omega), if_neg (by omega), if_neg (by omega), tapeOf,
      dif_neg (by omega)]

theorem merge_inj (n : ℕ) (S : ℕ → E.Fr) (x x' : Fin (6 + 2 * n) → E.Fr) (z z' : Fin (n + 1) → E.Fr)
    (h : (fun j : Fin (7 + 3 * n) => merge n S (tapeOf x) (tapeOf z) j) =
      fun j : Fin (7 + 3 * n) => merge n S (tapeOf x') (tapeOf z') j) : (x, z) = (x', z') := by
  have hj : ∀ j < 7 + 3 * n, merge n S (tapeOf x) (tapeOf z) j = merge n S (tapeOf x') (tapeOf z') j :=
    fun j hj => congrFun h ⟨j, hj⟩
  have get : ∀ {K : ℕ} (y : Fin K → E.Fr) (i : Fin K), tapeOf y i.1 = y i := by
    intro K y i
    rw [tapeOf, dif_pos i.2]
  refine Prod.ext (funext fun i => ?_) (funext fun i => ?_)
  · dsimp only
    rw [← get x i, ← get x' i]
    have hi := i.2
    by_cases h5 : i.1 < 5
    · have := hj i.1 (by omega)
      rwa [merge_lt _ _ _ _ h5, merge_lt _ _ _ _ h5] at this
    · by_cases hs : i.1 < 5 + n
      · have := hj (6 + (i.1 - 5)) (by omega)
        rw [merge_s _ _ _ _ (by omega), merge_s _ _ _ _ (by omega), show 5 + (i.1 - 5) = i.1 by omega] at this
        exact add_right_cancel this
      · have := hj (6 + n + (i.1 - (5 + n))) (by omega)
        rwa [merge_t _ _ _ _ (by omega), merge_t _ _ _ _ (by omega),
          show 5 + (n + (i.1 - (5 + n))) = i.1 by omega] at this
  · dsimp only
    rw [← get z i, ← get z' i]
    have hi := i.2
    by_cases h0 : i.1 = 0
    · have := hj 5 (by omega)
      rw [merge_5, merge_5] at this
      rw [h0]
      exact this
    · have := hj (7 + 2 * n + (i.1 - 1)) (by omega)
      rwa [merge_v, merge_v, Nat.sub_add_cancel (by omega)] at this

end SDkg

section
variable (T : FftCfg E.Fr) (b n : UInt8) (hn : chunksCount E.fr b = .ok n)
    (hbm : b.toNat ≤ E.fr.modBits) (gens : EncryptionGens E) (hG : gens.G ≠ 0) (hH : gens.H ≠ 0)
    (d : EvalDomain E.Fr)
    (hd : T.newDomain (n.toNat * constraintsPerValue E.fr.modBits b.toNat + (n.toNat + 1)) = some d)
    (others1 others2 : List (Party E)) (S : Strategy E.Fr)
include hn hbm hH hd

open SDkg Sec in
/-- the two games side by side -/
theorem SDkg.bridge : ∃ S' : Strategy E.Fr,
    (∀ f z : ℕ → E.Fr, f 2 ≠ 0 → f 3 ≠ 0 → d.vanishing (f 4) ≠ 0 →
      ∃ pk sk ek' dk f1 keys shares ek,
        setupForGroth16 T (tape E) 1 (merge n.toNat (othersS others1 others2) f z) b gens =
          .ok ((pk, sk, ek', dk), f1) ∧
        setupForDkg T (tape E) 1 f b gens (others1 ++ ⟨tape E, fun i => f (5 + i)⟩ :: others2) =
          .ok (pk, keys, shares, ek) ∧
        ((S.cipher (dkgPublic1 gens pk keys shares ek)).verifyCommitmentAndProof
          (S.proof (dkgPublic1 gens pk keys shares ek) (dkgPublic2 gens pk keys ek)) (prepareVerifyingKey pk.pk.vk)
          ek.prepare gens.prepare = .ok () ↔
        (S'.cipher (public1 gens pk ek')).verifyCommitmentAndProof
          (S'.proof (public1 gens pk ek') (public2 gens pk ek' dk)) (prepareVerifyingKey pk.pk.vk)
          ek'.prepare gens.prepare = .ok ())) ∧
    ∀ (R : RngCore E) (fuel : ℕ) (st : R.σ) (P : Party E) pk keys shares ek,
      setupForDkg T R fuel st b gens (others1 ++ P :: others2) = .ok (pk, keys, shares, ek) →
      ∃ f sk ek' dk f1, setupForGroth16 T (tape E) 1 f b gens = .ok ((pk, sk, ek', dk), f1) ∧
        ∀ (m : ℕ → ℕ) (r : E.Fr),
          S'.cipher (public1 gens pk ek') = cipher ek' (fun i => pk.pk.vk.gamma_abc_g1.tail.getD i 0) m r →
          S.cipher (dkgPublic1 gens pk keys shares ek) =
            cipher ek (fun i => pk.pk.vk.gamma_abc_g1.tail.getD i 0) m r := by
  obtain ⟨c0, cs, hc0, hcs, hI, hC, -⟩ := setup_shape hn hbm
  obtain ⟨S', hS'⟩ := core hn cs hI d gens hH others1 others2 S
  refine ⟨S', fun f z h2 h3 h4 => ?_, fun R fuel st P pk keys shares ek hrun => ?_⟩
  · have hsr := setup_run T (tape E) 1 (by omega) (merge n.toNat (othersS others1 others2) f z) b n hn hbm c0 hc0
      cs hcs hI gens d hd
      (by rw [draw_tape, merge_lt _ _ _ _ (by omega)]; exact h2)
      (by rw [draw_tape, merge_lt _ _ _ _ (by omega)]; exact h3)
      (by rw [draw_tape, merge_lt _ _ _ _ (by omega)]; exact h4)
    simp only [draw_tape] at hsr
    have hg := gs_of_srs cs d (f 4) (f 0) (f 1) (f 2) (f 3) gens.G gens.H n.toNat hI
    obtain ⟨keys, shares, ek, hk, hall⟩ := hS' (f 4) (f 0) (f 1) (f 2) (f 3) _ _ ⟨tape E, fun i => f (5 + i)⟩
      (fun i => merge n.toNat (othersS others1 others2) f z (6 + i))
      (fun i => merge n.toNat (othersS others1 others2) f z (6 + n.toNat + i))
      (fun i => merge n.toNat (othersS others1 others2) f z (7 + 2 * n.toNat + i))
      (merge n.toNat (othersS others1 others2) f z 5) rfl hg (fun i hi => by
        rw [merge_s _ _ _ _ hi]
        congr 1
        exact (draw_tape (fun i => f (5 + i)) i).symm) (fun i hi => by
        rw [merge_t _ _ _ _ hi]
        exact (draw_tape (fun i => f (5 + i)) (n.toNat + i)).symm)
    have hdk := dkg_run T b n hn hbm c0 hc0 cs hcs gens d hd f h2 h3 h4 _ rfl _ hg _ keys shares ek hk
    rw [merge_lt _ _ _ _ (show 4 < 5 by omega), merge_lt _ _ _ _ (show 0 < 5 by omega),
      merge_lt _ _ _ _ (show 1 < 5 by omega), merge_lt _ _ _ _ (show 2 < 5 by omega),
      merge_lt _ _ _ _ (show 3 < 5 by omega)] at hsr
    exact ⟨_, _, _, _, _, keys, shares, ek, hsr, hdk, (hall _ _ rfl rfl).1⟩
  · obtain ⟨tau, alpha, beta, gamma, delta, g_i, hv, hgam, hdel, hpk, hg, hk⟩ :=
      dkg_run_inv hc0 hcs (by rw [hC, hI]; exact hd) hrun
    have hsr := setup_run T (tape E) 1 (by omega) (setupTape n.toNat alpha beta gamma delta tau 0
      (fun i => partyS P i + othersS others1 others2 i) (partyT n.toNat P) fun _ => 0) b n hn hbm c0 hc0
      cs hcs hI gens d hd (by rw [draw_tape]; exact hgam) (by rw [draw_tape]; exact hdel)
      (by rw [draw_tape]; exact hv)
    simp only [draw_tape] at hsr
    have hg' := gs_of_srs cs d tau alpha beta gamma delta gens.G gens.H n.toNat hI
    obtain ⟨keys', shares', ek', hk', hall⟩ := hS' tau alpha beta gamma delta pk g_i P
      (fun i => setupTape n.toNat alpha beta gamma delta tau 0
        (fun i => partyS P i + othersS others1 others2 i) (partyT n.toNat P) (fun _ => 0) (6 + i))
      (fun i => setupTape n.toNat alpha beta gamma delta tau 0
        (fun i => partyS P i + othersS others1 others2 i) (partyT n.toNat P) (fun _ => 0) (6 + n.toNat + i))
      (fun i => setupTape n.toNat alpha beta gamma delta tau 0
        (fun i => partyS P i + othersS others1 others2 i) (partyT n.toNat P) (fun _ => 0) (7 + 2 * n.toNat + i))
      (setupTape n.toNat alpha beta gamma delta tau 0
        (fun i => partyS P i + othersS others1 others2 i) (partyT n.toNat P) (fun _ => 0) 5) hpk hg
      (fun i hi => by
        simp only [setupTape]
        rw [if_neg (by omega), if_neg (by omega), if_pos (by omega), Nat.add_sub_cancel_left])
      (fun i hi => by
        simp only [setupTape]
        rw [if_neg (by omega), if_neg (by omega), if_neg (by omega), if_pos (by omega),
          Nat.add_sub_cancel_left])
    rw [hk] at hk'
    cases hk'
    have hpk' : pk = srsKey cs d tau alpha beta gamma delta gens.G gens.H := hpk
    subst hpk'
    rw [hg'] at hg
    cases hg
    exact ⟨_, _, _, _, _, hsr, (hall _ _ rfl rfl).2⟩

include hG

open SDkg Sec in
/-- **C71** Knowledge soundness of `verify_commitment_and_proof` for distributed keys, against all parties but one.
The secrets of all parties but one are arbitrary constants (known to the adversary, whose coefficients may depend
on them), and so are the positions of the parties.  The adversary chooses a ciphertext and a proof by fixed linear
combinations of everything published: the parameters, all partial keys, all `P_1` shares and the final key.  If
they are accepted for all draws of `generate_srs` and of the honest party for which the setup succeeds, then there
are chunks below `2^b` and a scalar `r` such that in every run (any random generators) the adversary's ciphertext
is the SAVER encryption of these chunks under the joint key. -/
theorem C71_knowledge_sound_coalition (hp : 3 * d.size < E.fr.p)
    (hacc : ∀ (f : ℕ → E.Fr) pk keys shares ek,
      setupForDkg T (tape E) 1 f b gens (others1 ++ ⟨tape E, fun i => f (5 + i)⟩ :: others2) =
        .ok (pk, keys, shares, ek) →
      (S.cipher (dkgPublic1 gens pk keys shares ek)).verifyCommitmentAndProof
        (S.proof (dkgPublic1 gens pk keys shares ek) (dkgPublic2 gens pk keys ek)) (prepareVerifyingKey pk.pk.vk)
        ek.prepare gens.prepare = .ok ()) :
    ∃ (m : ℕ → ℕ) (r : E.Fr), (∀ i < n.toNat, m i < 2 ^ b.toNat ∧ m i < E.fr.p) ∧
      ∀ (R : RngCore E) (fuel : ℕ) (st : R.σ) (P : Party E) pk keys shares ek,
        setupForDkg T R fuel st b gens (others1 ++ P :: others2) = .ok (pk, keys, shares, ek) →
        S.cipher (dkgPublic1 gens pk keys shares ek) =
          cipher ek (fun i => pk.pk.vk.gamma_abc_g1.tail.getD i 0) m r := by
  obtain ⟨S', hrun, hconv⟩ := bridge T b n hn hbm gens hH d hd others1 others2 S
  obtain ⟨c0, cs, hc0, hcs, hI, hC, -⟩ := setup_shape hn hbm
  obtain ⟨m, r, hm, hall⟩ := C61_knowledge_sound T b n hn hbm gens hG hH d hd hp S' (by
    intro f pk sk ek dk f' hset
    have hgood : d.vanishing (f 4) ≠ 0 ∧ f 2 ≠ 0 ∧ f 3 ≠ 0 := by
      have h := hset
      unfold setupForGroth16 at h
      rw [hc0, Res.ok_bind] at h
      obtain ⟨⟨pk', st2⟩, hsrs, -⟩ := Res.bind_eq_ok.mp h
      obtain ⟨cs', d', hcs', hd', h1, h2, h3⟩ := setup_tape_good hsrs
      rw [hcs] at hcs'
      cases hcs'
      rw [hC, hI, hd] at hd'
      cases hd'
      exact ⟨h1, h2, h3⟩
    obtain ⟨h1, h2, h3⟩ := hgood
    have hun : ∀ j < 5, unmerge n.toNat (othersS others1 others2) f j = f j := by
      intro j hj
      unfold unmerge
      rw [if_pos hj]
    obtain ⟨pk1, sk1, ek1, dk1, f1, keys, shares, ek2, hs1, hs2, hiff⟩ := hrun
      (unmerge n.toNat (othersS others1 others2) f)
      (fun i => if i = 0 then f 5 else f (7 + 2 * n.toNat + (i - 1)))
      (by rw [hun 2 (by omega)]; exact h2) (by rw [hun 3 (by omega)]; exact h3)
      (by rw [hun 4 (by omega)]; exact h1)
    rw [merge_unmerge _ _ _ _ (if_pos rfl) (fun i => by
      rw [if_neg (by omega), Nat.add_sub_cancel]), hset] at hs1
    simp only [Res.ok.injEq, Prod.mk.injEq] at hs1
    obtain ⟨⟨rfl, rfl, rfl, rfl⟩, rfl⟩ := hs1
    exact hiff.mp (hacc _ _ _ _ _ hs2))
  refine ⟨m, r, hm, ?_⟩
  intro R fuel st P pk keys shares ek hset
  obtain ⟨f, sk, ek', dk, f1, hs1, himp⟩ := hconv R fuel st P pk keys shares ek hset
  exact himp m r (hall _ _ _ _ _ _ _ _ hs1)

open SDkg Sec in
/-- **C71** The error bound: if the adversary is accepted on more than a `(3 size + 5) / p` fraction of the draws of
`generate_srs` (5 scalars) and of the honest party (`2n + 1` scalars), its ciphertext is, in every run, the SAVER
encryption of the same chunks below `2^b`. -/
theorem C71_knowledge_error_coalition
    (hmany : (3 * d.size + 5) * E.fr.p ^ (5 + 2 * n.toNat) <
      {g : Fin (6 + 2 * n.toNat) → E.Fr | DkgAccepts T b gens others1 others2 S (tapeOf g)}.ncard) :
    ∃ (m : ℕ → ℕ) (r : E.Fr), (∀ i < n.toNat, m i < 2 ^ b.toNat ∧ m i < E.fr.p) ∧
      ∀ (R : RngCore E) (fuel : ℕ) (st : R.σ) (P : Party E) pk keys shares ek,
        setupForDkg T R fuel st b gens (others1 ++ P :: others2) = .ok (pk, keys, shares, ek) →
        S.cipher (dkgPublic1 gens pk keys shares ek) =
          cipher ek (fun i => pk.pk.vk.gamma_abc_g1.tail.getD i 0) m r := by
  classical
  obtain ⟨S', hrun, hconv⟩ := bridge T b n hn hbm gens hH d hd others1 others2 S
  obtain ⟨c0, cs, hc0, hcs, hI, hC, -⟩ := setup_shape hn hbm
  obtain ⟨m, r, hm, hall⟩ := C62_knowledge_error T b n hn hbm gens hG hH d hd S' (by
    have hpos : 0 < E.fr.p ^ (n.toNat + 1) := pow_pos (Nat.Prime.pos E.fr.prime) _
    have h1 := Nat.mul_lt_mul_of_pos_right hmany hpos
    rw [mul_assoc, ← pow_add, show 5 + 2 * n.toNat + (n.toNat + 1) = 6 + 3 * n.toNat by omega] at h1
    refine lt_of_lt_of_le h1 ?_
    have hcard : (Set.univ : Set (Fin (n.toNat + 1) → E.Fr)).ncard = E.fr.p ^ (n.toNat + 1) := by
      rw [Set.ncard_univ, Nat.card_eq_fintype_card, Fintype.card_fun, Fintype.card_fin]
      congr 1
      exact ZMod.card _
    rw [← hcard, ← Set.ncard_prod]
    refine Set.ncard_le_ncard_of_injOn
      (fun xz : (Fin (6 + 2 * n.toNat) → E.Fr) × (Fin (n.toNat + 1) → E.Fr) =>
        fun j : Fin (7 + 3 * n.toNat) => merge n.toNat (othersS others1 others2) (tapeOf xz.1) (tapeOf xz.2) j)
      ?_ ?_ (Set.toFinite _)
    · rintro ⟨x, z⟩ ⟨hx, -⟩
      obtain ⟨pk, keys, shares, ek, hset, hver⟩ := hx
      have hgood : d.vanishing (tapeOf x 4) ≠ 0 ∧ tapeOf x 2 ≠ 0 ∧ tapeOf x 3 ≠ 0 := by
        have h := hset
        unfold setupForDkg at h
        rw [hc0, Res.ok_bind] at h
        obtain ⟨⟨pk', st2⟩, hsrs, -⟩ := Res.bind_eq_ok.mp h
        obtain ⟨cs', d', hcs', hd', h1, h2, h3⟩ := setup_tape_good hsrs
        rw [hcs] at hcs'
        cases hcs'
        rw [hC, hI, hd] at hd'
        cases hd'
        exact ⟨h1, h2, h3⟩
      obtain ⟨h4, h2, h3⟩ := hgood
      obtain ⟨pk1, sk1, ek1, dk1, f1, keys1, shares1, ek2, hs1, hs2, hiff⟩ := hrun (tapeOf x) (tapeOf z) h2 h3 h4
      rw [hset] at hs2
      cases hs2
      refine ⟨pk, sk1, ek1, dk1, f1, ?_, hiff.mp hver⟩
      rw [← hs1]
      congr 1
      exact tapeOf_merge n.toNat _ x z
    · rintro ⟨x, z⟩ - ⟨x', z'⟩ - h
      exact merge_inj n.toNat _ x x' z z' h)
  refine ⟨m, r, hm, ?_⟩
  intro R fuel st P pk keys shares ek hset
  obtain ⟨f, sk, ek', dk, f1, hs1, himp⟩ := hconv R fuel st P pk keys shares ek hset
  exact himp m r (hall _ _ _ _ _ _ _ _ hs1)

end

namespace SDkg
open Sec

/-- coefficients that ignore everything beyond the first `N` elements -/
theorem comb_cut {F G : Type} [Field F] [AddCommGroup G] [Module F G] {N : ℕ} (k : ℕ → F) {l : List G} (l' : List G)
    (hl : l.length = N) : comb (glue N k fun _ => 0) (l ++ l') = comb k l := by
  rw [comb_glue _ _ _ hl, comb_nul, add_zero]

/-- a strategy that uses only the first `N1` and `N2` elements -/
def cut (N1 N2 : ℕ) (S : Strategy E.Fr) : Strategy E.Fr where
  x := glue N1 S.x fun _ => 0
  len := S.len
  chunk i := glue N1 (S.chunk i) fun _ => 0
  psi := glue N1 S.psi fun _ => 0
  a := glue N1 S.a fun _ => 0
  b := glue N2 S.b fun _ => 0
  c := glue N1 S.c fun _ => 0

end SDkg

section
variable (T : FftCfg E.Fr) (b n : UInt8) (hn : chunksCount E.fr b = .ok n)
    (hbm : b.toNat ≤ E.fr.modBits) (gens : EncryptionGens E) (d : EvalDomain E.Fr)
    (hd : T.newDomain (n.toNat * constraintsPerValue E.fr.modBits b.toNat + (n.toNat + 1)) = some d)
include hn hbm hd

open SDkg Sec in
/-- **C71** The converse: for all chunks below `2^b` and every `r` the honest encryptor's strategy is of this kind,
and it is accepted in every run of every group of parties. -/
theorem C71_honest_strategy (m : ℕ → ℕ) (hm : ∀ i < n.toNat, m i < 2 ^ b.toNat) (r : E.Fr) :
    ∃ S : Strategy E.Fr, ∀ (R : RngCore E) (fuel : ℕ) (st : R.σ) (parties : List (Party E)) pk keys shares ek,
      parties ≠ [] → setupForDkg T R fuel st b gens parties = .ok (pk, keys, shares, ek) →
      S.cipher (dkgPublic1 gens pk keys shares ek) =
          cipher ek (fun i => pk.pk.vk.gamma_abc_g1.tail.getD i 0) m r ∧
      (S.cipher (dkgPublic1 gens pk keys shares ek)).verifyCommitmentAndProof
        (S.proof (dkgPublic1 gens pk keys shares ek) (dkgPublic2 gens pk keys ek)) (prepareVerifyingKey pk.pk.vk)
        ek.prepare gens.prepare = .ok () := by
  obtain ⟨c0, cs0, hc0, hcs0, hI, hC, -⟩ := setup_shape hn hbm
  obtain ⟨S, hS⟩ := honest_core T b n hn hbm gens d c0 hc0 cs0 hcs0 hI hC hd m hm r
  refine ⟨cut ((par1 gens (srsKey cs0 d 0 0 0 0 0 gens.G gens.H)).length + (1 + (n.toNat + (1 + (n.toNat + 1)))))
    ((par2 gens (srsKey cs0 d 0 0 0 0 0 gens.G gens.H)).length + (n.toNat + 1)) S, ?_⟩
  intro R fuel st parties pk keys shares ek hne hset
  obtain ⟨tau, alpha, beta, gamma, delta, g_i, hv, hgam, hdel, hpk, hg, hk⟩ :=
    dkg_run_inv hc0 hcs0 (by rw [hC, hI]; exact hd) hset
  have hgl : n.toNat ≤ g_i.length := by
    rw [hpk, gs_of_srs cs0 d _ _ _ _ _ _ _ n.toNat hI] at hg
    cases hg
    simp
  rw [dkgTranscript_eq parties hne gens g_i _ _ hn hgl] at hk
  simp only [Res.ok.injEq, Prod.mk.injEq] at hk
  obtain ⟨-, -, hek⟩ := hk
  obtain ⟨h1, h2⟩ := hS tau alpha beta gamma delta _ _ pk g_i ek ⟨0, [], []⟩ hv hgam hdel hpk hg hek.symm
  have hl1 : (public1 gens pk ek).length = (par1 gens (srsKey cs0 d 0 0 0 0 0 gens.G gens.H)).length +
      (1 + (n.toNat + (1 + (n.toNat + 1)))) := by
    rw [public1_split, List.length_append]
    congr 1
    · rw [hpk]
      simp [par1, srsKey]
    · rw [← hek]
      simp [encKey]
      omega
  have hl2 : (par2 gens pk ++ ek.Z).length = (par2 gens (srsKey cs0 d 0 0 0 0 0 gens.G gens.H)).length +
      (n.toNat + 1) := by
    rw [List.length_append]
    congr 1
    · rw [hpk]
      simp [par2, srsKey]
    · rw [← hek]
      simp [encKey]
  have e1 : ∀ k : ℕ → E.Fr, comb (glue ((par1 gens (srsKey cs0 d 0 0 0 0 0 gens.G gens.H)).length +
      (1 + (n.toNat + (1 + (n.toNat + 1))))) k fun _ => 0) (dkgPublic1 gens pk keys shares ek) =
      comb k (public1 gens pk ek) := fun k => comb_cut k _ hl1
  have e2 : ∀ k : ℕ → E.Fr, comb (glue ((par2 gens (srsKey cs0 d 0 0 0 0 0 gens.G gens.H)).length + (n.toNat + 1))
      k fun _ => 0) (dkgPublic2 gens pk keys ek) = comb k (public2 gens pk ek ⟨0, [], []⟩) := by
    intro k
    have a1 : dkgPublic2 gens pk keys ek = (par2 gens pk ++ ek.Z) ++ (keys.map (·.Z)).flatten := by
      unfold dkgPublic2 par2
      simp only [List.append_assoc]
    have a2 : public2 gens pk ek ⟨0, [], []⟩ = (par2 gens pk ++ ek.Z) ++ [0] := by
      unfold public2 par2
      simp only [List.append_assoc, List.append_nil]
    rw [a1, a2, comb_cut k _ hl2, comb_append k (par2 gens pk ++ ek.Z) [0], comb_one, smul_zero, add_zero]
  have c1 : (cut ((par1 gens (srsKey cs0 d 0 0 0 0 0 gens.G gens.H)).length +
      (1 + (n.toNat + (1 + (n.toNat + 1))))) ((par2 gens (srsKey cs0 d 0 0 0 0 0 gens.G gens.H)).length +
      (n.toNat + 1)) S).cipher (dkgPublic1 gens pk keys shares ek) = S.cipher (public1 gens pk ek) := by
    unfold cut Strategy.cipher
    simp only [e1]
  have c2 : (cut ((par1 gens (srsKey cs0 d 0 0 0 0 0 gens.G gens.H)).length +
      (1 + (n.toNat + (1 + (n.toNat + 1))))) ((par2 gens (srsKey cs0 d 0 0 0 0 0 gens.G gens.H)).length +
      (n.toNat + 1)) S).proof (dkgPublic1 gens pk keys shares ek) (dkgPublic2 gens pk keys ek) =
      S.proof (public1 gens pk ek) (public2 gens pk ek ⟨0, [], []⟩) := by
    unfold cut Strategy.proof
    simp only [e1, e2]
  rw [c1, c2]
  exact ⟨h1, h2⟩

open SDkg Sec in
/-- **C71** Honest encryptors are accepted on all but a `(size + 2) / p` fraction of the draws, whatever the other
parties are; so for `p > 4 size + 7` the hypothesis of `C71_knowledge_error_coalition` is met for all chunks in
range. -/
theorem C71_honest_fraction (hp : d.size < E.fr.p) (m : ℕ → ℕ) (hm : ∀ i < n.toNat, m i < 2 ^ b.toNat)
    (r : E.Fr) :
    ∃ S : Strategy E.Fr,
      (∀ (R : RngCore E) (fuel : ℕ) (st : R.σ) (parties : List (Party E)) pk keys shares ek,
        parties ≠ [] → setupForDkg T R fuel st b gens parties = .ok (pk, keys, shares, ek) →
        S.cipher (dkgPublic1 gens pk keys shares ek) =
          cipher ek (fun i => pk.pk.vk.gamma_abc_g1.tail.getD i 0) m r) ∧
      ∀ others1 others2 : List (Party E), E.fr.p ^ (6 + 2 * n.toNat) ≤
        {g : Fin (6 + 2 * n.toNat) → E.Fr | DkgAccepts T b gens others1 others2 S (tapeOf g)}.ncard +
          (d.size + 2) * E.fr.p ^ (5 + 2 * n.toNat) := by
  classical
  obtain ⟨S, hS⟩ := C71_honest_strategy T b n hn hbm gens d hd m hm r
  refine ⟨S, fun R fuel st parties pk keys shares ek hne h => (hS R fuel st parties pk keys shares ek hne h).1,
    fun others1 others2 => ?_⟩
  obtain ⟨c0, cs, hc0, hcs, hI, hC, -⟩ := setup_shape hn hbm
  let A : Finset (Fin (6 + 2 * n.toNat) → E.Fr) :=
    Finset.univ.filter fun g => DkgAccepts T b gens others1 others2 S (tapeOf g)
  let B : Finset (Fin (6 + 2 * n.toNat) → E.Fr) :=
    Finset.univ.filter fun g => d.vanishing (tapeOf g 4) * (tapeOf g 2 * tapeOf g 3) = 0
  have hAcard : {g : Fin (6 + 2 * n.toNat) → E.Fr | DkgAccepts T b gens others1 others2 S (tapeOf g)}.ncard =
      A.card := by
    rw [Set.ncard_eq_toFinset_card']
    congr 1
    ext g
    simp [A]
  rw [hAcard]
  have hcov : (Finset.univ : Finset (Fin (6 + 2 * n.toNat) → E.Fr)) ⊆ A ∪ B := by
    intro g _
    by_cases hg : d.vanishing (tapeOf g 4) * (tapeOf g 2 * tapeOf g 3) = 0
    · exact Finset.mem_union_right _ (Finset.mem_filter.mpr ⟨Finset.mem_univ _, hg⟩)
    · refine Finset.mem_union_left _ (Finset.mem_filter.mpr ⟨Finset.mem_univ _, ?_⟩)
      have h1 := left_ne_zero_of_mul hg
      have h2 := left_ne_zero_of_mul (right_ne_zero_of_mul hg)
      have h3 := right_ne_zero_of_mul (right_ne_zero_of_mul hg)
      have hgs := gs_of_srs cs d (tapeOf g 4) (tapeOf g 0) (tapeOf g 1) (tapeOf g 2) (tapeOf g 3) gens.G gens.H
        n.toNat hI
      have hk := dkgTranscript_eq (others1 ++ ⟨tape E, fun i => tapeOf g (5 + i)⟩ :: others2) (by simp) gens _
        (srsKey cs d (tapeOf g 4) (tapeOf g 0) (tapeOf g 1) (tapeOf g 2) (tapeOf g 3) gens.G gens.H).pk.delta_g1
        (srsKey cs d (tapeOf g 4) (tapeOf g 0) (tapeOf g 1) (tapeOf g 2) (tapeOf g 3) gens.G gens.H).gamma_g1 hn
        (show n.toNat ≤ (tab n.toNat fun i => (mixAt cs (d.lagrange (tapeOf g 4)) (tapeOf g 0) (tapeOf g 1)
          (.inst (i + 1)) * (tapeOf g 2)⁻¹) • gens.G).length by simp)
      have hrun := dkg_run T b n hn hbm c0 hc0 cs hcs gens d hd (tapeOf g) h2 h3 h1 _ rfl _ hgs _ _ _ _ hk
      exact ⟨_, _, _, _, hrun, (hS _ _ _ _ _ _ _ _ (by simp) hrun).2⟩
  have hB : B.card ≤ (d.size + 2) * E.fr.p ^ (6 + 2 * n.toNat - 1) := by
    have hcard : Fintype.card E.Fr = E.fr.p := ZMod.card _
    have hout : ∃ tau : E.Fr, d.vanishing tau ≠ 0 := by
      have h := Agm.card_outside d
      have : 0 < (Finset.univ.filter fun t : E.Fr => d.vanishing t ≠ 0).card := by omega
      obtain ⟨t, ht⟩ := Finset.card_pos.mp this
      exact ⟨t, (Finset.mem_filter.mp ht).2⟩
    obtain ⟨tau, htau⟩ := hout
    have hv : Agm.PolyOn (fun _ : Fin (6 + 2 * n.toNat) → E.Fr => True) d.size
        (fun g => d.vanishing (tapeOf g 4)) := by
      refine ((((tapeOf_poly _ 4).pow d.size).mono (by omega)).sub (Agm.PolyOn.const _ 1)).congr
        fun g _ => ?_
      rfl
    refine ((hv.mul ((tapeOf_poly _ 2).mul (tapeOf_poly _ 3) (le_refl _)) (le_refl _)).count
      (fun i => if i.val = 4 then tau else 1) trivial ?_ B
      (fun g hg => ⟨trivial, (Finset.mem_filter.mp hg).2⟩)).trans
      (le_of_eq (congrArg (fun q => (d.size + 2) * q ^ (6 + 2 * n.toNat - 1)) hcard))
    have e : ∀ j < 6, tapeOf (fun i : Fin (6 + 2 * n.toNat) => if i.val = 4 then tau else (1 : E.Fr)) j =
        if j = 4 then tau else 1 := by
      intro j hj
      unfold tapeOf
      rw [dif_pos (by omega)]
    rw [e 4 (by omega), e 2 (by omega), e 3 (by omega), if_pos rfl, if_neg (by omega), if_neg (by omega),
      mul_one, mul_one]
    exact htau
  have hun : (Finset.univ : Finset (Fin (6 + 2 * n.toNat) → E.Fr)).card = E.fr.p ^ (6 + 2 * n.toNat) := by
    rw [Finset.card_univ, Fintype.card_fun, Fintype.card_fin]
    congr 1
    exact ZMod.card _
  rw [← hun, show 5 + 2 * n.toNat = 6 + 2 * n.toNat - 1 by omega]
  exact (Finset.card_le_card hcov).trans ((Finset.card_union_le _ _).trans (Nat.add_le_add_left hB _))

end

/-- The hypotheses of `C71_knowledge_sound_coalition` are met: chunks `1, .., 8` of 8 bits, three parties. -/
example : ∃ (S : Strategy Fix.E.Fr) (m : ℕ → ℕ) (r : Fix.E.Fr), (∀ i < (8 : UInt8).toNat, m i < 2 ^ (8 : UInt8).toNat) ∧
    ∀ (R : RngCore Fix.E) (fuel : ℕ) (st : R.σ) (P : Party Fix.E) pk keys shares ek,
      setupForDkg goldFft R fuel st 8 Fix.gens ([⟨listRng Fix.E, Fix.st⟩] ++ P :: [⟨listRng Fix.E, Fix.st1⟩]) =
        .ok (pk, keys, shares, ek) →
      S.cipher (dkgPublic1 Fix.gens pk keys shares ek) =
          cipher ek (fun i => pk.pk.vk.gamma_abc_g1.tail.getD i 0) m r ∧
      S.cipher (dkgPublic1 Fix.gens pk keys shares ek) =
          cipher ek (fun i => pk.pk.vk.gamma_abc_g1.tail.getD i 0) (fun i => i + 1) (5 : Fix.F) := by
  obtain ⟨S, hS⟩ := C71_honest_strategy (E := Fix.E) goldFft 8 8 Fix.count8 Fix.bits8 Fix.gens Fix.dom8
    Fix.dom8_count (fun i => i + 1) (by
      intro i hi
      rw [Fix.eight] at hi ⊢
      omega) (5 : Fix.F)
  obtain ⟨m, r, hm, h⟩ := C71_knowledge_sound_coalition (E := Fix.E) goldFft 8 8 Fix.count8
    Fix.bits8 Fix.gens Fix.gens_ne.1 Fix.gens_ne.2 Fix.dom8 Fix.dom8_count [⟨listRng Fix.E, Fix.st⟩]
    [⟨listRng Fix.E, Fix.st1⟩] S Fix.dom8_small
    (fun f pk keys shares ek hset => (hS _ _ _ _ _ _ _ _ (by simp) hset).2)
  exact ⟨S, m, r, fun i hi => (hm i hi).1, fun R fuel st P pk keys shares ek hset =>
    ⟨h R fuel st P pk keys shares ek hset, (hS R fuel st _ pk keys shares ek (by simp) hset).1⟩⟩

/-- And so is that of `C71_knowledge_error_coalition`. -/
example : ∃ S : Strategy Fix.E.Fr, (3 * Fix.dom8.size + 5) * Fix.E.fr.p ^ (5 + 2 * (8 : UInt8).toNat) <
    {g : Fin (6 + 2 * (8 : UInt8).toNat) → Fix.E.Fr | DkgAccepts goldFft 8 Fix.gens [⟨listRng Fix.E, Fix.st⟩]
      [⟨listRng Fix.E, Fix.st1⟩] S (tapeOf g)}.ncard := by
  have hsz := Fix.dom8_small
  have hbig : 4 * Fix.dom8.size + 8 ≤ Fix.E.fr.p := by
    rw [show Fix.dom8.size = 2 ^ 10 from rfl]
    exact (by decide : 4 * 2 ^ 10 + 8 ≤ goldR)
  obtain ⟨S, -, h⟩ := C71_honest_fraction (E := Fix.E) goldFft 8 8 Fix.count8 Fix.bits8 Fix.gens
    Fix.dom8 Fix.dom8_count (by omega) (fun i => i + 1) (by
      intro i hi
      rw [Fix.eight] at hi ⊢
      omega) (5 : Fix.F)
  have h := h [⟨listRng Fix.E, Fix.st⟩] [⟨listRng Fix.E, Fix.st1⟩]
  refine ⟨S, ?_⟩
  generalize {g : Fin (6 + 2 * (8 : UInt8).toNat) → Fix.E.Fr | DkgAccepts goldFft 8 Fix.gens
    [⟨listRng Fix.E, Fix.st⟩] [⟨listRng Fix.E, Fix.st1⟩] S (tapeOf g)}.ncard = c at h ⊢
  rw [show 6 + 2 * (8 : UInt8).toNat = (5 + 2 * (8 : UInt8).toNat) + 1 from rfl, pow_succ] at h
  have hpos : 0 < Fix.E.fr.p ^ (5 + 2 * (8 : UInt8).toNat) := Nat.pow_pos (by omega)
  generalize Fix.E.fr.p ^ (5 + 2 * (8 : UInt8).toNat) = q at h hpos ⊢
  have h2 := Nat.mul_le_mul_left q hbig
  nlinarith

end Verif
