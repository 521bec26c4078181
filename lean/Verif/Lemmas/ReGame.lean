/-
Helper lemmas for C94: the game with re-encryption requests under a distributed key, turned into questions about a
single key.
-/
import Verif.SpecReGame
import Verif.Props.MalleableDkg
import Verif.Props.ChosenCiphertext
import Verif.Props.Rerandomise

namespace Verif
open Spec Agm

section
variable {E : Engine}

section
variable (T : FftCfg E.Fr) (b n : UInt8) (hb : Supported b) (hn : chunksCount E.fr b = .ok n)
    (hbm : b.toNat ≤ E.fr.modBits)
    (hal : 64 * E.fr.limbs < E.fr.modBits + b.toNat ∧ chunksNeeded E.fr b.toNat ≤ 255)
    (gens : EncryptionGens E) (hG : gens.G ≠ 0) (hH : gens.H ≠ 0) (d : EvalDomain E.Fr)
    (hd : T.newDomain (n.toNat * constraintsPerValue E.fr.modBits b.toNat + (n.toNat + 1)) = some d)

namespace ReGame
open Sec SDkg NmDkg

include hb hn hbm hal hG hH hd in
/-- What becomes of a submitted ciphertext: it is rejected on all but a few draws, or always accepted and then always the
encryption of fixed chunks with fixed randomness, or always the re-randomisation of a fixed user's ciphertext. -/
theorem verdict (chk : Bool) (K q : ℕ) (hK : 7 + 3 * n.toNat + 3 * q ≤ K) (S : Strategy E.Fr) :
    (∀ ms : List E.Fr, ms.length = q → ∃ Bad : Finset (Fin K → E.Fr),
      Bad.card ≤ (3 * d.size + 6) * E.fr.p ^ (K - 1) ∧
      ∀ g, g ∉ Bad → ∀ pk sk ek dk f' l f'',
        setupForGroth16 T (tape E) 1 (tapeOf g) b gens = .ok ((pk, sk, ek, dk), f') →
        encryptAll T chk (tape E) ek pk b ms f' = .ok (l, f'') →
        ¬ Accepted gens pk ek (S.cipher (view1 gens pk ek l))
          (S.proof (view1 gens pk ek l) (view2 gens pk ek dk l))) ∨
    ((∀ (ms : List E.Fr), ms.length = q → ∀ (f : ℕ → E.Fr) pk sk ek dk f' l f'',
        setupForGroth16 T (tape E) 1 f b gens = .ok ((pk, sk, ek, dk), f') →
        encryptAll T chk (tape E) ek pk b ms f' = .ok (l, f'') →
        Accepted gens pk ek (S.cipher (view1 gens pk ek l))
          (S.proof (view1 gens pk ek l) (view2 gens pk ek dk l))) ∧
      ((∃ (m : ℕ → ℕ) (r : E.Fr), (∀ i < n.toNat, m i < 2 ^ b.toNat ∧ m i < E.fr.p) ∧
        ∀ (ms : List E.Fr), ms.length = q → ∀ (f : ℕ → E.Fr) pk sk ek dk f' l f'',
          setupForGroth16 T (tape E) 1 f b gens = .ok ((pk, sk, ek, dk), f') →
          encryptAll T chk (tape E) ek pk b ms f' = .ok (l, f'') →
          Encrypts pk ek m r (S.cipher (view1 gens pk ek l))) ∨
      ∃ (j : ℕ) (u : E.Fr), j < q ∧
        ∀ (ms : List E.Fr), ms.length = q → ∀ (f : ℕ → E.Fr) pk sk ek dk f' l f'',
          setupForGroth16 T (tape E) 1 f b gens = .ok ((pk, sk, ek, dk), f') →
          encryptAll T chk (tape E) ek pk b ms f' = .ok (l, f'') →
          ∃ ct proof, l[j]? = some (ct, proof) ∧ S.cipher (view1 gens pk ek l) = rerandomise ek u ct)) := by
  classical
  by_cases hp : 3 * d.size < E.fr.p
  swap
  · refine Or.inl fun ms _ => ⟨Finset.univ, ?_, fun g hg => absurd (Finset.mem_univ g) hg⟩
    rw [Finset.card_univ, Fintype.card_fun, Fintype.card_fin, show Fintype.card E.Fr = E.fr.p from ZMod.card _]
    obtain ⟨k, rfl⟩ : ∃ k, K = k + 1 := ⟨K - 1, by omega⟩
    rw [Nat.add_sub_cancel, pow_succ, mul_comm]
    exact Nat.mul_le_mul_right _ (by omega)
  obtain ⟨c0, cs, hc0, hcs, hI, hC, -⟩ := setup_shape hn hbm
  have h2 := Cca.two_ne (E := E) b hb hbm
  choose mc cs1 hex hshown using Nm.run_shown T b n hb hn hbm hal gens hH d hd c0 hc0 cs hcs hI hC
  obtain ⟨q1, q2, hq⟩ := Nm.accept_questions cs d n.toNat gens hI n.toNat_lt S q
  let Y : Question E → Prop := fun Q => ∀ P, Nm.Good d P → ∀ r a b',
    Q.Yes (Nm.at1 cs d n.toNat gens P q (mc (List.replicate q 0)) r a b')
      (Nm.at2 cs d n.toNat gens P q (mc (List.replicate q 0)) r a b')
  by_cases hy : S.len = n.toNat ∧ Y q1 ∧ Y q2
  · have hacc : ∀ (ms : List E.Fr), ms.length = q → ∀ (f : ℕ → E.Fr) pk sk ek dk f' l f'',
        setupForGroth16 T (tape E) 1 f b gens = .ok ((pk, sk, ek, dk), f') →
        encryptAll T chk (tape E) ek pk b ms f' = .ok (l, f'') →
        (S.cipher (view1 gens pk ek l)).verifyCommitmentAndProof
          (S.proof (view1 gens pk ek l) (view2 gens pk ek dk l)) (prepareVerifyingKey pk.pk.vk)
          ek.prepare gens.prepare = .ok () := by
      intro ms hms f pk sk ek dk f' l f'' hset hl
      obtain ⟨hgood, hpk, hek, e1, e2⟩ := hshown ms chk _ _ _ _ _ _ _ _ hset hl
      rw [e1, e2, hpk, hek, hms]
      exact (hq _ _ _ _ _).mpr ⟨hy.1, Nm.transfer cs d n.toNat gens hG h2 q1 q _ _ hy.2.1 _ hgood _ _ _,
        Nm.transfer cs d n.toNat gens hG h2 q2 q _ _ hy.2.2 _ hgood _ _ _⟩
    refine Or.inr ⟨hacc, ?_⟩
    rcases C81_unrelated T b n hb hn hbm hal gens hG hH d hd hp chk q S hacc with ⟨m, r, hm, h⟩ | ⟨j, u, hj, h⟩
    · exact Or.inl ⟨m, r, hm, fun ms hms f pk sk ek dk f' l f'' hset hl =>
        h (tape E) 1 f f' pk sk ek dk hset ms hms chk (tape E) f' f'' l hl⟩
    · exact Or.inr ⟨j, u, hj, fun ms hms f pk sk ek dk f' l f'' hset hl =>
        h (tape E) 1 f f' pk sk ek dk hset ms hms chk (tape E) f' f'' l hl⟩
  · refine Or.inl fun ms hms => ?_
    have hrej : ∀ (g : Fin K → E.Fr) pk sk ek dk f' l f'',
        setupForGroth16 T (tape E) 1 (tapeOf g) b gens = .ok ((pk, sk, ek, dk), f') →
        encryptAll T chk (tape E) ek pk b ms f' = .ok (l, f'') →
        Accepted gens pk ek (S.cipher (view1 gens pk ek l))
          (S.proof (view1 gens pk ek l) (view2 gens pk ek dk l)) →
        S.len = n.toNat ∧ (Nm.GoodDraw d K g ∧ q1.Yes (Nm.draw1 cs d n.toNat gens q (mc ms) (cs1 ms) g)
          (Nm.draw2 cs d n.toNat gens q (mc ms) (cs1 ms) g)) ∧ Nm.GoodDraw d K g ∧
          q2.Yes (Nm.draw1 cs d n.toNat gens q (mc ms) (cs1 ms) g) (Nm.draw2 cs d n.toNat gens q (mc ms) (cs1 ms) g) := by
      intro g pk sk ek dk f' l f'' hset hl this
      obtain ⟨hgood, hpk, hek, e1, e2⟩ := hshown ms chk _ _ _ _ _ _ _ _ hset hl
      rw [e1, e2, hpk, hek, hms] at this
      obtain ⟨h1, h3, h4⟩ := (hq _ _ _ _ _).mp this
      exact ⟨h1, ⟨hgood, h3⟩, hgood, h4⟩
    have hfew : ∀ Q : Question E, ¬ Y Q → (Finset.univ.filter fun g => Nm.GoodDraw d K g ∧
        Q.Yes (Nm.draw1 cs d n.toNat gens q (mc ms) (cs1 ms) g)
          (Nm.draw2 cs d n.toNat gens q (mc ms) (cs1 ms) g)).card ≤ (3 * d.size + 6) * E.fr.p ^ (K - 1) := by
      intro Q hY
      have := (Adapt.dichotomy (Nm.views cs d n.toNat gens hI q (mc ms) (cs1 ms) K) hG hH Q).resolve_left fun hall =>
        hY (Nm.transfer cs d n.toNat gens hG h2 Q q _ _ ((Nm.all_draws cs d n.toNat gens q (mc ms) (cs1 ms) K hK
          (fun v1 v2 => Q.Yes v1 v2)).mp hall))
      have h := this (Finset.univ.filter fun g => Nm.GoodDraw d K g ∧
        Q.Yes (Nm.draw1 cs d n.toNat gens q (mc ms) (cs1 ms) g) (Nm.draw2 cs d n.toNat gens q (mc ms) (cs1 ms) g))
        fun g hg => (Finset.mem_filter.mp hg).2
      rwa [show 2 * d.size + 4 + (d.size + 2) = 3 * d.size + 6 by omega] at h
    by_cases hlen : S.len = n.toNat
    · by_cases hy1 : Y q1
      · refine ⟨_, hfew q2 fun hy2 => hy ⟨hlen, hy1, hy2⟩, fun g hg pk sk ek dk f' l f'' hset hl hne => ?_⟩
        exact hg (Finset.mem_filter.mpr ⟨Finset.mem_univ _, (hrej g pk sk ek dk f' l f'' hset hl hne).2.2⟩)
      · refine ⟨_, hfew q1 hy1, fun g hg pk sk ek dk f' l f'' hset hl hne => ?_⟩
        exact hg (Finset.mem_filter.mpr ⟨Finset.mem_univ _, (hrej g pk sk ek dk f' l f'' hset hl hne).2.1⟩)
    · refine ⟨∅, by simp, fun g hg pk sk ek dk f' l f'' hset hl hne => ?_⟩
      exact hlen (hrej g pk sk ek dk f' l f'' hset hl hne).1

/-! ### The distributed run and the run with a single key -/

/-- a run of distributed key generation on the tape `f`, the run of a single setup with the same joint key, and their
scalars -/
structure Link (o1 o2 : List (Party E)) {pk0 : ProvingKey E} (f z : ℕ → E.Fr) (pk : ProvingKey E)
    (keys : List (FEncryptionKeyPartial E)) (shares : List (P1share E)) (ek : EncryptionKey E) (sk : SecretKeyST E)
    (ω : Env pk0) (sk1 : SecretKey E) (dk : DecryptionKey E) : Prop where
  set : setupForGroth16 T (tape E) 1 (merge2 n.toNat (othersS o1 o2) (othersT n.toNat o1 o2) f z) b gens =
    .ok ((pk, sk1, ek, dk), fun i => f (6 + 2 * ek.X.length + i))
  l1 : L1 gens n.toNat ω = public1 gens pk ek
  l2 : L2 gens n.toNat ω = public2 gens pk ek dk
  d1 : D1 gens n.toNat o1 o2 (sh n.toNat o1 o2 ω) = dkgPublic1 gens pk keys shares ek
  d2 : D2 gens n.toNat o1 o2 (sh n.toNat o1 o2 ω) = dkgPublic2 gens pk keys ek
  pk_eq : ω.pk = pk
  x0 : ek.X_0 = pk.pk.delta_g1
  x0_ne : ek.X_0 ≠ 0
  s : ∀ i < n.toNat, ω.s i = f (5 + i) + othersS o1 o2 i
  sks : sk.s = tab n.toNat fun i => f (5 + i)
  X : ∀ i < n.toNat, ek.X.getD i 0 = (f (5 + i) + othersS o1 o2 i) • ek.X_0

include hn hbm hG hd in
theorem link_of_run (o1 o2 : List (Party E)) (c0 : BitsizeCheckCircuit E.fr)
    (hc0 : BitsizeCheckCircuit.new (K := E.fr) b none none true = .ok c0) (cs : CS E.Fr)
    (hcs : c0.generateConstraints (CS.new true) = .ok cs) (hI : cs.numInst = n.toNat + 1)
    (hC : cs.cons.length = n.toNat * constraintsPerValue E.fr.modBits b.toNat)
    (f z : ℕ → E.Fr) (pk keys shares ek)
    (hset : setupForDkg T (tape E) 1 f b gens (o1 ++ ⟨tape E, fun i => f (5 + i)⟩ :: o2) = .ok (pk, keys, shares, ek)) :
    ∃ sk, partySecret b gens pk (fun i => f (5 + i)) = .ok sk ∧
      ∃ (ω : Env (srsKey cs d 0 0 0 0 0 gens.G gens.H)) (sk1 : SecretKey E) (dk : DecryptionKey E),
        Link T b n gens o1 o2 f z pk keys shares ek sk ω sk1 dk := by
  have hgood : d.vanishing (f 4) ≠ 0 ∧ f 2 ≠ 0 ∧ f 3 ≠ 0 := by
    have h := hset
    unfold setupForDkg at h
    rw [hc0, Res.ok_bind] at h
    obtain ⟨⟨pk', st2⟩, hsrs, -⟩ := Res.bind_eq_ok.mp h
    obtain ⟨cs', d', hcs', hd', h1, h2, h3⟩ := setup_tape_good hsrs
    rw [hcs] at hcs'
    cases hcs'
    rw [hC, hI, hd] at hd'
    cases hd'
    exact ⟨h1, h2, h3⟩
  obtain ⟨h4, h2, h3⟩ := hgood
  generalize hm : merge2 n.toNat (othersS o1 o2) (othersT n.toNat o1 o2) f z = F
  have F_lt : ∀ j < 5, F j = f j := fun j hj => by rw [← hm]; exact merge2_lt _ _ _ _ _ hj
  have hsr := setup_run T (tape E) 1 (by omega) F b n hn hbm c0 hc0 cs hcs hI gens d hd
    (by rw [draw_tape, F_lt _ (by omega)]; exact h2) (by rw [draw_tape, F_lt _ (by omega)]; exact h3)
    (by rw [draw_tape, F_lt _ (by omega)]; exact h4)
  simp only [draw_tape] at hsr
  have hg := gs_of_srs cs d (f 4) (f 0) (f 1) (f 2) (f 3) gens.G gens.H n.toNat hI
  rw [F_lt 4 (by omega), F_lt 0 (by omega), F_lt 1 (by omega), F_lt 2 (by omega), F_lt 3 (by omega)] at hsr
  have hsame : Same (srsKey cs d 0 0 0 0 0 gens.G gens.H)
      (srsKey cs d (f 4) (f 0) (f 1) (f 2) (f 3) gens.G gens.H) := by
    simp [Same, srsKey]
  generalize hgi0 : (tab n.toNat fun i => (mixAt cs (d.lagrange (f 4)) (f 0) (f 1) (.inst (i + 1)) * (f 2)⁻¹) • gens.G)
    = g_i at hsr hg
  have hgi : ∀ i, g_i.getD i 0 = gs (srsKey cs d (f 4) (f 0) (f 1) (f 2) (f 3) gens.G gens.H) i :=
    fun i => (getGs_inv hg).2 i
  have hgl : n.toNat ≤ g_i.length := by rw [← hgi0]; simp
  obtain ⟨keys1, shares1, ek1, hk, hek, hl1, hl2⟩ := dkg_lists gens o1 o2 hn _ hsame
    ⟨tape E, fun i => f (5 + i)⟩ (fun i => F (7 + 2 * n.toNat + i)) (F 5) g_i hgi hgl
  have hdk := dkg_run T b n hn hbm c0 hc0 cs hcs gens d hd f h2 h3 h4 _ rfl _ hg _ keys1 shares1 ek1 hk
  rw [hset] at hdk
  simp only [Res.ok.injEq, Prod.mk.injEq] at hdk
  obtain ⟨hpk, rfl, rfl, rfl⟩ := hdk
  rw [Adapt.partyS_tape, Adapt.partyT_tape] at hek
  have hX : ek.X.length = n.toNat := by rw [hek]; simp [key, encKey]
  have hF' : after (tape E) F (7 + 3 * n.toNat) = fun i => f (6 + 2 * ek.X.length + i) := by
    rw [after_tape, hX, ← hm]
    funext i
    exact merge2_u _ _ _ _ _ i
  have hekc : encKey n.toNat (fun i => F (6 + i)) (fun i => F (6 + n.toNat + i)) (fun i => g_i.getD i 0) (f 3 • gens.G)
      ((-f 2) • gens.G) gens.H = ek := by
    rw [hek, funext hgi]
    refine encKey_congr' _ _ _ _ (fun i hi => ?_) (fun i hi => ?_)
    · rw [← hm]
      exact merge2_s _ _ _ _ _ hi
    · rw [← hm]
      exact merge2_t _ _ _ _ _ hi
  rw [hekc, hF'] at hsr
  rw [← hpk] at hsr
  have hsec : partySecret b gens pk (fun i => f (5 + i)) =
      .ok ⟨tab n.toNat fun i => f (5 + i), tab (n.toNat + 1) fun i => f (5 + (n.toNat + i))⟩ := by
    unfold partySecret
    have hg' := hg
    rw [← hpk] at hg'
    rw [hg', Res.ok_bind]
    have h5 := fkeygenPartial_eq (tape E) (fun i => f (5 + i)) gens g_i pk.pk.delta_g1 pk.gamma_g1 hn hgl
    simp only [draw_tape] at h5
    exact congrArg (· >>= fun x => pure x.1.1) h5
  let ω : Env (srsKey cs d 0 0 0 0 0 gens.G gens.H) := ⟨pk, hpk ▸ hsame,
    fun i => f (5 + i) + othersS o1 o2 i, fun i => f (5 + (n.toNat + i)) + othersT n.toNat o1 o2 i,
    fun i => F (7 + 2 * n.toNat + i), F 5⟩
  have hx0 : ek.X_0 = pk.pk.delta_g1 := by rw [hek, hpk]; rfl
  refine ⟨_, hsec, ω, ⟨F 5⟩, decKey n.toNat (F 5) (fun i => F (6 + i)) (fun i => F (7 + 2 * n.toNat + i)) gens.H, ?_⟩
  refine ⟨?_, ?_, ?_, ?_, ?_, rfl, hx0, ?_, fun i hi => rfl, rfl, ?_⟩
  · rw [hm]
    exact hsr
  · rw [hek, ← hpk]
    rfl
  · rw [hek, ← hpk]
    unfold L2
    congr 1
    unfold decKey
    congr 1
    refine tab_congr fun i hi => ?_
    have hs := merge2_s n.toNat (othersS o1 o2) (othersT n.toNat o1 o2) f z hi
    rw [hm] at hs
    show (ω.s i * F (7 + 2 * n.toNat + i)) • gens.H = (F (6 + i) * F (7 + 2 * n.toNat + i)) • gens.H
    rw [hs]
  · rw [hpk, hl1]
    congr 1
    unfold env
    rw [Adapt.partyS_tape, Adapt.partyT_tape]
    subst hpk
    simp only [sh, ω, add_sub_cancel_right]
  · rw [hpk, hl2]
    congr 1
    unfold env
    rw [Adapt.partyS_tape, Adapt.partyT_tape]
    subst hpk
    simp only [sh, ω, add_sub_cancel_right]
  · rw [hx0, hpk]
    exact smul_ne_zero h3 hG
  · intro i hi
    rw [hek]
    simp only [key, encKey]
    rw [getD_tab, if_pos hi]

end ReGame
end
end
end Verif
