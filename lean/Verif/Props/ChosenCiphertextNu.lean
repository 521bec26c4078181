/-
Property C91: secrecy when the holder of the secret key also hands out `nu`.
-/
import Verif.SpecCcaNu
import Verif.Lemmas.NmNu
import Verif.Props.ChosenCiphertextNeeded

namespace Verif
open Spec Agm

section
variable {E : Engine}

section
variable (T : FftCfg E.Fr) (b n : UInt8) (hb : Supported b) (hn : chunksCount E.fr b = .ok n)
    (hbm : b.toNat ≤ E.fr.modBits)
    (hal : 64 * E.fr.limbs < E.fr.modBits + b.toNat ∧ chunksNeeded E.fr b.toNat ≤ 255)
    (gens : EncryptionGens E) (hG : gens.G ≠ 0) (hH : gens.H ≠ 0) (d : EvalDomain E.Fr)
    (hd : T.newDomain (n.toNat * constraintsPerValue E.fr.modBits b.toNat + (n.toNat + 1)) = some d)
include hb hn hbm hal hH hd

namespace CcaNu

omit hb hal hH in
/-- a run, in terms of its scalars: with the secret key -/
theorem run_nu (c0 : BitsizeCheckCircuit E.fr)
    (hc0 : BitsizeCheckCircuit.new (K := E.fr) b none none true = .ok c0) (cs : CS E.Fr)
    (hcs : c0.generateConstraints (CS.new true) = .ok cs) (hI : cs.numInst = n.toNat + 1)
    (hC : cs.cons.length = n.toNat * constraintsPerValue E.fr.modBits b.toNat)
    (f f' : ℕ → E.Fr) (pk sk ek dk)
    (hset : setupForGroth16 T (tape E) 1 f b gens = .ok ((pk, sk, ek, dk), f')) :
    sk.rho • ek.X_0 = Nm.nuAt cs d gens (Nm.ptTape n.toNat f) := by
  obtain ⟨hv, hga, hde⟩ :=
    (Adapt.setup_views T b n hn hbm c0 hc0 cs hcs hI hC gens d hd f pk sk ek dk f' hset).1
  have hrun := setup_run T (tape E) 1 (by omega) f b n hn hbm c0 hc0 cs hcs hI gens d hd
    (by rw [draw_tape]; exact hga) (by rw [draw_tape]; exact hde) (by rw [draw_tape]; exact hv)
  simp only [draw_tape] at hrun
  rw [hset] at hrun
  cases hrun
  rfl

omit hH hd in
/-- a re-randomised honest ciphertext decrypts to the honest message -/
theorem decrypt_rerandomised (chk : Bool) (f f' f'' : ℕ → E.Fr) (pk sk ek dk) (ms : List E.Fr) (l)
    (hset : setupForGroth16 T (tape E) 1 f b gens = .ok ((pk, sk, ek, dk), f'))
    (hl : encryptAll T chk (tape E) ek pk b ms f' = .ok (l, f'')) (hnd : Cca.NonDeg pk dk)
    (j : ℕ) (ct : Ciphertext E) (proof : Proof E) (hj : l[j]? = some (ct, proof)) (u : E.Fr) :
    ∃ m, ms[j]? = some m ∧ (rerandomise ek u ct).decryptGivenGroth16Vk chk sk dk.prepare pk.pk.vk b =
      .ok (m, sk.rho • (rerandomise ek u ct).X_r) := by
  obtain ⟨g_i, st3, hg, hkg⟩ := Nm.setup_keygen hset
  obtain ⟨c0, cs, hc0, -⟩ := setup_shape (E := E) hn hbm
  obtain ⟨g_i', st4, hsrs, hg', hk⟩ := Nm.setup_parts hc0 hset
  rw [hg] at hg'
  cases hg'
  obtain ⟨-, h3⟩ := Nm.encryptAll_facts T (tape E) 1 f st4 b hb hal c0 gens pk hc0 hsrs g_i hg ek hk chk (tape E) ms f'
    f'' l hl
  obtain ⟨m, st5, r, hmj, henc, -⟩ := h3 j _ hj
  obtain ⟨ct', r', st6, henc', hdec, -⟩ := C18_decrypt_encrypt (tape E) st3 f' b gens g_i _ _ sk ek dk hkg hb hal
    (by rw [Cca.gs_tail hg]; exact hnd.1) hnd.2 (tape E) st5 m
  rw [henc] at henc'
  simp only [Res.ok.injEq, Prod.mk.injEq] at henc'
  obtain ⟨⟨rfl, rfl⟩, -⟩ := henc'
  have hd1 := hdec chk
  unfold Ciphertext.decrypt decrypt at hd1
  obtain ⟨⟨chunks, nu⟩, hd2, hd3⟩ := Res.bind_eq_ok.mp hd1
  dsimp only at hd2 hd3
  obtain ⟨m', hd4, hd5⟩ := Res.bind_eq_ok.mp hd3
  simp only [Res.pure_eq, Res.ok.injEq, Prod.mk.injEq] at hd5
  obtain ⟨rfl, hnu⟩ := hd5
  refine ⟨m', hmj, ?_⟩
  have hall : (rerandomise ek u ct).decryptGivenGroth16Vk chk sk dk.prepare pk.pk.vk b =
      .ok (m', nu + (sk.rho * u) • ek.X_0) := by
    unfold Ciphertext.decryptGivenGroth16Vk Ciphertext.decrypt decrypt
    rw [hg, Res.ok_bind, C77_same_plaintext (tape E) st3 f' b gens g_i _ _ sk ek dk hkg
      (by rcases hb with rfl | rfl | rfl <;> decide) chk ct u, hd2]
    simp only [Res.ok_bind]
    rw [hd4]
    rfl
  rw [hall]
  unfold Ciphertext.decryptGivenGroth16Vk Ciphertext.decrypt at hall
  rw [hg, Res.ok_bind] at hall
  rw [(C19_nu_message chk _ _ sk dk.prepare g_i b [] _ _).1 hall]

include hG in
/-- A question about the view and known multiples of `nu` has the same answer on all but a few draws, whatever the
honest messages are. -/
theorem answer (K q : ℕ) (hK : 7 + 3 * n.toNat + 3 * q ≤ K) (us : List E.Fr) (Q : Question E) :
    ∃ y : Prop, ∀ ms : List E.Fr, ms.length = q → ∃ Bad : Finset (Fin K → E.Fr),
      Bad.card ≤ (3 * d.size + 6) * E.fr.p ^ (K - 1) ∧
      ∀ g, g ∉ Bad → ∀ chk pk sk ek dk f' l f'',
        setupForGroth16 T (tape E) 1 (tapeOf g) b gens = .ok ((pk, sk, ek, dk), f') →
        encryptAll T chk (tape E) ek pk b ms f' = .ok (l, f'') →
        (Q.Yes (view1 gens pk ek l ++ us.map fun u => u • (sk.rho • ek.X_0)) (view2 gens pk ek dk l) ↔ y) := by
  classical
  obtain ⟨c0, cs, hc0, hcs, hI, hC, -⟩ := setup_shape hn hbm
  have h2 := Cca.two_ne (E := E) b hb hbm
  choose mc cs1 hex hshown using Nm.run_shown T b n hb hn hbm hal gens hH d hd c0 hc0 cs hcs hI hC
  obtain ⟨Q', hQ'⟩ := Nm.pullQ cs d n.toNat gens q us Q
  have hrun : ∀ ms : List E.Fr, ms.length = q → ∀ (g : Fin K → E.Fr) chk pk sk ek dk f' l f'',
      setupForGroth16 T (tape E) 1 (tapeOf g) b gens = .ok ((pk, sk, ek, dk), f') →
      encryptAll T chk (tape E) ek pk b ms f' = .ok (l, f'') → Nm.GoodDraw d K g ∧
      (Q.Yes (view1 gens pk ek l ++ us.map fun u => u • (sk.rho • ek.X_0)) (view2 gens pk ek dk l) ↔
        Q'.Yes (Nm.draw1X cs d n.toNat gens q (mc ms) (cs1 ms) g)
          (Nm.draw2 cs d n.toNat gens q (mc ms) (cs1 ms) g)) := by
    intro ms hms g chk pk sk ek dk f' l f'' hset hl
    obtain ⟨hgood, -, -, e1, e2⟩ := hshown ms chk _ _ _ _ _ _ _ _ hset hl
    refine ⟨hgood, ?_⟩
    rw [run_nu T b n hn hbm gens d hd c0 hc0 cs hcs hI hC _ _ _ _ _ _ hset, e1, e2, hms]
    exact (hQ' _ _ _ _ _).symm
  refine ⟨∀ P, Nm.Good d P → ∀ r a b', Q'.Yes (Nm.at1X cs d n.toNat gens P q (mc (List.replicate q 0)) r a b')
      (Nm.at2 cs d n.toNat gens P q (mc (List.replicate q 0)) r a b'), fun ms hms => ?_⟩
  by_cases hy : ∀ P, Nm.Good d P → ∀ r a b', Q'.Yes (Nm.at1X cs d n.toNat gens P q (mc (List.replicate q 0)) r a b')
      (Nm.at2 cs d n.toNat gens P q (mc (List.replicate q 0)) r a b')
  · refine ⟨∅, by simp, fun g _ chk pk sk ek dk f' l f'' hset hl => ?_⟩
    obtain ⟨hgood, hiff⟩ := hrun ms hms g chk pk sk ek dk f' l f'' hset hl
    exact iff_of_true (hiff.mpr (Nm.transferX cs d n.toNat gens hG h2 Q' q _ _ hy
      (Nm.ptTape n.toNat (tapeOf g)) hgood _ _ _)) hy
  · refine ⟨Finset.univ.filter fun g => Nm.GoodDraw d K g ∧ Q'.Yes (Nm.draw1X cs d n.toNat gens q (mc ms) (cs1 ms) g)
      (Nm.draw2 cs d n.toNat gens q (mc ms) (cs1 ms) g), ?_, fun g hg chk pk sk ek dk f' l f'' hset hl => ?_⟩
    · have := (Adapt.dichotomy (Nm.viewsX cs d n.toNat gens hI q (mc ms) (cs1 ms) K) hG hH Q').resolve_left fun hall =>
        hy (Nm.transferX cs d n.toNat gens hG h2 Q' q _ _ ((Nm.all_drawsX cs d n.toNat gens q (mc ms) (cs1 ms) K hK
          (fun v1 v2 => Q'.Yes v1 v2)).mp hall))
      have h := this (Finset.univ.filter fun g => Nm.GoodDraw d K g ∧
        Q'.Yes (Nm.draw1X cs d n.toNat gens q (mc ms) (cs1 ms) g) (Nm.draw2 cs d n.toNat gens q (mc ms) (cs1 ms) g))
        fun g hg => (Finset.mem_filter.mp hg).2
      rwa [show 2 * d.size + 4 + (d.size + 2) = 3 * d.size + 6 by omega] at h
    · obtain ⟨hgood, hiff⟩ := hrun ms hms g chk pk sk ek dk f' l f'' hset hl
      exact iff_of_false (fun hq => hg (Finset.mem_filter.mpr ⟨Finset.mem_univ _, hgood, hiff.mp hq⟩)) hy

include hG in
/-- The reply to a submitted ciphertext is the same on all but a few draws, whatever the honest messages are, and the
element handed out is a known multiple of `nu`. -/
theorem reply (chk : Bool) (K q : ℕ) (hK : 7 + 3 * n.toNat + 3 * q ≤ K) (us : List E.Fr) (S0 : Strategy E.Fr)
    (M : List E.Fr) :
    ∃ (rep : Reply E.Fr) (vs : List E.Fr), ∀ ms : List E.Fr, ms.length = q → (∀ m ∈ ms, m ∈ M) →
      ∃ Bad : Finset (Fin K → E.Fr), Bad.card ≤ (3 * d.size + 6) * E.fr.p ^ (K - 1) ∧
      ∀ g, g ∉ Bad → ∀ pk sk ek dk f' l f'',
        setupForGroth16 T (tape E) 1 (tapeOf g) b gens = .ok ((pk, sk, ek, dk), f') →
        encryptAll T chk (tape E) ek pk b ms f' = .ok (l, f'') → Cca.NonDeg pk dk →
        openWithNu true chk b gens pk sk ek dk M
          (S0.cipher (view1 gens pk ek l ++ us.map fun u => u • (sk.rho • ek.X_0)))
          (S0.proof (view1 gens pk ek l ++ us.map fun u => u • (sk.rho • ek.X_0)) (view2 gens pk ek dk l)) =
        (rep, vs.map fun u => u • (sk.rho • ek.X_0)) := by
  classical
  by_cases hp : 3 * d.size < E.fr.p
  swap
  · refine ⟨.rejected, [], fun ms _ _ => ⟨Finset.univ, ?_, fun g hg => absurd (Finset.mem_univ g) hg⟩⟩
    rw [Finset.card_univ, Fintype.card_fun, Fintype.card_fin, show Fintype.card E.Fr = E.fr.p from ZMod.card _]
    obtain ⟨k, rfl⟩ : ∃ k, K = k + 1 := ⟨K - 1, by omega⟩
    rw [Nat.add_sub_cancel, pow_succ, mul_comm]
    exact Nat.mul_le_mul_right _ (by omega)
  obtain ⟨c0, cs, hc0, hcs, hI, hC, -⟩ := setup_shape hn hbm
  have h2 := Cca.two_ne (E := E) b hb hbm
  choose mc cs1 hex hshown using Nm.run_shown T b n hb hn hbm hal gens hH d hd c0 hc0 cs hcs hI hC
  obtain ⟨S, hS⟩ := Nm.pullS cs d n.toNat gens q us S0
  obtain ⟨q1, q2, hq⟩ := Nm.accept_questionsX cs d n.toNat gens hI n.toNat_lt S q
  have hrun : ∀ ms : List E.Fr, ms.length = q → ∀ (f : ℕ → E.Fr) pk sk ek dk f' l f'',
      setupForGroth16 T (tape E) 1 f b gens = .ok ((pk, sk, ek, dk), f') →
      encryptAll T chk (tape E) ek pk b ms f' = .ok (l, f'') → Nm.Good d (Nm.ptTape n.toNat f) ∧
      S0.cipher (view1 gens pk ek l ++ us.map fun u => u • (sk.rho • ek.X_0)) =
        S.cipher (Nm.at1X cs d n.toNat gens (Nm.ptTape n.toNat f) q (mc ms) (Nm.rOf n.toNat f)
          (Nm.aOf d n.toNat (cs1 ms) f) (Nm.bOf d n.toNat (cs1 ms) f)) ∧
      S0.proof (view1 gens pk ek l ++ us.map fun u => u • (sk.rho • ek.X_0)) (view2 gens pk ek dk l) =
        S.proof (Nm.at1X cs d n.toNat gens (Nm.ptTape n.toNat f) q (mc ms) (Nm.rOf n.toNat f)
          (Nm.aOf d n.toNat (cs1 ms) f) (Nm.bOf d n.toNat (cs1 ms) f))
          (Nm.at2 cs d n.toNat gens (Nm.ptTape n.toNat f) q (mc ms) (Nm.rOf n.toNat f)
          (Nm.aOf d n.toNat (cs1 ms) f) (Nm.bOf d n.toNat (cs1 ms) f)) := by
    intro ms hms f pk sk ek dk f' l f'' hset hl
    obtain ⟨hgood, -, -, e1, e2⟩ := hshown ms chk _ _ _ _ _ _ _ _ hset hl
    refine ⟨hgood, ?_⟩
    rw [run_nu T b n hn hbm gens d hd c0 hc0 cs hcs hI hC _ _ _ _ _ _ hset, e1, e2, hms]
    exact ⟨((hS _ _ _ _ _).1).symm, ((hS _ _ _ _ _).2).symm⟩
  let Y : Question E → Prop := fun Q => ∀ P, Nm.Good d P → ∀ r a b',
    Q.Yes (Nm.at1X cs d n.toNat gens P q (mc (List.replicate q 0)) r a b')
      (Nm.at2 cs d n.toNat gens P q (mc (List.replicate q 0)) r a b')
  by_cases hy : S.len = n.toNat ∧ Y q1 ∧ Y q2
  · -- accepted in all runs
    have hacc0 : ∀ m P, Nm.Good d P → ∀ r a b', Accepted gens (Nm.pkAt cs d gens P) (Nm.ekAt cs d n.toNat gens P)
        (S.cipher (Nm.at1X cs d n.toNat gens P q m r a b'))
        (S.proof (Nm.at1X cs d n.toNat gens P q m r a b') (Nm.at2 cs d n.toNat gens P q m r a b')) :=
      fun m P hP r a b' => (hq _ _ _ _ _).mpr ⟨hy.1, Nm.transferX cs d n.toNat gens hG h2 q1 q _ _ hy.2.1 _ hP _ _ _,
        Nm.transferX cs d n.toNat gens hG h2 q2 q _ _ hy.2.2 _ hP _ _ _⟩
    have hcore := fun m => Nm.coreX cs d n.toNat gens n.toNat_lt hG hH S q m (hacc0 m)
    let S1 := Nm.dropRho S (4 + (cs.vars.length + (n.toNat + 1))) n.toNat
    have hcip : ∀ L : List E.G1, S1.cipher L = S.cipher L := fun _ => rfl
    have hacc1 : ∀ (ms : List E.Fr), ms.length = q → ∀ (f : ℕ → E.Fr) pk sk ek dk f' l f'',
        setupForGroth16 T (tape E) 1 f b gens = .ok ((pk, sk, ek, dk), f') →
        encryptAll T chk (tape E) ek pk b ms f' = .ok (l, f'') →
        (S1.cipher (view1 gens pk ek l)).verifyCommitmentAndProof
          (S1.proof (view1 gens pk ek l) (view2 gens pk ek dk l)) (prepareVerifyingKey pk.pk.vk)
          ek.prepare gens.prepare = .ok () := by
      intro ms hms f pk sk ek dk f' l f'' hset hl
      obtain ⟨hgood, hpk, hek, e1, e2⟩ := hshown ms chk _ _ _ _ _ _ _ _ hset hl
      rw [e1, e2, hpk, hek, hms]
      exact (hcore (mc ms) _ hgood _ _ _).2
    have hct : ∀ (ms : List E.Fr), ms.length = q → ∀ (f : ℕ → E.Fr) pk sk ek dk f' l f'',
        setupForGroth16 T (tape E) 1 f b gens = .ok ((pk, sk, ek, dk), f') →
        encryptAll T chk (tape E) ek pk b ms f' = .ok (l, f'') →
        S0.cipher (view1 gens pk ek l ++ us.map fun u => u • (sk.rho • ek.X_0)) = S1.cipher (view1 gens pk ek l) ∧
        (S0.cipher (view1 gens pk ek l ++ us.map fun u => u • (sk.rho • ek.X_0))).verifyCommitmentAndProof
          (S0.proof (view1 gens pk ek l ++ us.map fun u => u • (sk.rho • ek.X_0)) (view2 gens pk ek dk l))
          (prepareVerifyingKey pk.pk.vk) ek.prepare gens.prepare = .ok () := by
      intro ms hms f pk sk ek dk f' l f'' hset hl
      obtain ⟨-, h3, h4⟩ := hrun ms hms f pk sk ek dk f' l f'' hset hl
      obtain ⟨hgood, hpk, hek, e1, e2⟩ := hshown ms chk _ _ _ _ _ _ _ _ hset hl
      constructor
      · rw [h3, hcip, e1, hms]
        exact (hcore (mc ms) _ hgood _ _ _).1
      · rw [h3, h4, hpk, hek]
        exact hacc0 (mc ms) _ hgood _ _ _
    have hnd : ∀ pk sk ek dk (f f' : ℕ → E.Fr), setupForGroth16 T (tape E) 1 f b gens = .ok ((pk, sk, ek, dk), f') →
        Cca.NonDeg pk dk → ∃ g_i st3, getGsForEncryption pk.pk.vk = .ok g_i ∧ (∀ g ∈ g_i, g ≠ 0) ∧
          (∀ V ∈ dk.V_2, V ≠ 0) ∧
          keygen (tape E) st3 b gens g_i pk.pk.delta_g1 pk.gamma_g1 = .ok ((sk, ek, dk), f') := by
      intro pk sk ek dk f f' hset hnd
      obtain ⟨g_i, st3, hg, hkg⟩ := Nm.setup_keygen hset
      refine ⟨g_i, st3, hg, ?_, hnd.2, hkg⟩
      rw [Cca.gs_tail hg]
      exact hnd.1
    rcases C81_unrelated T b n hb hn hbm hal gens hG hH d hd hp chk q S1 hacc1 with ⟨m, r, hm, h⟩ | hsome
    · refine ⟨match compose (K := E.fr) chk (tab n.toNat fun i => UInt16.ofNat (m i)) b with
        | .ok m => if m ∈ M then .withheld else .message m
        | _ => .failed, match compose (K := E.fr) chk (tab n.toNat fun i => UInt16.ofNat (m i)) b with
        | .ok m => if m ∈ M then [] else [r]
        | _ => [], fun ms hms hM => ⟨∅, by simp, fun g _ pk sk ek dk f' l f'' hset hl hn' => ?_⟩⟩
      obtain ⟨g_i, st3, hgi, hg0, hV, hkg⟩ := hnd _ _ _ _ _ _ hset hn'
      obtain ⟨h3, h4⟩ := hct ms hms _ _ _ _ _ _ _ _ hset hl
      have h5 := h (tape E) 1 _ f' pk sk ek dk hset ms hms chk (tape E) f' f'' l hl
      have hgt : (fun i => pk.pk.vk.gamma_abc_g1.tail.getD i 0) = fun i => g_i.getD i 0 := by rw [Cca.gs_tail hgi]
      have hdec := Nm.decrypt_cipher hkg hn hb hg0 hV m hm r chk
      unfold openWithNu
      rw [h4]
      unfold Ciphertext.decryptGivenGroth16Vk Ciphertext.decrypt decrypt
      rw [hgi, Res.ok_bind, h3, h5, hgt, hdec, Res.ok_bind]
      dsimp only
      cases compose (K := E.fr) chk (tab n.toNat fun i => UInt16.ofNat (m i)) b with
      | ok m' =>
        simp only [Res.ok_bind, Res.pure_eq]
        by_cases hmM : m' ∈ M
        · simp [hmM]
        · simp only [if_neg hmM, List.map_cons, List.map_nil]
          rw [smul_smul, mul_comm]
      | err e => rfl
      | panic => rfl
    · obtain ⟨j, u, hj, h⟩ := hsome
      refine ⟨.withheld, [], fun ms hms hM => ⟨∅, by simp, fun g _ pk sk ek dk f' l f'' hset hl hn' => ?_⟩⟩
      obtain ⟨h3, h4⟩ := hct ms hms _ _ _ _ _ _ _ _ hset hl
      obtain ⟨ct, proof, h5, h6⟩ := h (tape E) 1 _ f' pk sk ek dk hset ms hms chk (tape E) f' f'' l hl
      obtain ⟨m, hmj, hdec⟩ := decrypt_rerandomised T b n hb hn hbm hal gens chk _ f' f'' pk sk ek dk ms l hset
        hl hn' j ct proof h5 u
      unfold openWithNu
      rw [h4, h3, h6, hdec]
      dsimp only
      rw [if_pos (hM m (List.mem_of_getElem? hmj))]
      rfl
  · -- rejected on all but a few draws
    refine ⟨.rejected, [], fun ms hms _ => ?_⟩
    have hrej : ∀ (g : Fin K → E.Fr) pk sk ek dk f' l f'',
        setupForGroth16 T (tape E) 1 (tapeOf g) b gens = .ok ((pk, sk, ek, dk), f') →
        encryptAll T chk (tape E) ek pk b ms f' = .ok (l, f'') →
        openWithNu true chk b gens pk sk ek dk M
          (S0.cipher (view1 gens pk ek l ++ us.map fun u => u • (sk.rho • ek.X_0)))
          (S0.proof (view1 gens pk ek l ++ us.map fun u => u • (sk.rho • ek.X_0)) (view2 gens pk ek dk l)) ≠
          (.rejected, []) →
        S.len = n.toNat ∧ (Nm.GoodDraw d K g ∧ q1.Yes (Nm.draw1X cs d n.toNat gens q (mc ms) (cs1 ms) g)
          (Nm.draw2 cs d n.toNat gens q (mc ms) (cs1 ms) g)) ∧ Nm.GoodDraw d K g ∧
          q2.Yes (Nm.draw1X cs d n.toNat gens q (mc ms) (cs1 ms) g)
            (Nm.draw2 cs d n.toNat gens q (mc ms) (cs1 ms) g) := by
      intro g pk sk ek dk f' l f'' hset hl hne
      obtain ⟨hgood, hpk, hek, e1, e2⟩ := hshown ms chk _ _ _ _ _ _ _ _ hset hl
      obtain ⟨-, h3, h4⟩ := hrun ms hms _ pk sk ek dk f' l f'' hset hl
      have : Accepted gens pk ek (S0.cipher (view1 gens pk ek l ++ us.map fun u => u • (sk.rho • ek.X_0)))
          (S0.proof (view1 gens pk ek l ++ us.map fun u => u • (sk.rho • ek.X_0)) (view2 gens pk ek dk l)) := by
        unfold Accepted
        unfold openWithNu at hne
        split at hne
        · next h => exact h
        · exact absurd rfl hne
      rw [h3, h4, hpk, hek] at this
      obtain ⟨h1, h3, h4⟩ := (hq _ _ _ _ _).mp this
      exact ⟨h1, ⟨hgood, h3⟩, hgood, h4⟩
    have hfew : ∀ Q : Question E, ¬ Y Q → (Finset.univ.filter fun g => Nm.GoodDraw d K g ∧
        Q.Yes (Nm.draw1X cs d n.toNat gens q (mc ms) (cs1 ms) g)
          (Nm.draw2 cs d n.toNat gens q (mc ms) (cs1 ms) g)).card ≤ (3 * d.size + 6) * E.fr.p ^ (K - 1) := by
      intro Q hY
      have := (Adapt.dichotomy (Nm.viewsX cs d n.toNat gens hI q (mc ms) (cs1 ms) K) hG hH Q).resolve_left fun hall =>
        hY (Nm.transferX cs d n.toNat gens hG h2 Q q _ _ ((Nm.all_drawsX cs d n.toNat gens q (mc ms) (cs1 ms) K hK
          (fun v1 v2 => Q.Yes v1 v2)).mp hall))
      have h := this (Finset.univ.filter fun g => Nm.GoodDraw d K g ∧
        Q.Yes (Nm.draw1X cs d n.toNat gens q (mc ms) (cs1 ms) g) (Nm.draw2 cs d n.toNat gens q (mc ms) (cs1 ms) g))
        fun g hg => (Finset.mem_filter.mp hg).2
      rwa [show 2 * d.size + 4 + (d.size + 2) = 3 * d.size + 6 by omega] at h
    by_cases hlen : S.len = n.toNat
    · by_cases hy1 : Y q1
      · refine ⟨_, hfew q2 fun hy2 => hy ⟨hlen, hy1, hy2⟩, fun g hg pk sk ek dk f' l f'' hset hl _ => ?_⟩
        by_contra hne
        exact hg (Finset.mem_filter.mpr ⟨Finset.mem_univ _, (hrej g pk sk ek dk f' l f'' hset hl hne).2.2⟩)
      · refine ⟨_, hfew q1 hy1, fun g hg pk sk ek dk f' l f'' hset hl _ => ?_⟩
        by_contra hne
        exact hg (Finset.mem_filter.mpr ⟨Finset.mem_univ _, (hrej g pk sk ek dk f' l f'' hset hl hne).2.1⟩)
    · refine ⟨∅, by simp, fun g hg pk sk ek dk f' l f'' hset hl _ => ?_⟩
      by_contra hne
      exact hlen (hrej g pk sk ek dk f' l f'' hset hl hne).1

include hG in
/-- The adversary gives the same answer on all but a few draws, whatever is encrypted. -/
theorem follow (chk : Bool) (K : ℕ) (A : CcaAdversary E) : ∀ (Q D C q : ℕ) (M us : List E.Fr), A.AtMost Q D C →
    7 + 3 * n.toNat + 3 * (q + C) ≤ K →
    ∃ a : Bool, ∀ ms : List E.Fr, ms.length = q → (∀ m ∈ ms, m ∈ M) → ∀ side, ∃ Bad : Finset (Fin K → E.Fr),
      Bad.card ≤ (Q + D) * ((3 * d.size + 6) * E.fr.p ^ (K - 1)) ∧
      ∀ g, g ∉ Bad → ∀ pk sk ek dk f' l f'',
        setupForGroth16 T (tape E) 1 (tapeOf g) b gens = .ok ((pk, sk, ek, dk), f') →
        encryptAll T chk (tape E) ek pk b ms f' = .ok (l, f'') → Cca.NonDeg pk dk →
        playNu true side T chk b gens pk sk ek dk A M f'' l (us.map fun u => u • (sk.rho • ek.X_0)) = a := by
  classical
  induction A with
  | guess a => exact fun Q D C q M us _ _ => ⟨a, fun ms _ _ side => ⟨∅, by simp, fun _ _ _ _ _ _ _ _ _ _ _ _ => rfl⟩⟩
  | ask Qn yes no ihy ihn =>
    intro Q D C q M us hA hK
    obtain ⟨hQ, hAy, hAn⟩ := hA
    obtain ⟨y, hy⟩ := answer T b n hb hn hbm hal gens hG hH d hd K q (by omega) us Qn
    obtain ⟨ay, hay⟩ := ihy _ _ _ q M us hAy hK
    obtain ⟨an, han⟩ := ihn _ _ _ q M us hAn hK
    refine ⟨if y then ay else an, fun ms hms hM side => ?_⟩
    obtain ⟨Bad, hBad, h⟩ := hy ms hms
    obtain ⟨By, hBy, hy'⟩ := hay ms hms hM side
    obtain ⟨Bn, hBn, hn'⟩ := han ms hms hM side
    refine ⟨Bad ∪ (if y then By else Bn), ?_, fun g hg pk sk ek dk f' l f'' hset hl hnd => ?_⟩
    · refine (Finset.card_union_le _ _).trans ?_
      generalize (3 * d.size + 6) * E.fr.p ^ (K - 1) = B at *
      have : (if y then By else Bn).card ≤ (Q - 1 + D) * B := by split <;> assumption
      rw [show Q + D = 1 + (Q - 1 + D) by omega, Nat.add_mul, Nat.one_mul]
      omega
    · rw [Finset.mem_union, not_or] at hg
      have h1 := h g hg.1 chk pk sk ek dk f' l f'' hset hl
      simp only [playNu]
      by_cases hyy : y
      · rw [if_pos (h1.mpr hyy), if_pos hyy]
        exact hy' g (by simpa [hyy] using hg.2) pk sk ek dk f' l f'' hset hl hnd
      · rw [if_neg (fun hc => hyy (h1.mp hc)), if_neg hyy]
        exact hn' g (by simpa [hyy] using hg.2) pk sk ek dk f' l f'' hset hl hnd
  | challenge m0 m1 next ih =>
    intro Q D C q M us hA hK
    obtain ⟨hC, hAn⟩ := hA
    obtain ⟨a, ha⟩ := ih Q D (C - 1) (q + 1) (m0 :: m1 :: M) us hAn (by omega)
    refine ⟨a, fun ms hms hM side => ?_⟩
    obtain ⟨Bad, hBad, h⟩ := ha (ms ++ [if side then m1 else m0]) (by simp [hms]) (by
      intro m hm
      rcases List.mem_append.mp hm with h | h
      · exact List.mem_cons_of_mem _ (List.mem_cons_of_mem _ (hM m h))
      · rw [List.mem_singleton] at h
        cases side
        · simp [h]
        · simp [h]) side
    refine ⟨Bad, hBad, fun g hg pk sk ek dk f' l f'' hset hl hnd => ?_⟩
    obtain ⟨ct, r, proof, f3, henc, hl'⟩ := Cca.next_encryption T b n hb hn hbm hal gens hH d hd chk _ f' f'' pk sk ek
      dk ms l hset hl (if side then m1 else m0)
    simp only [playNu]
    rw [henc]
    exact h g hg pk sk ek dk f' _ f3 hset hl' hnd
  | submit S next ih =>
    intro Q D C q M us hA hK
    obtain ⟨hD, hAn⟩ := hA
    obtain ⟨rep, vs, hrep⟩ := reply T b n hb hn hbm hal gens hG hH d hd chk K q (by omega) us S M
    obtain ⟨a, ha⟩ := ih rep Q (D - 1) C q M (us ++ vs) (hAn rep) hK
    refine ⟨a, fun ms hms hM side => ?_⟩
    obtain ⟨Bad, hBad, h⟩ := hrep ms hms hM
    obtain ⟨Bn, hBn, hn'⟩ := ha ms hms hM side
    refine ⟨Bad ∪ Bn, ?_, fun g hg pk sk ek dk f' l f'' hset hl hnd => ?_⟩
    · refine (Finset.card_union_le _ _).trans ?_
      generalize (3 * d.size + 6) * E.fr.p ^ (K - 1) = B at *
      rw [show Q + D = 1 + (Q + (D - 1)) by omega, Nat.add_mul, Nat.one_mul]
      omega
    · rw [Finset.mem_union, not_or] at hg
      simp only [playNu]
      rw [h g hg.1 pk sk ek dk f' l f'' hset hl hnd]
      have := hn' g hg.2 pk sk ek dk f' l f'' hset hl hnd
      rw [List.map_append] at this
      exact this

end CcaNu

include hG in
/-- **C91** Handing out `nu` does not hurt secrecy.  The game is that of C88, but the holder of the secret key answers
with everything that decryption returns: the message and the element `nu`, which the adversary may use in all further
questions and submissions; only when the message is one that the adversary has handed over itself, both are withheld.
Among the `p^K` choices of the draws made by the setup and the encryptions, the number of those on which the adversary
guesses "right" differs between the two games by at most `((Q + D) (3 size + 6) + 2 n + 1) p^(K-1)`, where `Q` and `D`
are the numbers of questions and of submitted ciphertexts. -/
theorem C91_nu_handed_out (chk : Bool) (A : CcaAdversary E) (Q D C : ℕ) (hA : A.AtMost Q D C) (K : ℕ)
    (hK : 7 + 3 * n.toNat + 3 * C ≤ K) (side : Bool) :
    rightGuessesNu true K side T chk b gens A ≤ rightGuessesNu true K (!side) T chk b gens A +
      ((Q + D) * (3 * d.size + 6) + (2 * n.toNat + 1)) * E.fr.p ^ (K - 1) := by
  classical
  obtain ⟨a, ha⟩ := CcaNu.follow T b n hb hn hbm hal gens hG hH d hd chk K A Q D C 0 [] [] hA (by omega)
  obtain ⟨Deg, hDeg, hnd⟩ := Cca.degenerate T b n hb hn hbm hal gens hG hH d hd K (by omega)
  have hplay : ∀ side, ∃ Bad : Finset (Fin K → E.Fr),
      Bad.card ≤ ((Q + D) * (3 * d.size + 6) + (2 * n.toNat + 1)) * E.fr.p ^ (K - 1) ∧
      ∀ g, g ∉ Bad → experimentNu true side T chk b gens A (tapeOf g) =
        match setupForGroth16 T (tape E) 1 (tapeOf g) b gens with
        | .ok _ => a
        | _ => false := by
    intro side
    obtain ⟨Bad, hBad, h⟩ := ha [] rfl (by simp) side
    refine ⟨Bad ∪ Deg, ?_, fun g hg => ?_⟩
    · refine (Finset.card_union_le _ _).trans ?_
      rw [Nat.add_mul, Nat.mul_assoc]
      omega
    · rw [Finset.mem_union, not_or] at hg
      unfold experimentNu
      cases hset : setupForGroth16 T (tape E) 1 (tapeOf g) b gens with
      | ok x =>
        obtain ⟨⟨pk, sk, ek, dk⟩, f'⟩ := x
        exact h g hg.1 pk sk ek dk f' [] f' hset rfl (hnd g hg.2 pk sk ek dk f' hset)
      | err e => rfl
      | panic => rfl
  obtain ⟨B0, hB0, h0⟩ := hplay side
  obtain ⟨B1, hB1, h1⟩ := hplay (!side)
  unfold rightGuessesNu
  cases a with
  | false =>
    refine le_trans (le_trans (Finset.card_le_card ?_) hB0) (Nat.le_add_left _ _)
    intro g hg
    by_contra hc
    have := (Finset.mem_filter.mp hg).2
    rw [h0 g hc] at this
    split at this <;> cases this
  | true =>
    refine le_trans (Finset.card_le_card (t := (Finset.univ.filter fun x : Fin K → E.Fr =>
      experimentNu true (!side) T chk b gens A (tapeOf x) = true) ∪ B1) ?_) ((Finset.card_union_le _ _).trans
        (Nat.add_le_add_left hB1 _))
    intro g hg
    rw [Finset.mem_union]
    by_cases hc : g ∈ B1
    · exact Or.inr hc
    · refine Or.inl (Finset.mem_filter.mpr ⟨Finset.mem_univ _, ?_⟩)
      rw [h1 g hc]
      have := (Finset.mem_filter.mp hg).2
      unfold experimentNu at this
      cases hset : setupForGroth16 T (tape E) 1 (tapeOf g) b gens with
      | ok x => rfl
      | err e => rw [hset] at this; cases this
      | panic => rw [hset] at this; cases this

end
end
end Verif
