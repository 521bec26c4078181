/-
Property C88: secrecy when the holder of the secret key decrypts verified ciphertexts for the adversary.
-/
import Verif.SpecCca
import Verif.Props.AdaptiveMalleable
import Verif.Props.Generic
import Verif.Props.WrongKey

namespace Verif
open Spec Agm

section
variable {E : Engine}

namespace Cca

/-- one more honest user -/
theorem encryptAll_snoc (T : FftCfg E.Fr) (chk : Bool) (R : RngCore E) (ek : EncryptionKey E) (pk : ProvingKey E)
    (b : UInt8) (m : E.Fr) (ms : List E.Fr) (st st1 st2 : R.σ) (l l' : List (Ciphertext E × Proof E))
    (h : encryptAll T chk R ek pk b ms st = .ok (l, st1))
    (h' : encryptAll T chk R ek pk b (ms ++ [m]) st = .ok (l', st2)) :
    ∃ ct r proof, encryptWithProof T chk R st1 m ek pk b = .ok ((ct, r, proof), st2) ∧ l' = l ++ [(ct, proof)] := by
  induction ms generalizing st l l' with
  | nil =>
    simp only [encryptAll, Res.ok.injEq, Prod.mk.injEq] at h
    obtain ⟨rfl, rfl⟩ := h
    simp only [List.nil_append, encryptAll] at h'
    obtain ⟨⟨⟨ct, r, proof⟩, st3⟩, h1, h2⟩ := Res.bind_eq_ok.mp h'
    simp only [Res.ok_bind, Res.pure_eq, Res.ok.injEq, Prod.mk.injEq] at h2
    obtain ⟨rfl, rfl⟩ := h2
    exact ⟨ct, r, proof, h1, rfl⟩
  | cons m0 ms ih =>
    simp only [List.cons_append, encryptAll] at h h'
    obtain ⟨⟨⟨ct, r, proof⟩, st3⟩, h1, h2⟩ := Res.bind_eq_ok.mp h
    obtain ⟨⟨⟨ct', r', proof'⟩, st3'⟩, h1', h2'⟩ := Res.bind_eq_ok.mp h'
    rw [h1] at h1'
    simp only [Res.ok.injEq, Prod.mk.injEq] at h1'
    obtain ⟨⟨rfl, rfl, rfl⟩, rfl⟩ := h1'
    dsimp only at h2 h2'
    obtain ⟨⟨l1, st4⟩, h3, h4⟩ := Res.bind_eq_ok.mp h2
    obtain ⟨⟨l2, st5⟩, h3', h4'⟩ := Res.bind_eq_ok.mp h2'
    simp only [Res.pure_eq, Res.ok.injEq, Prod.mk.injEq] at h4 h4'
    obtain ⟨rfl, rfl⟩ := h4
    obtain ⟨rfl, rfl⟩ := h4'
    obtain ⟨ct1, r1, proof1, h5, rfl⟩ := ih _ _ _ h3 h3'
    exact ⟨ct1, r1, proof1, h5, rfl⟩

/-- no base of a chunk and no element of the decryption key that decryption uses is neutral -/
def NonDeg (pk : ProvingKey E) (dk : DecryptionKey E) : Prop :=
  (∀ g ∈ pk.pk.vk.gamma_abc_g1.tail, g ≠ 0) ∧ ∀ V ∈ dk.V_2, V ≠ 0

end Cca

section
variable (T : FftCfg E.Fr) (b n : UInt8) (hb : Supported b) (hn : chunksCount E.fr b = .ok n)
    (hbm : b.toNat ≤ E.fr.modBits)
    (hal : 64 * E.fr.limbs < E.fr.modBits + b.toNat ∧ chunksNeeded E.fr b.toNat ≤ 255)
    (gens : EncryptionGens E) (hG : gens.G ≠ 0) (hH : gens.H ≠ 0) (d : EvalDomain E.Fr)
    (hd : T.newDomain (n.toNat * constraintsPerValue E.fr.modBits b.toNat + (n.toNat + 1)) = some d)
include hb hn hbm hal hH hd

namespace Cca

omit hn hal hH hd in
theorem two_ne : (2 : E.Fr) ≠ 0 := by
  have h5 := Nm.five_le (E := E) hb hbm
  intro hc
  have : ((2 : ℕ) : ZMod E.fr.p) = 0 := by exact_mod_cast hc
  have := Nat.le_of_dvd (by omega) ((ZMod.natCast_eq_zero_iff 2 E.fr.p).mp this)
  omega

include hG in
/-- A question has the same answer on all but a few draws, whatever the honest messages are; and if this answer is
"yes", then there are no exceptions. -/
theorem answer (K q : ℕ) (hK : 7 + 3 * n.toNat + 3 * q ≤ K) (Q : Question E) :
    ∃ y : Prop, ∀ ms : List E.Fr, ms.length = q → ∃ Bad : Finset (Fin K → E.Fr),
      Bad.card ≤ (3 * d.size + 6) * E.fr.p ^ (K - 1) ∧
      ∀ g, g ∉ Bad → ∀ chk pk sk ek dk f' l f'',
        setupForGroth16 T (tape E) 1 (tapeOf g) b gens = .ok ((pk, sk, ek, dk), f') →
        encryptAll T chk (tape E) ek pk b ms f' = .ok (l, f'') →
        (Q.Yes (view1 gens pk ek l) (view2 gens pk ek dk l) ↔ y) := by
  classical
  obtain ⟨c0, cs, hc0, hcs, hI, hC, -⟩ := setup_shape hn hbm
  have h2 := two_ne (E := E) b hb hbm
  choose mc cs1 hex hshown using Nm.run_shown T b n hb hn hbm hal gens hH d hd c0 hc0 cs hcs hI hC
  refine ⟨∀ P, Nm.Good d P → ∀ r a b', Q.Yes (Nm.at1 cs d n.toNat gens P q (mc (List.replicate q 0)) r a b')
      (Nm.at2 cs d n.toNat gens P q (mc (List.replicate q 0)) r a b'), fun ms hms => ?_⟩
  by_cases hy : ∀ P, Nm.Good d P → ∀ r a b', Q.Yes (Nm.at1 cs d n.toNat gens P q (mc (List.replicate q 0)) r a b')
      (Nm.at2 cs d n.toNat gens P q (mc (List.replicate q 0)) r a b')
  · refine ⟨∅, by simp, fun g _ chk pk sk ek dk f' l f'' hset hl => ?_⟩
    obtain ⟨hgood, -, -, e1, e2⟩ := hshown ms chk _ _ _ _ _ _ _ _ hset hl
    refine iff_of_true ?_ hy
    rw [e1, e2, hms]
    exact Nm.transfer cs d n.toNat gens hG h2 Q q _ _ hy _ hgood _ _ _
  · refine ⟨Finset.univ.filter fun g => Nm.GoodDraw d K g ∧ Q.Yes (Nm.draw1 cs d n.toNat gens q (mc ms) (cs1 ms) g)
      (Nm.draw2 cs d n.toNat gens q (mc ms) (cs1 ms) g), ?_, fun g hg chk pk sk ek dk f' l f'' hset hl => ?_⟩
    · have := (Adapt.dichotomy (Nm.views cs d n.toNat gens hI q (mc ms) (cs1 ms) K) hG hH Q).resolve_left fun hall =>
        hy (Nm.transfer cs d n.toNat gens hG h2 Q q _ _ ((Nm.all_draws cs d n.toNat gens q (mc ms) (cs1 ms) K hK
          (fun v1 v2 => Q.Yes v1 v2)).mp hall))
      have h := this (Finset.univ.filter fun g => Nm.GoodDraw d K g ∧
        Q.Yes (Nm.draw1 cs d n.toNat gens q (mc ms) (cs1 ms) g) (Nm.draw2 cs d n.toNat gens q (mc ms) (cs1 ms) g))
        fun g hg => (Finset.mem_filter.mp hg).2
      rwa [show 2 * d.size + 4 + (d.size + 2) = 3 * d.size + 6 by omega] at h
    · obtain ⟨hgood, -, -, e1, e2⟩ := hshown ms chk _ _ _ _ _ _ _ _ hset hl
      refine iff_of_false (fun hq => hg ?_) hy
      rw [e1, e2, hms] at hq
      exact Finset.mem_filter.mpr ⟨Finset.mem_univ _, hgood, hq⟩

omit hb hn hbm hal hH hd in
theorem gs_tail {vk : VerifyingKey E} {g_i : List E.G1} (h : getGsForEncryption vk = .ok g_i) :
    g_i = vk.gamma_abc_g1.tail := by
  unfold getGsForEncryption at h
  split at h
  · cases h
  · next hv =>
    cases h
    rw [hv]
    rfl

include hG in
/-- The reply to a submitted ciphertext is the same on all but a few draws, whatever the honest messages are. -/
theorem reply (chk : Bool) (K q : ℕ) (hK : 7 + 3 * n.toNat + 3 * q ≤ K) (S : Strategy E.Fr) (M : List E.Fr) :
    ∃ rep : Reply E.Fr, ∀ ms : List E.Fr, ms.length = q → (∀ m ∈ ms, m ∈ M) → ∃ Bad : Finset (Fin K → E.Fr),
      Bad.card ≤ (3 * d.size + 6) * E.fr.p ^ (K - 1) ∧
      ∀ g, g ∉ Bad → ∀ pk sk ek dk f' l f'',
        setupForGroth16 T (tape E) 1 (tapeOf g) b gens = .ok ((pk, sk, ek, dk), f') →
        encryptAll T chk (tape E) ek pk b ms f' = .ok (l, f'') → NonDeg pk dk →
        openVerified ⟨true, true⟩ chk b gens pk sk ek dk M (S.cipher (view1 gens pk ek l))
          (S.proof (view1 gens pk ek l) (view2 gens pk ek dk l)) = rep := by
  classical
  by_cases hp : 3 * d.size < E.fr.p
  swap
  · refine ⟨.rejected, fun ms _ _ => ⟨Finset.univ, ?_, fun g hg => absurd (Finset.mem_univ g) hg⟩⟩
    rw [Finset.card_univ, Fintype.card_fun, Fintype.card_fin, show Fintype.card E.Fr = E.fr.p from ZMod.card _]
    obtain ⟨k, rfl⟩ : ∃ k, K = k + 1 := ⟨K - 1, by omega⟩
    rw [Nat.add_sub_cancel, pow_succ, mul_comm]
    exact Nat.mul_le_mul_right _ (by omega)
  obtain ⟨c0, cs, hc0, hcs, hI, hC, -⟩ := setup_shape hn hbm
  have h2 := two_ne (E := E) b hb hbm
  choose mc cs1 hex hshown using Nm.run_shown T b n hb hn hbm hal gens hH d hd c0 hc0 cs hcs hI hC
  obtain ⟨q1, q2, hq⟩ := Nm.accept_questions cs d n.toNat gens hI n.toNat_lt S q
  let Y : Question E → Prop := fun Q => ∀ P, Nm.Good d P → ∀ r a b',
    Q.Yes (Nm.at1 cs d n.toNat gens P q (mc (List.replicate q 0)) r a b')
      (Nm.at2 cs d n.toNat gens P q (mc (List.replicate q 0)) r a b')
  by_cases hy : S.len = n.toNat ∧ Y q1 ∧ Y q2
  · -- accepted in all runs
    have hacc : ∀ (ms : List E.Fr), ms.length = q → ∀ (f : ℕ → E.Fr) pk sk ek dk f' l f'',
        setupForGroth16 T (tape E) 1 f b gens = .ok ((pk, sk, ek, dk), f') →
        encryptAll T chk (tape E) ek pk b ms f' = .ok (l, f'') →
        (S.cipher (view1 gens pk ek l)).verifyCommitmentAndProof
          (S.proof (view1 gens pk ek l) (view2 gens pk ek dk l)) (prepareVerifyingKey pk.pk.vk)
          ek.prepare gens.prepare = .ok () := by
      intro ms hms f pk sk ek dk f' l f'' hset hl
      obtain ⟨hgood, hpk, hek, e1, e2⟩ := hshown ms chk _ _ _ _ _ _ _ _ hset hl
      rw [e1, e2, hpk, hek, hms]
      exact (hq _ _ _ _ _).mpr ⟨hy.1, Nm.transfer cs d n.toNat gens hG h2 q1 q _ _ hy.2.1 _ hgood _ _ _,
        Nm.transfer cs d n.toNat gens hG h2 q2 q _ _ hy.2.2 _ hgood _ _ _⟩
    have hnd : ∀ pk sk ek dk (f f' : ℕ → E.Fr), setupForGroth16 T (tape E) 1 f b gens = .ok ((pk, sk, ek, dk), f') →
        NonDeg pk dk → ∃ g_i, getGsForEncryption pk.pk.vk = .ok g_i ∧ (∀ g ∈ g_i, g ≠ 0) ∧ ∀ V ∈ dk.V_2, V ≠ 0 := by
      intro pk sk ek dk f f' hset hnd
      obtain ⟨g_i, st3, hg, -⟩ := Nm.setup_keygen hset
      refine ⟨g_i, hg, ?_, hnd.2⟩
      rw [gs_tail hg]
      exact hnd.1
    rcases C81_plaintext T b n hb hn hbm hal gens hG hH d hd hp chk q S hacc with ⟨chunks, -, h⟩ | ⟨j, hj, h⟩
    · refine ⟨match compose (K := E.fr) chk chunks b with
        | .ok m => if m ∈ M then .withheld else .message m
        | _ => .failed, fun ms hms hM => ⟨∅, by simp, fun g _ pk sk ek dk f' l f'' hset hl hn => ?_⟩⟩
      obtain ⟨g_i, hgi, hg0, hV⟩ := hnd _ _ _ _ _ _ hset hn
      obtain ⟨nu, hdec⟩ := h (tape E) 1 _ f' pk sk ek dk g_i hset hgi hg0 hV ms hms chk (tape E) f' f'' l hl chk
      unfold openVerified
      rw [if_pos rfl]
      rw [hacc ms hms _ _ _ _ _ _ _ _ hset hl]
      unfold Ciphertext.decryptGivenGroth16Vk Ciphertext.decrypt decrypt
      rw [hgi, Res.ok_bind, hdec, Res.ok_bind]
      dsimp only
      cases compose (K := E.fr) chk chunks b with
      | ok m =>
        simp only [Res.ok_bind, Res.pure_eq, true_and]
      | err e => rfl
      | panic => rfl
    · refine ⟨.withheld, fun ms hms hM => ⟨∅, by simp, fun g _ pk sk ek dk f' l f'' hset hl hn => ?_⟩⟩
      obtain ⟨g_i, hgi, hg0, hV⟩ := hnd _ _ _ _ _ _ hset hn
      obtain ⟨m, nu, hmj, hdec⟩ := h (tape E) 1 _ f' pk sk ek dk g_i hset hgi hg0 hV ms hms chk (tape E) f' f'' l hl chk
      unfold openVerified
      rw [if_pos rfl]
      rw [hacc ms hms _ _ _ _ _ _ _ _ hset hl]
      unfold Ciphertext.decryptGivenGroth16Vk
      rw [hgi, Res.ok_bind, hdec]
      dsimp only
      rw [if_pos ⟨rfl, hM m (List.mem_of_getElem? hmj)⟩]
  · -- rejected on all but a few draws
    refine ⟨.rejected, fun ms hms _ => ?_⟩
    have hrej : ∀ (g : Fin K → E.Fr) pk sk ek dk f' l f'',
        setupForGroth16 T (tape E) 1 (tapeOf g) b gens = .ok ((pk, sk, ek, dk), f') →
        encryptAll T chk (tape E) ek pk b ms f' = .ok (l, f'') →
        openVerified ⟨true, true⟩ chk b gens pk sk ek dk M (S.cipher (view1 gens pk ek l))
          (S.proof (view1 gens pk ek l) (view2 gens pk ek dk l)) ≠ .rejected →
        S.len = n.toNat ∧ (Nm.GoodDraw d K g ∧ q1.Yes (Nm.draw1 cs d n.toNat gens q (mc ms) (cs1 ms) g)
          (Nm.draw2 cs d n.toNat gens q (mc ms) (cs1 ms) g)) ∧ Nm.GoodDraw d K g ∧
          q2.Yes (Nm.draw1 cs d n.toNat gens q (mc ms) (cs1 ms) g) (Nm.draw2 cs d n.toNat gens q (mc ms) (cs1 ms) g) := by
      intro g pk sk ek dk f' l f'' hset hl hne
      obtain ⟨hgood, hpk, hek, e1, e2⟩ := hshown ms chk _ _ _ _ _ _ _ _ hset hl
      have : Accepted gens pk ek (S.cipher (view1 gens pk ek l))
          (S.proof (view1 gens pk ek l) (view2 gens pk ek dk l)) := by
        unfold Accepted
        unfold openVerified at hne
        rw [if_pos rfl] at hne
        split at hne
        · next h => exact h
        · exact absurd rfl hne
      rw [e1, e2, hpk, hek, hms] at this
      obtain ⟨h1, h3, h4⟩ := (hq _ _ _ _ _).mp this
      exact ⟨h1, ⟨hgood, h3⟩, hgood, h4⟩
    have hfew : ∀ Q : Question E, ¬ Y Q → (Finset.univ.filter fun g => Nm.GoodDraw d K g ∧
        Q.Yes (Nm.draw1 cs d n.toNat gens q (mc ms) (cs1 ms) g)
          (Nm.draw2 cs d n.toNat gens q (mc ms) (cs1 ms) g)).card ≤ (3 * d.size + 6) * E.fr.p ^ (K - 1) := by
      intro Q hY
      have := (Adapt.dichotomy (Nm.views cs d n.toNat gens hI q (mc ms) (cs1 ms) K) hG hH Q).resolve_left fun hall =>
        hY (Nm.transfer cs d n.toNat gens hG h2 Q q _ _ ((Nm.all_draws cs d n.toNat gens q (mc ms) (cs1 ms) K hK
          (fun v1 v2 => Q.Yes v1 v2)).mp hall))
      have h := this (Finset.univ.filter fun g => Nm.GoodDraw d K g ∧
        Q.Yes (Nm.draw1 cs d n.toNat gens q (mc ms) (cs1 ms) g) (Nm.draw2 cs d n.toNat gens q (mc ms) (cs1 ms) g))
        fun g hg => (Finset.mem_filter.mp hg).2
      rwa [show 2 * d.size + 4 + (d.size + 2) = 3 * d.size + 6 by omega] at h
    by_cases hlen : S.len = n.toNat
    · by_cases hy1 : Y q1
      · refine ⟨_, hfew q2 fun hy2 => hy ⟨hlen, hy1, hy2⟩, fun g hg pk sk ek dk f' l f'' hset hl _ => ?_⟩
        by_contra hne
        exact hg (Finset.mem_filter.mpr ⟨Finset.mem_univ _, (hrej g pk sk ek dk f' l f'' hset hl hne).2.2⟩)
      · refine ⟨_, hfew q1 hy1, fun g hg pk sk ek dk f' l f'' hset hl _ => ?_⟩
        by_contra hne
        exact hg (Finset.mem_filter.mpr ⟨Finset.mem_univ _, (hrej g pk sk ek dk f' l f'' hset hl hne).2.1⟩)
    · refine ⟨∅, by simp, fun g hg pk sk ek dk f' l f'' hset hl _ => ?_⟩
      by_contra hne
      exact hlen (hrej g pk sk ek dk f' l f'' hset hl hne).1

include hG in
/-- The adversary gives the same answer on all but a few draws, whatever is encrypted. -/
theorem follow (chk : Bool) (K : ℕ) (A : CcaAdversary E) : ∀ (Q D C q : ℕ) (M : List E.Fr), A.AtMost Q D C →
    7 + 3 * n.toNat + 3 * (q + C) ≤ K →
    ∃ a : Bool, ∀ ms : List E.Fr, ms.length = q → (∀ m ∈ ms, m ∈ M) → ∀ side, ∃ Bad : Finset (Fin K → E.Fr),
      Bad.card ≤ (Q + D) * ((3 * d.size + 6) * E.fr.p ^ (K - 1)) ∧
      ∀ g, g ∉ Bad → ∀ pk sk ek dk f' l f'',
        setupForGroth16 T (tape E) 1 (tapeOf g) b gens = .ok ((pk, sk, ek, dk), f') →
        encryptAll T chk (tape E) ek pk b ms f' = .ok (l, f'') → NonDeg pk dk →
        playCca ⟨true, true⟩ side T chk b gens pk sk ek dk A M f'' l = a := by
  classical
  induction A with
  | guess a => exact fun Q D C q M _ _ => ⟨a, fun ms _ _ side => ⟨∅, by simp, fun _ _ _ _ _ _ _ _ _ _ _ _ => rfl⟩⟩
  | ask Qn yes no ihy ihn =>
    intro Q D C q M hA hK
    obtain ⟨hQ, hAy, hAn⟩ := hA
    obtain ⟨y, hy⟩ := answer T b n hb hn hbm hal gens hG hH d hd K q (by omega) Qn
    obtain ⟨ay, hay⟩ := ihy _ _ _ q M hAy hK
    obtain ⟨an, han⟩ := ihn _ _ _ q M hAn hK
    refine ⟨if y then ay else an, fun ms hms hM side => ?_⟩
    obtain ⟨Bad, hBad, h⟩ := hy ms hms
    obtain ⟨By, hBy, hy'⟩ := hay ms hms hM side
    obtain ⟨Bn, hBn, hn'⟩ := han ms hms hM side
    refine ⟨Bad ∪ (if y then By else Bn), ?_, fun g hg pk sk ek dk f' l f'' hset hl hnd => ?_⟩
    · refine (Finset.card_union_le _ _).trans ?_
      generalize (3 * d.size + 6) * E.fr.p ^ (K - 1) = B at *
      have : (if y then By else Bn).card ≤ (Q - 1 + D) * B := by split <;> assumption
      rw [show Q + D = 1 + (Q - 1 + D) by omega, Nat.add_mul, Nat.one_mul]
      omega
    · rw [Finset.mem_union, not_or] at hg
      have h1 := h g hg.1 chk pk sk ek dk f' l f'' hset hl
      simp only [playCca]
      by_cases hyy : y
      · rw [if_pos (h1.mpr hyy), if_pos hyy]
        exact hy' g (by simpa [hyy] using hg.2) pk sk ek dk f' l f'' hset hl hnd
      · rw [if_neg (fun hc => hyy (h1.mp hc)), if_neg hyy]
        exact hn' g (by simpa [hyy] using hg.2) pk sk ek dk f' l f'' hset hl hnd
  | challenge m0 m1 next ih =>
    intro Q D C q M hA hK
    obtain ⟨hC, hAn⟩ := hA
    obtain ⟨a, ha⟩ := ih Q D (C - 1) (q + 1) (m0 :: m1 :: M) hAn (by omega)
    refine ⟨a, fun ms hms hM side => ?_⟩
    obtain ⟨Bad, hBad, h⟩ := ha (ms ++ [if side then m1 else m0]) (by simp [hms]) (by
      intro m hm
      rcases List.mem_append.mp hm with h | h
      · exact List.mem_cons_of_mem _ (List.mem_cons_of_mem _ (hM m h))
      · rw [List.mem_singleton] at h
        cases side
        · simp [h]
        · simp [h]) side
    refine ⟨Bad, hBad, fun g hg pk sk ek dk f' l f'' hset hl hnd => ?_⟩
    obtain ⟨c0, cs, hc0, hcs, hI, hC', -⟩ := setup_shape hn hbm
    obtain ⟨mc, cs1, -, hshown⟩ := Nm.run_shown T b n hb hn hbm hal gens hH d hd c0 hc0 cs hcs hI hC' ms
    obtain ⟨mc', cs1', hex, -⟩ := Nm.run_shown T b n hb hn hbm hal gens hH d hd c0 hc0 cs hcs hI hC'
      (ms ++ [if side then m1 else m0])
    obtain ⟨hgood, -⟩ := hshown chk _ _ _ _ _ _ _ _ hset hl
    obtain ⟨pk', sk', ek', dk', f1, l', f2, hset', hl'⟩ := hex _ hgood chk
    rw [hset] at hset'
    simp only [Res.ok.injEq, Prod.mk.injEq] at hset'
    obtain ⟨⟨rfl, rfl, rfl, rfl⟩, rfl⟩ := hset'
    obtain ⟨ct, r, proof, henc, rfl⟩ := encryptAll_snoc T chk (tape E) ek pk b _ ms f' f'' f2 l l' hl hl'
    simp only [playCca]
    rw [henc]
    exact h g hg pk sk ek dk f' _ f2 hset hl' hnd
  | submit S next ih =>
    intro Q D C q M hA hK
    obtain ⟨hD, hAn⟩ := hA
    obtain ⟨rep, hrep⟩ := reply T b n hb hn hbm hal gens hG hH d hd chk K q (by omega) S M
    obtain ⟨a, ha⟩ := ih rep Q (D - 1) C q M (hAn rep) hK
    refine ⟨a, fun ms hms hM side => ?_⟩
    obtain ⟨Bad, hBad, h⟩ := hrep ms hms hM
    obtain ⟨Bn, hBn, hn'⟩ := ha ms hms hM side
    refine ⟨Bad ∪ Bn, ?_, fun g hg pk sk ek dk f' l f'' hset hl hnd => ?_⟩
    · refine (Finset.card_union_le _ _).trans ?_
      generalize (3 * d.size + 6) * E.fr.p ^ (K - 1) = B at *
      rw [show Q + D = 1 + (Q + (D - 1)) by omega, Nat.add_mul, Nat.one_mul]
      omega
    · rw [Finset.mem_union, not_or] at hg
      simp only [playCca]
      rw [h g hg.1 pk sk ek dk f' l f'' hset hl hnd]
      exact hn' g hg.2 pk sk ek dk f' l f'' hset hl hnd

omit hb hn hbm hal hH hd in
/-- at most `c` values of one coordinate for each choice of the others -/
theorem count_fiber {K : ℕ} (i : Fin K) (c : ℕ) (A : Finset (Fin K → E.Fr)) (B : (Fin K → E.Fr) → Finset E.Fr)
    (hB : ∀ g, (B g).card ≤ c) (hA : ∀ g ∈ A, g i ∈ B (Function.update g i 0)) : A.card ≤ c * E.fr.p ^ (K - 1) := by
  classical
  refine (Finset.card_le_mul_card_image (f := fun g : Fin K → E.Fr => Function.update g i 0) A c ?_).trans
    (Nat.mul_le_mul_left _ ?_)
  · intro h _
    refine le_trans ?_ (hB h)
    refine Finset.card_le_card_of_injOn (fun g => g i) ?_ ?_
    · intro g hg
      obtain ⟨h1, h2⟩ := Finset.mem_filter.mp (Finset.mem_coe.mp hg)
      have := hA g h1
      rw [h2] at this
      exact this
    · intro g hg g' hg' he
      obtain ⟨-, h2⟩ := Finset.mem_filter.mp (Finset.mem_coe.mp hg)
      obtain ⟨-, h2'⟩ := Finset.mem_filter.mp (Finset.mem_coe.mp hg')
      funext j
      by_cases hj : j = i
      · subst hj; exact he
      · have := congrFun (h2.trans h2'.symm) j
        rwa [Function.update_of_ne hj, Function.update_of_ne hj] at this
  · have := count_coord (E := E) (K := K) i i.2 (A.image fun g : Fin K → E.Fr => Function.update g i 0) (by
      intro g hg
      obtain ⟨g', -, rfl⟩ := Finset.mem_image.mp hg
      unfold tapeOf
      rw [dif_pos i.2]
      exact Function.update_self ..)
    rwa [Nat.one_mul] at this

include hG in
/-- degenerate keys are rare -/
theorem degenerate (K : ℕ) (hK : 7 + 3 * n.toNat ≤ K) :
    ∃ Bad : Finset (Fin K → E.Fr), Bad.card ≤ (2 * n.toNat + 1) * E.fr.p ^ (K - 1) ∧
      ∀ g, g ∉ Bad → ∀ pk sk ek dk f',
        setupForGroth16 T (tape E) 1 (tapeOf g) b gens = .ok ((pk, sk, ek, dk), f') → NonDeg pk dk := by
  classical
  obtain ⟨c0, cs, hc0, hcs, hI, hC, -⟩ := setup_shape hn hbm
  obtain ⟨mc, cs1, hrun⟩ := Nm.run_at T b n hb hn hbm hal c0 gens hH hc0 cs hcs hI d hC hd []
  let rows := constraintsPerValue E.fr.modBits b.toNat
  let B1 : Finset (Fin K → E.Fr) := Finset.univ.filter fun g =>
    tapeOf g 1 ∈ badBetas n.toNat rows E.fr.modBits d.omega (tapeOf g 4)
  let B2 : Finset (Fin K → E.Fr) := Finset.univ.filter fun g => tapeOf g 5 = 0
  let B3 : ℕ → Finset (Fin K → E.Fr) := fun i => Finset.univ.filter fun g => tapeOf g (7 + 2 * n.toNat + i) = 0
  refine ⟨B1 ∪ (B2 ∪ (Finset.range n.toNat).biUnion B3), ?_, ?_⟩
  · have h1 : B1.card ≤ n.toNat * E.fr.p ^ (K - 1) := by
      refine count_fiber (⟨1, by omega⟩ : Fin K) n.toNat B1
        (fun g => badBetas n.toNat rows E.fr.modBits d.omega (g ⟨4, by omega⟩)) (fun g => ?_) (fun g hg => ?_)
      · exact (Finset.card_image_le).trans (by simp)
      · have := (Finset.mem_filter.mp hg).2
        unfold tapeOf at this
        rw [dif_pos (by omega), dif_pos (by omega)] at this
        rw [Function.update_of_ne (by simp)]
        exact this
    have h2 : B2.card ≤ 1 * E.fr.p ^ (K - 1) := count_coord 5 (by omega) B2 fun g hg => (Finset.mem_filter.mp hg).2
    have h3 : ((Finset.range n.toNat).biUnion B3).card ≤ n.toNat * E.fr.p ^ (K - 1) := by
      refine (Finset.card_biUnion_le_card_mul _ _ (E.fr.p ^ (K - 1)) fun i hi => ?_).trans (by simp)
      have := count_coord (E := E) (K := K) (7 + 2 * n.toNat + i) (by have := Finset.mem_range.mp hi; omega) (B3 i)
        fun g hg => (Finset.mem_filter.mp hg).2
      rwa [Nat.one_mul] at this
    refine (Finset.card_union_le _ _).trans ((Nat.add_le_add_left (Finset.card_union_le _ _) _).trans ?_)
    generalize E.fr.p ^ (K - 1) = x at *
    rw [Nat.add_mul, Nat.mul_assoc]
    omega
  · intro g hg pk sk ek dk f' hset
    rw [Finset.mem_union, Finset.mem_union, not_or, not_or] at hg
    obtain ⟨hg1, hg2, hg3⟩ := hg
    obtain ⟨hgood, -⟩ := Adapt.setup_views T b n hn hbm c0 hc0 cs hcs hI hC gens d hd _ pk sk ek dk f' hset
    obtain ⟨sk', f1, f2, hset', -⟩ := hrun (tapeOf g) hgood true
    obtain ⟨g_i, st3, hsrs, hgi, -⟩ := Nm.setup_parts hc0 hset
    rw [hset] at hset'
    simp only [Res.ok.injEq, Prod.mk.injEq] at hset'
    obtain ⟨⟨-, -, -, hdk⟩, -⟩ := hset'
    have ht : draw (tape E) (tapeOf g) (4 + 0) ^ d.size ≠ 1 := by
      rw [draw_tape]
      exact fun hc => hgood.1 (sub_eq_zero.mpr hc)
    have hz := (C55_zero_generators T (tape E) 1 (tapeOf g) st3 b n hn c0 hc0 gens pk hsrs rows rfl d hd 0 ht
      (by omega)).1
    refine ⟨fun x hx h0 => ?_, ?_⟩
    · rcases hz.mp ⟨x, hx, h0⟩ with h | h
      · exact hG h.2
      · rw [draw_tape, draw_tape] at h
        exact hg1 (Finset.mem_filter.mpr ⟨Finset.mem_univ _, h⟩)
    · rw [hdk]
      intro V hV h0
      unfold Nm.dkAt decKey tab at hV
      simp only [List.mem_map, List.mem_range] at hV
      obtain ⟨i, hi, rfl⟩ := hV
      rcases smul_eq_zero.mp h0 with h | h
      · rcases mul_eq_zero.mp h with h | h
        · exact hg2 (Finset.mem_filter.mpr ⟨Finset.mem_univ _, h⟩)
        · exact hg3 (Finset.mem_biUnion.mpr ⟨i, Finset.mem_range.mpr hi, Finset.mem_filter.mpr ⟨Finset.mem_univ _, h⟩⟩)
      · exact hH h

end Cca

include hG in
/-- **C88** Secrecy against chosen ciphertexts.  An adaptive generic-group adversary sees everything public, hands over
pairs of messages and receives the encryptions (with proofs) of the left or of the right ones, and at any time submits
ciphertexts with proofs to the holder of the secret key, who runs `verify_commitment_and_proof` and decrypts what is
accepted, withholding only the messages the adversary has handed over itself.  Among the `p^K` choices of the draws made by the
setup and the encryptions, the number of those on which it guesses "right" differs between the two games by at most
`((Q + D) (3 size + 6) + 2 n + 1) p^(K-1)`, where `Q` and `D` are the numbers of questions and of submitted
ciphertexts. -/
theorem C88_chosen_ciphertexts (chk : Bool) (A : CcaAdversary E) (Q D C : ℕ) (hA : A.AtMost Q D C) (K : ℕ)
    (hK : 7 + 3 * n.toNat + 3 * C ≤ K) (side : Bool) :
    rightGuessesCca ⟨true, true⟩ K side T chk b gens A ≤ rightGuessesCca ⟨true, true⟩ K (!side) T chk b gens A +
      ((Q + D) * (3 * d.size + 6) + (2 * n.toNat + 1)) * E.fr.p ^ (K - 1) := by
  classical
  obtain ⟨a, ha⟩ := Cca.follow T b n hb hn hbm hal gens hG hH d hd chk K A Q D C 0 [] hA (by omega)
  obtain ⟨Deg, hDeg, hnd⟩ := Cca.degenerate T b n hb hn hbm hal gens hG hH d hd K (by omega)
  have hplay : ∀ side, ∃ Bad : Finset (Fin K → E.Fr),
      Bad.card ≤ ((Q + D) * (3 * d.size + 6) + (2 * n.toNat + 1)) * E.fr.p ^ (K - 1) ∧
      ∀ g, g ∉ Bad → experimentCca ⟨true, true⟩ side T chk b gens A (tapeOf g) =
        match setupForGroth16 T (tape E) 1 (tapeOf g) b gens with
        | .ok _ => a
        | _ => false := by
    intro side
    obtain ⟨Bad, hBad, h⟩ := ha [] rfl (by simp) side
    refine ⟨Bad ∪ Deg, ?_, fun g hg => ?_⟩
    · refine (Finset.card_union_le _ _).trans ?_
      rw [Nat.add_mul, Nat.mul_assoc]
      omega
    · rw [Finset.mem_union, not_or] at hg
      unfold experimentCca
      cases hset : setupForGroth16 T (tape E) 1 (tapeOf g) b gens with
      | ok x =>
        obtain ⟨⟨pk, sk, ek, dk⟩, f'⟩ := x
        exact h g hg.1 pk sk ek dk f' [] f' hset rfl (hnd g hg.2 pk sk ek dk f' hset)
      | err e => rfl
      | panic => rfl
  obtain ⟨B0, hB0, h0⟩ := hplay side
  obtain ⟨B1, hB1, h1⟩ := hplay (!side)
  unfold rightGuessesCca
  cases a with
  | false =>
    refine le_trans (le_trans (Finset.card_le_card ?_) hB0) (Nat.le_add_left _ _)
    intro g hg
    by_contra hc
    have := (Finset.mem_filter.mp hg).2
    rw [h0 g hc] at this
    split at this <;> cases this
  | true =>
    refine le_trans (Finset.card_le_card (t := (Finset.univ.filter fun x : Fin K → E.Fr =>
      experimentCca ⟨true, true⟩ (!side) T chk b gens A (tapeOf x) = true) ∪ B1) ?_) ((Finset.card_union_le _ _).trans
        (Nat.add_le_add_left hB1 _))
    intro g hg
    rw [Finset.mem_union]
    by_cases hc : g ∈ B1
    · exact Or.inr hc
    · refine Or.inl (Finset.mem_filter.mpr ⟨Finset.mem_univ _, ?_⟩)
      rw [h1 g hc]
      have := (Finset.mem_filter.mp hg).2
      unfold experimentCca at this
      cases hset : setupForGroth16 T (tape E) 1 (tapeOf g) b gens with
      | ok x => rfl
      | err e => rw [hset] at this; cases this
      | panic => rw [hset] at this; cases this

end
end
end Verif
