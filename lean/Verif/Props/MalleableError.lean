/-
Property C83: bounds on the success of adversaries that see honest ciphertexts and proofs.
-/
import Verif.Lemmas.NmCount
import Verif.Props.Malleable

namespace Verif
open Spec Agm

section
variable {E : Engine}

namespace Nm

theorem poly_wsum {K : ℕ} {Gd : (Fin K → E.Fr) → Prop} {D : ℕ} (cs : CS E.Fr) (f : (Fin K → E.Fr) → Var → E.Fr)
    (hf : ∀ w, PolyOn Gd D (fun g => f g w)) : PolyOn Gd D (fun g => wsum cs (f g)) :=
  (PolyOn.sum _ _ fun i _ => (hf (.inst i)).cmul _).add (PolyOn.sum _ _ fun i _ => (hf (.wit i)).cmul _)

/-- the draws on which `generate_srs` does not succeed at the first candidate are few -/
theorem bad_count (d : EvalDomain E.Fr) (hp : d.size < E.fr.p) (K : ℕ) (hK : 5 ≤ K)
    (B : Finset (Fin K → E.Fr))
    (hB : ∀ g ∈ B, d.vanishing (tapeOf g 4) * (tapeOf g 2 * tapeOf g 3) = 0) :
    B.card ≤ (d.size + 2) * E.fr.p ^ (K - 1) := by
  classical
  have hcard : Fintype.card E.Fr = E.fr.p := ZMod.card _
  have hout : ∃ tau : E.Fr, d.vanishing tau ≠ 0 := by
    have h := Agm.card_outside d
    have : 0 < (Finset.univ.filter fun t : E.Fr => d.vanishing t ≠ 0).card := by omega
    obtain ⟨t, ht⟩ := Finset.card_pos.mp this
    exact ⟨t, (Finset.mem_filter.mp ht).2⟩
  obtain ⟨tau, htau⟩ := hout
  have hv : Agm.PolyOn (fun _ : Fin K → E.Fr => True) d.size (fun g => d.vanishing (tapeOf g 4)) := by
    refine ((((tapeOf_poly _ 4).pow d.size).mono (by omega)).sub (Agm.PolyOn.const _ 1)).congr fun g _ => ?_
    rfl
  refine ((hv.mul ((tapeOf_poly _ 2).mul (tapeOf_poly _ 3) (le_refl _)) (le_refl _)).count
    (fun i => if i.val = 4 then tau else 1) trivial ?_ B (fun g hg => ⟨trivial, hB g hg⟩)).trans
    (le_of_eq (congrArg (fun q => (d.size + 2) * q ^ (K - 1)) hcard))
  have e4 : tapeOf (fun i : Fin K => if i.val = 4 then tau else (1 : E.Fr)) 4 = tau := by
    unfold tapeOf
    rw [dif_pos (by omega)]
    simp
  have e2 : tapeOf (fun i : Fin K => if i.val = 4 then tau else (1 : E.Fr)) 2 = 1 := by
    unfold tapeOf
    rw [dif_pos (by omega)]
    simp
  have e3 : tapeOf (fun i : Fin K => if i.val = 4 then tau else (1 : E.Fr)) 3 = 1 := by
    unfold tapeOf
    rw [dif_pos (by omega)]
    simp
  rw [e4, e2, e3, mul_one, mul_one]
  exact htau

theorem card_draws (K : ℕ) : (Finset.univ : Finset (Fin K → E.Fr)).card = E.fr.p ^ K := by
  rw [Finset.card_univ, Fintype.card_fun, Fintype.card_fin]
  congr 1
  exact ZMod.card _

end Nm

/-- **C83** (the dichotomy) the number of draws (of the setup and of the honest users) on which an adversary that
sees the honest ciphertexts and proofs is accepted is either at most `(3 size + 6) p^(K - 1)`, out of `p^K`, or
the adversary is accepted in every run. -/
theorem C83_all_or_few (T : FftCfg E.Fr) (b n : UInt8) (hb : Supported b) (hn : chunksCount E.fr b = .ok n)
    (hbm : b.toNat ≤ E.fr.modBits)
    (hal : 64 * E.fr.limbs < E.fr.modBits + b.toNat ∧ chunksNeeded E.fr b.toNat ≤ 255)
    (gens : EncryptionGens E) (hG : gens.G ≠ 0) (hH : gens.H ≠ 0) (d : EvalDomain E.Fr)
    (hd : T.newDomain (n.toNat * constraintsPerValue E.fr.modBits b.toNat + (n.toNat + 1)) = some d)
    (chk : Bool) (ms : List E.Fr) (S : Strategy E.Fr)
    (hmany : (3 * d.size + 6) * E.fr.p ^ (6 + 3 * n.toNat + 3 * ms.length) <
      {g : Fin (7 + 3 * n.toNat + 3 * ms.length) → E.Fr | NmAccepts T chk b gens ms S (tapeOf g)}.ncard)
    (chk' : Bool) (f : ℕ → E.Fr) (pk : ProvingKey E) (sk : SecretKey E) (ek : EncryptionKey E) (dk : DecryptionKey E)
    (f' : ℕ → E.Fr) (l : List (Ciphertext E × Proof E)) (f'' : ℕ → E.Fr)
    (hset : setupForGroth16 T (tape E) 1 f b gens = .ok ((pk, sk, ek, dk), f'))
    (hl : encryptAll T chk' (tape E) ek pk b ms f' = .ok (l, f'')) :
    (S.cipher (view1 gens pk ek l)).verifyCommitmentAndProof
      (S.proof (view1 gens pk ek l) (view2 gens pk ek dk l)) (prepareVerifyingKey pk.pk.vk)
      ek.prepare gens.prepare = .ok () := by
  classical
  obtain ⟨c0, cs, hc0, hcs, hI, hC, -⟩ := setup_shape hn hbm
  obtain ⟨mc, cs1, -, hcs1, htape, -⟩ := Nm.run_iff T b n hb hn hbm hal c0 gens hG hH hc0 cs hcs hI d hC hd ms
  have good : ∀ (f : ℕ → E.Fr) pk sk ek dk f', setupForGroth16 T (tape E) 1 f b gens
      = .ok ((pk, sk, ek, dk), f') → d.vanishing (f 4) ≠ 0 ∧ f 2 ≠ 0 ∧ f 3 ≠ 0 := by
    intro f pk sk ek dk f' h
    unfold setupForGroth16 at h
    rw [hc0, Res.ok_bind] at h
    obtain ⟨⟨pk', st2⟩, hsrs, -⟩ := Res.bind_eq_ok.mp h
    obtain ⟨cs', d', hcs', hd', h1, h2, h3⟩ := setup_tape_good hsrs
    rw [hcs] at hcs'
    cases hcs'
    rw [hC, hI, hd] at hd'
    cases hd'
    exact ⟨h1, h2, h3⟩
  obtain ⟨K, hK⟩ : ∃ K, K = 7 + 3 * n.toNat + 3 * ms.length := ⟨_, rfl⟩
  rw [← hK, show 6 + 3 * n.toNat + 3 * ms.length = K - 1 by omega] at hmany
  -- acceptance on a tape, in terms of its first `K` entries
  have hiff : ∀ (f : ℕ → E.Fr) (g : Fin K → E.Fr) (_ : ∀ i < K, f i = tapeOf g i) (chk : Bool) pk sk ek dk f' l f''
      (_ : setupForGroth16 T (tape E) 1 f b gens = .ok ((pk, sk, ek, dk), f'))
      (_ : encryptAll T chk (tape E) ek pk b ms f' = .ok (l, f'')),
      (d.vanishing (tapeOf g 4) ≠ 0 ∧ tapeOf g 2 ≠ 0 ∧ tapeOf g 3 ≠ 0) ∧
      ((S.cipher (view1 gens pk ek l)).verifyCommitmentAndProof
        (S.proof (view1 gens pk ek l) (view2 gens pk ek dk l)) (prepareVerifyingKey pk.pk.vk)
        ek.prepare gens.prepare = .ok () ↔
      S.len = n.toNat ∧ Nm.CEq cs d n.toNat ms.length (fun j i => (mc j i : E.Fr)) S
          (Nm.ptOf (setupParams d n.toNat K) g) (Nm.rOf n.toNat (tapeOf g)) (Nm.aOf d n.toNat cs1 (tapeOf g))
          (Nm.bOf d n.toNat cs1 (tapeOf g)) ∧
        Nm.PEq cs d n.toNat ms.length (fun j i => (mc j i : E.Fr)) S
          (Nm.ptOf (setupParams d n.toNat K) g) (Nm.rOf n.toNat (tapeOf g)) (Nm.aOf d n.toNat cs1 (tapeOf g))
          (Nm.bOf d n.toNat cs1 (tapeOf g))) := by
    intro f g hfg chk pk sk ek dk f' l f'' hset hl
    obtain ⟨h1, h2, h3⟩ := good f pk sk ek dk f' hset
    refine ⟨by rw [← hfg 4 (by omega), ← hfg 2 (by omega), ← hfg 3 (by omega)]; exact ⟨h1, h2, h3⟩, ?_⟩
    obtain ⟨pk1, sk1, ek1, dk1, f1, l1, f2, hset1, hl1, hi⟩ := htape f h1 h2 h3 chk
    rw [hset] at hset1
    simp only [Res.ok.injEq, Prod.mk.injEq] at hset1
    obtain ⟨⟨rfl, rfl, rfl, rfl⟩, rfl⟩ := hset1
    rw [hl] at hl1
    simp only [Res.ok.injEq, Prod.mk.injEq] at hl1
    obtain ⟨rfl, -⟩ := hl1
    have hon : Nm.OnTape n.toNat f (Nm.ptOf (setupParams d n.toNat K) g) := by
      refine ⟨?_, ?_, ?_, ?_, ?_, ?_, ?_, ?_, ?_⟩
      · exact (hfg 4 (by omega)).symm
      · exact (hfg 0 (by omega)).symm
      · exact (hfg 1 (by omega)).symm
      · exact (hfg 2 (by omega)).symm
      · exact (hfg 3 (by omega)).symm
      · exact (hfg 5 (by omega)).symm
      · exact fun i hi => (hfg _ (by omega)).symm
      · exact fun i hi => (hfg _ (by omega)).symm
      · exact fun i hi => (hfg _ (by omega)).symm
    rw [hi _ hon S]
    obtain ⟨e1, e2⟩ := Nm.eqs_congr (d := d) cs n.toNat ms.length (fun j i => (mc j i : E.Fr)) S
      (Nm.ptOf (setupParams d n.toNat K) g)
      (r := Nm.rOf n.toNat f) (a := Nm.aOf d n.toNat cs1 f) (b := Nm.bOf d n.toNat cs1 f)
      (r' := Nm.rOf n.toNat (tapeOf g)) (a' := Nm.aOf d n.toNat cs1 (tapeOf g))
      (b' := Nm.bOf d n.toNat cs1 (tapeOf g))
      (fun j hj => hfg _ (by omega))
      (fun j hj => by
        unfold Nm.aOf
        rw [hfg 0 (by omega), hfg 4 (by omega), hfg 3 (by omega), hfg _ (by omega)])
      (fun j hj => by
        unfold Nm.bOf
        rw [hfg 1 (by omega), hfg 4 (by omega), hfg 3 (by omega), hfg _ (by omega)])
    rw [e1, e2]
  let g0 : Fin K → E.Fr := fun i => f i
  have htp : ∀ i < K, f i = tapeOf g0 i := by
    intro i hi
    unfold tapeOf
    rw [dif_pos hi]
  obtain ⟨hgood0, hi0⟩ := hiff f g0 htp chk' pk sk ek dk f' l f'' hset hl
  rw [hi0]
  let A : Finset (Fin K → E.Fr) := Finset.univ.filter fun g => NmAccepts T chk b gens ms S (tapeOf g)
  have hAcard : {g : Fin K → E.Fr | NmAccepts T chk b gens ms S (tapeOf g)}.ncard = A.card := by
    rw [Set.ncard_eq_toFinset_card']
    congr 1
    ext g
    simp [A]
  rw [hAcard] at hmany
  have hAiff : ∀ g ∈ A, (d.vanishing (tapeOf g 4) ≠ 0 ∧ tapeOf g 2 ≠ 0 ∧ tapeOf g 3 ≠ 0) ∧
      S.len = n.toNat ∧ Nm.CEq cs d n.toNat ms.length (fun j i => (mc j i : E.Fr)) S
          (Nm.ptOf (setupParams d n.toNat K) g) (Nm.rOf n.toNat (tapeOf g)) (Nm.aOf d n.toNat cs1 (tapeOf g))
          (Nm.bOf d n.toNat cs1 (tapeOf g)) ∧
        Nm.PEq cs d n.toNat ms.length (fun j i => (mc j i : E.Fr)) S
          (Nm.ptOf (setupParams d n.toNat K) g) (Nm.rOf n.toNat (tapeOf g)) (Nm.aOf d n.toNat cs1 (tapeOf g))
          (Nm.bOf d n.toNat cs1 (tapeOf g)) := by
    intro g hg
    obtain ⟨pk2, sk2, ek2, dk2, f2, l2, f3, hset2, hl2, hver⟩ := (Finset.mem_filter.mp hg).2
    obtain ⟨h1, h2⟩ := hiff (tapeOf g) g (fun _ _ => rfl) chk pk2 sk2 ek2 dk2 f2 l2 f3 hset2 hl2
    exact ⟨h1, h2.mp hver⟩
  have hN := d.size_pos
  have hr : ∀ j, PolyOn (fun g : Fin K → E.Fr => d.vanishing (tapeOf g 4) ≠ 0 ∧ tapeOf g 2 ≠ 0 ∧ tapeOf g 3 ≠ 0) 1
      (fun g => Nm.rOf n.toNat (tapeOf g) j) := fun j => tapeOf_poly _ _
  have ha : ∀ j, PolyOn (fun g : Fin K → E.Fr => d.vanishing (tapeOf g 4) ≠ 0 ∧ tapeOf g 2 ≠ 0 ∧ tapeOf g 3 ≠ 0)
      (d.size + 1) (fun g => Nm.aOf d n.toNat cs1 (tapeOf g) j) := fun j =>
    (((tapeOf_poly _ 0).mono (by omega)).add ((Nm.poly_wsum (cs1 j) _ fun w =>
      (setupParams d n.toNat K).qapA (cs1 j) w).mono (by omega))).add
      ((tapeOf_poly _ _).mul (tapeOf_poly _ 3) (by omega))
  have hbb : ∀ j, PolyOn (fun g : Fin K → E.Fr => d.vanishing (tapeOf g 4) ≠ 0 ∧ tapeOf g 2 ≠ 0 ∧ tapeOf g 3 ≠ 0)
      (d.size + 1) (fun g => Nm.bOf d n.toNat cs1 (tapeOf g) j) := fun j =>
    (((tapeOf_poly _ 1).mono (by omega)).add ((Nm.poly_wsum (cs1 j) _ fun w =>
      (setupParams d n.toNat K).qapB (cs1 j) w).mono (by omega))).add
      ((tapeOf_poly _ _).mul (tapeOf_poly _ 3) (by omega))
  have hne : A.Nonempty := Finset.card_pos.mp (by omega)
  obtain ⟨g1, hg1⟩ := hne
  refine ⟨(hAiff g1 hg1).2.1, ?_, ?_⟩
  · by_contra hc
    have := Nm.count_commit (setupParams d n.toNat K) cs n.toNat ms.length (fun j i => (mc j i : E.Fr)) hr ha hbb S g0
      hgood0 hc A (fun g hg => ⟨(hAiff g hg).1, (hAiff g hg).2.2.1⟩)
    omega
  · by_contra hc
    have := Nm.count_proof (setupParams d n.toNat K) cs n.toNat ms.length (fun j i => (mc j i : E.Fr)) hr ha hbb S g0
      hgood0 hc A (fun g hg => ⟨(hAiff g hg).1, (hAiff g hg).2.2.2⟩)
    omega

namespace Nm

theorem size_of_many {K D c p : ℕ} (hK : 0 < K) (h : D * p ^ (K - 1) < c) (hc : c ≤ p ^ K) : D < p := by
  have h2 := h.trans_le hc
  obtain ⟨k, rfl⟩ : ∃ k, K = k + 1 := ⟨K - 1, by omega⟩
  rw [Nat.add_sub_cancel, pow_succ, Nat.mul_comm] at h2
  exact Nat.lt_of_mul_lt_mul_left h2

theorem ncard_draws (K : ℕ) (s : Set (Fin K → E.Fr)) : s.ncard ≤ E.fr.p ^ K := by
  refine (Set.ncard_le_card _).trans (le_of_eq ?_)
  rw [Nat.card_eq_fintype_card, Fintype.card_fun, Fintype.card_fin]
  congr 1
  exact ZMod.card _

end Nm

/-- **C83** An adversary that sees honest ciphertexts and proofs and is accepted on more than a `(3 size + 6) / p`
fraction of the draws either encrypts chunks fixed in advance, using nothing of what it saw, or re-randomises the
ciphertext of one user fixed in advance, in every run. -/
theorem C83_non_malleable (T : FftCfg E.Fr) (b n : UInt8) (hb : Supported b) (hn : chunksCount E.fr b = .ok n)
    (hbm : b.toNat ≤ E.fr.modBits)
    (hal : 64 * E.fr.limbs < E.fr.modBits + b.toNat ∧ chunksNeeded E.fr b.toNat ≤ 255)
    (gens : EncryptionGens E) (hG : gens.G ≠ 0) (hH : gens.H ≠ 0) (d : EvalDomain E.Fr)
    (hd : T.newDomain (n.toNat * constraintsPerValue E.fr.modBits b.toNat + (n.toNat + 1)) = some d)
    (chk : Bool) (ms : List E.Fr) (S : Strategy E.Fr)
    (hmany : (3 * d.size + 6) * E.fr.p ^ (6 + 3 * n.toNat + 3 * ms.length) <
      {g : Fin (7 + 3 * n.toNat + 3 * ms.length) → E.Fr | NmAccepts T chk b gens ms S (tapeOf g)}.ncard) :
    (∃ (m : ℕ → ℕ) (r : E.Fr), (∀ i < n.toNat, m i < 2 ^ b.toNat ∧ m i < E.fr.p) ∧
      ∀ (R : RngCore E) (fuel : ℕ) (st st' : R.σ) pk sk ek dk,
        setupForGroth16 T R fuel st b gens = .ok ((pk, sk, ek, dk), st') →
        ∀ (chk' : Bool) (R' : RngCore E) (st1 st2 : R'.σ) l,
          encryptAll T chk' R' ek pk b ms st1 = .ok (l, st2) →
          S.cipher (view1 gens pk ek l) = cipher ek (fun i => pk.pk.vk.gamma_abc_g1.tail.getD i 0) m r) ∨
    ∃ (j : ℕ) (u : E.Fr), j < ms.length ∧
      ∀ (R : RngCore E) (fuel : ℕ) (st st' : R.σ) pk sk ek dk,
        setupForGroth16 T R fuel st b gens = .ok ((pk, sk, ek, dk), st') →
        ∀ (chk' : Bool) (R' : RngCore E) (st1 st2 : R'.σ) l,
          encryptAll T chk' R' ek pk b ms st1 = .ok (l, st2) →
          ∃ ct proof, l[j]? = some (ct, proof) ∧
            S.cipher (view1 gens pk ek l) = rerandomise ek u ct := by
  have hp : 3 * d.size < E.fr.p := by
    have := Nm.size_of_many (K := 7 + 3 * n.toNat + 3 * ms.length) (by omega)
      (by rw [show 7 + 3 * n.toNat + 3 * ms.length - 1 = 6 + 3 * n.toNat + 3 * ms.length by omega]; exact hmany)
      (Nm.ncard_draws _ _)
    omega
  exact C81_non_malleable T b n hb hn hbm hal gens hG hH d hd hp chk ms S
    (fun f pk sk ek dk f' l f'' h1 h2 => C83_all_or_few T b n hb hn hbm hal gens hG hH d hd chk ms S hmany chk f pk sk
      ek dk f' l f'' h1 h2)

/-- **C83** the plaintext version, for an adversary that is accepted on more than this fraction of the draws for
all honest messages: what it encrypts decrypts to chunks that do not depend on the honest messages, or to the
message of one user fixed in advance. -/
theorem C83_plaintext (T : FftCfg E.Fr) (b n : UInt8) (hb : Supported b) (hn : chunksCount E.fr b = .ok n)
    (hbm : b.toNat ≤ E.fr.modBits)
    (hal : 64 * E.fr.limbs < E.fr.modBits + b.toNat ∧ chunksNeeded E.fr b.toNat ≤ 255)
    (gens : EncryptionGens E) (hG : gens.G ≠ 0) (hH : gens.H ≠ 0) (d : EvalDomain E.Fr)
    (hd : T.newDomain (n.toNat * constraintsPerValue E.fr.modBits b.toNat + (n.toNat + 1)) = some d)
    (chk : Bool) (q : ℕ) (S : Strategy E.Fr)
    (hmany : ∀ ms : List E.Fr, ms.length = q → (3 * d.size + 6) * E.fr.p ^ (6 + 3 * n.toNat + 3 * q) <
      {g : Fin (7 + 3 * n.toNat + 3 * q) → E.Fr | NmAccepts T chk b gens ms S (tapeOf g)}.ncard) :
    (∃ chunks : List UInt16, chunks.length = n.toNat ∧
      ∀ (R : RngCore E) (fuel : ℕ) (st st' : R.σ) pk sk ek dk g_i,
        setupForGroth16 T R fuel st b gens = .ok ((pk, sk, ek, dk), st') → getGsForEncryption pk.pk.vk = .ok g_i →
        (∀ g ∈ g_i, g ≠ 0) → (∀ V ∈ dk.V_2, V ≠ 0) →
        ∀ (ms : List E.Fr), ms.length = q → ∀ (chk' : Bool) (R' : RngCore E) (st1 st2 : R'.σ) l,
          encryptAll T chk' R' ek pk b ms st1 = .ok (l, st2) → ∀ chk'', ∃ nu,
            decryptToChunks chk'' (S.cipher (view1 gens pk ek l)).X_r (S.cipher (view1 gens pk ek l)).enc_chunks
              sk dk.prepare g_i b = .ok (chunks, nu)) ∨
    ∃ (j : ℕ), j < q ∧
      ∀ (R : RngCore E) (fuel : ℕ) (st st' : R.σ) pk sk ek dk g_i,
        setupForGroth16 T R fuel st b gens = .ok ((pk, sk, ek, dk), st') → getGsForEncryption pk.pk.vk = .ok g_i →
        (∀ g ∈ g_i, g ≠ 0) → (∀ V ∈ dk.V_2, V ≠ 0) →
        ∀ (ms : List E.Fr), ms.length = q → ∀ (chk' : Bool) (R' : RngCore E) (st1 st2 : R'.σ) l,
          encryptAll T chk' R' ek pk b ms st1 = .ok (l, st2) → ∀ chk'', ∃ m nu, ms[j]? = some m ∧
            (S.cipher (view1 gens pk ek l)).decrypt chk'' sk dk.prepare g_i b = .ok (m, nu) := by
  have hp : 3 * d.size < E.fr.p := by
    have := Nm.size_of_many (K := 7 + 3 * n.toNat + 3 * q) (by omega)
      (by
        rw [show 7 + 3 * n.toNat + 3 * q - 1 = 6 + 3 * n.toNat + 3 * q by omega]
        exact hmany (List.replicate q 0) (List.length_replicate ..))
      (Nm.ncard_draws _ _)
    omega
  refine C81_plaintext T b n hb hn hbm hal gens hG hH d hd hp chk q S ?_
  intro ms hms f pk sk ek dk f' l f'' h1 h2
  subst hms
  exact C83_all_or_few T b n hb hn hbm hal gens hG hH d hd chk ms S (hmany ms rfl) chk f pk sk ek dk f' l f'' h1 h2

/-- **C83** An adversary that is accepted in every run is accepted on all but a `(size + 2) / p` fraction of the
draws, those on which `generate_srs` does not succeed at the first candidate. -/
theorem C83_fraction (T : FftCfg E.Fr) (b n : UInt8) (hb : Supported b) (hn : chunksCount E.fr b = .ok n)
    (hbm : b.toNat ≤ E.fr.modBits)
    (hal : 64 * E.fr.limbs < E.fr.modBits + b.toNat ∧ chunksNeeded E.fr b.toNat ≤ 255)
    (gens : EncryptionGens E) (hG : gens.G ≠ 0) (hH : gens.H ≠ 0) (d : EvalDomain E.Fr)
    (hd : T.newDomain (n.toNat * constraintsPerValue E.fr.modBits b.toNat + (n.toNat + 1)) = some d)
    (hp : d.size < E.fr.p) (chk : Bool) (ms : List E.Fr) (S : Strategy E.Fr)
    (hacc : ∀ (f : ℕ → E.Fr) pk sk ek dk f' l f'', setupForGroth16 T (tape E) 1 f b gens
        = .ok ((pk, sk, ek, dk), f') → encryptAll T chk (tape E) ek pk b ms f' = .ok (l, f'') →
      (S.cipher (view1 gens pk ek l)).verifyCommitmentAndProof
        (S.proof (view1 gens pk ek l) (view2 gens pk ek dk l)) (prepareVerifyingKey pk.pk.vk)
        ek.prepare gens.prepare = .ok ()) :
    E.fr.p ^ (7 + 3 * n.toNat + 3 * ms.length) ≤
      {g : Fin (7 + 3 * n.toNat + 3 * ms.length) → E.Fr | NmAccepts T chk b gens ms S (tapeOf g)}.ncard +
        (d.size + 2) * E.fr.p ^ (6 + 3 * n.toNat + 3 * ms.length) := by
  classical
  obtain ⟨c0, cs, hc0, hcs, hI, hC, -⟩ := setup_shape hn hbm
  obtain ⟨mc, cs1, -, -, htape, -⟩ := Nm.run_iff T b n hb hn hbm hal c0 gens hG hH hc0 cs hcs hI d hC hd ms
  let A : Finset (Fin (7 + 3 * n.toNat + 3 * ms.length) → E.Fr) :=
    Finset.univ.filter fun g => NmAccepts T chk b gens ms S (tapeOf g)
  let B : Finset (Fin (7 + 3 * n.toNat + 3 * ms.length) → E.Fr) :=
    Finset.univ.filter fun g => d.vanishing (tapeOf g 4) * (tapeOf g 2 * tapeOf g 3) = 0
  have hAcard : {g : Fin (7 + 3 * n.toNat + 3 * ms.length) → E.Fr |
      NmAccepts T chk b gens ms S (tapeOf g)}.ncard = A.card := by
    rw [Set.ncard_eq_toFinset_card']
    congr 1
    ext g
    simp [A]
  rw [hAcard]
  have hcov : (Finset.univ : Finset (Fin (7 + 3 * n.toNat + 3 * ms.length) → E.Fr)) ⊆ A ∪ B := by
    intro g _
    by_cases hg : d.vanishing (tapeOf g 4) * (tapeOf g 2 * tapeOf g 3) = 0
    · exact Finset.mem_union_right _ (Finset.mem_filter.mpr ⟨Finset.mem_univ _, hg⟩)
    · refine Finset.mem_union_left _ (Finset.mem_filter.mpr ⟨Finset.mem_univ _, ?_⟩)
      obtain ⟨pk, sk, ek, dk, f1, l, f2, hset, hl, -⟩ := htape (tapeOf g) (left_ne_zero_of_mul hg)
        (left_ne_zero_of_mul (right_ne_zero_of_mul hg)) (right_ne_zero_of_mul (right_ne_zero_of_mul hg)) chk
      exact ⟨pk, sk, ek, dk, f1, l, f2, hset, hl, hacc _ _ _ _ _ _ _ _ hset hl⟩
  have hB := Nm.bad_count d hp _ (by omega) B fun g hg => (Finset.mem_filter.mp hg).2
  rw [show 7 + 3 * n.toNat + 3 * ms.length - 1 = 6 + 3 * n.toNat + 3 * ms.length by omega] at hB
  rw [← Nm.card_draws]
  exact (Finset.card_le_card hcov).trans ((Finset.card_union_le _ _).trans (Nat.add_le_add_left hB _))

end

theorem Nm.many_of_fraction {N p c k : ℕ} (hbig : 4 * N + 9 ≤ p) (h : p ^ (k + 1) ≤ c + (N + 2) * p ^ k) :
    (3 * N + 6) * p ^ k < c := by
  have hpos : 0 < p ^ k := Nat.pow_pos (by omega)
  rw [pow_succ] at h
  generalize p ^ k = q at h hpos ⊢
  have h2 := Nat.mul_le_mul_left q hbig
  nlinarith

/-- The hypothesis of `C83_non_malleable` is met by the concrete instance: two users encrypt 11 and 22, and the
adversary re-randomises the ciphertext and the proof of the second. -/
example : ∃ S : Strategy Fix.E.Fr, (3 * Fix.dom8.size + 6) * Fix.E.fr.p ^ (6 + 3 * (8 : UInt8).toNat + 3 * 2) <
    {g : Fin (7 + 3 * (8 : UInt8).toNat + 3 * 2) → Fix.E.Fr | NmAccepts goldFft true 8 Fix.gens
      [(show Fix.E.Fr from (11 : Fix.F)), (show Fix.E.Fr from (22 : Fix.F))] S (tapeOf g)}.ncard := by
  have hbig : 4 * Fix.dom8.size + 9 ≤ Fix.E.fr.p := by
    rw [show Fix.dom8.size = 2 ^ 10 from rfl]
    exact (by decide : 4 * 2 ^ 10 + 9 ≤ goldR)
  obtain ⟨S, hS⟩ := C81_rerandomiser (E := Fix.E) goldFft 8 8 (Or.inr (Or.inl rfl)) Fix.count8 Fix.bits8 Fix.aligned8
    Fix.gens Fix.gens_ne.2 Fix.dom8 Fix.dom8_count
    [(show Fix.E.Fr from (11 : Fix.F)), (show Fix.E.Fr from (22 : Fix.F))] 1 (by decide)
    (show Fix.E.Fr from (5 : Fix.F)) 1 0 one_ne_zero
  refine ⟨S, Nm.many_of_fraction hbig ?_⟩
  exact C83_fraction (E := Fix.E) goldFft 8 8 (Or.inr (Or.inl rfl)) Fix.count8 Fix.bits8 Fix.aligned8
    Fix.gens Fix.gens_ne.1 Fix.gens_ne.2 Fix.dom8 Fix.dom8_count (by omega) true
    [(show Fix.E.Fr from (11 : Fix.F)), (show Fix.E.Fr from (22 : Fix.F))] S
    (fun f pk sk ek dk f' l f'' h1 h2 => (hS (tape Fix.E) 1 f f' pk sk ek dk h1 true (tape Fix.E) f' f'' l h2).2)

end Verif
