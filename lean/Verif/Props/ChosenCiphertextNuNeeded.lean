/-
Property C91, continued: the game is not trivial, and `nu` has to be withheld together with the message.
-/
import Verif.Props.ChosenCiphertextNu

namespace Verif
open Spec Agm

section
variable {E : Engine}

namespace CcaNu

/-- the question whether the message of the submitted ciphertext has `c` as chunk `i` -/
theorem chunk_question (nW nH V n i : ℕ) (hi : i < n) (S : Strategy E.Fr) (c : E.Fr) :
    ∃ q : Question E, ∀ (gens : EncryptionGens E) (pk : ProvingKey E) (ek : EncryptionKey E) (dk : DecryptionKey E)
      (l : List (Ciphertext E × Proof E)) (nu : E.G1), Nm.Shape nW nH V (n + 1) n pk ek dk → l.length = 1 →
      (∀ p ∈ l, p.1.enc_chunks.length = n) →
      (q.Yes (view1 gens pk ek l ++ [nu]) (view2 gens pk ek dk l) ↔
        E.e (comb (S.chunk i) (view1 gens pk ek l)) (dk.V_2.getD i 0) - E.e nu (dk.V_1.getD i 0) -
          c • E.e (pk.pk.vk.gamma_abc_g1.getD (1 + i) 0) (dk.V_2.getD i 0) = 0) := by
  let Ω := {ω : EncryptionGens E × ProvingKey E × EncryptionKey E × DecryptionKey E ×
    List (Ciphertext E × Proof E) × E.G1 // Nm.Shape nW nH V (n + 1) n ω.2.1 ω.2.2.1 ω.2.2.2.1 ∧
      ω.2.2.2.2.1.length = 1 ∧ ∀ p ∈ ω.2.2.2.2.1, p.1.enc_chunks.length = n}
  let L : Ω → List E.G1 := fun ω => view1 ω.1.1 ω.1.2.1 ω.1.2.2.1 ω.1.2.2.2.2.1
  let L1 : Ω → List E.G1 := fun ω => L ω ++ [ω.1.2.2.2.2.2]
  let L2 : Ω → List E.G2 := fun ω => view2 ω.1.1 ω.1.2.1 ω.1.2.2.1 ω.1.2.2.2.1 ω.1.2.2.2.2.1
  have hN : ∃ N, ∀ ω : Ω, (L ω).length = N := by
    refine ⟨nW + (nH + (5 + (V + (V + (n + 1 + (1 + (n + (1 + (n + 1))))))))) + (n + 4), fun ω => ?_⟩
    obtain ⟨⟨gens, pk, ek, dk, l, nu⟩, h1, h2, h3⟩ := ω
    obtain ⟨p, rfl⟩ := List.length_eq_one_iff.mp h2
    have h4 := h3 p (by simp)
    show (public1 gens pk ek ++ seen1 [p]).length = _
    rw [List.length_append, (Nm.public_getD h1 gens).1]
    simp [seen1, h4]
  obtain ⟨N, hN⟩ := hN
  have h0 : Span.All E.Fr L1 L1 := Span.All.refl (N := N + 1) fun ω => by
    show (L ω ++ _).length = _
    rw [List.length_append, hN, List.length_singleton]
  have hL : Span.All E.Fr L1 L := Span.All.left h0 hN
  have hnu : Span.In E.Fr L1 fun ω => ω.1.2.2.2.2.2 := (Span.All.right h0 hN).2 0
  have hg : Span.In E.Fr L1 fun ω => ω.1.2.1.pk.vk.gamma_abc_g1.getD (1 + i) 0 := by
    refine (hL.2 (nW + (nH + (5 + (V + (V + (1 + i))))))).congr fun ω => ?_
    have h := ω.2.1
    show _ = (public1 _ _ _ ++ _).getD _ _
    have hl := (Nm.public_getD h ω.1.1).1
    rw [List.getD_append _ _ _ _ (by rw [hl]; omega)]
    unfold public1
    rw [Nm.getD_skip h.l, Nm.getD_skip h.h, Nm.getD_skip (N := 5) rfl, Nm.getD_skip h.a, Nm.getD_skip h.b1,
      List.getD_append _ _ _ _ (by rw [h.g]; omega)]
  have hV : ∀ j < n + n, Span.In E.Fr L2 fun ω => (ω.1.2.2.2.1.V_1 ++ ω.1.2.2.2.1.V_2).getD j 0 := by
    intro j hj
    refine (Span.In.get (4 + (V + (n + 1 + (1 + j))))).congr fun ω => ?_
    have h := ω.2.1
    have hl := (Nm.public_getD h ω.1.1).2.2.2.2.2.1
    refine Eq.trans ?_ (List.getD_append (public2 ω.1.1 ω.1.2.1 ω.1.2.2.1 ω.1.2.2.2.1) _ _ _
      (by rw [hl]; omega)).symm
    unfold public2
    rw [Nm.getD_skip (N := 4) rfl, Nm.getD_skip h.b2, Nm.getD_skip h.Z, Nm.getD_skip (N := 1) rfl]
  have hV1 : Span.In E.Fr L2 fun ω => ω.1.2.2.2.1.V_1.getD i 0 := (hV i (by omega)).congr fun ω => by
    rw [List.getD_append _ _ _ _ (by rw [ω.2.1.V1]; omega)]
  have hV2 : Span.In E.Fr L2 fun ω => ω.1.2.2.2.1.V_2.getD i 0 := (hV (n + i) (by omega)).congr fun ω => by
    rw [Nm.getD_skip ω.2.1.V1]
  obtain ⟨q, hq⟩ := (((Span.Pair.e (hL.comb (S.chunk i)) hV2).sub (Span.Pair.e hnu hV1)).sub
    ((Span.Pair.e hg hV2).smul c)).question
  exact ⟨q, fun gens pk ek dk l nu h1 h2 h3 => hq ⟨⟨gens, pk, ek, dk, l, nu⟩, h1, h2, h3⟩⟩

/-- different messages differ in a chunk, also when chunks are read as scalars -/
theorem chunk_differs {b : UInt8} (hb : Supported b) {m m' : E.Fr} (h : m ≠ m') {d d' : List UInt16}
    (hd : decompose (K := E.fr) m b = .ok d) (hd' : decompose (K := E.fr) m' b = .ok d') :
    ∃ i < d.length, (((nums d).getD i 0 : ℕ) : E.Fr) ≠ (((nums d').getD i 0 : ℕ) : E.Fr) := by
  obtain ⟨_, h1, hl, -, hp⟩ := decompose_spec (K := E.fr) m hb
  rw [hd] at h1
  cases h1
  obtain ⟨_, h1, hl', -, hp'⟩ := decompose_spec (K := E.fr) m' hb
  rw [hd'] at h1
  cases h1
  by_contra hc
  push Not at hc
  have hlen : (nums d).length = d.length := by simp [nums]
  have hlen' : (nums d').length = d.length := by simp [nums]; omega
  have e : ((positional (2 ^ b.toNat) (nums d) : ℕ) : E.Fr) = ((positional (2 ^ b.toNat) (nums d') : ℕ) : E.Fr) := by
    unfold positional
    rw [hlen, hlen']
    push_cast
    refine Finset.sum_congr rfl fun i hi => ?_
    rw [hc i (Finset.mem_range.mp hi)]
  rw [hp, hp'] at e
  exact h (by simpa using e)

end CcaNu

section
variable (T : FftCfg E.Fr) (b n : UInt8) (hb : Supported b) (hn : chunksCount E.fr b = .ok n)
    (hbm : b.toNat ≤ E.fr.modBits)
    (hal : 64 * E.fr.limbs < E.fr.modBits + b.toNat ∧ chunksNeeded E.fr b.toNat ≤ 255)
    (gens : EncryptionGens E) (hG : gens.G ≠ 0) (hH : gens.H ≠ 0) (d : EvalDomain E.Fr)
    (hd : T.newDomain (n.toNat * constraintsPerValue E.fr.modBits b.toNat + (n.toNat + 1)) = some d)
include hb hn hbm hal hH hd

/-- an adversary that always guesses "right" is never stopped -/
theorem CcaNu.right_play (keepNu side chk : Bool) (f f' : ℕ → E.Fr) (pk sk ek dk)
    (hset : setupForGroth16 T (tape E) 1 f b gens = .ok ((pk, sk, ek, dk), f')) (A : CcaAdversary E) :
    A.AlwaysRight → ∀ (M ms : List E.Fr) (f'' : ℕ → E.Fr) (l) (nus : List E.G1),
      encryptAll T chk (tape E) ek pk b ms f' = .ok (l, f'') →
      playNu keepNu side T chk b gens pk sk ek dk A M f'' l nus = true := by
  induction A with
  | guess a => exact fun h M ms f'' l nus _ => h
  | ask Q yes no ihy ihn =>
    intro h M ms f'' l nus hl
    simp only [playNu]
    split
    · exact ihy h.1 M ms f'' l nus hl
    · exact ihn h.2 M ms f'' l nus hl
  | challenge m0 m1 next ih =>
    intro h M ms f'' l nus hl
    obtain ⟨ct, r, proof, f3, henc, hl'⟩ := Cca.next_encryption T b n hb hn hbm hal gens hH d hd chk f f' f'' pk sk ek
      dk ms l hset hl (if side then m1 else m0)
    simp only [playNu]
    rw [henc]
    exact ih h _ _ _ _ _ hl'
  | submit S next ih =>
    intro h M ms f'' l nus hl
    simp only [playNu]
    exact ih _ (h _) M ms f'' l _ hl

/-- **C91** The games are not trivially the same because they stop: an adversary that always guesses "right" does so on
all but a `(size + 2) / p` fraction of the draws, in both games. -/
theorem C91_no_abort (hp : d.size < E.fr.p) (keepNu side chk : Bool) (A : CcaAdversary E) (hA : A.AlwaysRight)
    (K : ℕ) (hK : 7 + 3 * n.toNat ≤ K) :
    E.fr.p ^ K ≤ rightGuessesNu keepNu K side T chk b gens A + (d.size + 2) * E.fr.p ^ (K - 1) := by
  classical
  obtain ⟨Bad, hBad, h⟩ := Cca.setups T b n hb hn hbm hal gens hH d hd hp K hK
  rw [← Nm.card_draws]
  unfold rightGuessesNu
  refine (Finset.card_le_card (t := (Finset.univ.filter fun x : Fin K → E.Fr =>
      experimentNu keepNu side T chk b gens A (tapeOf x) = true) ∪ Bad) ?_).trans ((Finset.card_union_le _ _).trans
        (Nat.add_le_add_left hBad _))
  intro g _
  rw [Finset.mem_union]
  by_cases hg : g ∈ Bad
  · exact Or.inr hg
  · refine Or.inl (Finset.mem_filter.mpr ⟨Finset.mem_univ _, ?_⟩)
    obtain ⟨pk, sk, ek, dk, f', hset⟩ := h g hg
    unfold experimentNu
    rw [hset]
    exact CcaNu.right_play T b n hb hn hbm hal gens hH d hd keepNu side chk _ _ pk sk ek dk hset A hA [] [] f' [] [] rfl

include hG in
/-- **C91** `nu` has to be withheld together with the message: if the holder of the secret key keeps back the messages
that the adversary has handed over itself, but not the element `nu` of such a decryption, then an adversary that
receives one encryption, re-randomises it, submits it once and asks one question distinguishes any two messages on all
but few draws. -/
theorem C91_withholding_nu_needed (hp : 3 * d.size < E.fr.p) (chk : Bool) (m0 m1 : E.Fr) (hm : m0 ≠ m1) :
    ∃ A : CcaAdversary E, A.AtMost 1 1 1 ∧ ∀ K, 7 + 3 * n.toNat ≤ K →
      E.fr.p ^ K ≤ rightGuessesNu false K true T chk b gens A +
        (d.size + 2 * n.toNat + 3) * E.fr.p ^ (K - 1) ∧
      rightGuessesNu false K false T chk b gens A ≤ (2 * n.toNat + 1) * E.fr.p ^ (K - 1) := by
  classical
  obtain ⟨S, hS⟩ := C81_rerandomiser_uniform T b n hb hn hbm hal gens hH d hd 1 0 (by omega) 1 1 0 one_ne_zero
  obtain ⟨c0, cs, hc0, hcs, hI, hC, -⟩ := setup_shape hn hbm
  have hd' : T.newDomain (cs.cons.length + cs.numInst) = some d := by rw [hC, hI]; exact hd
  have hl2 := (decomp_len_eq_iff E.fr b n hb hn).mpr hal
  obtain ⟨d0, hd0, hdl0, -⟩ := decompose_spec (K := E.fr) m0 hb
  obtain ⟨d1, hd1, hdl1, -⟩ := decompose_spec (K := E.fr) m1 hb
  obtain ⟨i, hi, hne⟩ := CcaNu.chunk_differs hb hm hd0 hd1
  have hin : i < n.toNat := by omega
  obtain ⟨q, hq⟩ := CcaNu.chunk_question (E := E) cs.numWit (d.size - 1) cs.vars.length n.toNat i hin S
    (((nums d1).getD i 0 : ℕ) : E.Fr)
  let A : CcaAdversary E := .challenge m0 m1 (.submit S fun _ => .ask q (.guess true) (.guess false))
  refine ⟨A, ⟨le_refl _, le_refl _, fun r => ⟨le_refl _, trivial, trivial⟩⟩, fun K hK => ?_⟩
  obtain ⟨Bad, hBad, hset0⟩ := Cca.setups T b n hb hn hbm hal gens hH d hd (by omega) K hK
  obtain ⟨Deg, hDeg, hnd⟩ := Cca.degenerate T b n hb hn hbm hal gens hG hH d hd K (by omega)
  have hplay : ∀ side g pk sk ek dk f', setupForGroth16 T (tape E) 1 (tapeOf g) b gens = .ok ((pk, sk, ek, dk), f') →
      g ∉ Deg → experimentNu false side T chk b gens A (tapeOf g) = side := by
    intro side g pk sk ek dk f' hset hg
    have hndg := hnd g hg _ _ _ _ _ hset
    obtain ⟨ct, r, proof, f3, henc, hl⟩ := Cca.next_encryption T b n hb hn hbm hal gens hH d hd chk _ f' f' pk sk ek dk
      [] [] hset rfl (if side then m1 else m0)
    rw [List.nil_append, List.nil_append] at hl
    obtain ⟨⟨ct', proof', h1, h2, -⟩, hacc⟩ := hS _ rfl (tape E) 1 _ f' pk sk ek dk hset chk (tape E) f' f3 _ hl
    simp only [List.getElem?_cons_zero, Option.some.injEq, Prod.mk.injEq] at h1
    obtain ⟨rfl, rfl⟩ := h1
    obtain ⟨m, hmj, hdec⟩ := CcaNu.decrypt_rerandomised T b n hb hn hbm hal gens chk _ f' f3 pk sk ek dk _ _ hset
      hl hndg 0 ct proof rfl 1
    simp only [List.getElem?_cons_zero, Option.some.injEq] at hmj
    have hopen : openWithNu false chk b gens pk sk ek dk [m0, m1] (S.cipher (view1 gens pk ek [(ct, proof)]))
        (S.proof (view1 gens pk ek [(ct, proof)]) (view2 gens pk ek dk [(ct, proof)])) =
        (.withheld, [sk.rho • (rerandomise ek 1 ct).X_r]) := by
      unfold openWithNu
      rw [hacc, h2, hdec]
      dsimp only
      rw [if_pos (by rw [← hmj]; cases side <;> simp)]
      rfl
    -- the honest ciphertext
    have hsh := Nm.setup_Shape hn hc0 hcs hd' hset
    rw [hI] at hsh
    obtain ⟨tau, alpha, beta, gamma, delta, s, t, v, g_i, -, -, -, -, hg0, hgl, hek, hdk⟩ :=
      setup_inv hn hc0 hcs hd' hset
    obtain ⟨g_i', st4, hsrs, hg', hk⟩ := Nm.setup_parts hc0 hset
    rw [hg0] at hg'
    cases hg'
    obtain ⟨-, h3⟩ := Nm.encryptAll_facts T (tape E) 1 _ st4 b hb hal c0 gens pk hc0 hsrs g_i hg0 ek hk chk (tape E) _ f'
      f3 _ hl
    obtain ⟨m', st5, r', hm', henc', -⟩ := h3 0 _ rfl
    simp only [List.getElem?_cons_zero, Option.some.injEq] at hm'
    have hwf : WellFormed ek := by rw [hek]; exact encKey_wf _ _ _ _ _ _ _
    have hX : ek.X.length = n.toNat := hsh.X
    obtain ⟨dm, hdm, hdml, -⟩ := decompose_spec (K := E.fr) m' hb
    have hct := encrypt_ok (tape E) st5 m' ek g_i b hdm hwf (by rw [hX]; exact n.toNat_lt) (by omega) (by omega)
    rw [henc'] at hct
    simp only [Res.ok.injEq, Prod.mk.injEq] at hct
    obtain ⟨⟨hct, -⟩, -⟩ := hct
    have hlen : ∀ p ∈ [(ct, proof)], p.1.enc_chunks.length = n.toNat := by
      intro p hp
      rw [List.mem_singleton] at hp
      rw [hp]
      show ct.enc_chunks.length = _
      rw [hct]
      simp [cipher, hX]
    have hq1 := hq gens pk ek dk [(ct, proof)] (sk.rho • (rerandomise ek 1 ct).X_r) hsh rfl hlen
    -- what the question means
    have hch : comb (S.chunk i) (view1 gens pk ek [(ct, proof)]) =
        (draw (tape E) st5 0 + 1) • ek.X.getD i 0 + (nums dm).getD i 0 • g_i.getD i 0 := by
      have hce : ct.enc_chunks = tab n.toNat fun i => draw (tape E) st5 0 • ek.X.getD i 0 +
          (nums dm).getD i 0 • g_i.getD i 0 := by
        rw [hct, ← hX]
        rfl
      have hc := congrArg Ciphertext.enc_chunks h2
      simp only [Strategy.cipher, rerandomise, hce, length_tab] at hc
      have hlenS : S.len = n.toNat := by
        have := congrArg List.length hc
        simpa using this
      have a1 := congrArg (fun L => L.getD i 0) hc
      simp only [hlenS, getD_tab, if_pos hin] at a1
      rw [a1]
      module
    have hgt : pk.pk.vk.gamma_abc_g1.getD (1 + i) 0 = g_i.getD i 0 := by
      rw [Cca.gs_tail hg0]
      cases pk.pk.vk.gamma_abc_g1 with
      | nil => rfl
      | cons x xs => rw [Nat.add_comm]; rfl
    have hgne : g_i.getD i 0 ≠ 0 := by
      have : i < g_i.length := by omega
      rw [List.getD_eq_getElem _ _ this]
      refine hndg.1 _ ?_
      rw [← Cca.gs_tail hg0]
      exact List.getElem_mem _
    have hVne : dk.V_2.getD i 0 ≠ 0 := by
      have : i < dk.V_2.length := by rw [hsh.V2]; exact hin
      rw [List.getD_eq_getElem _ _ this]
      exact hndg.2 _ (List.getElem_mem _)
    have hene : E.e (g_i.getD i 0) (dk.V_2.getD i 0) ≠ 0 := fun h => (E.nondeg _ _ h).elim hgne hVne
    have heq : E.e (comb (S.chunk i) (view1 gens pk ek [(ct, proof)])) (dk.V_2.getD i 0) -
        E.e (sk.rho • (rerandomise ek 1 ct).X_r) (dk.V_1.getD i 0) -
          (((nums d1).getD i 0 : ℕ) : E.Fr) • E.e (pk.pk.vk.gamma_abc_g1.getD (1 + i) 0) (dk.V_2.getD i 0) =
        ((((nums dm).getD i 0 : ℕ) : E.Fr) - (((nums d1).getD i 0 : ℕ) : E.Fr)) •
          E.e (g_i.getD i 0) (dk.V_2.getD i 0) := by
      rw [hch, hgt, nsmul_fr (E := E)]
      have hXi : ek.X.getD i 0 = s i • ek.X_0 := by
        rw [hek]
        simp only [encKey, getD_tab, if_pos hin]
      have hXr : (rerandomise ek 1 ct).X_r = (draw (tape E) st5 0 + 1) • ek.X_0 := by
        rw [hct]
        simp only [rerandomise, cipher]
        module
      have hv1 : dk.V_1.getD i 0 = (s i * v i) • gens.H := by
        rw [hdk]
        simp only [decKey, getD_tab, if_pos hin]
      have hv2 : dk.V_2.getD i 0 = (sk.rho * v i) • gens.H := by
        rw [hdk]
        simp only [decKey, getD_tab, if_pos hin]
      rw [hXi, hXr, hv1, hv2]
      simp only [map_add, LinearMap.add_apply, map_smul, LinearMap.smul_apply]
      module
    have hyes : q.Yes (view1 gens pk ek [(ct, proof)] ++ [sk.rho • (rerandomise ek 1 ct).X_r])
        (view2 gens pk ek dk [(ct, proof)]) ↔ side = true := by
      rw [hq1, heq, smul_eq_zero, or_iff_left hene, sub_eq_zero]
      cases side with
      | true =>
        rw [if_pos rfl] at hm'
        subst hm'
        rw [hd1] at hdm
        cases hdm
        simp
      | false =>
        rw [if_neg (by simp)] at hm'
        subst hm'
        rw [hd0] at hdm
        cases hdm
        simpa using hne
    unfold experimentNu
    rw [hset]
    simp only [A, playNu]
    rw [henc]
    dsimp only
    simp only [List.nil_append, List.append_nil]
    rw [hopen]
    dsimp only
    cases side with
    | true => rw [if_pos (hyes.mpr rfl)]
    | false => rw [if_neg (fun h => by simpa using hyes.mp h)]
  constructor
  · rw [← Nm.card_draws]
    unfold rightGuessesNu
    refine (Finset.card_le_card (t := (Finset.univ.filter fun x : Fin K → E.Fr =>
        experimentNu false true T chk b gens A (tapeOf x) = true) ∪ (Bad ∪ Deg)) ?_).trans
          ((Finset.card_union_le _ _).trans (Nat.add_le_add_left ((Finset.card_union_le _ _).trans ?_) _))
    · intro g _
      rw [Finset.mem_union]
      by_cases hg : g ∈ Bad ∪ Deg
      · exact Or.inr hg
      · rw [Finset.mem_union, not_or] at hg
        refine Or.inl (Finset.mem_filter.mpr ⟨Finset.mem_univ _, ?_⟩)
        obtain ⟨pk, sk, ek, dk, f', hset⟩ := hset0 g hg.1
        exact hplay true g _ _ _ _ _ hset hg.2
    · rw [show d.size + 2 * n.toNat + 3 = d.size + 2 + (2 * n.toNat + 1) by omega, Nat.add_mul]
      omega
  · refine le_trans (Finset.card_le_card ?_) hDeg
    intro g hg
    by_contra hc
    have := (Finset.mem_filter.mp hg).2
    cases hset : setupForGroth16 T (tape E) 1 (tapeOf g) b gens with
    | ok x =>
      obtain ⟨⟨pk, sk, ek, dk⟩, f'⟩ := x
      rw [hplay false g _ _ _ _ _ hset hc] at this
      cases this
    | err e => unfold experimentNu at this; rw [hset] at this; cases this
    | panic => unfold experimentNu at this; rw [hset] at this; cases this

end
end

/-- The concrete instance (one challenge with the messages 11 and 22, one submitted ciphertext, one question): there is
an adversary which a holder of the secret key that keeps back the message, but not `nu`, lets win by far more than the
bound of `C91_nu_handed_out`, which it cannot exceed if both are kept back. -/
example : ∃ A : CcaAdversary Fix.E, A.AtMost 1 1 1 ∧
    rightGuessesNu false 34 false goldFft true 8 Fix.gens A +
      ((1 + 1) * (3 * Fix.dom8.size + 6) + (2 * (8 : UInt8).toNat + 1)) * Fix.E.fr.p ^ 33 <
    rightGuessesNu false 34 true goldFft true 8 Fix.gens A ∧
    rightGuessesNu true 34 true goldFft true 8 Fix.gens A ≤
      rightGuessesNu true 34 false goldFft true 8 Fix.gens A +
        ((1 + 1) * (3 * Fix.dom8.size + 6) + (2 * (8 : UInt8).toNat + 1)) * Fix.E.fr.p ^ 33 := by
  have hsz : Fix.dom8.size = 2 ^ 10 := rfl
  have hbig : 10 * 2 ^ 10 ≤ Fix.E.fr.p := (by decide : 10 * 2 ^ 10 ≤ goldR)
  have h8 : (8 : UInt8).toNat = 8 := rfl
  have hlt : Fix.dom8.size + 2 * (8 : UInt8).toNat + 3 + (2 * (8 : UInt8).toNat + 1) +
      ((1 + 1) * (3 * Fix.dom8.size + 6) + (2 * (8 : UInt8).toNat + 1)) + 1 ≤ Fix.E.fr.p := by
    rw [hsz, h8]
    exact le_trans (by norm_num) hbig
  have hp : 3 * Fix.dom8.size < Fix.E.fr.p := by omega
  obtain ⟨A, hA, h⟩ := C91_withholding_nu_needed (E := Fix.E) goldFft 8 8 (Or.inr (Or.inl rfl)) Fix.count8 Fix.bits8
    Fix.aligned8 Fix.gens Fix.gens_ne.1 Fix.gens_ne.2 Fix.dom8 Fix.dom8_count hp true
    (show Fix.E.Fr from (11 : Fix.F)) (show Fix.E.Fr from (22 : Fix.F))
    (by intro h; exact absurd h (by decide +kernel : ¬ (11 : Fix.F) = 22))
  obtain ⟨h1, h2⟩ := h 34 (by decide)
  refine ⟨A, hA, ?_, C91_nu_handed_out (E := Fix.E) goldFft 8 8 (Or.inr (Or.inl rfl)) Fix.count8 Fix.bits8
    Fix.aligned8 Fix.gens Fix.gens_ne.1 Fix.gens_ne.2 Fix.dom8 Fix.dom8_count true A 1 1 1 hA 34 (by decide) true⟩
  have h3 := Cca.beats (N := rightGuessesNu false 34 true goldFft true 8 Fix.gens A) (p := Fix.E.fr.p)
    (c := Fix.dom8.size + 2 * (8 : UInt8).toNat + 3)
    (w := 2 * (8 : UInt8).toNat + 1) (l := (1 + 1) * (3 * Fix.dom8.size + 6) + (2 * (8 : UInt8).toNat + 1)) (k := 33)
    hlt h1
  exact lt_of_le_of_lt (Nat.add_le_add_right h2 _) h3

/-- The hypotheses of `C91_no_abort`: the bound leaves almost all draws. -/
example : Fix.E.fr.p ^ 34 ≤ rightGuessesNu true 34 true goldFft true 8 Fix.gens
    (.challenge (show Fix.E.Fr from (11 : Fix.F)) (show Fix.E.Fr from (22 : Fix.F)) (.guess true)) +
      (Fix.dom8.size + 2) * Fix.E.fr.p ^ 33 := by
  have hsz : Fix.dom8.size = 2 ^ 10 := rfl
  have hbig : 10 * 2 ^ 10 ≤ Fix.E.fr.p := (by decide : 10 * 2 ^ 10 ≤ goldR)
  have hp : Fix.dom8.size < Fix.E.fr.p := by omega
  have hA : CcaAdversary.AlwaysRight (E := Fix.E) (.challenge (show Fix.E.Fr from (11 : Fix.F))
    (show Fix.E.Fr from (22 : Fix.F)) (.guess true)) := rfl
  have h := C91_no_abort (E := Fix.E) goldFft 8 8 (Or.inr (Or.inl rfl)) Fix.count8 Fix.bits8 Fix.aligned8 Fix.gens Fix.gens_ne.2
    Fix.dom8 Fix.dom8_count hp true true true _ hA 34 (by decide)
  refine le_trans h (Nat.add_le_add_left ?_ _)
  exact le_refl _

end Verif
