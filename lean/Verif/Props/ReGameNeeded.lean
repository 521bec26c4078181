/-
Property C94, continued: the game is not trivial, and neither verification nor refusal can be dropped.
-/
import Verif.Props.ReGame
import Verif.Props.ChosenCiphertextNuNeeded

namespace Verif
open Spec Agm

section
variable {E : Engine}

namespace ReGame
open Sec SDkg NmDkg

/-- different messages have different chunks -/
theorem dig_differs (b n : UInt8) (hb : Supported b) (hn : chunksCount E.fr b = .ok n)
    (hal : 64 * E.fr.limbs < E.fr.modBits + b.toNat ∧ chunksNeeded E.fr b.toNat ≤ 255) (m0 m1 : E.Fr) (hm : m0 ≠ m1) :
    ∃ i < n.toNat, ((dig b m0 i : ℕ) : E.Fr) ≠ ((dig b m1 i : ℕ) : E.Fr) := by
  have hl2 := (decomp_len_eq_iff E.fr b n hb hn).mpr hal
  obtain ⟨d0, hd0, hdl0, -⟩ := decompose_spec (K := E.fr) m0 hb
  obtain ⟨d1, hd1, hdl1, -⟩ := decompose_spec (K := E.fr) m1 hb
  obtain ⟨i, hi, hne⟩ := CcaNu.chunk_differs hb hm hd0 hd1
  refine ⟨i, by omega, ?_⟩
  unfold dig
  rw [hd0, hd1]
  exact hne

/-- where the base of chunk `i` is published -/
theorem base_getD {nW nH V nI n : ℕ} {pk : ProvingKey E} {ek : EncryptionKey E} {dk : DecryptionKey E}
    (h : Nm.Shape nW nH V nI n pk ek dk) (gens : EncryptionGens E) (i : ℕ) (hi : i + 1 < nI) :
    (public1 gens pk ek).getD (nW + (nH + (5 + (V + (V + (i + 1)))))) 0 = pk.pk.vk.gamma_abc_g1.tail.getD i 0 := by
  unfold public1
  rw [Nm.getD_skip h.l, Nm.getD_skip h.h, Nm.getD_skip (N := 5) rfl, Nm.getD_skip h.a, Nm.getD_skip h.b1]
  rw [List.getD_append _ _ _ _ (by rw [h.g]; exact hi)]
  simp [List.getD_eq_getElem?_getD]

/-- the element of a view at position `j`, as a combination -/
theorem comb_at (l : List E.G1) (j : ℕ) (hj : j < l.length) (k : ℕ → E.Fr) (x : E.Fr) :
    comb (fun i => k i + if i = j then x else 0) l = comb k l + x • l.getD j 0 := by
  rw [Cca.comb_add, comb_single l j x hj]

/-- the adversary can ask whether a chunk, stripped of its share and of the shares of its own parties, is a given one -/
theorem chunk_question (nW nH V nI n K c i : ℕ) (hi : i + 1 < nI) (S : Strategy E.Fr) (x a : E.Fr) :
    ∃ q : Question E, ∀ (gens : EncryptionGens E) (pk : ProvingKey E) (keys : List (FEncryptionKeyPartial E))
      (shares : List (P1share E)) (ek : EncryptionKey E) (l : List (Ciphertext E × Proof E)) (dk : DecryptionKey E)
      (ws : List E.G1) (W : List E.G2), Nm.Shape nW nH V nI n pk ek dk →
      ((keys.map partialElems1).flatten ++ shares.map (·.P_1)).length = K →
      l.length = c → (∀ p ∈ l, p.1.enc_chunks.length = n) → i < ws.length →
      (q.Yes (dkgView1 gens pk keys shares ek l ++ ws) W ↔
        comb (S.chunk i) (dkgView1 gens pk keys shares ek l) - x • comb S.x (dkgView1 gens pk keys shares ek l) -
          a • pk.pk.vk.gamma_abc_g1.tail.getD i 0 + ws.getD i 0 = 0) := by
  let N := nW + (nH + (5 + (V + (V + (nI + (1 + (n + (1 + (n + 1))))))))) + K + c * (n + 4)
  let J := nW + (nH + (5 + (V + (V + (i + 1)))))
  refine ⟨.first fun j => if j < N then (S.chunk i j + (-x) * S.x j) + (if j = J then -a else 0) else
    if j = N + i then 1 else 0, ?_⟩
  intro gens pk keys shares ek l dk ws W hsh hK hl hc hw
  have hp1 := (Nm.public_getD hsh gens).1
  have hlen : (dkgView1 gens pk keys shares ek l).length = N := by
    unfold dkgView1 dkgPublic1
    rw [List.length_append, List.length_append, hp1, hK, (len_seen n c ⟨l, hl, hc⟩).1]
  have hbase : (dkgView1 gens pk keys shares ek l).getD J 0 = pk.pk.vk.gamma_abc_g1.tail.getD i 0 := by
    unfold dkgView1 dkgPublic1
    rw [List.append_assoc, List.getD_append _ _ _ _ (by rw [hp1]; omega)]
    exact base_getD hsh gens i hi
  show comb _ _ = 0 ↔ _
  rw [comb_append, hlen]
  have e1 : comb (fun j => if j < N then (S.chunk i j + (-x) * S.x j) + (if j = J then -a else 0) else
      if j = N + i then 1 else 0) (dkgView1 gens pk keys shares ek l) =
      comb (S.chunk i) (dkgView1 gens pk keys shares ek l) - x • comb S.x (dkgView1 gens pk keys shares ek l) -
          a • pk.pk.vk.gamma_abc_g1.tail.getD i 0 := by
    rw [comb_congr (k' := fun j => (S.chunk i j + (-x) * S.x j) + (if j = J then -a else 0)) (fun j hj => by
      rw [hlen] at hj
      exact if_pos hj), comb_at _ J (by rw [hlen]; omega), hbase, Cca.comb_add]
    have : comb (fun j => -x * S.x j) (dkgView1 gens pk keys shares ek l) =
        -(x • comb S.x (dkgView1 gens pk keys shares ek l)) := by
      unfold comb
      rw [Finset.smul_sum, ← Finset.sum_neg_distrib]
      exact Finset.sum_congr rfl fun j _ => by beta_reduce; rw [neg_mul, neg_smul, mul_smul]
    rw [this, neg_smul]
    abel
  have e2 : comb (fun j => if N + j < N then (S.chunk i (N + j) + (-x) * S.x (N + j)) + (if N + j = J then -a else 0) else
      if N + j = N + i then 1 else 0) ws = ws.getD i 0 := by
    rw [comb_congr (k' := fun j => if j = i then 1 else 0) (fun j _ => by
      rw [if_neg (by omega)]
      simp), comb_single ws i 1 hw, one_smul]
  rw [e1, e2]

end ReGame

section
variable (T : FftCfg E.Fr) (b n : UInt8) (hb : Supported b) (hn : chunksCount E.fr b = .ok n)
    (hbm : b.toNat ≤ E.fr.modBits)
    (hal : 64 * E.fr.limbs < E.fr.modBits + b.toNat ∧ chunksNeeded E.fr b.toNat ≤ 255)
    (gens : EncryptionGens E) (hG : gens.G ≠ 0) (hH : gens.H ≠ 0) (d : EvalDomain E.Fr)
    (hd : T.newDomain (n.toNat * constraintsPerValue E.fr.modBits b.toNat + (n.toNat + 1)) = some d)
    (others1 others2 : List (Party E))
include hn hbm hd

namespace ReGame
open Sec SDkg NmDkg

/-- distributed setup fails on few draws only -/
theorem setups (hp : d.size < E.fr.p) (C : ℕ) :
    ∃ Bad : Finset (Fin (6 + 2 * n.toNat + 3 * C) → E.Fr),
      Bad.card ≤ (d.size + 2) * E.fr.p ^ (5 + 2 * n.toNat + 3 * C) ∧
      ∀ g, g ∉ Bad → ∃ pk keys shares ek, setupForDkg T (tape E) 1 (tapeOf g) b gens
        (others1 ++ ⟨tape E, fun i => tapeOf g (5 + i)⟩ :: others2) = .ok (pk, keys, shares, ek) := by
  classical
  obtain ⟨c0, cs, hc0, hcs, hI, hC, -⟩ := setup_shape hn hbm
  refine ⟨Finset.univ.filter fun g => d.vanishing (tapeOf g 4) * (tapeOf g 2 * tapeOf g 3) = 0, ?_, fun g hg => ?_⟩
  · have hB := Nm.bad_count d hp (6 + 2 * n.toNat + 3 * C) (by omega) (Finset.univ.filter fun g =>
      d.vanishing (tapeOf g 4) * (tapeOf g 2 * tapeOf g 3) = 0) fun g hg => (Finset.mem_filter.mp hg).2
    rwa [show 6 + 2 * n.toNat + 3 * C - 1 = 5 + 2 * n.toNat + 3 * C by omega] at hB
  · have hg : d.vanishing (tapeOf g 4) * (tapeOf g 2 * tapeOf g 3) ≠ 0 := fun h =>
      hg (Finset.mem_filter.mpr ⟨Finset.mem_univ _, h⟩)
    have h1 := left_ne_zero_of_mul hg
    have h2 := left_ne_zero_of_mul (right_ne_zero_of_mul hg)
    have h3 := right_ne_zero_of_mul (right_ne_zero_of_mul hg)
    have hgs := gs_of_srs cs d (tapeOf g 4) (tapeOf g 0) (tapeOf g 1) (tapeOf g 2) (tapeOf g 3) gens.G gens.H
      n.toNat hI
    have hk := Sec.dkgTranscript_eq (others1 ++ ⟨tape E, fun i => tapeOf g (5 + i)⟩ :: others2) (by simp) gens _
      (srsKey cs d (tapeOf g 4) (tapeOf g 0) (tapeOf g 1) (tapeOf g 2) (tapeOf g 3) gens.G gens.H).pk.delta_g1
      (srsKey cs d (tapeOf g 4) (tapeOf g 0) (tapeOf g 1) (tapeOf g 2) (tapeOf g 3) gens.G gens.H).gamma_g1 hn
      (show n.toNat ≤ (tab n.toNat fun i => (mixAt cs (d.lagrange (tapeOf g 4)) (tapeOf g 0) (tapeOf g 1)
        (.inst (i + 1)) * (tapeOf g 2)⁻¹) • gens.G).length by simp)
    exact ⟨_, _, _, _, SDkg.dkg_run T b n hn hbm c0 hc0 cs hcs gens d hd (tapeOf g) h2 h3 h1 _ rfl _ hgs _ _ _ _ hk⟩

include hb hal hH in
/-- an adversary that always guesses "right" is never stopped -/
theorem right_play (pol : Policy) (side chk : Bool) (R : RngCore E) (f f' : ℕ → E.Fr) (pk keys shares ek sk sk1 dk)
    (hset : setupForGroth16 T (tape E) 1 f b gens = .ok ((pk, sk1, ek, dk), f')) (A : ReAdversary E) :
    A.AlwaysRight → ∀ (M ms : List E.Fr) (f'' : ℕ → E.Fr) (l) (ws) (st : R.σ),
      encryptAll T chk (tape E) ek pk b ms f' = .ok (l, f'') →
      playRe pol side T chk b gens pk keys shares ek sk R A M f'' l ws st = true := by
  induction A with
  | guess a => exact fun h M ms f'' l _ _ _ => h
  | ask Q yes no ihy ihn =>
    intro h M ms f'' l ws st hl
    simp only [playRe]
    split
    · exact ihy h.1 M ms f'' l ws st hl
    · exact ihn h.2 M ms f'' l ws st hl
  | challenge m0 m1 next ih =>
    intro h M ms f'' l ws st hl
    obtain ⟨ct, r, proof, f3, henc, hl'⟩ := Cca.next_encryption T b n hb hn hbm hal gens hH d hd chk f f' f'' pk sk1 ek dk
      ms l hset hl (if side then m1 else m0)
    simp only [playRe]
    rw [henc]
    exact ih h _ _ _ _ _ _ hl'
  | request S dest next ih =>
    intro h M ms f'' l ws st hl
    simp only [playRe]
    exact ih _ (h _) M ms f'' l _ _ hl

end ReGame

include hb hal hG hH in
/-- **C94** The games are not trivially the same because they stop: whatever the policy, an adversary that always
guesses "right" does so on all but a `(size + 2) / p` fraction of the draws, in both games. -/
theorem C94_no_abort (hp : d.size < E.fr.p) (pol : Policy) (side chk : Bool) (R : RngCore E) (st : R.σ)
    (A : ReAdversary E) (hA : A.AlwaysRight) (C : ℕ) :
    E.fr.p ^ (6 + 2 * n.toNat + 3 * C) ≤
      rightGuessesRe pol (6 + 2 * n.toNat + 3 * C) side T chk b gens others1 others2 R st A +
        (d.size + 2) * E.fr.p ^ (5 + 2 * n.toNat + 3 * C) := by
  classical
  obtain ⟨c0, cs, hc0, hcs, hI, hC, -⟩ := setup_shape (E := E) hn hbm
  obtain ⟨Bad, hBad, h⟩ := ReGame.setups T b n hn hbm gens d hd others1 others2 hp C
  rw [← Nm.card_draws]
  unfold rightGuessesRe
  refine (Finset.card_le_card (t := (Finset.univ.filter fun x : Fin (6 + 2 * n.toNat + 3 * C) → E.Fr =>
      experimentRe pol side T chk b gens others1 others2 R st A (tapeOf x) = true) ∪ Bad) ?_).trans
        ((Finset.card_union_le _ _).trans (Nat.add_le_add_left hBad _))
  intro g _
  rw [Finset.mem_union]
  by_cases hg : g ∈ Bad
  · exact Or.inr hg
  · refine Or.inl (Finset.mem_filter.mpr ⟨Finset.mem_univ _, ?_⟩)
    obtain ⟨pk, keys, shares, ek, hset⟩ := h g hg
    obtain ⟨sk, hsk, ω, sk1, dk, hlink⟩ := ReGame.link_of_run T b n hn hbm gens hG d hd others1 others2 c0 hc0 cs hcs hI
      hC (tapeOf g) (fun _ => 0) pk keys shares ek hset
    unfold experimentRe
    rw [hset]
    dsimp only
    rw [hsk]
    exact ReGame.right_play T b n hb hn hbm hal gens hH d hd pol side chk R _ _ pk keys shares ek sk sk1 dk hlink.set A hA
      [] [] _ [] [] st rfl

namespace ReGame
open Sec SDkg NmDkg

/-- challenge, request once with the destination key zero, ask once -/
def attacker (m0 m1 : E.Fr) (S : Strategy E.Fr) (q : Question E) : ReAdversary E :=
  .challenge m0 m1 (.request S (fun _ => 0) fun _ => .ask q (.guess true) (.guess false))

include hb hal hG hH in
/-- an adversary whose request is granted, for a ciphertext with the challenge's randomness, wins -/
theorem attack (hp : d.size < E.fr.p) (pol : Policy) (chk : Bool) (R : RngCore E) (st : R.σ) (m0 m1 : E.Fr) (i : ℕ)
    (hi : i < n.toNat) (hne : ((dig b m0 i : ℕ) : E.Fr) ≠ ((dig b m1 i : ℕ) : E.Fr)) (t : E.Fr) (S : Strategy E.Fr)
    (h : ∀ (side : Bool) (f f' : ℕ → E.Fr) pk keys shares ek sk1 dk l f'' F,
      setupForDkg T (tape E) 1 f b gens (others1 ++ ⟨tape E, fun i => f (5 + i)⟩ :: others2) =
        .ok (pk, keys, shares, ek) →
      setupForGroth16 T (tape E) 1 F b gens = .ok ((pk, sk1, ek, dk), f') →
      encryptAll T chk (tape E) ek pk b [if side then m1 else m0] f' = .ok (l, f'') → Cca.NonDeg pk dk → ek.X_0 ≠ 0 →
      ∃ r : E.Fr, comb S.x (dkgView1 gens pk keys shares ek l) = r • ek.X_0 ∧ S.len = n.toNat ∧
        comb (S.chunk i) (dkgView1 gens pk keys shares ek l) = r • ek.X.getD i 0 +
          (((dig b (if side then m1 else m0) i : ℕ) : E.Fr) + t) • pk.pk.vk.gamma_abc_g1.tail.getD i 0 ∧
        (pol.verify = true → Accepted gens pk ek (S.cipher (dkgView1 gens pk keys shares ek l))
          (S.proof (dkgView1 gens pk keys shares ek l) (dkgView2 gens pk keys ek l))) ∧
        (pol.withhold = true → ∀ m ∈ [m0, m1], ¬ OutputOf b pk ek m (S.cipher (dkgView1 gens pk keys shares ek l)))) :
    ∃ q, ∀ C, 1 ≤ C →
      E.fr.p ^ (6 + 2 * n.toNat + 3 * C) ≤
        rightGuessesRe pol (6 + 2 * n.toNat + 3 * C) true T chk b gens others1 others2 R st (attacker m0 m1 S q) +
          (d.size + 2 * n.toNat + 3) * E.fr.p ^ (5 + 2 * n.toNat + 3 * C) ∧
      rightGuessesRe pol (6 + 2 * n.toNat + 3 * C) false T chk b gens others1 others2 R st (attacker m0 m1 S q) ≤
        (2 * n.toNat + 1) * E.fr.p ^ (5 + 2 * n.toNat + 3 * C) := by
  classical
  obtain ⟨c0, cs, hc0, hcs, hI, hC, -⟩ := setup_shape (E := E) hn hbm
  obtain ⟨q, hq⟩ := chunk_question (E := E) cs.numWit (d.size - 1) cs.vars.length cs.numInst n.toNat
    ((others1.length + 1 + others2.length) * (2 + 2 * n.toNat) + (others1.length + 1 + others2.length)) 1 i (by omega) S
    (othersS others1 others2 i) (((dig b m1 i : ℕ) : E.Fr) + t)
  refine ⟨q, fun C hC1 => ?_⟩
  obtain ⟨Bad, hBad, hset0⟩ := setups T b n hn hbm gens d hd others1 others2 hp C
  obtain ⟨Deg0, hDeg0, hnd⟩ := Cca.degenerate T b n hb hn hbm hal gens hG hH d hd (7 + 3 * n.toNat + 3 * C) (by omega)
  rw [show 7 + 3 * n.toNat + 3 * C - 1 = 6 + 3 * n.toNat + 3 * C by omega] at hDeg0
  obtain ⟨Deg, hDeg, hx⟩ := shrink n.toNat C (othersS others1 others2) (othersT n.toNat others1 others2)
    (2 * n.toNat + 1) Deg0 hDeg0
  have hplay : ∀ side g pk keys shares ek, setupForDkg T (tape E) 1 (tapeOf g) b gens
      (others1 ++ ⟨tape E, fun i => tapeOf g (5 + i)⟩ :: others2) = .ok (pk, keys, shares, ek) →
      g ∉ Deg → experimentRe pol side T chk b gens others1 others2 R st (attacker m0 m1 S q) (tapeOf g) = side := by
    intro side g pk keys shares ek hset hg
    obtain ⟨z, g', hg', hm⟩ := hx g hg
    obtain ⟨sk, hsk, ω, sk1, dk, hlink⟩ := link_of_run T b n hn hbm gens hG d hd others1 others2 c0 hc0 cs hcs hI
      hC (tapeOf g) z pk keys shares ek hset
    have hset' := hlink.set
    rw [hm] at hset'
    have hdeg := hnd g' hg' pk sk1 ek dk _ hset'
    obtain ⟨ct, r0, proof, f3, henc, hl'⟩ := Cca.next_encryption T b n hb hn hbm hal gens hH d hd chk _ _ _ pk sk1 ek dk
      [] [] hset' rfl (if side then m1 else m0)
    rw [List.nil_append, List.nil_append] at hl'
    obtain ⟨r, hr1, hr2, hr3, hr4, hr5⟩ := h side (tapeOf g) _ pk keys shares ek sk1 dk _ _ _ hset hset' hl' hdeg
      hlink.x0_ne
    obtain ⟨hsh, hK, -, st', g_i, hsrs, hgi, hk⟩ := dkg_facts T b n hn gens d hd hc0 hcs hI hC (by simp) hset
    obtain ⟨h1, h2, -⟩ := honest_lists T b n hb hn hal gens hc0 hsrs hgi hk hl'
    have hpl : (others1 ++ (⟨tape E, fun i => tapeOf g (5 + i)⟩ : Party E) :: others2).length =
        others1.length + 1 + others2.length := by
      simp
      omega
    rw [hpl] at hK
    unfold experimentRe
    rw [hset]
    dsimp only
    rw [hsk]
    simp only [attacker, playRe]
    rw [henc]
    simp only [List.nil_append, List.append_nil]
    have hshare := reEncryptShare_eq R st gens (S.cipher (dkgView1 gens pk keys shares ek [(ct, proof)])).X_r
      (S.cipher (dkgView1 gens pk keys shares ek [(ct, proof)])).enc_chunks
      ⟨comb (fun _ => (0 : E.Fr)) (dkgView1 gens pk keys shares ek [(ct, proof)])⟩ sk (by
        rw [hlink.sks]
        simp [Strategy.cipher, hr2])
    have hhelp : (helpReEncrypt pol b gens pk ek sk R st [m0, m1]
        (S.cipher (dkgView1 gens pk keys shares ek [(ct, proof)]))
        (S.proof (dkgView1 gens pk keys shares ek [(ct, proof)]) (dkgView2 gens pk keys ek [(ct, proof)]))
        ⟨comb (fun _ => (0 : E.Fr)) (dkgView1 gens pk keys shares ek [(ct, proof)])⟩).2.1 =
        (tab n.toNat fun i => -(sk.s.getD i 0 • r • ek.X_0)) ++ [draw R st 0 • gens.G] := by
      unfold helpReEncrypt
      rw [if_neg (fun hc => hc.2 (hr4 hc.1)), if_neg (fun hc => by
        obtain ⟨m, hm, ho⟩ := hc.2
        exact hr5 hc.1 m hm ho), hshare]
      dsimp only
      congr 1
      have hlen : (S.cipher (dkgView1 gens pk keys shares ek [(ct, proof)])).enc_chunks.length = n.toNat := by
        simp [Strategy.cipher, hr2]
      rw [hlen]
      refine tab_congr fun j hj => ?_
      have hz : comb (fun _ => (0 : E.Fr)) (dkgView1 gens pk keys shares ek [(ct, proof)]) = 0 := by simp [comb]
      rw [hz, smul_zero, add_zero]
      show -(sk.s.getD j 0 • comb S.x _) = _
      rw [hr1]
    rw [hhelp]
    have hans := hq gens pk keys shares ek [(ct, proof)] (dk0 n.toNat)
      ((tab n.toNat fun i => -(sk.s.getD i 0 • r • ek.X_0)) ++ [draw R st 0 • gens.G])
      (dkgView2 gens pk keys ek [(ct, proof)]) hsh hK h1 h2 (by simp; omega)
    rw [List.getD_append _ _ _ _ (by simpa using hi), getD_tab, if_pos hi, hr1, hr3, hlink.sks, getD_tab, if_pos hi,
      hlink.X i hi] at hans
    have hgl : n.toNat ≤ pk.pk.vk.gamma_abc_g1.tail.length := by
      rw [List.length_tail, hsh.g]
      omega
    have hGi : pk.pk.vk.gamma_abc_g1.tail.getD i 0 ≠ 0 := by
      rw [List.getD_eq_getElem _ _ (by omega)]
      exact hdeg.1 _ (List.getElem_mem _)
    generalize pk.pk.vk.gamma_abc_g1.tail.getD i 0 = Gi at hans hGi
    have hans' : q.Yes (dkgView1 gens pk keys shares ek [(ct, proof)] ++
        ((tab n.toNat fun i => -(sk.s.getD i 0 • r • ek.X_0)) ++ [draw R st 0 • gens.G]))
        (dkgView2 gens pk keys ek [(ct, proof)]) ↔
        ((dig b (if side then m1 else m0) i : ℕ) : E.Fr) = ((dig b m1 i : ℕ) : E.Fr) := by
      rw [hlink.sks, hans, ← sub_eq_zero (b := ((dig b m1 i : ℕ) : E.Fr))]
      have e : r • (tapeOf g (5 + i) + othersS others1 others2 i) • ek.X_0 +
          (((dig b (if side then m1 else m0) i : ℕ) : E.Fr) + t) • Gi - othersS others1 others2 i • r • ek.X_0 -
          (((dig b m1 i : ℕ) : E.Fr) + t) • Gi + -(tapeOf g (5 + i) • r • ek.X_0) =
          (((dig b (if side then m1 else m0) i : ℕ) : E.Fr) - ((dig b m1 i : ℕ) : E.Fr)) • Gi := by
        module
      rw [e, smul_eq_zero, or_iff_left hGi]
    cases side with
    | true => rw [if_pos (hans'.mpr rfl)]
    | false => rw [if_neg (fun hc => hne (hans'.mp hc))]
  constructor
  · rw [← Nm.card_draws]
    unfold rightGuessesRe
    refine (Finset.card_le_card (t := (Finset.univ.filter fun x : Fin (6 + 2 * n.toNat + 3 * C) → E.Fr =>
        experimentRe pol true T chk b gens others1 others2 R st (attacker m0 m1 S q) (tapeOf x) = true) ∪
        (Bad ∪ Deg)) ?_).trans
          ((Finset.card_union_le _ _).trans (Nat.add_le_add_left ((Finset.card_union_le _ _).trans ?_) _))
    · intro g _
      rw [Finset.mem_union]
      by_cases hg : g ∈ Bad ∪ Deg
      · exact Or.inr hg
      · rw [Finset.mem_union, not_or] at hg
        refine Or.inl (Finset.mem_filter.mpr ⟨Finset.mem_univ _, ?_⟩)
        obtain ⟨pk, keys, shares, ek, hset⟩ := hset0 g hg.1
        exact hplay true g _ _ _ _ hset hg.2
    · rw [show d.size + 2 * n.toNat + 3 = d.size + 2 + (2 * n.toNat + 1) by omega, Nat.add_mul]
      omega
  · refine le_trans (Finset.card_le_card ?_) hDeg
    intro g hg
    by_contra hc
    have := (Finset.mem_filter.mp hg).2
    cases hset : setupForDkg T (tape E) 1 (tapeOf g) b gens
        (others1 ++ ⟨tape E, fun i => tapeOf g (5 + i)⟩ :: others2) with
    | ok x =>
      obtain ⟨pk, keys, shares, ek⟩ := x
      rw [hplay false g _ _ _ _ hset hc] at this
      cases this
    | err e => unfold experimentRe at this; rw [hset] at this; cases this
    | panic => unfold experimentRe at this; rw [hset] at this; cases this

include hb hal hH in
/-- what a re-randomised copy of the challenge is made of -/
theorem copy_facts (chk : Bool) (u : E.Fr) (S : Strategy E.Fr)
    (hS : ∀ (R : RngCore E) (fuel : ℕ) (st : R.σ) (parties : List (Party E)) pk keys shares ek,
      parties.length = others1.length + 1 + others2.length →
      setupForDkg T R fuel st b gens parties = .ok (pk, keys, shares, ek) →
      ∀ (chk : Bool) (R' : RngCore E) (ms : List E.Fr) (st1 st2 : R'.σ) l, ms.length = 1 →
        encryptAll T chk R' ek pk b ms st1 = .ok (l, st2) →
        Rerandomises ek l 0 u (S.cipher (dkgView1 gens pk keys shares ek l)) ∧
        Accepted gens pk ek (S.cipher (dkgView1 gens pk keys shares ek l))
          (S.proof (dkgView1 gens pk keys shares ek l) (dkgView2 gens pk keys ek l)))
    (m : E.Fr) (f f' : ℕ → E.Fr) (pk keys shares ek sk1 dk l f'' F)
    (hset : setupForDkg T (tape E) 1 f b gens (others1 ++ ⟨tape E, fun i => f (5 + i)⟩ :: others2) =
        .ok (pk, keys, shares, ek))
    (hset' : setupForGroth16 T (tape E) 1 F b gens = .ok ((pk, sk1, ek, dk), f'))
    (hl : encryptAll T chk (tape E) ek pk b [m] f' = .ok (l, f'')) :
    ∃ r : E.Fr, comb S.x (dkgView1 gens pk keys shares ek l) = r • ek.X_0 ∧ S.len = n.toNat ∧
      (∀ i < n.toNat, comb (S.chunk i) (dkgView1 gens pk keys shares ek l) = r • ek.X.getD i 0 +
        ((dig b m i : ℕ) : E.Fr) • pk.pk.vk.gamma_abc_g1.tail.getD i 0) ∧
      Accepted gens pk ek (S.cipher (dkgView1 gens pk keys shares ek l))
        (S.proof (dkgView1 gens pk keys shares ek l) (dkgView2 gens pk keys ek l)) := by
  obtain ⟨⟨ct, proof, hj, hct⟩, hacc⟩ := hS (tape E) 1 f _ pk keys shares ek (by simp; omega) hset chk (tape E) [m] f' f'' l
    rfl hl
  obtain ⟨m', hm', hout⟩ := output_rerandomise T b n hb hn hbm hal gens chk F f' f'' pk sk1 ek dk hset' [m] l hl 0 ct proof
    hj u
  rw [List.mem_singleton] at hm'
  subst hm'
  obtain ⟨r, hr⟩ := (output_iff T b n hb hn hbm hal gens F f' pk sk1 ek dk hset' m' _).mp hout
  rw [hr] at hct
  have hX : ek.X.length = n.toNat := by
    obtain ⟨c0, cs', hc0, -⟩ := setup_shape (E := E) hn hbm
    obtain ⟨g_i, st3, -, hgi, hk⟩ := Nm.setup_parts hc0 hset'
    obtain ⟨n', s, t, hn', hgn, hek⟩ := fromSetup_inv hk
    rw [hn] at hn'
    cases hn'
    rw [hek]
    simp [encKey]
  have hlen : S.len = n.toNat := by
    have := congrArg (fun c => c.enc_chunks.length) hct
    simpa [Strategy.cipher, cipher, hX] using this
  refine ⟨r, congrArg Ciphertext.X_r hct, hlen, fun i hi => ?_, hacc⟩
  have := congrArg (fun c => c.enc_chunks.getD i 0) hct
  simp only [Strategy.cipher, cipher] at this
  rw [getD_tab, getD_tab, if_pos (by omega), if_pos (by omega), nsmul_fr (E := E)] at this
  exact this

end ReGame

include hb hal hG hH in
/-- **C94** Refusal cannot be dropped: if the honest party verifies, but helps with every ciphertext it accepts, then an
adversary that receives one encryption, re-randomises it, makes one request and asks one question distinguishes any two
messages on all but few draws. -/
theorem C94_refusal_needed (hp : d.size < E.fr.p) (chk : Bool) (R : RngCore E) (st : R.σ) (m0 m1 : E.Fr)
    (hm : m0 ≠ m1) :
    ∃ A : ReAdversary E, A.AtMost 1 1 1 ∧ ∀ C, 1 ≤ C →
      E.fr.p ^ (6 + 2 * n.toNat + 3 * C) ≤
        rightGuessesRe ⟨true, false⟩ (6 + 2 * n.toNat + 3 * C) true T chk b gens others1 others2 R st A +
          (d.size + 2 * n.toNat + 3) * E.fr.p ^ (5 + 2 * n.toNat + 3 * C) ∧
      rightGuessesRe ⟨true, false⟩ (6 + 2 * n.toNat + 3 * C) false T chk b gens others1 others2 R st A ≤
        (2 * n.toNat + 1) * E.fr.p ^ (5 + 2 * n.toNat + 3 * C) := by
  obtain ⟨i, hi, hne⟩ := ReGame.dig_differs b n hb hn hal m0 m1 hm
  obtain ⟨S, hS⟩ := C90_rerandomiser T b n hb hn hbm hal gens hH d hd (others1.length + 1 + others2.length) (by omega)
    1 0 (by omega) 1 1 0 one_ne_zero
  obtain ⟨q, hq⟩ := ReGame.attack T b n hb hn hbm hal gens hG hH d hd others1 others2 hp ⟨true, false⟩ chk R st m0 m1 i hi
    hne 0 S (by
      intro side f f' pk keys shares ek sk1 dk l f'' F hset hset' hl hnd hx0
      obtain ⟨r, h1, h2, h3, h4⟩ := ReGame.copy_facts T b n hb hn hbm hal gens hH d hd others1 others2 chk 1 S hS _ f f' pk
        keys shares ek sk1 dk l f'' F hset hset' hl
      exact ⟨r, h1, h2, by rw [h3 i hi, add_zero], fun _ => h4, by intro h; cases h⟩)
  exact ⟨ReGame.attacker m0 m1 _ q, ⟨le_refl _, le_refl _, fun r => ⟨le_refl _, trivial, trivial⟩⟩, hq⟩

include hb hal hG hH in
/-- **C94** Verification cannot be dropped: if the honest party refuses to help with ciphertexts that carry the adversary's
own messages, but does not run `verify_commitment_and_proof`, then an adversary that receives one encryption, changes one
chunk of it, makes one request and asks one question distinguishes any two messages on all but few draws. -/
theorem C94_verification_needed (hp : d.size < E.fr.p) (chk : Bool) (R : RngCore E) (st : R.σ) (m0 m1 : E.Fr)
    (hm : m0 ≠ m1) :
    ∃ A : ReAdversary E, A.AtMost 1 1 1 ∧ ∀ C, 1 ≤ C →
      E.fr.p ^ (6 + 2 * n.toNat + 3 * C) ≤
        rightGuessesRe ⟨false, true⟩ (6 + 2 * n.toNat + 3 * C) true T chk b gens others1 others2 R st A +
          (d.size + 2 * n.toNat + 3) * E.fr.p ^ (5 + 2 * n.toNat + 3 * C) ∧
      rightGuessesRe ⟨false, true⟩ (6 + 2 * n.toNat + 3 * C) false T chk b gens others1 others2 R st A ≤
        (2 * n.toNat + 1) * E.fr.p ^ (5 + 2 * n.toNat + 3 * C) := by
  classical
  obtain ⟨c0, cs, hc0, hcs, hI, hC, -⟩ := setup_shape (E := E) hn hbm
  obtain ⟨i, hi, hne⟩ := ReGame.dig_differs b n hb hn hal m0 m1 hm
  obtain ⟨S, hS⟩ := C90_rerandomiser T b n hb hn hbm hal gens hH d hd (others1.length + 1 + others2.length) (by omega)
    1 0 (by omega) 1 1 0 one_ne_zero
  obtain ⟨t, ht⟩ : ∃ t : E.Fr, t ∉ ({0, ((ReGame.dig b m1 i : ℕ) : E.Fr) - ((ReGame.dig b m0 i : ℕ) : E.Fr),
      ((ReGame.dig b m0 i : ℕ) : E.Fr) - ((ReGame.dig b m1 i : ℕ) : E.Fr)} : Finset E.Fr) := by
    by_contra hc
    push Not at hc
    have h1 := Finset.card_le_card (fun t _ => hc t : (Finset.univ : Finset E.Fr) ⊆ _)
    rw [Finset.card_univ, show Fintype.card E.Fr = E.fr.p from ZMod.card _] at h1
    have h2 := h1.trans Finset.card_le_three
    have h5 := Nm.five_le (E := E) hb hbm
    omega
  simp only [Finset.mem_insert, Finset.mem_singleton, not_or] at ht
  obtain ⟨ht0, ht1, ht2⟩ := ht
  let J := cs.numWit + (d.size - 1 + (5 + (cs.vars.length + (cs.vars.length + (i + 1)))))
  let S' : Strategy E.Fr := { S with chunk := fun j k => S.chunk j k + if k = J then (if j = i then t else 0) else 0 }
  obtain ⟨q, hq⟩ := ReGame.attack T b n hb hn hbm hal gens hG hH d hd others1 others2 hp ⟨false, true⟩ chk R st m0 m1 i hi
    hne t S' (by
      intro side f f' pk keys shares ek sk1 dk l f'' F hset hset' hl hnd hx0
      obtain ⟨r, h1, h2, h3, h4⟩ := ReGame.copy_facts T b n hb hn hbm hal gens hH d hd others1 others2 chk 1 S hS _ f f' pk
        keys shares ek sk1 dk l f'' F hset hset' hl
      obtain ⟨hsh, hK, -, st', g_i, hsrs, hgi, hk⟩ := NmDkg.dkg_facts T b n hn gens d hd hc0 hcs hI hC (by simp) hset
      have hp1 := (Nm.public_getD hsh gens).1
      have hchunk : comb (S'.chunk i) (dkgView1 gens pk keys shares ek l) = r • ek.X.getD i 0 +
          (((ReGame.dig b (if side then m1 else m0) i : ℕ) : E.Fr) + t) • pk.pk.vk.gamma_abc_g1.tail.getD i 0 := by
        show comb (fun k => S.chunk i k + if k = J then (if i = i then t else 0) else 0) _ = _
        rw [if_pos rfl, ReGame.comb_at _ J (by
          unfold dkgView1 dkgPublic1
          rw [List.length_append, List.length_append, hp1]
          omega), h3 i hi]
        have hbase : (dkgView1 gens pk keys shares ek l).getD J 0 = pk.pk.vk.gamma_abc_g1.tail.getD i 0 := by
          unfold dkgView1 dkgPublic1
          rw [List.append_assoc, List.getD_append _ _ _ _ (by rw [hp1]; omega)]
          exact ReGame.base_getD hsh gens i (by omega)
        rw [hbase]
        module
      refine ⟨r, h1, h2, hchunk, (by intro h; cases h), fun _ m hmem hout => ?_⟩
      obtain ⟨r', hr'⟩ := (ReGame.output_iff T b n hb hn hbm hal gens F f' pk sk1 ek dk hset' m _).mp hout
      have hrr : r = r' := by
        have := congrArg Ciphertext.X_r hr'
        change comb S.x _ = r' • ek.X_0 at this
        rw [h1] at this
        exact smul_left_injective _ hx0 this
      have hc := congrArg (fun c => c.enc_chunks.getD i 0) hr'
      simp only [Strategy.cipher, cipher] at hc
      rw [getD_tab, getD_tab, if_pos (by show i < S.len; omega), if_pos (by rw [hsh.X]; exact hi), hchunk, hrr,
        nsmul_fr (E := E), add_right_inj] at hc
      have hgl : n.toNat ≤ pk.pk.vk.gamma_abc_g1.tail.length := by
        rw [List.length_tail, hsh.g]
        omega
      have hGi : pk.pk.vk.gamma_abc_g1.tail.getD i 0 ≠ 0 := by
        rw [List.getD_eq_getElem _ _ (by omega)]
        exact hnd.1 _ (List.getElem_mem _)
      have he := smul_left_injective E.Fr hGi hc
      have hmem' : m = m0 ∨ m = m1 := by simpa using hmem
      have e : t = ((ReGame.dig b m i : ℕ) : E.Fr) - ((ReGame.dig b (if side then m1 else m0) i : ℕ) : E.Fr) := by
        rw [← he]; ring
      rcases hmem' with rfl | rfl <;> cases side <;> simp only [if_true, Bool.false_eq_true, if_false, sub_self] at e
      · exact ht0 e
      · exact ht2 e
      · exact ht1 e
      · exact ht0 e)
  exact ⟨ReGame.attacker m0 m1 _ q, ⟨le_refl _, le_refl _, fun r => ⟨le_refl _, trivial, trivial⟩⟩, hq⟩

end
end

/-- The concrete instance (three parties, two of which the adversary controls; the messages 11 and 22; one question, one
request): there is an adversary which a party that helps with every verified ciphertext lets win, by far more than the bound
of `C94_verified_requests`, which it cannot exceed if the party refuses ciphertexts that carry 11 or 22. -/
example : ∃ A : ReAdversary Fix.E, A.AtMost 1 1 1 ∧
    rightGuessesRe ⟨true, false⟩ (6 + 2 * (8 : UInt8).toNat + 3 * 1) false goldFft true 8 Fix.gens
        [⟨listRng Fix.E, Fix.st⟩] [⟨listRng Fix.E, Fix.st1⟩] (listRng Fix.E) Fix.st A +
      ((1 + 1) * (3 * Fix.dom8.size + 6) + (2 * (8 : UInt8).toNat + 1)) *
        Fix.E.fr.p ^ (5 + 2 * (8 : UInt8).toNat + 3 * 1) <
    rightGuessesRe ⟨true, false⟩ (6 + 2 * (8 : UInt8).toNat + 3 * 1) true goldFft true 8 Fix.gens
        [⟨listRng Fix.E, Fix.st⟩] [⟨listRng Fix.E, Fix.st1⟩] (listRng Fix.E) Fix.st A ∧
    rightGuessesRe ⟨true, true⟩ (6 + 2 * (8 : UInt8).toNat + 3 * 1) true goldFft true 8 Fix.gens
        [⟨listRng Fix.E, Fix.st⟩] [⟨listRng Fix.E, Fix.st1⟩] (listRng Fix.E) Fix.st A ≤
      rightGuessesRe ⟨true, true⟩ (6 + 2 * (8 : UInt8).toNat + 3 * 1) false goldFft true 8 Fix.gens
        [⟨listRng Fix.E, Fix.st⟩] [⟨listRng Fix.E, Fix.st1⟩] (listRng Fix.E) Fix.st A +
      ((1 + 1) * (3 * Fix.dom8.size + 6) + (2 * (8 : UInt8).toNat + 1)) *
        Fix.E.fr.p ^ (5 + 2 * (8 : UInt8).toNat + 3 * 1) := by
  have hsz : Fix.dom8.size = 2 ^ 10 := rfl
  have hbig : 10 * 2 ^ 10 ≤ Fix.E.fr.p := (by decide : 10 * 2 ^ 10 ≤ goldR)
  have h8 : (8 : UInt8).toNat = 8 := rfl
  obtain ⟨A, hA, h⟩ := C94_refusal_needed (E := Fix.E) goldFft 8 8 (Or.inr (Or.inl rfl)) Fix.count8 Fix.bits8
    Fix.aligned8 Fix.gens Fix.gens_ne.1 Fix.gens_ne.2 Fix.dom8 Fix.dom8_count [⟨listRng Fix.E, Fix.st⟩]
    [⟨listRng Fix.E, Fix.st1⟩] (by rw [hsz]; exact lt_of_lt_of_le (by norm_num) hbig) true (listRng Fix.E) Fix.st
    (show Fix.E.Fr from (11 : Fix.F)) (show Fix.E.Fr from (22 : Fix.F))
    (by intro h; exact absurd h (by decide +kernel : ¬ (11 : Fix.F) = 22))
  obtain ⟨h1, h2⟩ := h 1 (le_refl _)
  refine ⟨A, hA, ?_, C94_verified_requests (E := Fix.E) goldFft 8 8 (Or.inr (Or.inl rfl)) Fix.count8 Fix.bits8
    Fix.aligned8 Fix.gens Fix.gens_ne.1 Fix.gens_ne.2 Fix.dom8 Fix.dom8_count [⟨listRng Fix.E, Fix.st⟩]
    [⟨listRng Fix.E, Fix.st1⟩] true (listRng Fix.E) Fix.st A 1 1 1 hA true⟩
  have h3 := Cca.beats (p := Fix.E.fr.p)
    (c := Fix.dom8.size + 2 * (8 : UInt8).toNat + 3)
    (w := 2 * (8 : UInt8).toNat + 1) (l := (1 + 1) * (3 * Fix.dom8.size + 6) + (2 * (8 : UInt8).toNat + 1))
    (k := 5 + 2 * (8 : UInt8).toNat + 3 * 1)
    (by rw [hsz, h8]; exact le_trans (by norm_num) hbig) h1
  exact lt_of_le_of_lt (Nat.add_le_add_right h2 _) h3

end Verif
