/-
Property C101, continued: honest tallies are released, the game is not trivial, and re-randomised copies are a danger.
-/
import Verif.Props.Tally

namespace Verif
open Spec Agm

section
variable {E : Engine}

namespace Tally
open Sec SDkg NmDkg ReGame

/-- sums of combinations -/
theorem comb_sum {α : Type} (L : List α) (k : α → ℕ → E.Fr) (V : List E.G1) :
    comb (fun i => (L.map fun a => k a i).sum) V = (L.map fun a => comb (k a) V).sum := by
  induction L with
  | nil => simp [comb]
  | cons a L ih =>
    simp only [List.map_cons, List.sum_cons]
    rw [← ih, ← Cca.comb_add]

/-- chunks of listed messages, as sums of `dig` -/
theorem chunkSum_dig (b : UInt8) (ms : List E.Fr) (chunks : List (List UInt16))
    (h : List.Forall₂ (fun m ds => decompose (K := E.fr) m b = .ok ds) ms chunks) (users : List ℕ)
    (hu : ∀ j ∈ users, j < ms.length) (i : ℕ) :
    chunkSum chunks users i = (users.map fun j => dig b (ms.getD j 0) i).sum := by
  unfold chunkSum
  congr 1
  refine List.map_congr_left fun j hj => ?_
  have hj' := hu j hj
  have hlen := h.length_eq
  have := h.get hj' (by omega)
  simp only [List.get_eq_getElem] at this
  unfold dig
  rw [List.getD_eq_getElem ms _ hj', this, List.getD_eq_getElem chunks _ (by omega)]

section
variable (T : FftCfg E.Fr) (b n : UInt8) (hb : Supported b) (hn : chunksCount E.fr b = .ok n)
    (hbm : b.toNat ≤ E.fr.modBits)
    (hal : 64 * E.fr.limbs < E.fr.modBits + b.toNat ∧ chunksNeeded E.fr b.toNat ≤ 255)
    (gens : EncryptionGens E) (hG : gens.G ≠ 0) (hH : gens.H ≠ 0) (d : EvalDomain E.Fr)
    (hd : T.newDomain (n.toNat * constraintsPerValue E.fr.modBits b.toNat + (n.toNat + 1)) = some d)

include hb hn hbm hal hH hd in
/-- the honest users encrypt -/
theorem play_votes (careful side chk : Bool) (R : RngCore E) (F F' : ℕ → E.Fr) (B : Board E) (sk sk1 dk)
    (hset : setupForGroth16 T (tape E) 1 F b gens = .ok ((B.pk, sk1, B.ek, dk), F')) (A : TallyAdversary E)
    (ws0 ws1 : List E.G1) (st0 st1 : R.σ) (P : List (E.Fr × E.Fr)) : ∀ (P0 : List (E.Fr × E.Fr)) (f0 f1 : ℕ → E.Fr) l0 l1,
    encryptAll T chk (tape E) B.ek B.pk b (P0.map (·.1)) F' = .ok (l0, f0) →
    encryptAll T chk (tape E) B.ek B.pk b (P0.map (·.2)) F' = .ok (l1, f1) →
    ∃ f2 f3 l2 l3, encryptAll T chk (tape E) B.ek B.pk b ((P0 ++ P).map (·.1)) F' = .ok (l2, f2) ∧
      encryptAll T chk (tape E) B.ek B.pk b ((P0 ++ P).map (·.2)) F' = .ok (l3, f3) ∧
      playTally careful side T chk b B sk R (votes P A) ⟨f0, l0, ws0, st0⟩ ⟨f1, l1, ws1, st1⟩ =
        playTally careful side T chk b B sk R A ⟨f2, l2, ws0, st0⟩ ⟨f3, l3, ws1, st1⟩ := by
  induction P with
  | nil => exact fun P0 f0 f1 l0 l1 h0 h1 => ⟨f0, f1, l0, l1, by simpa using h0, by simpa using h1, rfl⟩
  | cons m P ih =>
    intro P0 f0 f1 l0 l1 h0 h1
    obtain ⟨m0, m1⟩ := m
    obtain ⟨ct0, r0, proof0, f2, henc0, hl0⟩ := Cca.next_encryption T b n hb hn hbm hal gens hH d hd chk _ _ f0 B.pk sk1
      B.ek dk _ l0 hset h0 m0
    obtain ⟨ct1, r1, proof1, f3, henc1, hl1⟩ := Cca.next_encryption T b n hb hn hbm hal gens hH d hd chk _ _ f1 B.pk sk1
      B.ek dk _ l1 hset h1 m1
    obtain ⟨f4, f5, l4, l5, h4, h5, h6⟩ := ih (P0 ++ [(m0, m1)]) f2 f3 _ _ (by rw [List.map_append]; exact hl0)
      (by rw [List.map_append]; exact hl1)
    rw [List.append_assoc, List.singleton_append] at h4 h5
    refine ⟨f4, f5, l4, l5, h4, h5, ?_⟩
    simp only [votes, playTally]
    rw [henc0, henc1]
    exact h6

/-- entries of a selection: the ciphertext of a user, or its re-randomisation -/
def toPick (St : ℕ → E.Fr → Strategy E.Fr) : ℕ × Option E.Fr → Pick E
  | (j, none) => .user j
  | (j, some u) => .own (St j u)

/-- a strategy that makes the same ciphertext -/
def strat (St : ℕ → E.Fr → Strategy E.Fr) (s : ℕ × Option E.Fr) : Strategy E.Fr := St s.1 (s.2.getD 0)

/-- the strategies `St j u` produce accepted re-randomisations -/
def Copies (k q : ℕ) (St : ℕ → E.Fr → Strategy E.Fr) : Prop :=
  ∀ j < q, ∀ u, ∀ (R : RngCore E) (fuel : ℕ) (st : R.σ) (parties : List (Party E)) pk keys shares ek,
    parties.length = k → setupForDkg T R fuel st b gens parties = .ok (pk, keys, shares, ek) →
    ∀ (chk : Bool) (R' : RngCore E) (ms : List E.Fr) (st1 st2 : R'.σ) l, ms.length = q →
      encryptAll T chk R' ek pk b ms st1 = .ok (l, st2) →
      Rerandomises ek l j u ((St j u).cipher (dkgView1 gens pk keys shares ek l)) ∧
      Accepted gens pk ek ((St j u).cipher (dkgView1 gens pk keys shares ek l))
        ((St j u).proof (dkgView1 gens pk keys shares ek l) (dkgView2 gens pk keys ek l))

include hb hn hbm hal hH hd in
theorem copies (k q : ℕ) (hk : 0 < k) : ∃ St : ℕ → E.Fr → Strategy E.Fr, Copies T b gens k q St := by
  classical
  have h := fun (j : ℕ) (hj : j < q) (u : E.Fr) => C90_rerandomiser T b n hb hn hbm hal gens hH d hd k hk q j hj u 1 0
    one_ne_zero
  refine ⟨fun j u => if hj : j < q then (h j hj u).choose else { x := 0, len := 0, chunk := 0, psi := 0, a := 0, b := 0, c := 0 },
      fun j hj u => ?_⟩
  simp only [dif_pos hj]
  exact (h j hj u).choose_spec

include hb hn hbm hal in
/-- what is selected -/
theorem entry (others1 others2 : List (Party E)) (chk : Bool) (q : ℕ) (St : ℕ → E.Fr → Strategy E.Fr)
    (hSt : Copies T b gens (others1.length + 1 + others2.length) q St) (f f' F : ℕ → E.Fr) (pk keys shares ek sk1 dk)
    (hset : setupForDkg T (tape E) 1 f b gens (others1 ++ ⟨tape E, fun i => f (5 + i)⟩ :: others2) =
        .ok (pk, keys, shares, ek))
    (hset' : setupForGroth16 T (tape E) 1 F b gens = .ok ((pk, sk1, ek, dk), f'))
    (ms : List E.Fr) (hms : ms.length = q) (l f'') (hl : encryptAll T chk (tape E) ek pk b ms f' = .ok (l, f''))
    {σ : Type} (st : σ) (s : ℕ × Option E.Fr) (hs : s.1 < q) :
    ∃ r, (toPick St s).ballot ⟨gens, pk, keys, shares, ek⟩ (⟨f'', l, [], st⟩ : World E σ) =
        some (cipher ek (base pk) (dig b (ms.getD s.1 0)) r) ∧
      (strat St s).cipher (dkgView1 gens pk keys shares ek l) = cipher ek (base pk) (dig b (ms.getD s.1 0)) r := by
  classical
  obtain ⟨j, o⟩ := s
  have hpl : (others1 ++ (⟨tape E, fun i => f (5 + i)⟩ : Party E) :: others2).length =
      others1.length + 1 + others2.length := by
    simp
    omega
  obtain ⟨⟨ct, proof, hj, hct⟩, hacc⟩ := hSt j hs 0 (tape E) 1 f _ pk keys shares ek hpl hset chk (tape E) ms f' f'' l hms hl
  obtain ⟨r, hr⟩ := user_cipher T b n hb hn hbm hal gens chk F f' f'' pk sk1 ek dk hset' ms l hl j ct proof hj
  rw [hr, (C77_fresh ek _ _ _ 0).1, add_zero] at hct
  cases o with
  | none =>
    refine ⟨r, ?_, hct⟩
    show (l[j]?).map (·.1) = _
    rw [hj, ← hr]
    rfl
  | some u =>
    obtain ⟨⟨ct', proof', hj', hct'⟩, hacc'⟩ := hSt j hs u (tape E) 1 f _ pk keys shares ek hpl hset chk (tape E) ms f'
      f'' l hms hl
    rw [hj] at hj'
    cases hj'
    rw [hr, (C77_fresh ek _ _ _ u).1] at hct'
    refine ⟨r + u, ?_, hct'⟩
    simp only [toPick, Pick.ballot, Board.view1, Board.view2, List.append_nil]
    rw [if_pos hacc', hct']

include hb hn hbm hal in
/-- what the selection adds up to -/
theorem entries (others1 others2 : List (Party E)) (chk : Bool) (q : ℕ) (St : ℕ → E.Fr → Strategy E.Fr)
    (hSt : Copies T b gens (others1.length + 1 + others2.length) q St) (f f' F : ℕ → E.Fr) (pk keys shares ek sk1 dk)
    (hset : setupForDkg T (tape E) 1 f b gens (others1 ++ ⟨tape E, fun i => f (5 + i)⟩ :: others2) =
        .ok (pk, keys, shares, ek))
    (hset' : setupForGroth16 T (tape E) 1 F b gens = .ok ((pk, sk1, ek, dk), f'))
    (ms : List E.Fr) (hms : ms.length = q) (l f'') (hl : encryptAll T chk (tape E) ek pk b ms f' = .ok (l, f''))
    {σ : Type} (st : σ) (sel : List (ℕ × Option E.Fr)) (hsel : ∀ s ∈ sel, s.1 < q) :
    ∃ items : List ((ℕ → ℕ) × E.Fr),
      ((sel.map (toPick St)).filterMap fun p => p.ballot ⟨gens, pk, keys, shares, ek⟩ (⟨f'', l, [], st⟩ : World E σ)) =
        items.map (fun a => cipher ek (base pk) a.1 a.2) ∧ items.length = sel.length ∧
      (∀ i, (items.map fun a => a.1 i).sum = (sel.map fun s => dig b (ms.getD s.1 0) i).sum) ∧
      comb (fun k => (sel.map fun s => (strat St s).x k).sum) (dkgView1 gens pk keys shares ek l) =
        (items.map (·.2)).sum • ek.X_0 ∧
      ∀ i < n.toNat, comb (fun k => (sel.map fun s => (strat St s).chunk i k).sum) (dkgView1 gens pk keys shares ek l) =
        (items.map (·.2)).sum • ek.X.getD i 0 +
          (((sel.map fun s => dig b (ms.getD s.1 0) i).sum : ℕ) : E.Fr) • base pk i := by
  have hX := (len_X T b n hn hbm gens _ _ pk sk1 ek dk hset').1
  induction sel with
  | nil => exact ⟨[], rfl, rfl, fun i => rfl, by simp [comb], fun i hi => by simp [comb]⟩
  | cons s sel ih =>
    obtain ⟨items, h1, h2, h3, h4, h5⟩ := ih fun s hs => hsel s (List.mem_cons_of_mem _ hs)
    obtain ⟨r, hr1, hr2⟩ := entry T b n hb hn hbm hal gens others1 others2 chk q St hSt f f' F pk keys shares ek sk1 dk hset
      hset' ms hms l f'' hl st s (hsel s (by simp))
    refine ⟨(dig b (ms.getD s.1 0), r) :: items, ?_, by simp [h2], fun i => ?_, ?_, fun i hi => ?_⟩
    · rw [List.map_cons, List.filterMap_cons_some hr1, h1]
      rfl
    · simp only [List.map_cons, List.sum_cons]
      rw [h3]
    · simp only [List.map_cons, List.sum_cons]
      rw [Cca.comb_add, h4, add_smul]
      congr 1
      exact congrArg Ciphertext.X_r hr2
    · simp only [List.map_cons, List.sum_cons]
      rw [Cca.comb_add, h5 i hi]
      have hlen : (strat St s).len = n.toNat := by
        have := congrArg (fun c => c.enc_chunks.length) hr2
        simp only [Strategy.cipher, cipher, length_tab] at this
        omega
      have := congrArg (fun c => c.enc_chunks.getD i 0) hr2
      simp only [Strategy.cipher, cipher] at this
      rw [getD_tab, getD_tab, if_pos (by omega), if_pos (by omega), nsmul_fr (E := E)] at this
      rw [this, Nat.cast_add]
      module

variable (others1 others2 : List (Party E))

include hb hn hbm hal hG hH hd in
/-- a party that hands out its share of every sum lets the adversary tell different sums apart -/
theorem attack (hp : d.size < E.fr.p) (chk : Bool) (R : RngCore E) (st : R.σ) (P : List (E.Fr × E.Fr))
    (St : ℕ → E.Fr → Strategy E.Fr) (hSt : Copies T b gens (others1.length + 1 + others2.length) P.length St)
    (sel : List (ℕ × Option E.Fr)) (hne : sel ≠ []) (hsel : ∀ s ∈ sel, s.1 < P.length) (i : ℕ) (hi : i < n.toNat)
    (hdiff : (((sel.map fun s => dig b ((P.map (·.1)).getD s.1 0) i).sum : ℕ) : E.Fr) ≠
      (((sel.map fun s => dig b ((P.map (·.2)).getD s.1 0) i).sum : ℕ) : E.Fr)) :
    ∃ q, ∀ C, P.length ≤ C →
      E.fr.p ^ (6 + 2 * n.toNat + 3 * C) ≤
        rightGuessesTally false (6 + 2 * n.toNat + 3 * C) true T chk b gens others1 others2 R st
          (pollster P (sel.map (toPick St)) q) + (d.size + 2 * n.toNat + 3) * E.fr.p ^ (5 + 2 * n.toNat + 3 * C) ∧
      rightGuessesTally false (6 + 2 * n.toNat + 3 * C) false T chk b gens others1 others2 R st
          (pollster P (sel.map (toPick St)) q) ≤ (2 * n.toNat + 1) * E.fr.p ^ (5 + 2 * n.toNat + 3 * C) := by
  classical
  obtain ⟨c0, cs, hc0, hcs, hI, hC, -⟩ := setup_shape (E := E) hn hbm
  let S' : Strategy E.Fr := { strat St (0, none) with
    x := fun k => (sel.map fun s => (strat St s).x k).sum
    chunk := fun i k => (sel.map fun s => (strat St s).chunk i k).sum }
  obtain ⟨q, hq⟩ := chunk_question (E := E) cs.numWit (d.size - 1) cs.vars.length cs.numInst n.toNat
    ((others1.length + 1 + others2.length) * (2 + 2 * n.toNat) + (others1.length + 1 + others2.length)) P.length i
    (by omega) S' (othersS others1 others2 i)
    (((sel.map fun s => dig b ((P.map (·.2)).getD s.1 0) i).sum : ℕ) : E.Fr)
  refine ⟨q, fun C hC1 => ?_⟩
  obtain ⟨Bad, hBad, hset0⟩ := setups T b n hn hbm gens d hd others1 others2 hp C
  obtain ⟨Deg0, hDeg0, hnd⟩ := Cca.degenerate T b n hb hn hbm hal gens hG hH d hd (7 + 3 * n.toNat + 3 * C) (by omega)
  rw [show 7 + 3 * n.toNat + 3 * C - 1 = 6 + 3 * n.toNat + 3 * C by omega] at hDeg0
  obtain ⟨Deg, hDeg, hx⟩ := shrink n.toNat C (othersS others1 others2) (othersT n.toNat others1 others2)
    (2 * n.toNat + 1) Deg0 hDeg0
  have hplay : ∀ side g pk keys shares ek, setupForDkg T (tape E) 1 (tapeOf g) b gens
      (others1 ++ ⟨tape E, fun i => tapeOf g (5 + i)⟩ :: others2) = .ok (pk, keys, shares, ek) →
      g ∉ Deg → experimentTally false side T chk b gens others1 others2 R st (pollster P (sel.map (toPick St)) q)
        (tapeOf g) = side := by
    intro side g pk keys shares ek hset hg
    obtain ⟨z, g', hg', hm⟩ := hx g hg
    obtain ⟨sk, hsk, ω, sk1, dk, hlink⟩ := link_of_run T b n hn hbm gens hG d hd others1 others2 c0 hc0 cs hcs hI
      hC (tapeOf g) z pk keys shares ek hset
    have hset' := hlink.set
    rw [hm] at hset'
    have hdeg := hnd g' hg' pk sk1 ek dk _ hset'
    obtain ⟨hsh, hK, -, st', g_i, hsrs, hgi, hk⟩ := dkg_facts T b n hn gens d hd hc0 hcs hI hC (by simp) hset
    have hpl : (others1 ++ (⟨tape E, fun i => tapeOf g (5 + i)⟩ : Party E) :: others2).length =
        others1.length + 1 + others2.length := by
      simp
      omega
    rw [hpl] at hK
    obtain ⟨f2, f3, l2, l3, h2, h3, hpv⟩ := play_votes T b n hb hn hbm hal gens hH d hd false side chk R _ _
      ⟨gens, pk, keys, shares, ek⟩ sk sk1 dk hset'
      (.tally (sel.map (toPick St)) (fun _ => 0) fun _ => .ask q (.guess true) (.guess false)) [] [] st st P [] _ _ [] []
      rfl rfl
    rw [List.nil_append] at h2 h3
    obtain ⟨hX, hgl⟩ := len_X T b n hn hbm gens _ _ pk sk1 ek dk hset'
    have hGi : base pk i ≠ 0 := by
      unfold base
      rw [List.getD_eq_getElem _ _ (by omega)]
      exact hdeg.1 _ (List.getElem_mem _)
    -- the course of events with the messages `ms`
    have hone : ∀ (ms : List E.Fr) f'' l, ms.length = P.length →
        encryptAll T chk (tape E) ek pk b ms (fun i => tapeOf g (6 + 2 * ek.X.length + i)) = .ok (l, f'') →
        ∃ v w, Board.sum ⟨gens, pk, keys, shares, ek⟩ (⟨f'', l, [], st⟩ : World E R.σ) (sel.map (toPick St)) = .ok v ∧
          (⟨f'', l, [], st⟩ : World E R.σ).help ⟨gens, pk, keys, shares, ek⟩ sk R v
            (comb (fun _ => (0 : E.Fr)) (Board.view1 ⟨gens, pk, keys, shares, ek⟩ (⟨f'', l, [], st⟩ : World E R.σ))) = w ∧
          (q.Yes (Board.view1 ⟨gens, pk, keys, shares, ek⟩ w) (Board.view2 ⟨gens, pk, keys, shares, ek⟩ w) ↔
            (((sel.map fun s => dig b (ms.getD s.1 0) i).sum : ℕ) : E.Fr) =
              (((sel.map fun s => dig b ((P.map (·.2)).getD s.1 0) i).sum : ℕ) : E.Fr)) := by
      intro ms f'' l hms hl
      obtain ⟨items, a1, a2, a3, a4, a5⟩ := entries T b n hb hn hbm hal gens others1 others2 chk P.length St hSt (tapeOf g) _
        (tapeOf g') pk keys shares ek sk1 dk hset hset' ms hms l f'' hl st sel hsel
      have hi0 : items ≠ [] := fun h => by
        rw [h] at a2
        exact hne (List.length_eq_zero_iff.mp a2.symm)
      generalize hr : (items.map (·.2)).sum = r at a4 a5
      have hsum : Board.sum ⟨gens, pk, keys, shares, ek⟩ (⟨f'', l, [], st⟩ : World E R.σ) (sel.map (toPick St)) =
          .ok (flat (cipher ek (base pk) (fun i => (items.map fun a => a.1 i).sum) r)) := by
        unfold Board.sum
        rw [a1, List.map_map, ← hr]
        exact aggregate_cipher ek (base pk) items hi0 (fun a => a.1) (fun a => a.2)
      refine ⟨_, _, hsum, rfl, ?_⟩
      have hck : ((flat (cipher ek (base pk) (fun i => (items.map fun a => a.1 i).sum) r)).drop 1).take ek.X.length =
          (cipher ek (base pk) (fun i => (items.map fun a => a.1 i).sum) r).enc_chunks := by
        unfold flat
        rw [List.drop_one, List.tail_cons, List.take_append_of_le_length (by simp [cipher]),
          List.take_of_length_le (by simp [cipher])]
      have hlen : (cipher ek (base pk) (fun i => (items.map fun a => a.1 i).sum) r).enc_chunks.length = n.toNat := by
        simp [cipher, hX]
      obtain ⟨h1, h2, -⟩ := honest_lists T b n hb hn hal gens hc0 hsrs hgi hk hl
      have hz : comb (fun _ => (0 : E.Fr)) (Board.view1 ⟨gens, pk, keys, shares, ek⟩ (⟨f'', l, [], st⟩ : World E R.σ)) = 0 := by
        simp [comb]
      unfold World.help
      dsimp only
      rw [hz, hck, reEncryptShare_eq R st gens _ _ _ sk (by rw [hlink.sks, hlen]; simp)]
      dsimp only
      unfold Board.view1 Board.view2
      dsimp only
      have e0 : (flat (cipher ek (base pk) (fun i => (items.map fun a => a.1 i).sum) r)).getD 0 0 = r • ek.X_0 := rfl
      rw [hlen, e0, List.nil_append]
      rw [hq gens pk keys shares ek l (dk0 n.toNat) _ (dkgView2 gens pk keys ek l) hsh hK (h1.trans hms) h2 (by simp; omega)]
      rw [List.getD_append _ _ _ _ (by simpa using hi), getD_tab, if_pos hi, smul_zero, add_zero]
      show comb (fun k => (sel.map fun s => (strat St s).chunk i k).sum) _ - _ • comb (fun k => (sel.map fun s => (strat St s).x k).sum) _ - _ • base pk i + _ = 0 ↔ _
      rw [a4, a5 i hi, hlink.sks, getD_tab, if_pos hi, hlink.X i hi]
      generalize (((sel.map fun s => dig b (ms.getD s.1 0) i).sum : ℕ) : E.Fr) = A1
      generalize (((sel.map fun s => dig b ((P.map (·.2)).getD s.1 0) i).sum : ℕ) : E.Fr) = A2
      rw [← sub_eq_zero (b := A2)]
      have e : r • (tapeOf g (5 + i) + othersS others1 others2 i) • ek.X_0 + A1 • base pk i -
          othersS others1 others2 i • r • ek.X_0 - A2 • base pk i + -(tapeOf g (5 + i) • r • ek.X_0) =
          (A1 - A2) • base pk i := by
        module
      rw [e, smul_eq_zero, or_iff_left hGi]
    obtain ⟨v, w, b1, b2, b3⟩ := hone _ f2 l2 (by simp) h2
    obtain ⟨v', w', d1, d2, d3⟩ := hone _ f3 l3 (by simp) h3
    unfold experimentTally
    rw [hset]
    dsimp only
    rw [hsk]
    dsimp only
    unfold pollster
    rw [hpv]
    simp only [playTally]
    have hstep : tallyStep false ⟨gens, pk, keys, shares, ek⟩ sk R (sel.map (toPick St)) (fun _ => 0)
        ⟨f2, l2, [], st⟩ ⟨f3, l3, [], st⟩ = (true, w, w') := by
      unfold tallyStep
      rw [b1, d1]
      dsimp only
      rw [if_neg (fun h => Bool.false_ne_true h.1), b2, d2]
    rw [hstep]
    cases side with
    | true => rw [if_pos]; exact d3.mpr rfl
    | false => rw [if_neg]; exact fun hc => hdiff (b3.mp hc)
  constructor
  · rw [← Nm.card_draws]
    unfold rightGuessesTally
    refine (Finset.card_le_card (t := (Finset.univ.filter fun x : Fin (6 + 2 * n.toNat + 3 * C) → E.Fr =>
        experimentTally false true T chk b gens others1 others2 R st (pollster P (sel.map (toPick St)) q) (tapeOf x) =
          true) ∪ (Bad ∪ Deg)) ?_).trans
          ((Finset.card_union_le _ _).trans (Nat.add_le_add_left ((Finset.card_union_le _ _).trans ?_) _))
    · intro g _
      rw [Finset.mem_union]
      by_cases hg : g ∈ Bad ∪ Deg
      · exact Or.inr hg
      · rw [Finset.mem_union, not_or] at hg
        refine Or.inl (Finset.mem_filter.mpr ⟨Finset.mem_univ _, ?_⟩)
        obtain ⟨pk, keys, shares, ek, hset⟩ := hset0 g hg.1
        exact hplay true g _ _ _ _ hset hg.2
    · rw [show d.size + 2 * n.toNat + 3 = d.size + 2 + (2 * n.toNat + 1) by omega, Nat.add_mul]
      omega
  · refine le_trans (Finset.card_le_card ?_) hDeg
    intro g hg
    by_contra hc
    have := (Finset.mem_filter.mp hg).2
    cases hset : setupForDkg T (tape E) 1 (tapeOf g) b gens
        (others1 ++ ⟨tape E, fun i => tapeOf g (5 + i)⟩ :: others2) with
    | ok x =>
      obtain ⟨pk, keys, shares, ek⟩ := x
      rw [hplay false g _ _ _ _ hset hc] at this
      cases this
    | err e => unfold experimentTally at this; rw [hset] at this; cases this
    | panic => unfold experimentTally at this; rw [hset] at this; cases this

include hb hn hbm hal in
/-- the sum of ciphertexts of honest users -/
theorem users_sum (chk : Bool) (f f' F : ℕ → E.Fr) (pk keys shares ek sk1 dk)
    (hset' : setupForGroth16 T (tape E) 1 F b gens = .ok ((pk, sk1, ek, dk), f')) (ms : List E.Fr) (l)
    (hl : encryptAll T chk (tape E) ek pk b ms f' = .ok (l, f)) (users : List ℕ) (hne : users ≠ [])
    (hu : ∀ j ∈ users, j < ms.length) {σ : Type} (rest : ℕ → E.Fr) (ws : List E.G1) (st : σ) :
    ∃ r, Board.sum ⟨gens, pk, keys, shares, ek⟩ (⟨rest, l, ws, st⟩ : World E σ) (users.map .user) =
      .ok (flat (cipher ek (base pk) (fun i => (users.map fun j => dig b (ms.getD j 0) i).sum) r)) := by
  classical
  have hlen : l.length = ms.length := by
    obtain ⟨c0, cs, hc0, -⟩ := setup_shape (E := E) hn hbm
    obtain ⟨g_i, st3, hsrs, hg, hk⟩ := Nm.setup_parts hc0 hset'
    exact (Nm.encryptAll_facts T (tape E) 1 F st3 b hb hal c0 gens pk hc0 hsrs g_i hg ek hk chk (tape E) ms f' f l hl).1
  have hex : ∀ j, ∃ r, j < ms.length → (l[j]?).map (·.1) = some (cipher ek (base pk) (dig b (ms.getD j 0)) r) := by
    intro j
    by_cases hj : j < ms.length
    · have hj' : j < l.length := by omega
      obtain ⟨r, hr⟩ := user_cipher T b n hb hn hbm hal gens chk F f' f pk sk1 ek dk hset' ms l hl j (l[j]).1 (l[j]).2
        (List.getElem?_eq_getElem hj')
      exact ⟨r, fun _ => by rw [List.getElem?_eq_getElem hj', Option.map_some, hr]⟩
    · exact ⟨0, fun h => absurd h hj⟩
  choose ρ hρ using hex
  refine ⟨(users.map ρ).sum, ?_⟩
  unfold Board.sum
  have e : (((users.map Pick.user).filterMap fun p : Pick E => p.ballot ⟨gens, pk, keys, shares, ek⟩
      (⟨rest, l, ws, st⟩ : World E σ)).map flat) =
      users.map fun j => flat (cipher ek (base pk) (dig b (ms.getD j 0)) (ρ j)) := by
    clear hne
    induction users with
    | nil => rfl
    | cons j users ih =>
      have hp : (Pick.user j : Pick E).ballot ⟨gens, pk, keys, shares, ek⟩ (⟨rest, l, ws, st⟩ : World E σ) =
          some (cipher ek (base pk) (dig b (ms.getD j 0)) (ρ j)) := hρ j (hu j (by simp))
      rw [List.map_cons, List.filterMap_cons, hp]
      dsimp only
      rw [List.map_cons, List.map_cons, ih fun k hk => hu k (List.mem_cons_of_mem _ hk)]
  rw [e]
  exact aggregate_cipher ek (base pk) users hne (fun j => dig b (ms.getD j 0)) ρ

include hb hn hbm hal hH hd in
/-- an adversary that always guesses "right" is never stopped -/
theorem right_play (careful side chk : Bool) (R : RngCore E) (F F' : ℕ → E.Fr) (B : Board E) (sk sk1 dk)
    (hset : setupForGroth16 T (tape E) 1 F b gens = .ok ((B.pk, sk1, B.ek, dk), F')) (A : TallyAdversary E) :
    A.AlwaysRight → ∀ (P : List (E.Fr × E.Fr)) (left right : World E R.σ),
      encryptAll T chk (tape E) B.ek B.pk b (P.map (·.1)) F' = .ok (left.users, left.rest) →
      encryptAll T chk (tape E) B.ek B.pk b (P.map (·.2)) F' = .ok (right.users, right.rest) →
      playTally careful side T chk b B sk R A left right = true := by
  induction A with
  | guess a => exact fun h P left right _ _ => h
  | ask Q yes no ihy ihn =>
    intro h P left right h0 h1
    simp only [playTally]
    by_cases hq : Q.Yes (B.view1 (if side then right else left)) (B.view2 (if side then right else left))
    · rw [if_pos hq]
      exact ihy h.1 P left right h0 h1
    · rw [if_neg hq]
      exact ihn h.2 P left right h0 h1
  | vote m0 m1 next ih =>
    intro h P left right h0 h1
    obtain ⟨ct0, r0, proof0, f2, henc0, hl0⟩ := Cca.next_encryption T b n hb hn hbm hal gens hH d hd chk _ _ _ B.pk sk1
      B.ek dk _ _ hset h0 m0
    obtain ⟨ct1, r1, proof1, f3, henc1, hl1⟩ := Cca.next_encryption T b n hb hn hbm hal gens hH d hd chk _ _ _ B.pk sk1
      B.ek dk _ _ hset h1 m1
    simp only [playTally]
    rw [henc0, henc1]
    exact ih h (P ++ [(m0, m1)]) _ _ (by rw [List.map_append]; exact hl0) (by rw [List.map_append]; exact hl1)
  | tally sel dest next ih =>
    intro h P left right h0 h1
    have hh : ∀ (w : World E R.σ) v x, (w.help B sk R v x).users = w.users ∧ (w.help B sk R v x).rest = w.rest := by
      intro w v x
      unfold World.help
      split <;> exact ⟨rfl, rfl⟩
    have hs : (tallyStep careful B sk R sel dest left right).2.1.users = left.users ∧
        (tallyStep careful B sk R sel dest left right).2.1.rest = left.rest ∧
        (tallyStep careful B sk R sel dest left right).2.2.users = right.users ∧
        (tallyStep careful B sk R sel dest left right).2.2.rest = right.rest := by
      unfold tallyStep
      split
      · split
        · exact ⟨rfl, rfl, rfl, rfl⟩
        · exact ⟨(hh _ _ _).1, (hh _ _ _).2, (hh _ _ _).1, (hh _ _ _).2⟩
      · exact ⟨rfl, rfl, rfl, rfl⟩
    simp only [playTally]
    obtain ⟨s1, s2, s3, s4⟩ := hs
    exact ih _ (h _) P _ _ (by rw [s1, s2]; exact h0) (by rw [s3, s4]; exact h1)

end
end Tally

section
variable (T : FftCfg E.Fr) (b n : UInt8) (hb : Supported b) (hn : chunksCount E.fr b = .ok n)
    (hbm : b.toNat ≤ E.fr.modBits)
    (hal : 64 * E.fr.limbs < E.fr.modBits + b.toNat ∧ chunksNeeded E.fr b.toNat ≤ 255)
    (gens : EncryptionGens E) (hG : gens.G ≠ 0) (hH : gens.H ≠ 0) (d : EvalDomain E.Fr)
    (hd : T.newDomain (n.toNat * constraintsPerValue E.fr.modBits b.toNat + (n.toNat + 1)) = some d)
    (others1 others2 : List (Party E))
include hb hn hbm hal hG hd

/-- **C101** The share is handed out whenever only ciphertexts of honest users are selected and the sums of their chunks are
the same on both sides: the honest party then hands out what `re_encrypt_share` returns, one element per chunk and one
more. -/
theorem C101_honest_sums_given (chk : Bool) (f : ℕ → E.Fr) (pk keys shares ek sk)
    (hset : setupForDkg T (tape E) 1 f b gens (others1 ++ ⟨tape E, fun i => f (5 + i)⟩ :: others2) =
      .ok (pk, keys, shares, ek))
    (hsk : partySecret b gens pk (fun i => f (5 + i)) = .ok sk)
    (P : List (E.Fr × E.Fr)) (l0 f0 l1 f1)
    (he0 : encryptAll T chk (tape E) ek pk b (P.map (·.1)) (fun i => f (6 + 2 * ek.X.length + i)) = .ok (l0, f0))
    (he1 : encryptAll T chk (tape E) ek pk b (P.map (·.2)) (fun i => f (6 + 2 * ek.X.length + i)) = .ok (l1, f1))
    (left right : List (List UInt16))
    (hleft : List.Forall₂ (fun m ds => decompose (K := E.fr) m b = .ok ds) (P.map (·.1)) left)
    (hright : List.Forall₂ (fun m ds => decompose (K := E.fr) m b = .ok ds) (P.map (·.2)) right)
    (users : List ℕ) (hne : users ≠ []) (hu : ∀ j ∈ users, j < P.length)
    (hsame : ∀ i < n.toNat, chunkSum left users i = chunkSum right users i)
    (R : RngCore E) (st0 st1 : R.σ) (ws0 ws1 : List E.G1) (dest : ℕ → E.Fr) :
    ∃ new0 new1 st0' st1', new0.length = n.toNat + 1 ∧ new1.length = n.toNat + 1 ∧
      tallyStep true ⟨gens, pk, keys, shares, ek⟩ sk R (users.map .user) dest ⟨f0, l0, ws0, st0⟩ ⟨f1, l1, ws1, st1⟩ =
        (true, ⟨f0, l0, ws0 ++ new0, st0'⟩, ⟨f1, l1, ws1 ++ new1, st1'⟩) := by
  classical
  obtain ⟨c0, cs, hc0, hcs, hI, hC, -⟩ := setup_shape (E := E) hn hbm
  obtain ⟨sk', hsk', ω, sk1, dk, hlink⟩ := ReGame.link_of_run T b n hn hbm gens hG d hd others1 others2 c0 hc0 cs hcs hI
    hC f (fun _ => 0) pk keys shares ek hset
  rw [hsk] at hsk'
  cases hsk'
  obtain ⟨hX, -⟩ := Tally.len_X T b n hn hbm gens _ _ pk sk1 ek dk hlink.set
  obtain ⟨r0, h0⟩ := Tally.users_sum T b n hb hn hbm hal gens chk f0 _ _ pk keys shares ek sk1 dk hlink.set _ l0 he0 users hne
    (by simpa using hu) f0 ws0 st0
  obtain ⟨r1, h1⟩ := Tally.users_sum T b n hb hn hbm hal gens chk f1 _ _ pk keys shares ek sk1 dk hlink.set _ l1 he1 users hne
    (by simpa using hu) f1 ws1 st1
  have hhelp : ∀ (m : ℕ → ℕ) (r : E.Fr) rest l ws (st : R.σ) x, ∃ new st', new.length = n.toNat + 1 ∧
      (⟨rest, l, ws, st⟩ : World E R.σ).help ⟨gens, pk, keys, shares, ek⟩ sk R
        (flat (cipher ek (Tally.base pk) m r)) x = ⟨rest, l, ws ++ new, st'⟩ := by
    intro m r rest l ws st x
    have hck : ((flat (cipher ek (Tally.base pk) m r)).drop 1).take ek.X.length =
        (cipher ek (Tally.base pk) m r).enc_chunks := by
      unfold flat
      rw [List.drop_one, List.tail_cons, List.take_append_of_le_length (by simp [cipher]),
        List.take_of_length_le (by simp [cipher])]
    unfold World.help
    dsimp only
    rw [hck, reEncryptShare_eq R st gens _ _ _ sk (by rw [hlink.sks]; simp [cipher, hX])]
    exact ⟨_, _, by simp [cipher, hX], rfl⟩
  unfold tallyStep
  rw [h0, h1]
  dsimp only
  rw [if_neg]
  · obtain ⟨n0, s0, a1, a2⟩ := hhelp (fun i => (users.map fun j => ReGame.dig b ((P.map (·.1)).getD j 0) i).sum) r0 f0 l0 ws0
      st0 (comb dest (Board.view1 ⟨gens, pk, keys, shares, ek⟩ (⟨f0, l0, ws0, st0⟩ : World E R.σ)))
    obtain ⟨n1, s1, b1, b2⟩ := hhelp (fun i => (users.map fun j => ReGame.dig b ((P.map (·.2)).getD j 0) i).sum) r1 f1 l1 ws1
      st1 (comb dest (Board.view1 ⟨gens, pk, keys, shares, ek⟩ (⟨f1, l1, ws1, st1⟩ : World E R.σ)))
    exact ⟨n0, n1, s0, s1, a1, b1, by rw [a2, b2]⟩
  · rintro ⟨-, hs⟩
    refine hs ⟨_, _, _, r0, r1, rfl, rfl, rfl, ?_⟩
    refine Nm.cipher_congr _ _ _ _ _ fun i hi => ?_
    rw [← Tally.chunkSum_dig b _ left hleft users (by simpa using hu),
      ← Tally.chunkSum_dig b _ right hright users (by simpa using hu), hsame i (by omega)]

include hH

/-- **C101** The games are not trivially the same because they stop: an adversary that always guesses "right" does so on all
but a `(size + 2) / p` fraction of the draws, in both games. -/
theorem C101_no_abort (hp : d.size < E.fr.p) (careful side chk : Bool) (R : RngCore E) (st : R.σ)
    (A : TallyAdversary E) (hA : A.AlwaysRight) (C : ℕ) :
    E.fr.p ^ (6 + 2 * n.toNat + 3 * C) ≤
      rightGuessesTally careful (6 + 2 * n.toNat + 3 * C) side T chk b gens others1 others2 R st A +
        (d.size + 2) * E.fr.p ^ (5 + 2 * n.toNat + 3 * C) := by
  classical
  obtain ⟨c0, cs, hc0, hcs, hI, hC, -⟩ := setup_shape (E := E) hn hbm
  obtain ⟨Bad, hBad, h⟩ := ReGame.setups T b n hn hbm gens d hd others1 others2 hp C
  rw [← Nm.card_draws]
  unfold rightGuessesTally
  refine (Finset.card_le_card (t := (Finset.univ.filter fun x : Fin (6 + 2 * n.toNat + 3 * C) → E.Fr =>
      experimentTally careful side T chk b gens others1 others2 R st A (tapeOf x) = true) ∪ Bad) ?_).trans
        ((Finset.card_union_le _ _).trans (Nat.add_le_add_left hBad _))
  intro g _
  rw [Finset.mem_union]
  by_cases hg : g ∈ Bad
  · exact Or.inr hg
  · refine Or.inl (Finset.mem_filter.mpr ⟨Finset.mem_univ _, ?_⟩)
    obtain ⟨pk, keys, shares, ek, hset⟩ := h g hg
    obtain ⟨sk, hsk, ω, sk1, dk, hlink⟩ := ReGame.link_of_run T b n hn hbm gens hG d hd others1 others2 c0 hc0 cs hcs hI
      hC (tapeOf g) (fun _ => 0) pk keys shares ek hset
    unfold experimentTally
    rw [hset]
    dsimp only
    rw [hsk]
    exact Tally.right_play T b n hb hn hbm hal gens hH d hd careful side chk R _ _ ⟨gens, pk, keys, shares, ek⟩ sk sk1 dk
      hlink.set A hA [] _ _ rfl rfl

/-- **C101** What is not handed out would be a leak: if the honest party hands out its share of every sum, then for all votes
and all selections of honest users whose sums differ in some chunk there is a question that tells the two sides apart on all
but few draws. -/
theorem C101_care_needed (hp : d.size < E.fr.p) (chk : Bool) (R : RngCore E) (st : R.σ) (P : List (E.Fr × E.Fr))
    (left right : List (List UInt16))
    (hleft : List.Forall₂ (fun m ds => decompose (K := E.fr) m b = .ok ds) (P.map (·.1)) left)
    (hright : List.Forall₂ (fun m ds => decompose (K := E.fr) m b = .ok ds) (P.map (·.2)) right)
    (users : List ℕ) (hu : ∀ j ∈ users, j < P.length) (i : ℕ) (hi : i < n.toNat)
    (hdiff : ((chunkSum left users i : ℕ) : E.Fr) ≠ ((chunkSum right users i : ℕ) : E.Fr)) :
    ∃ q, ∀ C, P.length ≤ C →
      E.fr.p ^ (6 + 2 * n.toNat + 3 * C) ≤
        rightGuessesTally false (6 + 2 * n.toNat + 3 * C) true T chk b gens others1 others2 R st
          (pollster P (users.map .user) q) + (d.size + 2 * n.toNat + 3) * E.fr.p ^ (5 + 2 * n.toNat + 3 * C) ∧
      rightGuessesTally false (6 + 2 * n.toNat + 3 * C) false T chk b gens others1 others2 R st
          (pollster P (users.map .user) q) ≤ (2 * n.toNat + 1) * E.fr.p ^ (5 + 2 * n.toNat + 3 * C) := by
  obtain ⟨St, hSt⟩ := Tally.copies T b n hb hn hbm hal gens hH d hd (others1.length + 1 + others2.length) P.length (by omega)
  rw [Tally.chunkSum_dig b _ left hleft users (by simpa using hu),
    Tally.chunkSum_dig b _ right hright users (by simpa using hu)] at hdiff
  have hne : users ≠ [] := by
    rintro rfl
    exact hdiff rfl
  obtain ⟨q, hq⟩ := Tally.attack T b n hb hn hbm hal gens hG hH d hd others1 others2 hp chk R st P St hSt
    (users.map fun j => (j, none)) (by simpa using hne) (by
      intro s hs
      obtain ⟨j, hj, rfl⟩ := List.mem_map.mp hs
      exact hu j hj) i hi (by simpa only [List.map_map, Function.comp_def] using hdiff)
  have e : (users.map fun j => ((j, none) : ℕ × Option E.Fr)).map (Tally.toPick St) = users.map .user := by
    rw [List.map_map]
    rfl
  rw [e] at hq
  exact ⟨q, hq⟩

/-- **C101** Re-randomised copies of votes break the secrecy of votes.  Two honest users encrypt `m0` and `m1`, or `m1` and
`m0`.  The sum of their two ciphertexts is the same either way, and handing out the share for it is harmless by
`C101_sums_reveal_sums`.  But the adversary can re-randomise the ciphertext of the first user by any `u`;
`verify_commitment_and_proof` accepts the copy, and if the honest party hands out its share of the sum of all three, then the
adversary knows who has encrypted what, on all but few draws. -/
theorem C101_copies_break_secrecy (hp : d.size < E.fr.p) (chk : Bool) (R : RngCore E) (st : R.σ) (m0 m1 : E.Fr)
    (hm : m0 ≠ m1) (u : E.Fr) :
    ∃ (S : Strategy E.Fr) (q : Question E),
      (∀ (f : ℕ → E.Fr) pk keys shares ek l f' ms, ms.length = 2 →
        setupForDkg T (tape E) 1 f b gens (others1 ++ ⟨tape E, fun i => f (5 + i)⟩ :: others2) =
          .ok (pk, keys, shares, ek) →
        encryptAll T chk (tape E) ek pk b ms (fun i => f (6 + 2 * ek.X.length + i)) = .ok (l, f') →
        Rerandomises ek l 0 u (S.cipher (dkgView1 gens pk keys shares ek l)) ∧
        Accepted gens pk ek (S.cipher (dkgView1 gens pk keys shares ek l))
          (S.proof (dkgView1 gens pk keys shares ek l) (dkgView2 gens pk keys ek l))) ∧
      ∀ C, 2 ≤ C →
      E.fr.p ^ (6 + 2 * n.toNat + 3 * C) ≤
        rightGuessesTally false (6 + 2 * n.toNat + 3 * C) true T chk b gens others1 others2 R st
          (pollster [(m0, m1), (m1, m0)] [.user 0, .user 1, .own S] q) +
          (d.size + 2 * n.toNat + 3) * E.fr.p ^ (5 + 2 * n.toNat + 3 * C) ∧
      rightGuessesTally false (6 + 2 * n.toNat + 3 * C) false T chk b gens others1 others2 R st
          (pollster [(m0, m1), (m1, m0)] [.user 0, .user 1, .own S] q) ≤
        (2 * n.toNat + 1) * E.fr.p ^ (5 + 2 * n.toNat + 3 * C) := by
  obtain ⟨i, hi, hne⟩ := ReGame.dig_differs b n hb hn hal m0 m1 hm
  obtain ⟨St, hSt⟩ := Tally.copies T b n hb hn hbm hal gens hH d hd (others1.length + 1 + others2.length) 2 (by omega)
  obtain ⟨q, hq⟩ := Tally.attack T b n hb hn hbm hal gens hG hH d hd others1 others2 hp chk R st [(m0, m1), (m1, m0)] St hSt
    [(0, none), (1, none), (0, some u)] (by simp) (by simp) i hi (by
      intro h
      apply hne
      simp only [List.map_cons, List.map_nil, List.sum_cons, List.sum_nil, List.getD_cons_zero, List.getD_cons_succ,
        Nat.cast_add, add_zero] at h
      linear_combination h)
  refine ⟨St 0 u, q, ?_, hq⟩
  intro f pk keys shares ek l f' ms hms hset hl
  exact hSt 0 (by omega) u (tape E) 1 f _ pk keys shares ek (by simp; omega) hset chk (tape E) ms _ f' l hms hl

end
end
end Verif
