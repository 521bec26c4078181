/-
Property C101: the honest party's help with sums reveals nothing but the sums.
-/
import Verif.SpecTally
import Verif.Props.ReGameNeeded

namespace Verif
open Spec Agm

section
variable {E : Engine}

namespace Tally
open Sec SDkg NmDkg ReGame

/-- the bases of the chunks -/
def base (pk : ProvingKey E) (i : ℕ) : E.G1 := pk.pk.vk.gamma_abc_g1.tail.getD i 0

theorem base_gs (pk : ProvingKey E) (i : ℕ) : base pk i = gs pk i := by
  unfold base gs
  simp [List.getD_eq_getElem?_getD]

/-- ciphertexts determine the chunks, modulo the group order -/
theorem cipher_inj' (ek : EncryptionKey E) (g : ℕ → E.G1) (hX : ek.X_0 ≠ 0) (hg : ∀ i < ek.X.length, g i ≠ 0)
    (m m' : ℕ → ℕ) (r r' : E.Fr) (h : cipher ek g m r = cipher ek g m' r') :
    ∀ i < ek.X.length, (m i : E.Fr) = m' i := by
  intro i hi
  have hr : r = r' := smul_left_injective _ hX (congrArg Ciphertext.X_r h)
  subst hr
  have hc := congrArg (fun c => c.enc_chunks.getD i 0) h
  simp only [cipher] at hc
  rw [getD_tab, getD_tab, if_pos hi, if_pos hi, add_right_inj, nsmul_fr (E := E), nsmul_fr (E := E)] at hc
  exact smul_left_injective E.Fr (hg i hi) hc

/-- when two sums are encryptions of the same numbers -/
theorem same_iff (B : Board E) (hX : B.ek.X_0 ≠ 0) (hg : ∀ i < B.ek.X.length, base B.pk i ≠ 0) (m m' : ℕ → ℕ)
    (r r' : E.Fr) : SameTally B (flat (cipher B.ek (base B.pk) m r)) (flat (cipher B.ek (base B.pk) m' r')) ↔
      ∀ i < B.ek.X.length, (m i : E.Fr) = m' i := by
  constructor
  · rintro ⟨ct, ct', k, s, s', h1, h2, h3, h4⟩ i hi
    have e1 := (flat_inj h1).trans h3
    have e2 := (flat_inj h2).trans h4
    exact (cipher_inj' _ _ hX hg _ _ _ _ e1 i hi).trans (cipher_inj' _ _ hX hg _ _ _ _ e2 i hi).symm
  · intro h
    exact ⟨_, _, m, r, r', rfl, rfl, rfl, (Nm.cipher_congr B.ek (base B.pk) m m' r' h).symm⟩

section
variable (T : FftCfg E.Fr) (b n : UInt8) (hb : Supported b) (hn : chunksCount E.fr b = .ok n)
    (hbm : b.toNat ≤ E.fr.modBits)
    (hal : 64 * E.fr.limbs < E.fr.modBits + b.toNat ∧ chunksNeeded E.fr b.toNat ≤ 255)
    (gens : EncryptionGens E) (hG : gens.G ≠ 0) (hH : gens.H ≠ 0) (d : EvalDomain E.Fr)
    (hd : T.newDomain (n.toNat * constraintsPerValue E.fr.modBits b.toNat + (n.toNat + 1)) = some d)

include hb hn hbm hal in
/-- what the honest users' ciphertexts are -/
theorem user_cipher (chk : Bool) (f f' f'' : ℕ → E.Fr) (pk sk ek dk)
    (hset : setupForGroth16 T (tape E) 1 f b gens = .ok ((pk, sk, ek, dk), f')) (ms : List E.Fr) (l)
    (hl : encryptAll T chk (tape E) ek pk b ms f' = .ok (l, f'')) (j : ℕ) (ct : Ciphertext E) (proof : Proof E)
    (hj : l[j]? = some (ct, proof)) : ∃ r, ct = cipher ek (base pk) (dig b (ms.getD j 0)) r := by
  obtain ⟨c0, cs, hc0, -⟩ := setup_shape (E := E) hn hbm
  obtain ⟨g_i, st3, hsrs, hg, hk⟩ := Nm.setup_parts hc0 hset
  obtain ⟨-, h3⟩ := Nm.encryptAll_facts T (tape E) 1 f st3 b hb hal c0 gens pk hc0 hsrs g_i hg ek hk chk (tape E) ms f'
    f'' l hl
  obtain ⟨m, st4, r, hmj, henc, -⟩ := h3 j _ hj
  have := (output_iff T b n hb hn hbm hal gens f f' pk sk ek dk hset m ct).mp ⟨g_i, st4, r, _, hg, henc⟩
  rw [List.getD_eq_getElem?_getD, hmj]
  exact this

include hn hbm in
theorem len_X (f f' : ℕ → E.Fr) (pk sk ek dk)
    (hset : setupForGroth16 T (tape E) 1 f b gens = .ok ((pk, sk, ek, dk), f')) :
    ek.X.length = n.toNat ∧ n.toNat ≤ pk.pk.vk.gamma_abc_g1.tail.length := by
  obtain ⟨c0, cs', hc0, -⟩ := setup_shape (E := E) hn hbm
  obtain ⟨g_i, st3, -, hgi, hk⟩ := Nm.setup_parts hc0 hset
  obtain ⟨n', s, t, hn', hgn, hek⟩ := fromSetup_inv hk
  rw [hn] at hn'
  cases hn'
  rw [← Cca.gs_tail hgi]
  exact ⟨by rw [hek]; simp [encKey], hgn⟩

section
variable (cs : CS E.Fr) (o1 o2 : List (Party E))
local notation "pk₀" => srsKey cs d 0 0 0 0 0 gens.G gens.H

include hb hn hbm hal hG hH hd in
/-- What becomes of an entry of a selection: on all but a few draws it is not counted, or always a ciphertext of fixed
chunks, or of the chunks of a fixed user. -/
theorem pick (chk : Bool) (K q : ℕ) (hK : 7 + 3 * n.toNat + 3 * q ≤ K) (ws : Runs pk₀ n.toNat q → List E.G1)
    (hws : Span.All E.Fr (V1 n gens q) ws) (σ : Type) (p : Pick E) :
    ∃ (c : Bool) (x : Runs pk₀ n.toNat q → E.G1) (y : ℕ → Runs pk₀ n.toNat q → E.G1) (v : List E.Fr → ℕ → ℕ),
      Span.In E.Fr (V1 n gens q) x ∧ (∀ i < n.toNat, Span.In E.Fr (V1 n gens q) (y i)) ∧
      ∀ ms : List E.Fr, ms.length = q → ∃ Bad : Finset (Fin K → E.Fr),
      Bad.card ≤ (3 * d.size + 6) * E.fr.p ^ (K - 1) ∧
      ∀ g, g ∉ Bad → ∀ f z, merge2 n.toNat (othersS o1 o2) (othersT n.toNat o1 o2) f z = tapeOf g →
        ∀ pk keys shares ek sk ω sk1 dk l f'' hl (st : σ), Link T b n gens o1 o2 f z pk keys shares ek sk ω sk1 dk →
        encryptAll T chk (tape E) ek pk b ms (fun i => f (6 + 2 * ek.X.length + i)) = .ok (l, f'') →
        ∃ r : E.Fr, p.ballot ⟨gens, pk, keys, shares, ek⟩ ⟨f'', l, ws (ω, ⟨l, hl⟩), st⟩ =
            (if c then some (cipher ek (base pk) (v ms) r) else none) ∧
          (c = false → r = 0 ∧ ∀ i, v ms i = 0) ∧
          x (ω, ⟨l, hl⟩) = r • ek.X_0 ∧
          ∀ i < n.toNat, y i (ω, ⟨l, hl⟩) = r • ek.X.getD i 0 + v ms i • base pk i := by
  classical
  obtain ⟨N1, hN1⟩ := len_L1 (pk0 := pk₀) gens n.toNat
  cases p with
  | user j =>
    by_cases hj : j < q
    · refine ⟨true, fun ω => (V1 n gens q ω).getD (N1 + (j * (n.toNat + 4) + 0)) 0,
        fun i ω => (V1 n gens q ω).getD (N1 + (j * (n.toNat + 4) + (1 + i))) 0, fun ms => dig b (ms.getD j 0),
        Span.In.get _, fun i _ => Span.In.get _, fun ms hms => ⟨∅, by simp, ?_⟩⟩
      intro g _ f z _ pk keys shares ek sk ω sk1 dk l f'' hl st hlink henc
      have hjl : j < l.length := by rw [hl.1]; exact hj
      obtain ⟨r, hr⟩ := user_cipher T b n hb hn hbm hal gens chk _ _ f'' pk sk1 ek dk hlink.set ms l henc j
        (l[j]).1 (l[j]).2 (List.getElem?_eq_getElem hjl)
      have hX := (len_X T b n hn hbm gens _ _ pk sk1 ek dk hlink.set).1
      obtain ⟨-, e0, e1, -⟩ := Nm.blockOf_getD l[j] n.toNat (hl.2 _ (List.getElem_mem _))
      have hs : ∀ i < n.toNat + 4, (V1 n gens q (ω, ⟨l, hl⟩)).getD (N1 + (j * (n.toNat + 4) + i)) 0 =
          (Nm.blockOf l[j]).getD i 0 := fun i hi => by
        unfold V1
        rw [Nm.getD_skip (hN1 _)]
        exact Nm.seen_getD n.toNat l hl.2 j _ (List.getElem?_eq_getElem hjl) i hi
      refine ⟨r, ?_, by simp, ?_, fun i hi => ?_⟩
      · show ((l[j]?).map (·.1)) = _
        rw [List.getElem?_eq_getElem hjl, Option.map_some, if_pos rfl, hr]
      · dsimp only
        rw [hs 0 (by omega), e0, hr]
        rfl
      · dsimp only
        rw [hs (1 + i) (by omega), e1 i hi, hr]
        simp only [cipher]
        rw [getD_tab, if_pos (by omega)]
    · refine ⟨false, fun _ => 0, fun _ _ => 0, fun _ _ => 0, Span.In.zero, fun _ _ => Span.In.zero, fun ms hms =>
        ⟨∅, by simp, ?_⟩⟩
      intro g _ f z _ pk keys shares ek sk ω sk1 dk l f'' hl st hlink henc
      refine ⟨0, ?_, fun _ => ⟨rfl, fun _ => rfl⟩, by rw [zero_smul], fun i hi => by rw [zero_smul, zero_smul, add_zero]⟩
      show ((l[j]?).map (·.1)) = _
      rw [List.getElem?_eq_none (by rw [hl.1]; omega)]
      rfl
  | own S =>
    have hU1 := (all_W1 n gens o1 o2 q).append hws
    have hU2 := all_W2 (pk0 := pk₀) n gens o1 o2 q
    choose c1 hc1 using fun k => hU1.comb k
    choose c2 hc2 using fun k => hU2.comb k
    have hrun : ∀ f z pk keys shares ek sk ω sk1 dk l hl, Link T b n gens o1 o2 f z pk keys shares ek sk ω sk1 dk →
        (∀ k, comb (c1 k) (view1 gens pk ek l) = comb k (dkgView1 gens pk keys shares ek l ++ ws (ω, ⟨l, hl⟩))) ∧
        (∀ k, comb (c2 k) (view2 gens pk ek dk l) = comb k (dkgView2 gens pk keys ek l)) ∧
        ∀ k : ℕ → E.Fr, comb k (W1 n gens o1 o2 q (ω, ⟨l, hl⟩) ++ ws (ω, ⟨l, hl⟩)) =
          comb k (dkgView1 gens pk keys shares ek l ++ ws (ω, ⟨l, hl⟩)) := by
      intro f z pk keys shares ek sk ω sk1 dk l hl hlink
      have g1 := fun k => hc1 k (ω, ⟨l, hl⟩)
      have g2 := fun k => hc2 k (ω, ⟨l, hl⟩)
      have g3 : W1 n gens o1 o2 q (ω, ⟨l, hl⟩) = dkgView1 gens pk keys shares ek l := by
        unfold W1
        dsimp only
        rw [hlink.d1]
        rfl
      unfold V1 at g1
      unfold V2 W2 at g2
      dsimp only at g1 g2
      rw [g3, hlink.l1] at g1
      rw [hlink.l2, hlink.d2] at g2
      exact ⟨fun k => (g1 k).symm, fun k => (g2 k).symm, fun k => by rw [g3]⟩
    have hcip : ∀ f z pk keys shares ek sk ω sk1 dk l hl, Link T b n gens o1 o2 f z pk keys shares ek sk ω sk1 dk →
        S.cipher (dkgView1 gens pk keys shares ek l ++ ws (ω, ⟨l, hl⟩)) =
          (Adapt.mapStrategy c1 c2 S).cipher (view1 gens pk ek l) ∧
        S.proof (dkgView1 gens pk keys shares ek l ++ ws (ω, ⟨l, hl⟩)) (dkgView2 gens pk keys ek l) =
          (Adapt.mapStrategy c1 c2 S).proof (view1 gens pk ek l) (view2 gens pk ek dk l) := by
      intro f z pk keys shares ek sk ω sk1 dk l hl hlink
      obtain ⟨g1, g2, -⟩ := hrun f z pk keys shares ek sk ω sk1 dk l hl hlink
      unfold Strategy.cipher Strategy.proof Adapt.mapStrategy
      simp only [g1, g2, and_self]
    rcases verdict T b n hb hn hbm hal gens hG hH d hd chk K q hK (Adapt.mapStrategy c1 c2 S) with hrej | ⟨hacc, hcase⟩
    · refine ⟨false, fun _ => 0, fun _ _ => 0, fun _ _ => 0, Span.In.zero, fun _ _ => Span.In.zero, fun ms hms => ?_⟩
      obtain ⟨Bad, hBad, h⟩ := hrej ms hms
      refine ⟨Bad, hBad, fun g hg f z hm pk keys shares ek sk ω sk1 dk l f'' hl st hlink henc => ?_⟩
      refine ⟨0, ?_, fun _ => ⟨rfl, fun _ => rfl⟩, by rw [zero_smul], fun i hi => by rw [zero_smul, zero_smul, add_zero]⟩
      have hset := hlink.set
      rw [hm] at hset
      have h1 := h g hg pk sk1 ek dk _ l f'' hset henc
      obtain ⟨e1, e2⟩ := hcip f z pk keys shares ek sk ω sk1 dk l hl hlink
      unfold Pick.ballot Board.view1 Board.view2
      dsimp only
      rw [e1, e2, if_neg h1]
      rfl
    have key : ∃ v : List E.Fr → ℕ → ℕ, ∀ (ms : List E.Fr), ms.length = q → ∀ f pk sk1 ek dk f' l f'',
        setupForGroth16 T (tape E) 1 f b gens = .ok ((pk, sk1, ek, dk), f') →
        encryptAll T chk (tape E) ek pk b ms f' = .ok (l, f'') →
        ∃ r, (Adapt.mapStrategy c1 c2 S).cipher (view1 gens pk ek l) = cipher ek (base pk) (v ms) r := by
      rcases hcase with ⟨m, r, -, h⟩ | ⟨j, u, hj, h⟩
      · exact ⟨fun _ => m, fun ms hms f pk sk1 ek dk f' l f'' hset hl => ⟨r, h ms hms f pk sk1 ek dk f' l f'' hset hl⟩⟩
      · refine ⟨fun ms => dig b (ms.getD j 0), fun ms hms f pk sk1 ek dk f' l f'' hset hl => ?_⟩
        obtain ⟨ct, proof, hj', hct⟩ := h ms hms f pk sk1 ek dk f' l f'' hset hl
        obtain ⟨r, hr⟩ := user_cipher T b n hb hn hbm hal gens chk f f' f'' pk sk1 ek dk hset ms l hl j ct proof hj'
        exact ⟨r + u, by rw [hct, hr]; exact (C77_fresh ek _ _ _ u).1⟩
    obtain ⟨v, hv⟩ := key
    refine ⟨true, fun ω => comb S.x (W1 n gens o1 o2 q ω ++ ws ω), fun i ω => comb (S.chunk i) (W1 n gens o1 o2 q ω ++ ws ω),
      v, hU1.comb _, fun i _ => hU1.comb _, fun ms hms => ⟨∅, by simp, ?_⟩⟩
    intro g _ f z _ pk keys shares ek sk ω sk1 dk l f'' hl st hlink henc
    obtain ⟨e1, e2⟩ := hcip f z pk keys shares ek sk ω sk1 dk l hl hlink
    obtain ⟨-, -, g3⟩ := hrun f z pk keys shares ek sk ω sk1 dk l hl hlink
    have hAc := hacc ms hms _ pk sk1 ek dk _ l f'' hlink.set henc
    obtain ⟨r, hr⟩ := hv ms hms _ pk sk1 ek dk _ l f'' hlink.set henc
    have hX := (len_X T b n hn hbm gens _ _ pk sk1 ek dk hlink.set).1
    have hc : S.cipher (dkgView1 gens pk keys shares ek l ++ ws (ω, ⟨l, hl⟩)) = cipher ek (base pk) (v ms) r := e1.trans hr
    refine ⟨r, ?_, by simp, ?_, fun i hi => ?_⟩
    · unfold Pick.ballot Board.view1 Board.view2
      dsimp only
      rw [e1, e2, if_pos hAc, if_pos rfl, hr]
    · dsimp only
      rw [g3]
      exact congrArg Ciphertext.X_r hc
    · dsimp only
      rw [g3]
      have hlen : S.len = n.toNat := by
        have := congrArg (fun c => c.enc_chunks.length) hc
        simp only [Strategy.cipher, cipher, length_tab] at this
        omega
      have := congrArg (fun c => c.enc_chunks.getD i 0) hc
      simp only [Strategy.cipher, cipher] at this
      rwa [getD_tab, getD_tab, if_pos (by omega), if_pos (by omega)] at this

include hb hn hbm hal hG hH hd in
/-- What becomes of a selection. -/
theorem selection (chk : Bool) (K q : ℕ) (hK : 7 + 3 * n.toNat + 3 * q ≤ K) (ws : Runs pk₀ n.toNat q → List E.G1)
    (hws : Span.All E.Fr (V1 n gens q) ws) (σ : Type) (sel : List (Pick E)) :
    ∃ (c : List Bool) (x : Runs pk₀ n.toNat q → E.G1) (y : ℕ → Runs pk₀ n.toNat q → E.G1) (v : List E.Fr → ℕ → ℕ),
      Span.In E.Fr (V1 n gens q) x ∧ (∀ i < n.toNat, Span.In E.Fr (V1 n gens q) (y i)) ∧
      ∀ ms : List E.Fr, ms.length = q → ∃ Bad : Finset (Fin K → E.Fr),
      Bad.card ≤ sel.length * ((3 * d.size + 6) * E.fr.p ^ (K - 1)) ∧
      ∀ g, g ∉ Bad → ∀ f z, merge2 n.toNat (othersS o1 o2) (othersT n.toNat o1 o2) f z = tapeOf g →
        ∀ pk keys shares ek sk ω sk1 dk l f'' hl (st : σ), Link T b n gens o1 o2 f z pk keys shares ek sk ω sk1 dk →
        encryptAll T chk (tape E) ek pk b ms (fun i => f (6 + 2 * ek.X.length + i)) = .ok (l, f'') →
        ∃ items : List ((ℕ → ℕ) × E.Fr),
          (sel.map fun p => (p.ballot ⟨gens, pk, keys, shares, ek⟩
            (⟨f'', l, ws (ω, ⟨l, hl⟩), st⟩ : World E σ)).isSome) = c ∧
          (sel.filterMap fun p => p.ballot ⟨gens, pk, keys, shares, ek⟩ (⟨f'', l, ws (ω, ⟨l, hl⟩), st⟩ : World E σ)) =
            items.map (fun a => cipher ek (base pk) a.1 a.2) ∧
          items.length = c.count true ∧ (∀ i, (items.map fun a => a.1 i).sum = v ms i) ∧
          x (ω, ⟨l, hl⟩) = (items.map (·.2)).sum • ek.X_0 ∧
          ∀ i < n.toNat, y i (ω, ⟨l, hl⟩) = (items.map (·.2)).sum • ek.X.getD i 0 + v ms i • base pk i := by
  classical
  induction sel with
  | nil =>
    refine ⟨[], fun _ => 0, fun _ _ => 0, fun _ _ => 0, Span.In.zero, fun _ _ => Span.In.zero, fun ms hms =>
      ⟨∅, by simp, ?_⟩⟩
    intro g _ f z _ pk keys shares ek sk ω sk1 dk l f'' hl st hlink henc
    exact ⟨[], rfl, rfl, rfl, fun i => rfl, by simp, fun i hi => by simp⟩
  | cons p sel ih =>
    obtain ⟨c, x, y, v, hx, hy, h⟩ := ih
    obtain ⟨c1, x1, y1, v1, hx1, hy1, h1⟩ := pick T b n hb hn hbm hal gens hG hH d hd cs o1 o2 chk K q hK ws hws σ p
    refine ⟨c1 :: c, fun ω => x1 ω + x ω, fun i ω => y1 i ω + y i ω, fun ms i => v1 ms i + v ms i, hx1.add hx,
      fun i hi => (hy1 i hi).add (hy i hi), fun ms hms => ?_⟩
    obtain ⟨Bad, hBad, h⟩ := h ms hms
    obtain ⟨Bad1, hBad1, h1⟩ := h1 ms hms
    refine ⟨Bad1 ∪ Bad, ?_, fun g hg f z hm pk keys shares ek sk ω sk1 dk l f'' hl st hlink henc => ?_⟩
    · refine (Finset.card_union_le _ _).trans ?_
      generalize (3 * d.size + 6) * E.fr.p ^ (K - 1) = B at *
      rw [List.length_cons, Nat.add_mul, Nat.one_mul]
      omega
    · rw [Finset.mem_union, not_or] at hg
      obtain ⟨items, a1, a2, a3, a4, a5, a6⟩ := h g hg.2 f z hm pk keys shares ek sk ω sk1 dk l f'' hl st hlink henc
      obtain ⟨r, b1, b2, b3, b4⟩ := h1 g hg.1 f z hm pk keys shares ek sk ω sk1 dk l f'' hl st hlink henc
      cases c1 with
      | false =>
        obtain ⟨rfl, hv⟩ := b2 rfl
        refine ⟨items, ?_, ?_, ?_, fun i => ?_, ?_, fun i hi => ?_⟩
        · rw [List.map_cons, b1, a1]
          rfl
        · rw [List.filterMap_cons_none b1, a2]
        · simpa using a3
        · dsimp only
          rw [a4, hv, Nat.zero_add]
        · dsimp only
          rw [b3, a5, zero_smul, zero_add]
        · dsimp only
          rw [b4 i hi, a6 i hi, hv i, zero_smul, zero_smul, zero_add, zero_add, Nat.zero_add]
      | true =>
        refine ⟨(v1 ms, r) :: items, ?_, ?_, ?_, fun i => ?_, ?_, fun i hi => ?_⟩
        · rw [List.map_cons, b1, a1]
          rfl
        · rw [List.filterMap_cons_some b1, a2]
          rfl
        · simpa using a3
        · rw [List.map_cons, List.sum_cons, a4]
        · dsimp only
          rw [b3, a5, List.map_cons, List.sum_cons, add_smul]
        · dsimp only
          rw [b4 i hi, a6 i hi, List.map_cons, List.sum_cons, add_smul, add_smul]
          abel

include hb hn hbm hal hG hH hd in
/-- A request for a tally has the same outcome on all but a few draws, and the elements handed out are fixed combinations of
what was public before. -/
theorem step (chk : Bool) (K q : ℕ) (hK : 7 + 3 * n.toNat + 3 * q ≤ K) (ws : Runs pk₀ n.toNat q → List E.G1)
    (hws : Span.All E.Fr (V1 n gens q) ws) (sel : List (Pick E)) (dest : ℕ → E.Fr) (R : RngCore E) (st : R.σ)
    (P : List (E.Fr × E.Fr)) (hP : P.length = q) :
    ∃ (c : List Bool) (given : Bool) (ws' : Runs pk₀ n.toNat q → List E.G1) (st' : R.σ),
      Span.All E.Fr (V1 n gens q) ws' ∧ ∃ Bad : Finset (Fin K → E.Fr),
      Bad.card ≤ 2 * sel.length * ((3 * d.size + 6) * E.fr.p ^ (K - 1)) ∧
      ∀ g, g ∉ Bad → ∀ f z, merge2 n.toNat (othersS o1 o2) (othersT n.toNat o1 o2) f z = tapeOf g →
        ∀ pk keys shares ek sk ω sk1 dk l0 f0 hl0 l1 f1 hl1, Link T b n gens o1 o2 f z pk keys shares ek sk ω sk1 dk →
        encryptAll T chk (tape E) ek pk b (P.map (·.1)) (fun i => f (6 + 2 * ek.X.length + i)) = .ok (l0, f0) →
        encryptAll T chk (tape E) ek pk b (P.map (·.2)) (fun i => f (6 + 2 * ek.X.length + i)) = .ok (l1, f1) →
        Cca.NonDeg pk dk →
        (sel.map fun p => (p.ballot ⟨gens, pk, keys, shares, ek⟩
          (⟨f0, l0, ws (ω, ⟨l0, hl0⟩), st⟩ : World E R.σ)).isSome) = c ∧
        (sel.map fun p => (p.ballot ⟨gens, pk, keys, shares, ek⟩
          (⟨f1, l1, ws (ω, ⟨l1, hl1⟩), st⟩ : World E R.σ)).isSome) = c ∧
        tallyStep true ⟨gens, pk, keys, shares, ek⟩ sk R sel dest ⟨f0, l0, ws (ω, ⟨l0, hl0⟩), st⟩
          ⟨f1, l1, ws (ω, ⟨l1, hl1⟩), st⟩ =
          (given, ⟨f0, l0, ws (ω, ⟨l0, hl0⟩) ++ ws' (ω, ⟨l0, hl0⟩), st'⟩,
            ⟨f1, l1, ws (ω, ⟨l1, hl1⟩) ++ ws' (ω, ⟨l1, hl1⟩), st'⟩) := by
  classical
  obtain ⟨c, x, y, v, hx, hy, h⟩ := selection T b n hb hn hbm hal gens hG hH d hd cs o1 o2 chk K q hK ws hws R.σ sel
  obtain ⟨B0, hB0, h0⟩ := h (P.map (·.1)) (by rw [List.length_map, hP])
  obtain ⟨B1, hB1, h1⟩ := h (P.map (·.2)) (by rw [List.length_map, hP])
  have hcard : (B0 ∪ B1).card ≤ 2 * sel.length * ((3 * d.size + 6) * E.fr.p ^ (K - 1)) := by
    refine (Finset.card_union_le _ _).trans ?_
    rw [Nat.mul_assoc]
    omega
  -- the sums in the two courses of events
  have hsum : ∀ ms : List E.Fr, ∀ pk keys shares ek f'' l (w : List E.G1) (items : List ((ℕ → ℕ) × E.Fr)),
      (sel.filterMap fun p => p.ballot ⟨gens, pk, keys, shares, ek⟩ (⟨f'', l, w, st⟩ : World E R.σ)) =
        items.map (fun a => cipher ek (base pk) a.1 a.2) →
      (∀ i, (items.map fun a => a.1 i).sum = v ms i) →
      Board.sum ⟨gens, pk, keys, shares, ek⟩ (⟨f'', l, w, st⟩ : World E R.σ) sel =
        if items = [] then .panic else .ok (flat (cipher ek (base pk) (v ms) (items.map (·.2)).sum)) := by
    intro ms pk keys shares ek f'' l w items h1 h2
    unfold Board.sum
    rw [h1, List.map_map]
    split
    · next h => rw [h]; rfl
    · next h =>
      have := aggregate_cipher ek (base pk) items h (fun a => a.1) (fun a => a.2)
      rw [funext h2] at this
      exact this
  by_cases hc : c.count true = 0
  · refine ⟨c, false, fun _ => [], st, Span.All.nil, B0 ∪ B1, hcard, ?_⟩
    intro g hg f z hm pk keys shares ek sk ω sk1 dk l0 f0 hl0 l1 f1 hl1 hlink he0 he1 hnd
    rw [Finset.mem_union, not_or] at hg
    obtain ⟨items0, a1, a2, a3, a4, a5, a6⟩ := h0 g hg.1 f z hm pk keys shares ek sk ω sk1 dk l0 f0 hl0 st hlink he0
    obtain ⟨items1, b1, b2, b3, b4, b5, b6⟩ := h1 g hg.2 f z hm pk keys shares ek sk ω sk1 dk l1 f1 hl1 st hlink he1
    refine ⟨a1, b1, ?_⟩
    have hi0 : items0 = [] := List.length_eq_zero_iff.mp (by omega)
    unfold tallyStep
    rw [hsum _ pk keys shares ek f0 l0 _ items0 a2 a4, if_pos hi0]
    simp only [List.append_nil]
  by_cases hsame : ∀ i < n.toNat, ((v (P.map (·.1)) i : ℕ) : E.Fr) = (v (P.map (·.2)) i : ℕ)
  swap
  · refine ⟨c, false, fun _ => [], st, Span.All.nil, B0 ∪ B1, hcard, ?_⟩
    intro g hg f z hm pk keys shares ek sk ω sk1 dk l0 f0 hl0 l1 f1 hl1 hlink he0 he1 hnd
    rw [Finset.mem_union, not_or] at hg
    obtain ⟨items0, a1, a2, a3, a4, a5, a6⟩ := h0 g hg.1 f z hm pk keys shares ek sk ω sk1 dk l0 f0 hl0 st hlink he0
    obtain ⟨items1, b1, b2, b3, b4, b5, b6⟩ := h1 g hg.2 f z hm pk keys shares ek sk ω sk1 dk l1 f1 hl1 st hlink he1
    refine ⟨a1, b1, ?_⟩
    have hi0 : items0 ≠ [] := fun h => by rw [h] at a3; simp at a3; omega
    have hi1 : items1 ≠ [] := fun h => by rw [h] at b3; simp at b3; omega
    obtain ⟨hX, hgl⟩ := len_X T b n hn hbm gens _ _ pk sk1 ek dk hlink.set
    unfold tallyStep
    rw [hsum _ pk keys shares ek f0 l0 _ items0 a2 a4, if_neg hi0, hsum _ pk keys shares ek f1 l1 _ items1 b2 b4,
      if_neg hi1]
    dsimp only
    rw [if_pos]
    · simp only [List.append_nil]
    · refine ⟨rfl, fun hs => hsame fun i hi => ?_⟩
      refine (same_iff ⟨gens, pk, keys, shares, ek⟩ hlink.x0_ne (fun i hi => ?_) _ _ _ _).mp hs i (by show i < ek.X.length; omega)
      change i < ek.X.length at hi
      show base pk i ≠ 0
      unfold base
      rw [List.getD_eq_getElem _ _ (by omega)]
      exact hnd.1 _ (List.getElem_mem _)
  · have hU1 := (all_W1 n gens o1 o2 q).append hws
    have hgsIn : ∀ i, Span.In E.Fr (V1 (pk0 := pk₀) n gens q) fun ω => gs ω.1.pk i := by
      intro i
      obtain ⟨k, hk⟩ := (pieces (pk0 := pk₀) gens n.toNat).2.2.2.1 i
      exact ((all_L1 n gens q).comb k).congr fun ω => hk ω.1
    have hGe : Span.In E.Fr (V1 (pk0 := pk₀) n gens q) fun _ => gens.G := by
      have p := (pieces (pk0 := pk₀) gens n.toNat).1
      have p1 := p.right (N := (pk₀).pk.l_query.length) fun ω => ω.same.1
      have p2 := p1.right (N := (pk₀).pk.h_query.length) fun ω => ω.same.2.1
      obtain ⟨k, hk⟩ := p2.2 0
      exact ((all_L1 n gens q).comb k).congr fun ω => hk ω.1
    refine ⟨c, true, fun ω => (tab n.toNat fun i => (((v (P.map (·.1)) i : ℕ) : E.Fr) • gs ω.1.pk i - y i ω +
        othersS o1 o2 i • x ω) + draw R st 0 • comb dest (W1 n gens o1 o2 q ω ++ ws ω)) ++ [draw R st 0 • gens.G],
      after R st 1, ?_, B0 ∪ B1, hcard, ?_⟩
    · refine Span.All.append (Span.All.tab fun i hi => ?_) (Span.All.single (hGe.smul _))
      exact Span.In.add ((((hgsIn i).smul _).sub (hy i hi)).add (hx.smul _)) ((hU1.comb dest).smul _)
    intro g hg f z hm pk keys shares ek sk ω sk1 dk l0 f0 hl0 l1 f1 hl1 hlink he0 he1 hnd
    rw [Finset.mem_union, not_or] at hg
    obtain ⟨items0, a1, a2, a3, a4, a5, a6⟩ := h0 g hg.1 f z hm pk keys shares ek sk ω sk1 dk l0 f0 hl0 st hlink he0
    obtain ⟨items1, b1, b2, b3, b4, b5, b6⟩ := h1 g hg.2 f z hm pk keys shares ek sk ω sk1 dk l1 f1 hl1 st hlink he1
    refine ⟨a1, b1, ?_⟩
    have hi0 : items0 ≠ [] := fun h => by rw [h] at a3; simp at a3; omega
    have hi1 : items1 ≠ [] := fun h => by rw [h] at b3; simp at b3; omega
    obtain ⟨hX, hgl⟩ := len_X T b n hn hbm gens _ _ pk sk1 ek dk hlink.set
    have hhelp : ∀ ms f'' l hl (r : E.Fr), (∀ i < n.toNat, ((v (P.map (·.1)) i : ℕ) : E.Fr) = (v ms i : ℕ)) →
        x (ω, ⟨l, hl⟩) = r • ek.X_0 →
        (∀ i < n.toNat, y i (ω, ⟨l, hl⟩) = r • ek.X.getD i 0 + v ms i • base pk i) →
        (⟨f'', l, ws (ω, ⟨l, hl⟩), st⟩ : World E R.σ).help ⟨gens, pk, keys, shares, ek⟩ sk R
          (flat (cipher ek (base pk) (v ms) r))
          (comb dest (Board.view1 ⟨gens, pk, keys, shares, ek⟩ (⟨f'', l, ws (ω, ⟨l, hl⟩), st⟩ : World E R.σ))) =
        ⟨f'', l, ws (ω, ⟨l, hl⟩) ++ ((tab n.toNat fun i => (((v (P.map (·.1)) i : ℕ) : E.Fr) • gs ω.pk i -
          y i (ω, ⟨l, hl⟩) + othersS o1 o2 i • x (ω, ⟨l, hl⟩)) + draw R st 0 • comb dest
            (W1 n gens o1 o2 q (ω, ⟨l, hl⟩) ++ ws (ω, ⟨l, hl⟩))) ++ [draw R st 0 • gens.G]), after R st 1⟩ := by
      intro ms f'' l hl r hv hxx hyy
      have hck : ((flat (cipher ek (base pk) (v ms) r)).drop 1).take ek.X.length =
          (cipher ek (base pk) (v ms) r).enc_chunks := by
        unfold flat
        rw [List.drop_one, List.tail_cons, List.take_append_of_le_length (by simp [cipher]),
          List.take_of_length_le (by simp [cipher])]
      unfold World.help
      dsimp only
      rw [hck, reEncryptShare_eq R st gens _ _ _ sk (by rw [hlink.sks]; simp [cipher, hX])]
      dsimp only
      have hlen : (cipher ek (base pk) (v ms) r).enc_chunks.length = n.toNat := by simp [cipher, hX]
      rw [hlen]
      congr 3
      refine tab_congr fun i hi => ?_
      have g3 : W1 n gens o1 o2 q (ω, ⟨l, hl⟩) = dkgView1 gens pk keys shares ek l := by
        unfold W1
        dsimp only
        rw [hlink.d1]
        rfl
      rw [g3, hxx, hyy i hi, hv i hi, hlink.sks, getD_tab, if_pos hi, hlink.X i hi, ← base_gs, hlink.pk_eq,
        nsmul_fr (E := E)]
      have e0 : (flat (cipher ek (base pk) (v ms) r)).getD 0 0 = r • ek.X_0 := rfl
      rw [e0]
      show -(f (5 + i) • r • ek.X_0) + draw R st 0 • comb dest (dkgView1 gens pk keys shares ek l ++ ws (ω, ⟨l, hl⟩)) = _
      module
    unfold tallyStep
    rw [hsum _ pk keys shares ek f0 l0 _ items0 a2 a4, if_neg hi0, hsum _ pk keys shares ek f1 l1 _ items1 b2 b4,
      if_neg hi1]
    dsimp only
    rw [if_neg]
    · rw [hhelp _ f0 l0 hl0 _ (fun _ _ => rfl) a5 a6, hhelp _ f1 l1 hl1 _ hsame b5 b6]
    · rintro ⟨-, hs⟩
      refine hs ((same_iff ⟨gens, pk, keys, shares, ek⟩ hlink.x0_ne (fun i hi => ?_) _ _ _ _).mpr fun i hi =>
        hsame i (by change i < ek.X.length at hi; omega))
      change i < ek.X.length at hi
      show base pk i ≠ 0
      unfold base
      rw [List.getD_eq_getElem _ _ (by omega)]
      exact hnd.1 _ (List.getElem_mem _)

include hb hn hbm hal hG hH hd in
/-- The adversary gives the same answer on all but a few draws, whichever messages are encrypted. -/
theorem follow (chk : Bool) (K : ℕ) (R : RngCore E) (A : TallyAdversary E) : ∀ (Q D C q : ℕ) (P : List (E.Fr × E.Fr))
    (st : R.σ) (ws : Runs pk₀ n.toNat q → List E.G1), P.length = q → Span.All E.Fr (V1 n gens q) ws → A.AtMost Q D C →
    7 + 3 * n.toNat + 3 * (q + C) ≤ K →
    ∃ a : Bool, ∀ side, ∃ Bad : Finset (Fin K → E.Fr),
      Bad.card ≤ (Q + 2 * D) * ((3 * d.size + 6) * E.fr.p ^ (K - 1)) ∧
      ∀ g, g ∉ Bad → ∀ f z, merge2 n.toNat (othersS o1 o2) (othersT n.toNat o1 o2) f z = tapeOf g →
        ∀ pk keys shares ek sk ω sk1 dk l0 f0 hl0 l1 f1 hl1, Link T b n gens o1 o2 f z pk keys shares ek sk ω sk1 dk →
        encryptAll T chk (tape E) ek pk b (P.map (·.1)) (fun i => f (6 + 2 * ek.X.length + i)) = .ok (l0, f0) →
        encryptAll T chk (tape E) ek pk b (P.map (·.2)) (fun i => f (6 + 2 * ek.X.length + i)) = .ok (l1, f1) →
        Cca.NonDeg pk dk →
        playTally true side T chk b ⟨gens, pk, keys, shares, ek⟩ sk R A ⟨f0, l0, ws (ω, ⟨l0, hl0⟩), st⟩
          ⟨f1, l1, ws (ω, ⟨l1, hl1⟩), st⟩ = a := by
  classical
  induction A with
  | guess a => exact fun Q D C q P st ws _ _ _ _ => ⟨a, fun side =>
      ⟨∅, by simp, fun _ _ _ _ _ _ _ _ _ _ _ _ _ _ _ _ _ _ _ _ _ _ _ => rfl⟩⟩
  | ask Qn yes no ihy ihn =>
    intro Q D C q P st ws hP hws hA hK
    obtain ⟨hQ, hAy, hAn⟩ := hA
    obtain ⟨y, hy⟩ := answer T b n hb hn hbm hal gens hG hH d hd cs o1 o2 K q (by omega) ws hws Qn
    obtain ⟨ay, hay⟩ := ihy _ _ _ q P st ws hP hws hAy hK
    obtain ⟨an, han⟩ := ihn _ _ _ q P st ws hP hws hAn hK
    refine ⟨if y then ay else an, fun side => ?_⟩
    obtain ⟨Bad, hBad, h⟩ := hy (P.map fun m => if side then m.2 else m.1) (by rw [List.length_map, hP])
    obtain ⟨By, hBy, hy'⟩ := hay side
    obtain ⟨Bn, hBn, hn'⟩ := han side
    refine ⟨Bad ∪ (if y then By else Bn), ?_, fun g hg f z hm pk keys shares ek sk ω sk1 dk l0 f0 hl0 l1 f1 hl1 hlink he0
      he1 hnd => ?_⟩
    · refine (Finset.card_union_le _ _).trans ?_
      generalize (3 * d.size + 6) * E.fr.p ^ (K - 1) = B at *
      have : (if y then By else Bn).card ≤ (Q - 1 + 2 * D) * B := by split <;> assumption
      rw [show Q + 2 * D = 1 + (Q - 1 + 2 * D) by omega, Nat.add_mul 1, Nat.one_mul]
      omega
    · rw [Finset.mem_union, not_or] at hg
      have h1 : Qn.Yes
          (Board.view1 ⟨gens, pk, keys, shares, ek⟩ (if side then (⟨f1, l1, ws (ω, ⟨l1, hl1⟩), st⟩ : World E R.σ) else
            ⟨f0, l0, ws (ω, ⟨l0, hl0⟩), st⟩))
          (Board.view2 ⟨gens, pk, keys, shares, ek⟩ (if side then (⟨f1, l1, ws (ω, ⟨l1, hl1⟩), st⟩ : World E R.σ) else
            ⟨f0, l0, ws (ω, ⟨l0, hl0⟩), st⟩)) ↔ y := by
        cases side with
        | false => exact h g hg.1 f z hm chk pk keys shares ek sk ω sk1 dk l0 f0 hl0 hlink he0
        | true => exact h g hg.1 f z hm chk pk keys shares ek sk ω sk1 dk l1 f1 hl1 hlink he1
      simp only [playTally]
      by_cases hyy : y
      · rw [if_pos (h1.mpr hyy), if_pos hyy]
        exact hy' g (by simpa [hyy] using hg.2) f z hm pk keys shares ek sk ω sk1 dk l0 f0 hl0 l1 f1 hl1 hlink he0 he1 hnd
      · rw [if_neg (fun hc => hyy (h1.mp hc)), if_neg hyy]
        exact hn' g (by simpa [hyy] using hg.2) f z hm pk keys shares ek sk ω sk1 dk l0 f0 hl0 l1 f1 hl1 hlink he0 he1 hnd
  | vote m0 m1 next ih =>
    intro Q D C q P st ws hP hws hA hK
    obtain ⟨hC, hAn⟩ := hA
    obtain ⟨a, ha⟩ := ih Q D (C - 1) (q + 1) (P ++ [(m0, m1)]) st (fun ω => ws (before n q ω)) (by simp [hP])
      (all_before n gens q ws hws) hAn (by omega)
    refine ⟨a, fun side => ?_⟩
    obtain ⟨Bad, hBad, h⟩ := ha side
    refine ⟨Bad, hBad, fun g hg f z hm pk keys shares ek sk ω sk1 dk l0 f0 hl0 l1 f1 hl1 hlink he0 he1 hnd => ?_⟩
    obtain ⟨ct0, r0, proof0, f2, henc0, hl0'⟩ := Cca.next_encryption T b n hb hn hbm hal gens hH d hd chk _ _ f0 pk sk1 ek
      dk _ l0 hlink.set he0 m0
    obtain ⟨ct1, r1, proof1, f3, henc1, hl1'⟩ := Cca.next_encryption T b n hb hn hbm hal gens hH d hd chk _ _ f1 pk sk1 ek
      dk _ l1 hlink.set he1 m1
    simp only [playTally]
    rw [henc0, henc1]
    obtain ⟨c0, cs', hc0, -⟩ := setup_shape (E := E) hn hbm
    obtain ⟨g_i, st3, hsrs, hgi, hk⟩ := Nm.setup_parts hc0 hlink.set
    have hlen : ∀ ms l m ct proof f'', ms.length = q → l.length = q →
        encryptAll T chk (tape E) ek pk b (ms ++ [m]) (fun i => f (6 + 2 * ek.X.length + i)) =
          .ok (l ++ [(ct, proof)], f'') →
        ∀ hl : l.length = q ∧ ∀ p ∈ l, p.1.enc_chunks.length = n.toNat,
        ∃ hl2 : (l ++ [(ct, proof)]).length = q + 1 ∧ ∀ p ∈ l ++ [(ct, proof)], p.1.enc_chunks.length = n.toNat,
          before n q (ω, ⟨l ++ [(ct, proof)], hl2⟩) = (ω, ⟨l, hl⟩) := by
      intro ms l m ct proof f'' hms hl he hl'
      obtain ⟨hll, hlc, -⟩ := honest_lists T b n hb hn hal gens hc0 hsrs hgi hk he
      refine ⟨⟨hll.trans (by simp [hms]), hlc⟩, ?_⟩
      unfold before
      have e1 : (l ++ [(ct, proof)]).take q = l := by
        rw [List.take_append_of_le_length (by rw [hl]), List.take_of_length_le (by rw [hl])]
      simp only [e1]
    obtain ⟨h20, e0⟩ := hlen _ l0 m0 ct0 proof0 f2 (by rw [List.length_map, hP]) hl0.1 hl0' hl0
    obtain ⟨h21, e1⟩ := hlen _ l1 m1 ct1 proof1 f3 (by rw [List.length_map, hP]) hl1.1 hl1' hl1
    have := h g hg f z hm pk keys shares ek sk ω sk1 dk _ f2 h20 _ f3 h21 hlink
      (by rw [List.map_append]; exact hl0') (by rw [List.map_append]; exact hl1') hnd
    rw [e0, e1] at this
    exact this
  | tally sel dest next ih =>
    intro Q D C q P st ws hP hws hA hK
    obtain ⟨hD, hAn⟩ := hA
    obtain ⟨c, given, ws', st', hws', Bad, hBad, h⟩ := step T b n hb hn hbm hal gens hG hH d hd cs o1 o2 chk K q
      (by omega) ws hws sel dest R st P hP
    obtain ⟨a, ha⟩ := ih ⟨c, given⟩ Q (D - sel.length) C q P st' (fun ω => ws ω ++ ws' ω) hP (hws.append hws')
      (hAn ⟨c, given⟩) hK
    refine ⟨a, fun side => ?_⟩
    obtain ⟨Bn, hBn, hn'⟩ := ha side
    refine ⟨Bad ∪ Bn, ?_, fun g hg f z hm pk keys shares ek sk ω sk1 dk l0 f0 hl0 l1 f1 hl1 hlink he0 he1 hnd => ?_⟩
    · refine (Finset.card_union_le _ _).trans ?_
      generalize (3 * d.size + 6) * E.fr.p ^ (K - 1) = B at *
      rw [show Q + 2 * D = 2 * sel.length + (Q + 2 * (D - sel.length)) by omega, Nat.add_mul (2 * sel.length)]
      omega
    · rw [Finset.mem_union, not_or] at hg
      obtain ⟨c0, c1, hs⟩ := h g hg.1 f z hm pk keys shares ek sk ω sk1 dk l0 f0 hl0 l1 f1 hl1 hlink he0 he1 hnd
      simp only [playTally]
      rw [hs]
      dsimp only
      have hc : (sel.map fun p => (p.ballot ⟨gens, pk, keys, shares, ek⟩ (if side then
          (⟨f1, l1, ws (ω, ⟨l1, hl1⟩), st⟩ : World E R.σ) else ⟨f0, l0, ws (ω, ⟨l0, hl0⟩), st⟩)).isSome) = c := by
        cases side with
        | false => exact c0
        | true => exact c1
      rw [hc]
      exact hn' g hg.2 f z hm pk keys shares ek sk ω sk1 dk l0 f0 hl0 l1 f1 hl1 hlink he0 he1 hnd

end
end
end Tally

section
variable (T : FftCfg E.Fr) (b n : UInt8) (hb : Supported b) (hn : chunksCount E.fr b = .ok n)
    (hbm : b.toNat ≤ E.fr.modBits)
    (hal : 64 * E.fr.limbs < E.fr.modBits + b.toNat ∧ chunksNeeded E.fr b.toNat ≤ 255)
    (gens : EncryptionGens E) (hG : gens.G ≠ 0) (hH : gens.H ≠ 0) (d : EvalDomain E.Fr)
    (hd : T.newDomain (n.toNat * constraintsPerValue E.fr.modBits b.toNat + (n.toNat + 1)) = some d)
    (others1 others2 : List (Party E))

include hb hn hbm hal hG hH hd in
/-- **C101** Sums reveal nothing but the sums.  The key is generated by any number of parties, all but one of which are
arbitrary machines known to the adversary.  The adversary names pairs of messages and receives the ciphertexts and proofs of
honest users who encrypt the left or the right ones.  At any time it selects any of these ciphertexts, as often as it likes,
and ciphertexts of its own making, which are counted if `verify_commitment_and_proof` accepts them, and obtains the honest
party's share of the re-encryption of their sum for a destination key of its choice, provided that the sums are encryptions
of the same numbers whether the honest users encrypt the left or the right messages.  Then it cannot tell which ones they
encrypt: whatever the honest party's random numbers for re-encryption are, among the `p^K` choices of the draws made by
parameter generation, the honest party's key generation and the honest users, the number of those on which the adversary
guesses "right" differs between the two games by at most `((Q + 2 D) (3 size + 6) + 2 n + 1) p^(K-1)`, where `Q` is the
number of questions and `D` the number of entries in all selections. -/
theorem C101_sums_reveal_sums (chk : Bool) (R : RngCore E) (st : R.σ) (A : TallyAdversary E) (Q D C : ℕ)
    (hA : A.AtMost Q D C) (side : Bool) :
    rightGuessesTally true (6 + 2 * n.toNat + 3 * C) side T chk b gens others1 others2 R st A ≤
      rightGuessesTally true (6 + 2 * n.toNat + 3 * C) (!side) T chk b gens others1 others2 R st A +
      ((Q + 2 * D) * (3 * d.size + 6) + (2 * n.toNat + 1)) * E.fr.p ^ (5 + 2 * n.toNat + 3 * C) := by
  classical
  obtain ⟨c0, cs, hc0, hcs, hI, hC, -⟩ := setup_shape (E := E) hn hbm
  obtain ⟨a, ha⟩ := Tally.follow T b n hb hn hbm hal gens hG hH d hd cs others1 others2 chk
    (7 + 3 * n.toNat + 3 * C) R A Q D C 0 [] st (fun _ => []) rfl Span.All.nil hA (by omega)
  obtain ⟨Deg, hDeg, hnd⟩ := Cca.degenerate T b n hb hn hbm hal gens hG hH d hd (7 + 3 * n.toNat + 3 * C) (by omega)
  have hplay : ∀ side, ∃ Bad : Finset (Fin (6 + 2 * n.toNat + 3 * C) → E.Fr),
      Bad.card ≤ ((Q + 2 * D) * (3 * d.size + 6) + (2 * n.toNat + 1)) * E.fr.p ^ (5 + 2 * n.toNat + 3 * C) ∧
      ∀ g, g ∉ Bad → experimentTally true side T chk b gens others1 others2 R st A (tapeOf g) =
        match setupForDkg T (tape E) 1 (tapeOf g) b gens
          (others1 ++ ⟨tape E, fun i => tapeOf g (5 + i)⟩ :: others2) with
        | .ok _ => a
        | _ => false := by
    intro side
    obtain ⟨Bad, hBad, h⟩ := ha side
    obtain ⟨Bad', hBad', hx⟩ := ReGame.shrink n.toNat C (Sec.othersS others1 others2)
      (Sec.othersT n.toNat others1 others2) ((Q + 2 * D) * (3 * d.size + 6) + (2 * n.toNat + 1)) (Bad ∪ Deg) (by
        refine (Finset.card_union_le _ _).trans ?_
        rw [show 7 + 3 * n.toNat + 3 * C - 1 = 6 + 3 * n.toNat + 3 * C by omega] at hBad hDeg
        rw [Nat.add_mul ((Q + 2 * D) * (3 * d.size + 6)), Nat.mul_assoc]
        omega)
    refine ⟨Bad', hBad', fun g hg => ?_⟩
    obtain ⟨z, g', hg', hm⟩ := hx g hg
    rw [Finset.mem_union, not_or] at hg'
    unfold experimentTally
    cases hset : setupForDkg T (tape E) 1 (tapeOf g) b gens
        (others1 ++ ⟨tape E, fun i => tapeOf g (5 + i)⟩ :: others2) with
    | ok x =>
      obtain ⟨pk, keys, shares, ek⟩ := x
      obtain ⟨sk, hsk, ω, sk1, dk, hlink⟩ := ReGame.link_of_run T b n hn hbm gens hG d hd others1 others2 c0 hc0 cs hcs hI
        hC (tapeOf g) z pk keys shares ek hset
      dsimp only
      rw [hsk]
      have hset' := hlink.set
      rw [hm] at hset'
      exact h g' hg'.1 (tapeOf g) z hm pk keys shares ek sk ω sk1 dk [] _ ⟨rfl, by simp⟩ [] _ ⟨rfl, by simp⟩ hlink rfl rfl
        (hnd g' hg'.2 pk sk1 ek dk _ hset')
    | err e => rfl
    | panic => rfl
  obtain ⟨B0, hB0, h0⟩ := hplay side
  obtain ⟨B1, hB1, h1⟩ := hplay (!side)
  unfold rightGuessesTally
  cases a with
  | false =>
    refine le_trans (le_trans (Finset.card_le_card ?_) hB0) (Nat.le_add_left _ _)
    intro g hg
    by_contra hc
    have := (Finset.mem_filter.mp hg).2
    rw [h0 g hc] at this
    split at this <;> cases this
  | true =>
    refine le_trans (Finset.card_le_card (t := (Finset.univ.filter fun x : Fin (6 + 2 * n.toNat + 3 * C) → E.Fr =>
      experimentTally true (!side) T chk b gens others1 others2 R st A (tapeOf x) = true) ∪ B1) ?_)
        ((Finset.card_union_le _ _).trans (Nat.add_le_add_left hB1 _))
    intro g hg
    rw [Finset.mem_union]
    by_cases hc : g ∈ B1
    · exact Or.inr hc
    · refine Or.inl (Finset.mem_filter.mpr ⟨Finset.mem_univ _, ?_⟩)
      rw [h1 g hc]
      have := (Finset.mem_filter.mp hg).2
      unfold experimentTally at this
      cases hset : setupForDkg T (tape E) 1 (tapeOf g) b gens
        (others1 ++ ⟨tape E, fun i => tapeOf g (5 + i)⟩ :: others2) with
      | ok x => rfl
      | err e => rw [hset] at this; cases this
      | panic => rw [hset] at this; cases this

end
end
end Verif
