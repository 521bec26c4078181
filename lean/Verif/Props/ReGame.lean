/-
Property C94: secrecy when the honest party helps to re-encrypt verified ciphertexts.
-/
import Verif.Lemmas.ReGame
import Verif.Props.ChosenCiphertextNeeded

namespace Verif
open Spec Agm

section
variable {E : Engine}

namespace ReGame
open Sec SDkg NmDkg

/-- the chunks of a message -/
def dig (b : UInt8) (m : E.Fr) (i : ℕ) : ℕ :=
  match decompose (K := E.fr) m b with
  | .ok d => (nums d).getD i 0
  | _ => 0

/-- ciphertexts determine the chunks -/
theorem cipher_inj (ek : EncryptionKey E) (g : ℕ → E.G1) (hX : ek.X_0 ≠ 0) (hg : ∀ i < ek.X.length, g i ≠ 0)
    (m m' : ℕ → ℕ) (hm : ∀ i < ek.X.length, m i < E.fr.p) (hm' : ∀ i < ek.X.length, m' i < E.fr.p) (r r' : E.Fr)
    (h : cipher ek g m r = cipher ek g m' r') : ∀ i < ek.X.length, m i = m' i := by
  intro i hi
  have hr : r = r' := smul_left_injective _ hX (congrArg Ciphertext.X_r h)
  subst hr
  have hc := congrArg (fun c => c.enc_chunks.getD i 0) h
  simp only [cipher] at hc
  rw [getD_tab, getD_tab, if_pos hi, if_pos hi, add_right_inj, nsmul_fr (E := E), nsmul_fr (E := E)] at hc
  have he := smul_left_injective E.Fr (hg i hi) hc
  have := (ZMod.natCast_eq_natCast_iff' (m i) (m' i) E.fr.p).mp he
  rwa [Nat.mod_eq_of_lt (hm i hi), Nat.mod_eq_of_lt (hm' i hi)] at this

theorem dig_lt (b : UInt8) (hb : Supported b) (m : E.Fr) (i : ℕ) : dig b m i < E.fr.p := by
  obtain ⟨dd, hdd, -, -, hpos⟩ := decompose_spec (K := E.fr) m hb
  unfold dig
  rw [hdd]
  dsimp only
  by_cases hi : i < (nums dd).length
  · have hmem : (nums dd).getD i 0 ∈ nums dd := by
      rw [List.getD_eq_getElem _ _ hi]
      exact List.getElem_mem hi
    have := digit_le_positional (base := 2 ^ b.toNat) (by positivity) (nums dd) _ hmem
    rw [hpos] at this
    exact lt_of_le_of_lt this (ZMod.val_lt m)
  · rw [List.getD_eq_default _ _ (by omega)]
    exact E.fr.prime.pos

section
variable (T : FftCfg E.Fr) (b n : UInt8) (hb : Supported b) (hn : chunksCount E.fr b = .ok n)
    (hbm : b.toNat ≤ E.fr.modBits)
    (hal : 64 * E.fr.limbs < E.fr.modBits + b.toNat ∧ chunksNeeded E.fr b.toNat ≤ 255)
    (gens : EncryptionGens E) (hG : gens.G ≠ 0) (hH : gens.H ≠ 0) (d : EvalDomain E.Fr)
    (hd : T.newDomain (n.toNat * constraintsPerValue E.fr.modBits b.toNat + (n.toNat + 1)) = some d)

include hb hn hbm hal in
/-- the possible outputs of `encrypt` -/
theorem output_iff (f f' : ℕ → E.Fr) (pk sk ek dk)
    (hset : setupForGroth16 T (tape E) 1 f b gens = .ok ((pk, sk, ek, dk), f')) (m : E.Fr) (ct : Ciphertext E) :
    OutputOf b pk ek m ct ↔ ∃ r, ct = cipher ek (fun i => pk.pk.vk.gamma_abc_g1.tail.getD i 0) (dig b m) r := by
  obtain ⟨c0, cs, hc0, -⟩ := setup_shape (E := E) hn hbm
  obtain ⟨g_i, st3, -, hg, hk⟩ := Nm.setup_parts hc0 hset
  obtain ⟨n', s, t, hn', hgn, hek⟩ := fromSetup_inv hk
  rw [hn] at hn'
  cases hn'
  obtain ⟨dd, hdd, hdl, -, -⟩ := decompose_spec (K := E.fr) m hb
  have hl2 := (decomp_len_eq_iff E.fr b n hb hn).mpr hal
  have hX : ek.X.length = n.toNat := by rw [hek]; simp [encKey]
  have henc := fun f : (tape E).σ => encrypt_ok (tape E) f m ek g_i b hdd (by rw [hek]; exact encKey_wf _ _ _ _ _ _ _)
    (by rw [hX]; exact n.toNat_lt) (by omega) (by omega)
  have hdig : dig b m = fun i => (nums dd).getD i 0 := by
    funext i
    unfold dig
    rw [hdd]
  rw [hdig, ← Cca.gs_tail hg]
  constructor
  · rintro ⟨g_i', f1, r, f2, hg', h⟩
    rw [hg] at hg'
    cases hg'
    have h1 := (henc f1).symm.trans h
    simp only [Res.ok.injEq, Prod.mk.injEq] at h1
    exact ⟨_, h1.1.1.symm⟩
  · rintro ⟨r, rfl⟩
    have := henc (fun _ => r)
    simp only [draw_tape] at this
    exact ⟨g_i, fun _ => r, r, _, hg, this⟩

include hb hn hbm hal in
/-- honest ciphertexts are outputs of `encrypt`, and re-randomisation keeps this -/
theorem output_rerandomise (chk : Bool) (f f' f'' : ℕ → E.Fr) (pk sk ek dk)
    (hset : setupForGroth16 T (tape E) 1 f b gens = .ok ((pk, sk, ek, dk), f')) (ms : List E.Fr) (l)
    (hl : encryptAll T chk (tape E) ek pk b ms f' = .ok (l, f'')) (j : ℕ) (ct : Ciphertext E) (proof : Proof E)
    (hj : l[j]? = some (ct, proof)) (u : E.Fr) :
    ∃ m ∈ ms, OutputOf b pk ek m (rerandomise ek u ct) := by
  obtain ⟨c0, cs, hc0, -⟩ := setup_shape (E := E) hn hbm
  obtain ⟨g_i, st3, hsrs, hg, hk⟩ := Nm.setup_parts hc0 hset
  obtain ⟨-, h3⟩ := Nm.encryptAll_facts T (tape E) 1 f st3 b hb hal c0 gens pk hc0 hsrs g_i hg ek hk chk (tape E) ms f'
    f'' l hl
  obtain ⟨m, st4, r, hmj, henc, -⟩ := h3 j _ hj
  refine ⟨m, List.mem_of_getElem? hmj, ?_⟩
  obtain ⟨r', hr'⟩ := (output_iff T b n hb hn hbm hal gens f f' pk sk ek dk hset m ct).mp ⟨g_i, st4, r, _, hg, henc⟩
  refine (output_iff T b n hb hn hbm hal gens f f' pk sk ek dk hset m _).mpr ⟨r' + u, ?_⟩
  rw [hr']
  exact (C77_fresh ek _ _ _ u).1

/-! ### What the adversary sees, as combinations of what a single key generation publishes -/

section
variable {pk0 : ProvingKey E} (o1 o2 : List (Party E)) (q : ℕ)

abbrev Runs (pk0 : ProvingKey E) (n q : ℕ) : Type := Env pk0 × Lists E n q

def V1 (ω : Runs pk0 n.toNat q) : List E.G1 := L1 gens n.toNat ω.1 ++ seen1 ω.2.1
def V2 (ω : Runs pk0 n.toNat q) : List E.G2 := L2 gens n.toNat ω.1 ++ seen2 ω.2.1
def W1 (ω : Runs pk0 n.toNat q) : List E.G1 := D1 gens n.toNat o1 o2 (sh n.toNat o1 o2 ω.1) ++ seen1 ω.2.1
def W2 (ω : Runs pk0 n.toNat q) : List E.G2 := D2 gens n.toNat o1 o2 (sh n.toNat o1 o2 ω.1) ++ seen2 ω.2.1

theorem all_V1 : Span.All E.Fr (V1 (pk0 := pk0) n gens q) (V1 n gens q) := by
  obtain ⟨N1, hN1⟩ := len_L1 (pk0 := pk0) gens n.toNat
  exact Span.All.refl (N := N1 + q * (n.toNat + 4)) fun ω => by
    unfold V1
    rw [List.length_append, hN1, (len_seen n.toNat q ω.2).1]

theorem all_L1 : Span.All E.Fr (V1 (pk0 := pk0) n gens q) fun ω => L1 gens n.toNat ω.1 := by
  obtain ⟨N1, hN1⟩ := len_L1 (pk0 := pk0) gens n.toNat
  exact (all_V1 n gens q).left fun ω => hN1 ω.1

theorem all_W1 : Span.All E.Fr (V1 (pk0 := pk0) n gens q) (W1 n gens o1 o2 q) := by
  obtain ⟨N1, hN1⟩ := len_L1 (pk0 := pk0) gens n.toNat
  exact (Span.All.trans (all_L1 n gens q) ((all_D1_sh (pk0 := pk0) gens n.toNat o1 o2).comp
    (fun ω : Runs pk0 n.toNat q => ω.1))).append ((all_V1 n gens q).right fun ω => hN1 ω.1)

theorem all_W2 : Span.All E.Fr (V2 (pk0 := pk0) n gens q) (W2 n gens o1 o2 q) := by
  obtain ⟨N2, hN2⟩ := len_L2 (pk0 := pk0) gens n.toNat
  have h2 : Span.All E.Fr (V2 (pk0 := pk0) n gens q) (V2 n gens q) :=
    Span.All.refl (N := N2 + q) fun ω => by
      unfold V2
      rw [List.length_append, hN2, (len_seen n.toNat q ω.2).2]
  exact (Span.All.trans (h2.left fun ω => hN2 ω.1) ((all_D2_sh (pk0 := pk0) gens n.toNat o1 o2).comp
    (fun ω : Runs pk0 n.toNat q => ω.1))).append (h2.right fun ω => hN2 ω.1)

/-- the ciphertexts received before the last one -/
def before (ω : Runs pk0 n.toNat (q + 1)) : Runs pk0 n.toNat q :=
  (ω.1, ⟨ω.2.1.take q, by rw [List.length_take, ω.2.2.1]; exact Nat.min_eq_left (Nat.le_succ q), fun p hp => ω.2.2.2 p (List.mem_of_mem_take hp)⟩)

theorem all_before (ws : Runs pk0 n.toNat q → List E.G1) (h : Span.All E.Fr (V1 n gens q) ws) :
    Span.All E.Fr (V1 n gens (q + 1)) fun ω => ws (before n q ω) := by
  obtain ⟨N1, hN1⟩ := len_L1 (pk0 := pk0) gens n.toNat
  have e : ∀ ω : Runs pk0 n.toNat (q + 1), V1 n gens (q + 1) ω =
      V1 n gens q (before n q ω) ++ seen1 (ω.2.1.drop q) := by
    intro ω
    unfold V1 before
    dsimp only
    rw [List.append_assoc]
    congr 1
    unfold seen1
    rw [← List.flatten_append, ← List.map_append, List.take_append_drop]
  have h1 := ((all_V1 (pk0 := pk0) n gens (q + 1)).congr fun ω => (e ω).symm).left
    (N := N1 + q * (n.toNat + 4)) fun ω => by
      unfold V1
      rw [List.length_append, hN1, (len_seen n.toNat q (before n q ω).2).1]
  exact Span.All.trans h1 (h.comp (before n q))

end

/-! ### The game -/

section
variable (cs : CS E.Fr) (o1 o2 : List (Party E))
local notation "pk₀" => srsKey cs d 0 0 0 0 0 gens.G gens.H

include hb hn hbm hal hG hH hd in
/-- A question about everything seen so far has the same answer on all but a few draws, whatever is encrypted. -/
theorem answer (K q : ℕ) (hK : 7 + 3 * n.toNat + 3 * q ≤ K) (ws : Runs pk₀ n.toNat q → List E.G1)
    (hws : Span.All E.Fr (V1 n gens q) ws) (Q : Question E) :
    ∃ y : Prop, ∀ ms : List E.Fr, ms.length = q → ∃ Bad : Finset (Fin K → E.Fr),
      Bad.card ≤ (3 * d.size + 6) * E.fr.p ^ (K - 1) ∧
      ∀ g, g ∉ Bad → ∀ f z, merge2 n.toNat (othersS o1 o2) (othersT n.toNat o1 o2) f z = tapeOf g →
        ∀ chk pk keys shares ek sk ω sk1 dk l f'' hl, Link T b n gens o1 o2 f z pk keys shares ek sk ω sk1 dk →
        encryptAll T chk (tape E) ek pk b ms (fun i => f (6 + 2 * ek.X.length + i)) = .ok (l, f'') →
        (Q.Yes (dkgView1 gens pk keys shares ek l ++ ws (ω, ⟨l, hl⟩)) (dkgView2 gens pk keys ek l) ↔ y) := by
  obtain ⟨Q', hQ'⟩ := Span.pull ((all_W1 n gens o1 o2 q).append hws) (all_W2 n gens o1 o2 q) Q
  obtain ⟨y, hy⟩ := Cca.answer T b n hb hn hbm hal gens hG hH d hd K q hK Q'
  refine ⟨y, fun ms hms => ?_⟩
  obtain ⟨Bad, hBad, h⟩ := hy ms hms
  refine ⟨Bad, hBad, fun g hg f z hm chk pk keys shares ek sk ω sk1 dk l f'' hl hlink henc => ?_⟩
  have hset := hlink.set
  rw [hm] at hset
  have h1 := h g hg chk pk sk1 ek dk _ l f'' hset henc
  have h2 := hQ' (ω, ⟨l, hl⟩)
  unfold V1 V2 W1 W2 at h2
  dsimp only at h2
  rw [hlink.l1, hlink.l2, hlink.d1, hlink.d2] at h2
  exact h2.symm.trans h1

include hb hn hbm hal hG hH hd in
/-- The reply to a request is the same on all but a few draws, whatever is encrypted, and the elements handed out are
fixed combinations of what was public before. -/
theorem reply (chk : Bool) (K q : ℕ) (hK : 7 + 3 * n.toNat + 3 * q ≤ K) (ws : Runs pk₀ n.toNat q → List E.G1)
    (hws : Span.All E.Fr (V1 n gens q) ws) (S : Strategy E.Fr) (dest : ℕ → E.Fr) (M : List E.Fr) (R : RngCore E)
    (st : R.σ) :
    ∃ (rep : ReReply) (ws' : Runs pk₀ n.toNat q → List E.G1) (st' : R.σ), Span.All E.Fr (V1 n gens q) ws' ∧
      ∀ ms : List E.Fr, ms.length = q → (∀ m ∈ ms, m ∈ M) → ∃ Bad : Finset (Fin K → E.Fr),
      Bad.card ≤ (3 * d.size + 6) * E.fr.p ^ (K - 1) ∧
      ∀ g, g ∉ Bad → ∀ f z, merge2 n.toNat (othersS o1 o2) (othersT n.toNat o1 o2) f z = tapeOf g →
        ∀ pk keys shares ek sk ω sk1 dk l f'' hl, Link T b n gens o1 o2 f z pk keys shares ek sk ω sk1 dk →
        encryptAll T chk (tape E) ek pk b ms (fun i => f (6 + 2 * ek.X.length + i)) = .ok (l, f'') → Cca.NonDeg pk dk →
        helpReEncrypt ⟨true, true⟩ b gens pk ek sk R st M
          (S.cipher (dkgView1 gens pk keys shares ek l ++ ws (ω, ⟨l, hl⟩)))
          (S.proof (dkgView1 gens pk keys shares ek l ++ ws (ω, ⟨l, hl⟩)) (dkgView2 gens pk keys ek l))
          ⟨comb dest (dkgView1 gens pk keys shares ek l ++ ws (ω, ⟨l, hl⟩))⟩ = (rep, ws' (ω, ⟨l, hl⟩), st') := by
  classical
  have hU1 := (all_W1 n gens o1 o2 q).append hws
  have hU2 := all_W2 (pk0 := pk₀) n gens o1 o2 q
  choose c1 hc1 using fun k => hU1.comb k
  choose c2 hc2 using fun k => hU2.comb k
  have hrun : ∀ f z pk keys shares ek sk ω sk1 dk l hl, Link T b n gens o1 o2 f z pk keys shares ek sk ω sk1 dk →
      (∀ k, comb (c1 k) (view1 gens pk ek l) = comb k (dkgView1 gens pk keys shares ek l ++ ws (ω, ⟨l, hl⟩))) ∧
      (∀ k, comb (c2 k) (view2 gens pk ek dk l) = comb k (dkgView2 gens pk keys ek l)) := by
    intro f z pk keys shares ek sk ω sk1 dk l hl hlink
    have g1 := fun k => hc1 k (ω, ⟨l, hl⟩)
    have g2 := fun k => hc2 k (ω, ⟨l, hl⟩)
    unfold V1 W1 at g1
    unfold V2 W2 at g2
    dsimp only at g1 g2
    rw [hlink.l1, hlink.d1] at g1
    rw [hlink.l2, hlink.d2] at g2
    exact ⟨fun k => (g1 k).symm, fun k => (g2 k).symm⟩
  have hcip : ∀ f z pk keys shares ek sk ω sk1 dk l hl, Link T b n gens o1 o2 f z pk keys shares ek sk ω sk1 dk →
      S.cipher (dkgView1 gens pk keys shares ek l ++ ws (ω, ⟨l, hl⟩)) =
        (Adapt.mapStrategy c1 c2 S).cipher (view1 gens pk ek l) ∧
      S.proof (dkgView1 gens pk keys shares ek l ++ ws (ω, ⟨l, hl⟩)) (dkgView2 gens pk keys ek l) =
        (Adapt.mapStrategy c1 c2 S).proof (view1 gens pk ek l) (view2 gens pk ek dk l) := by
    intro f z pk keys shares ek sk ω sk1 dk l hl hlink
    obtain ⟨g1, g2⟩ := hrun f z pk keys shares ek sk ω sk1 dk l hl hlink
    unfold Strategy.cipher Strategy.proof Adapt.mapStrategy
    simp only [g1, g2, and_self]
  rcases verdict T b n hb hn hbm hal gens hG hH d hd chk K q hK (Adapt.mapStrategy c1 c2 S) with hrej | ⟨hacc, hcase⟩
  · refine ⟨.rejected, fun _ => [], st, Span.All.nil, fun ms hms _ => ?_⟩
    obtain ⟨Bad, hBad, h⟩ := hrej ms hms
    refine ⟨Bad, hBad, fun g hg f z hm pk keys shares ek sk ω sk1 dk l f'' hl hlink henc _ => ?_⟩
    have hset := hlink.set
    rw [hm] at hset
    have h1 := h g hg pk sk1 ek dk _ l f'' hset henc
    obtain ⟨e1, e2⟩ := hcip f z pk keys shares ek sk ω sk1 dk l hl hlink
    unfold helpReEncrypt
    rw [e1, e2, if_pos ⟨rfl, h1⟩]
  rcases hcase with ⟨m, r, hm, henc⟩ | ⟨j, u, hj, henc⟩
  · -- the adversary's own encryption
    obtain ⟨-, hD, -, -, hs, -⟩ := pieces (pk0 := pk₀) gens n.toNat
    have hX : ∀ i < n.toNat, Span.In E.Fr (V1 (pk0 := pk₀) n gens q) fun ω => ω.1.s i • ω.1.pk.pk.delta_g1 := by
      intro i hi
      obtain ⟨k, hk⟩ := hs i hi
      exact ((all_L1 n gens q).comb k).congr fun ω => hk ω.1
    have hX0 : Span.In E.Fr (V1 (pk0 := pk₀) n gens q) fun ω => ω.1.pk.pk.delta_g1 := by
      obtain ⟨k, hk⟩ := hD
      exact ((all_L1 n gens q).comb k).congr fun ω => hk ω.1
    have hGe : Span.In E.Fr (V1 (pk0 := pk₀) n gens q) fun _ => gens.G := by
      have p := (pieces (pk0 := pk₀) gens n.toNat).1
      have p1 := p.right (N := (pk₀).pk.l_query.length) fun ω => ω.same.1
      have p2 := p1.right (N := (pk₀).pk.h_query.length) fun ω => ω.same.2.1
      obtain ⟨k, hk⟩ := p2.2 0
      exact ((all_L1 n gens q).comb k).congr fun ω => hk ω.1
    by_cases hM : ∃ m' ∈ M, ∀ i < n.toNat, dig b m' i = m i
    · refine ⟨.withheld, fun _ => [], st, Span.All.nil, fun ms hms _ => ⟨∅, by simp, ?_⟩⟩
      intro g _ f z _ pk keys shares ek sk ω sk1 dk l f'' hl hlink hl' hnd
      obtain ⟨e1, e2⟩ := hcip f z pk keys shares ek sk ω sk1 dk l hl hlink
      have hEn := henc ms hms _ pk sk1 ek dk _ l f'' hlink.set hl'
      have hAc := hacc ms hms _ pk sk1 ek dk _ l f'' hlink.set hl'
      have hXl : ek.X.length = n.toNat := by
        obtain ⟨c0, cs', hc0, -⟩ := setup_shape (E := E) hn hbm
        obtain ⟨g_i, st3, -, hgi, hk⟩ := Nm.setup_parts hc0 hlink.set
        obtain ⟨n', s, t, hn', hgn, hek⟩ := fromSetup_inv hk
        rw [hn] at hn'
        cases hn'
        rw [hek]
        simp [encKey]
      unfold helpReEncrypt
      rw [e1, e2, if_neg (fun h => h.2 hAc), if_pos]
      refine ⟨rfl, ?_⟩
      obtain ⟨m', hm', hd'⟩ := hM
      refine ⟨m', hm', (output_iff T b n hb hn hbm hal gens _ _ pk sk1 ek dk hlink.set m' _).mpr ⟨r, ?_⟩⟩
      rw [hEn]
      exact Nm.cipher_congr _ _ _ _ _ fun i hi => by rw [hd' i (by omega)]
    · refine ⟨.share, fun ω => (tab n.toNat fun i => -(r • (ω.1.s i • ω.1.pk.pk.delta_g1 -
        othersS o1 o2 i • ω.1.pk.pk.delta_g1)) + draw R st 0 • comb dest (W1 n gens o1 o2 q ω ++ ws ω)) ++
          [draw R st 0 • gens.G], after R st 1, ?_, fun ms hms _ => ⟨∅, by simp, ?_⟩⟩
      · refine Span.All.append (Span.All.tab fun i hi => ?_) (Span.All.single (hGe.smul _))
        refine Span.In.add ?_ ((hU1.comb dest).smul _)
        refine ((((hX i hi).sub (hX0.smul (othersS o1 o2 i))).smul (-r))).congr fun ω => ?_
        rw [neg_smul]
      · intro g _ f z _ pk keys shares ek sk ω sk1 dk l f'' hl hlink hl' hnd
        obtain ⟨e1, e2⟩ := hcip f z pk keys shares ek sk ω sk1 dk l hl hlink
        have hEn := henc ms hms _ pk sk1 ek dk _ l f'' hlink.set hl'
        have hAc := hacc ms hms _ pk sk1 ek dk _ l f'' hlink.set hl'
        have hXl : ek.X.length = n.toNat := by
          obtain ⟨c0, cs', hc0, -⟩ := setup_shape (E := E) hn hbm
          obtain ⟨g_i, st3, -, hgi, hk⟩ := Nm.setup_parts hc0 hlink.set
          obtain ⟨n', s, t, hn', hgn, hek⟩ := fromSetup_inv hk
          rw [hn] at hn'
          cases hn'
          rw [hek]
          simp [encKey]
        have hgl : n.toNat ≤ pk.pk.vk.gamma_abc_g1.tail.length := by
          obtain ⟨c0, cs', hc0, -⟩ := setup_shape (E := E) hn hbm
          obtain ⟨g_i, st3, -, hgi, hk⟩ := Nm.setup_parts hc0 hlink.set
          obtain ⟨n', s, t, hn', hgn, hek⟩ := fromSetup_inv hk
          rw [hn] at hn'
          cases hn'
          rw [← Cca.gs_tail hgi]
          exact hgn
        unfold helpReEncrypt
        have hsl : (cipher ek (fun i => pk.pk.vk.gamma_abc_g1.tail.getD i 0) m r).enc_chunks.length = n.toNat := by
          simp [cipher, hXl]
        rw [e1, e2, if_neg (fun h => h.2 hAc), if_neg]
        · unfold Encrypts at hEn
          rw [hEn, reEncryptShare_eq R st gens _ _ _ sk (by rw [hsl, hlink.sks]; simp)]
          dsimp only
          rw [hsl]
          refine Prod.ext rfl (Prod.ext ?_ rfl)
          dsimp only
          congr 1
          refine tab_congr fun i hi => ?_
          rw [hlink.sks, getD_tab, if_pos hi, hlink.s i hi, hlink.pk_eq]
          unfold W1
          dsimp only
          rw [hlink.d1]
          congr 2
          show f (5 + i) • r • ek.X_0 = _
          rw [hlink.x0]
          module
        · rintro ⟨-, m', hm', hout⟩
          obtain ⟨r', hr'⟩ := (output_iff T b n hb hn hbm hal gens _ _ pk sk1 ek dk hlink.set m' _).mp hout
          unfold Encrypts at hEn
          rw [hEn] at hr'
          refine hM ⟨m', hm', fun i hi => (cipher_inj ek _ hlink.x0_ne (fun i hi => ?_) m (dig b m')
            (fun i hi => (hm i (by omega)).2) (fun i _ => dig_lt b hb m' i) r r' hr' i (by omega)).symm⟩
          rw [List.getD_eq_getElem _ _ (by omega)]
          exact hnd.1 _ (List.getElem_mem _)
  · refine ⟨.withheld, fun _ => [], st, Span.All.nil, fun ms hms hM => ⟨∅, by simp, ?_⟩⟩
    intro g _ f z _ pk keys shares ek sk ω sk1 dk l f'' hl hlink hl' hnd
    obtain ⟨e1, e2⟩ := hcip f z pk keys shares ek sk ω sk1 dk l hl hlink
    obtain ⟨ct, proof, hj', hct⟩ := henc ms hms _ pk sk1 ek dk _ l f'' hlink.set hl'
    have hAc := hacc ms hms _ pk sk1 ek dk _ l f'' hlink.set hl'
    unfold helpReEncrypt
    rw [e1, e2, if_neg (fun h => h.2 hAc), if_pos]
    refine ⟨rfl, ?_⟩
    obtain ⟨m, hm, hout⟩ := output_rerandomise T b n hb hn hbm hal gens chk _ _ f'' pk sk1 ek dk hlink.set ms l hl' j ct
      proof hj' u
    exact ⟨m, hM m hm, by rw [hct]; exact hout⟩

include hb hn hbm hal hG hH hd in
/-- The adversary gives the same answer on all but a few draws, whatever is encrypted. -/
theorem follow (chk : Bool) (K : ℕ) (R : RngCore E) (A : ReAdversary E) : ∀ (Q D C q : ℕ) (M : List E.Fr) (st : R.σ)
    (ws : Runs pk₀ n.toNat q → List E.G1), Span.All E.Fr (V1 n gens q) ws → A.AtMost Q D C →
    7 + 3 * n.toNat + 3 * (q + C) ≤ K →
    ∃ a : Bool, ∀ ms : List E.Fr, ms.length = q → (∀ m ∈ ms, m ∈ M) → ∀ side, ∃ Bad : Finset (Fin K → E.Fr),
      Bad.card ≤ (Q + D) * ((3 * d.size + 6) * E.fr.p ^ (K - 1)) ∧
      ∀ g, g ∉ Bad → ∀ f z, merge2 n.toNat (othersS o1 o2) (othersT n.toNat o1 o2) f z = tapeOf g →
        ∀ pk keys shares ek sk ω sk1 dk l f'' hl, Link T b n gens o1 o2 f z pk keys shares ek sk ω sk1 dk →
        encryptAll T chk (tape E) ek pk b ms (fun i => f (6 + 2 * ek.X.length + i)) = .ok (l, f'') → Cca.NonDeg pk dk →
        playRe ⟨true, true⟩ side T chk b gens pk keys shares ek sk R A M f'' l (ws (ω, ⟨l, hl⟩)) st = a := by
  classical
  induction A with
  | guess a => exact fun Q D C q M st ws _ _ _ => ⟨a, fun ms _ _ side =>
      ⟨∅, by simp, fun _ _ _ _ _ _ _ _ _ _ _ _ _ _ _ _ _ _ _ => rfl⟩⟩
  | ask Qn yes no ihy ihn =>
    intro Q D C q M st ws hws hA hK
    obtain ⟨hQ, hAy, hAn⟩ := hA
    obtain ⟨y, hy⟩ := answer T b n hb hn hbm hal gens hG hH d hd cs o1 o2 K q (by omega) ws hws Qn
    obtain ⟨ay, hay⟩ := ihy _ _ _ q M st ws hws hAy hK
    obtain ⟨an, han⟩ := ihn _ _ _ q M st ws hws hAn hK
    refine ⟨if y then ay else an, fun ms hms hM side => ?_⟩
    obtain ⟨Bad, hBad, h⟩ := hy ms hms
    obtain ⟨By, hBy, hy'⟩ := hay ms hms hM side
    obtain ⟨Bn, hBn, hn'⟩ := han ms hms hM side
    refine ⟨Bad ∪ (if y then By else Bn), ?_, fun g hg f z hm pk keys shares ek sk ω sk1 dk l f'' hl hlink henc hnd => ?_⟩
    · refine (Finset.card_union_le _ _).trans ?_
      generalize (3 * d.size + 6) * E.fr.p ^ (K - 1) = B at *
      have : (if y then By else Bn).card ≤ (Q - 1 + D) * B := by split <;> assumption
      rw [show Q + D = 1 + (Q - 1 + D) by omega, Nat.add_mul, Nat.one_mul]
      omega
    · rw [Finset.mem_union, not_or] at hg
      have h1 := h g hg.1 f z hm chk pk keys shares ek sk ω sk1 dk l f'' hl hlink henc
      simp only [playRe]
      by_cases hyy : y
      · rw [if_pos (h1.mpr hyy), if_pos hyy]
        exact hy' g (by simpa [hyy] using hg.2) f z hm pk keys shares ek sk ω sk1 dk l f'' hl hlink henc hnd
      · rw [if_neg (fun hc => hyy (h1.mp hc)), if_neg hyy]
        exact hn' g (by simpa [hyy] using hg.2) f z hm pk keys shares ek sk ω sk1 dk l f'' hl hlink henc hnd
  | challenge m0 m1 next ih =>
    intro Q D C q M st ws hws hA hK
    obtain ⟨hC, hAn⟩ := hA
    obtain ⟨a, ha⟩ := ih Q D (C - 1) (q + 1) (m0 :: m1 :: M) st (fun ω => ws (before n q ω)) (all_before n gens q ws hws)
      hAn (by omega)
    refine ⟨a, fun ms hms hM side => ?_⟩
    obtain ⟨Bad, hBad, h⟩ := ha (ms ++ [if side then m1 else m0]) (by simp [hms]) (by
      intro m hm
      rcases List.mem_append.mp hm with h | h
      · exact List.mem_cons_of_mem _ (List.mem_cons_of_mem _ (hM m h))
      · rw [List.mem_singleton] at h
        cases side
        · simp [h]
        · simp [h]) side
    refine ⟨Bad, hBad, fun g hg f z hm pk keys shares ek sk ω sk1 dk l f'' hl hlink henc hnd => ?_⟩
    obtain ⟨ct, r, proof, f3, henc', hl'⟩ := Cca.next_encryption T b n hb hn hbm hal gens hH d hd chk _ _ f'' pk sk1 ek
      dk ms l hlink.set henc (if side then m1 else m0)
    simp only [playRe]
    rw [henc']
    obtain ⟨c0, cs', hc0, -⟩ := setup_shape (E := E) hn hbm
    obtain ⟨g_i, st3, hsrs, hgi, hk⟩ := Nm.setup_parts hc0 hlink.set
    obtain ⟨hll, hlc, -⟩ := honest_lists T b n hb hn hal gens hc0 hsrs hgi hk hl'
    have hl2 : (l ++ [(ct, proof)]).length = q + 1 ∧ ∀ p ∈ l ++ [(ct, proof)], p.1.enc_chunks.length = n.toNat :=
      ⟨hll.trans (by simp [hms]), hlc⟩
    have e : before n q (ω, ⟨l ++ [(ct, proof)], hl2⟩) = (ω, ⟨l, hl⟩) := by
      unfold before
      have e1 : (l ++ [(ct, proof)]).take q = l := by
        rw [List.take_append_of_le_length (by rw [hl.1]), List.take_of_length_le (by rw [hl.1])]
      simp only [e1]
    have := h g hg f z hm pk keys shares ek sk ω sk1 dk _ f3 hl2 hlink hl' hnd
    rw [e] at this
    exact this
  | request S dest next ih =>
    intro Q D C q M st ws hws hA hK
    obtain ⟨hD, hAn⟩ := hA
    obtain ⟨rep, ws', st', hws', hrep⟩ := reply T b n hb hn hbm hal gens hG hH d hd cs o1 o2 chk K q (by omega) ws hws S
      dest M R st
    obtain ⟨a, ha⟩ := ih rep Q (D - 1) C q M st' (fun ω => ws ω ++ ws' ω) (hws.append hws') (hAn rep) hK
    refine ⟨a, fun ms hms hM side => ?_⟩
    obtain ⟨Bad, hBad, h⟩ := hrep ms hms hM
    obtain ⟨Bn, hBn, hn'⟩ := ha ms hms hM side
    refine ⟨Bad ∪ Bn, ?_, fun g hg f z hm pk keys shares ek sk ω sk1 dk l f'' hl hlink henc hnd => ?_⟩
    · refine (Finset.card_union_le _ _).trans ?_
      generalize (3 * d.size + 6) * E.fr.p ^ (K - 1) = B at *
      rw [show Q + D = 1 + (Q + (D - 1)) by omega, Nat.add_mul, Nat.one_mul]
      omega
    · rw [Finset.mem_union, not_or] at hg
      simp only [playRe]
      rw [h g hg.1 f z hm pk keys shares ek sk ω sk1 dk l f'' hl hlink henc hnd]
      exact hn' g hg.2 f z hm pk keys shares ek sk ω sk1 dk l f'' hl hlink henc hnd

end
/-- few tapes of the single setup are few tapes of the distributed one -/
theorem shrink (n C : ℕ) (S T : ℕ → E.Fr) (B : ℕ) (Bad : Finset (Fin (7 + 3 * n + 3 * C) → E.Fr))
    (h : Bad.card ≤ B * E.fr.p ^ (6 + 3 * n + 3 * C)) :
    ∃ Bad' : Finset (Fin (6 + 2 * n + 3 * C) → E.Fr), Bad'.card ≤ B * E.fr.p ^ (5 + 2 * n + 3 * C) ∧
      ∀ x, x ∉ Bad' → ∃ z g, g ∉ Bad ∧ merge2 n S T (tapeOf x) z = tapeOf g := by
  classical
  let Bad' : Finset (Fin (6 + 2 * n + 3 * C) → E.Fr) := Finset.univ.filter fun x => ∀ z : Fin (n + 1) → E.Fr,
    (fun j : Fin (7 + 3 * n + 3 * C) => merge2 n S T (tapeOf x) (tapeOf z) j) ∈ Bad
  refine ⟨Bad', ?_, fun x hx => ?_⟩
  · have hinj : (Bad' ×ˢ (Finset.univ : Finset (Fin (n + 1) → E.Fr))).card ≤ Bad.card := by
      refine Finset.card_le_card_of_injOn (fun xz => fun j : Fin (7 + 3 * n + 3 * C) =>
        merge2 n S T (tapeOf xz.1) (tapeOf xz.2) j) ?_ ?_
      · rintro ⟨x, z⟩ hxz
        exact (Finset.mem_filter.mp (Finset.mem_product.mp (Finset.mem_coe.mp hxz)).1).2 z
      · rintro ⟨x, z⟩ - ⟨x', z'⟩ - he
        exact merge2_inj n S T C x x' z z' he
    rw [Finset.card_product, Finset.card_univ, Fintype.card_fun, Fintype.card_fin,
      show Fintype.card E.Fr = E.fr.p from ZMod.card _] at hinj
    have h1 := hinj.trans h
    rw [pow_split, ← mul_assoc] at h1
    exact Nat.le_of_mul_le_mul_right h1 (pow_pos (Nat.Prime.pos E.fr.prime) _)
  · have : ¬ ∀ z : Fin (n + 1) → E.Fr,
        (fun j : Fin (7 + 3 * n + 3 * C) => merge2 n S T (tapeOf x) (tapeOf z) j) ∈ Bad :=
      fun hc => hx (Finset.mem_filter.mpr ⟨Finset.mem_univ _, hc⟩)
    push Not at this
    obtain ⟨z, hz⟩ := this
    exact ⟨tapeOf z, _, hz, (tapeOf_merge2 n S T C x z).symm⟩

end
end ReGame

section
variable (T : FftCfg E.Fr) (b n : UInt8) (hb : Supported b) (hn : chunksCount E.fr b = .ok n)
    (hbm : b.toNat ≤ E.fr.modBits)
    (hal : 64 * E.fr.limbs < E.fr.modBits + b.toNat ∧ chunksNeeded E.fr b.toNat ≤ 255)
    (gens : EncryptionGens E) (hG : gens.G ≠ 0) (hH : gens.H ≠ 0) (d : EvalDomain E.Fr)
    (hd : T.newDomain (n.toNat * constraintsPerValue E.fr.modBits b.toNat + (n.toNat + 1)) = some d)
    (others1 others2 : List (Party E))

include hb hn hbm hal hG hH hd in
/-- **C94** Helping to re-encrypt verified ciphertexts does not hurt secrecy.  The key is generated by any number of parties,
all but one of which are arbitrary machines known to the adversary.  The adversary sees everything published, hands over
pairs of messages and receives the encryptions (with proofs) of the left or of the right ones, and at any time submits a
ciphertext, a proof and a destination key of its own making to the honest party.  The honest party runs
`verify_commitment_and_proof` and answers with what `re_encrypt_share` returns, unless the ciphertext carries a message that
the adversary has handed over itself.  Whatever the honest party's random numbers for re-encryption are: among the `p^K`
choices of the draws made by parameter generation, the honest party's key generation and the encryptions, the number of those
on which the adversary guesses "right" differs between the two games by at most
`((Q + D) (3 size + 6) + 2 n + 1) p^(K-1)`, where `Q` and `D` are the numbers of questions and of requests. -/
theorem C94_verified_requests (chk : Bool) (R : RngCore E) (st : R.σ) (A : ReAdversary E) (Q D C : ℕ)
    (hA : A.AtMost Q D C) (side : Bool) :
    rightGuessesRe ⟨true, true⟩ (6 + 2 * n.toNat + 3 * C) side T chk b gens others1 others2 R st A ≤
      rightGuessesRe ⟨true, true⟩ (6 + 2 * n.toNat + 3 * C) (!side) T chk b gens others1 others2 R st A +
      ((Q + D) * (3 * d.size + 6) + (2 * n.toNat + 1)) * E.fr.p ^ (5 + 2 * n.toNat + 3 * C) := by
  classical
  obtain ⟨c0, cs, hc0, hcs, hI, hC, -⟩ := setup_shape (E := E) hn hbm
  obtain ⟨a, ha⟩ := ReGame.follow T b n hb hn hbm hal gens hG hH d hd cs others1 others2 chk
    (7 + 3 * n.toNat + 3 * C) R A Q D C 0 [] st (fun _ => []) Span.All.nil hA (by omega)
  obtain ⟨Deg, hDeg, hnd⟩ := Cca.degenerate T b n hb hn hbm hal gens hG hH d hd (7 + 3 * n.toNat + 3 * C) (by omega)
  have hplay : ∀ side, ∃ Bad : Finset (Fin (6 + 2 * n.toNat + 3 * C) → E.Fr),
      Bad.card ≤ ((Q + D) * (3 * d.size + 6) + (2 * n.toNat + 1)) * E.fr.p ^ (5 + 2 * n.toNat + 3 * C) ∧
      ∀ g, g ∉ Bad → experimentRe ⟨true, true⟩ side T chk b gens others1 others2 R st A (tapeOf g) =
        match setupForDkg T (tape E) 1 (tapeOf g) b gens
          (others1 ++ ⟨tape E, fun i => tapeOf g (5 + i)⟩ :: others2) with
        | .ok _ => a
        | _ => false := by
    intro side
    obtain ⟨Bad, hBad, h⟩ := ha [] rfl (by simp) side
    obtain ⟨Bad', hBad', hx⟩ := ReGame.shrink n.toNat C (Sec.othersS others1 others2)
      (Sec.othersT n.toNat others1 others2) ((Q + D) * (3 * d.size + 6) + (2 * n.toNat + 1)) (Bad ∪ Deg) (by
        refine (Finset.card_union_le _ _).trans ?_
        rw [show 7 + 3 * n.toNat + 3 * C - 1 = 6 + 3 * n.toNat + 3 * C by omega] at hBad hDeg
        rw [Nat.add_mul, Nat.mul_assoc]
        omega)
    refine ⟨Bad', hBad', fun g hg => ?_⟩
    obtain ⟨z, g', hg', hm⟩ := hx g hg
    rw [Finset.mem_union, not_or] at hg'
    unfold experimentRe
    cases hset : setupForDkg T (tape E) 1 (tapeOf g) b gens
        (others1 ++ ⟨tape E, fun i => tapeOf g (5 + i)⟩ :: others2) with
    | ok x =>
      obtain ⟨pk, keys, shares, ek⟩ := x
      obtain ⟨sk, hsk, ω, sk1, dk, hlink⟩ := ReGame.link_of_run T b n hn hbm gens hG d hd others1 others2 c0 hc0 cs hcs hI
        hC (tapeOf g) z pk keys shares ek hset
      dsimp only
      rw [hsk]
      have hset' := hlink.set
      rw [hm] at hset'
      exact h g' hg'.1 (tapeOf g) z hm pk keys shares ek sk ω sk1 dk [] _ ⟨rfl, by simp⟩ hlink rfl
        (hnd g' hg'.2 pk sk1 ek dk _ hset')
    | err e => rfl
    | panic => rfl
  obtain ⟨B0, hB0, h0⟩ := hplay side
  obtain ⟨B1, hB1, h1⟩ := hplay (!side)
  unfold rightGuessesRe
  cases a with
  | false =>
    refine le_trans (le_trans (Finset.card_le_card ?_) hB0) (Nat.le_add_left _ _)
    intro g hg
    by_contra hc
    have := (Finset.mem_filter.mp hg).2
    rw [h0 g hc] at this
    split at this <;> cases this
  | true =>
    refine le_trans (Finset.card_le_card (t := (Finset.univ.filter fun x : Fin (6 + 2 * n.toNat + 3 * C) → E.Fr =>
      experimentRe ⟨true, true⟩ (!side) T chk b gens others1 others2 R st A (tapeOf x) = true) ∪ B1) ?_)
        ((Finset.card_union_le _ _).trans (Nat.add_le_add_left hB1 _))
    intro g hg
    rw [Finset.mem_union]
    by_cases hc : g ∈ B1
    · exact Or.inr hc
    · refine Or.inl (Finset.mem_filter.mpr ⟨Finset.mem_univ _, ?_⟩)
      rw [h1 g hc]
      have := (Finset.mem_filter.mp hg).2
      unfold experimentRe at this
      cases hset : setupForDkg T (tape E) 1 (tapeOf g) b gens
        (others1 ++ ⟨tape E, fun i => tapeOf g (5 + i)⟩ :: others2) with
      | ok x => rfl
      | err e => rw [hset] at this; cases this
      | panic => rw [hset] at this; cases this

end
end
end Verif
