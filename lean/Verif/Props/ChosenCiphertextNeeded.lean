/-
Property C88, continued: the game is not trivial, and neither verification nor withholding can be dropped.
-/
import Verif.Props.ChosenCiphertext

namespace Verif
open Spec Agm

namespace Spec
variable {E : Engine}

/-- adding `m'` to `m` does not carry from one chunk into another, nor around the modulus -/
def NoCarry (b : UInt8) (m m' : E.Fr) : Prop :=
  ∃ d d' d'', decompose (K := E.fr) m b = .ok d ∧ decompose (K := E.fr) m' b = .ok d' ∧
    decompose (K := E.fr) (m + m') b = .ok d'' ∧ nums d'' = List.zipWith (· + ·) (nums d) (nums d')

end Spec

section
variable {E : Engine}

namespace Cca

/-- challenge, submit one ciphertext, and guess "right" if the reply is the message `x` -/
def attacker (m0 m1 : E.Fr) (S : Strategy E.Fr) (x : E.Fr) : CcaAdversary E :=
  .challenge m0 m1 (.submit S fun r => .guess (match r with
    | .message m => decide (m = x)
    | _ => false))

/-- the sum of two strategies -/
def plus (S S' : Strategy E.Fr) : Strategy E.Fr where
  x i := S.x i + S'.x i
  len := S.len
  chunk i j := S.chunk i j + S'.chunk i j
  psi i := S.psi i + S'.psi i
  a := S.a
  b := S.b
  c := S.c

theorem comb_add (k k' : ℕ → E.Fr) (P : List E.G1) : comb (fun i => k i + k' i) P = comb k P + comb k' P := by
  unfold comb
  rw [← Finset.sum_add_distrib]
  exact Finset.sum_congr rfl fun i _ => add_smul _ _ _

end Cca

section
variable (T : FftCfg E.Fr) (b n : UInt8) (hb : Supported b) (hn : chunksCount E.fr b = .ok n)
    (hbm : b.toNat ≤ E.fr.modBits)
    (hal : 64 * E.fr.limbs < E.fr.modBits + b.toNat ∧ chunksNeeded E.fr b.toNat ≤ 255)
    (gens : EncryptionGens E) (hG : gens.G ≠ 0) (hH : gens.H ≠ 0) (d : EvalDomain E.Fr)
    (hd : T.newDomain (n.toNat * constraintsPerValue E.fr.modBits b.toNat + (n.toNat + 1)) = some d)
include hb hn hbm hal hH hd

namespace Cca

/-- encryptions do not fail after a successful setup -/
theorem next_encryption (chk : Bool) (f f' f'' : ℕ → E.Fr) (pk sk ek dk) (ms : List E.Fr) (l)
    (hset : setupForGroth16 T (tape E) 1 f b gens = .ok ((pk, sk, ek, dk), f'))
    (hl : encryptAll T chk (tape E) ek pk b ms f' = .ok (l, f'')) (m : E.Fr) :
    ∃ ct r proof f3, encryptWithProof T chk (tape E) f'' m ek pk b = .ok ((ct, r, proof), f3) ∧
      encryptAll T chk (tape E) ek pk b (ms ++ [m]) f' = .ok (l ++ [(ct, proof)], f3) := by
  obtain ⟨c0, cs, hc0, hcs, hI, hC', -⟩ := setup_shape hn hbm
  obtain ⟨mc, cs1, -, hshown⟩ := Nm.run_shown T b n hb hn hbm hal gens hH d hd c0 hc0 cs hcs hI hC' ms
  obtain ⟨mc', cs1', hex, -⟩ := Nm.run_shown T b n hb hn hbm hal gens hH d hd c0 hc0 cs hcs hI hC' (ms ++ [m])
  obtain ⟨hgood, -⟩ := hshown chk _ _ _ _ _ _ _ _ hset hl
  obtain ⟨pk', sk', ek', dk', f1, l', f2, hset', hl'⟩ := hex _ hgood chk
  rw [hset] at hset'
  cases hset'
  obtain ⟨ct, r, proof, henc, rfl⟩ := encryptAll_snoc T chk (tape E) ek pk b _ ms f' f'' f2 l l' hl hl'
  exact ⟨ct, r, proof, f2, henc, hl'⟩

/-- an adversary that always guesses "right" is never stopped -/
theorem right_play (pol : Policy) (side chk : Bool) (f f' : ℕ → E.Fr) (pk sk ek dk)
    (hset : setupForGroth16 T (tape E) 1 f b gens = .ok ((pk, sk, ek, dk), f')) (A : CcaAdversary E) :
    A.AlwaysRight → ∀ (M ms : List E.Fr) (f'' : ℕ → E.Fr) (l),
      encryptAll T chk (tape E) ek pk b ms f' = .ok (l, f'') →
      playCca pol side T chk b gens pk sk ek dk A M f'' l = true := by
  induction A with
  | guess a => exact fun h M ms f'' l _ => h
  | ask Q yes no ihy ihn =>
    intro h M ms f'' l hl
    simp only [playCca]
    split
    · exact ihy h.1 M ms f'' l hl
    · exact ihn h.2 M ms f'' l hl
  | challenge m0 m1 next ih =>
    intro h M ms f'' l hl
    obtain ⟨ct, r, proof, f3, henc, hl'⟩ := next_encryption T b n hb hn hbm hal gens hH d hd chk f f' f'' pk sk ek dk
      ms l hset hl (if side then m1 else m0)
    simp only [playCca]
    rw [henc]
    exact ih h _ _ _ _ hl'
  | submit S next ih =>
    intro h M ms f'' l hl
    simp only [playCca]
    exact ih _ (h _) M ms f'' l hl

/-- setup fails on few draws only -/
theorem setups (hp : d.size < E.fr.p) (K : ℕ) (hK : 7 + 3 * n.toNat ≤ K) :
    ∃ Bad : Finset (Fin K → E.Fr), Bad.card ≤ (d.size + 2) * E.fr.p ^ (K - 1) ∧
      ∀ g, g ∉ Bad → ∃ pk sk ek dk f',
        setupForGroth16 T (tape E) 1 (tapeOf g) b gens = .ok ((pk, sk, ek, dk), f') := by
  classical
  obtain ⟨c0, cs, hc0, hcs, hI, hC', -⟩ := setup_shape hn hbm
  obtain ⟨mc', cs1', hex, -⟩ := Nm.run_shown T b n hb hn hbm hal gens hH d hd c0 hc0 cs hcs hI hC' []
  refine ⟨Finset.univ.filter fun g => d.vanishing (tapeOf g 4) * (tapeOf g 2 * tapeOf g 3) = 0,
    Nm.bad_count d hp _ (by omega) _ fun g hg => (Finset.mem_filter.mp hg).2, fun g hg => ?_⟩
  have hne : d.vanishing (tapeOf g 4) * (tapeOf g 2 * tapeOf g 3) ≠ 0 := fun h =>
    hg (Finset.mem_filter.mpr ⟨Finset.mem_univ _, h⟩)
  obtain ⟨pk, sk, ek, dk, f1, l', f2, hset, -⟩ := hex (tapeOf g) ⟨left_ne_zero_of_mul hne,
    left_ne_zero_of_mul (right_ne_zero_of_mul hne), right_ne_zero_of_mul (right_ne_zero_of_mul hne)⟩ true
  exact ⟨pk, sk, ek, dk, f1, hset⟩

end Cca

/-- **C88** The games are not trivially the same because they stop: whatever the policy, an adversary that always
guesses "right" does so on all but a `(size + 2) / p` fraction of the draws, in both games. -/
theorem C88_no_abort (hp : d.size < E.fr.p) (pol : Policy) (side chk : Bool) (A : CcaAdversary E) (hA : A.AlwaysRight)
    (K : ℕ) (hK : 7 + 3 * n.toNat ≤ K) :
    E.fr.p ^ K ≤ rightGuessesCca pol K side T chk b gens A + (d.size + 2) * E.fr.p ^ (K - 1) := by
  classical
  obtain ⟨Bad, hBad, h⟩ := Cca.setups T b n hb hn hbm hal gens hH d hd hp K hK
  rw [← Nm.card_draws]
  unfold rightGuessesCca
  refine (Finset.card_le_card (t := (Finset.univ.filter fun x : Fin K → E.Fr =>
      experimentCca pol side T chk b gens A (tapeOf x) = true) ∪ Bad) ?_).trans ((Finset.card_union_le _ _).trans
        (Nat.add_le_add_left hBad _))
  intro g _
  rw [Finset.mem_union]
  by_cases hg : g ∈ Bad
  · exact Or.inr hg
  · refine Or.inl (Finset.mem_filter.mpr ⟨Finset.mem_univ _, ?_⟩)
    obtain ⟨pk, sk, ek, dk, f', hset⟩ := h g hg
    unfold experimentCca
    rw [hset]
    exact Cca.right_play T b n hb hn hbm hal gens hH d hd pol side chk _ _ pk sk ek dk hset A hA [] [] f' [] rfl

namespace Cca

include hG in
/-- an adversary that learns one of two values from the reply wins -/
theorem attack (hp : d.size < E.fr.p) (pol : Policy) (chk : Bool) (m0 m1 x0 x1 : E.Fr) (hx : x0 ≠ x1)
    (S : Strategy E.Fr)
    (h : ∀ (side : Bool) (f f' : ℕ → E.Fr) pk sk ek dk l f'',
      setupForGroth16 T (tape E) 1 f b gens = .ok ((pk, sk, ek, dk), f') →
      encryptAll T chk (tape E) ek pk b [if side then m1 else m0] f' = .ok (l, f'') → NonDeg pk dk →
      openVerified pol chk b gens pk sk ek dk [m0, m1] (S.cipher (view1 gens pk ek l))
        (S.proof (view1 gens pk ek l) (view2 gens pk ek dk l)) = .message (if side then x1 else x0))
    (K : ℕ) (hK : 7 + 3 * n.toNat ≤ K) :
    E.fr.p ^ K ≤ rightGuessesCca pol K true T chk b gens (attacker m0 m1 S x1) +
        (d.size + 2 * n.toNat + 3) * E.fr.p ^ (K - 1) ∧
      rightGuessesCca pol K false T chk b gens (attacker m0 m1 S x1) ≤ (2 * n.toNat + 1) * E.fr.p ^ (K - 1) := by
  classical
  obtain ⟨Bad, hBad, hset0⟩ := setups T b n hb hn hbm hal gens hH d hd hp K hK
  obtain ⟨Deg, hDeg, hnd⟩ := degenerate T b n hb hn hbm hal gens hG hH d hd K (by omega)
  have hplay : ∀ side g pk sk ek dk f', setupForGroth16 T (tape E) 1 (tapeOf g) b gens = .ok ((pk, sk, ek, dk), f') →
      g ∉ Deg → experimentCca pol side T chk b gens (attacker m0 m1 S x1) (tapeOf g) = side := by
    intro side g pk sk ek dk f' hset hg
    obtain ⟨ct, r, proof, f3, henc, hl'⟩ := next_encryption T b n hb hn hbm hal gens hH d hd chk _ f' f' pk sk ek dk
      [] [] hset rfl (if side then m1 else m0)
    have := h side _ _ _ _ _ _ _ _ hset hl' (hnd g hg _ _ _ _ _ hset)
    unfold experimentCca
    rw [hset]
    simp only [attacker, playCca]
    rw [henc]
    dsimp only
    rw [this]
    cases side with
    | true => simp
    | false => simpa using hx
  constructor
  · rw [← Nm.card_draws]
    unfold rightGuessesCca
    refine (Finset.card_le_card (t := (Finset.univ.filter fun x : Fin K → E.Fr =>
        experimentCca pol true T chk b gens (attacker m0 m1 S x1) (tapeOf x) = true) ∪ (Bad ∪ Deg)) ?_).trans
          ((Finset.card_union_le _ _).trans (Nat.add_le_add_left ((Finset.card_union_le _ _).trans ?_) _))
    · intro g _
      rw [Finset.mem_union]
      by_cases hg : g ∈ Bad ∪ Deg
      · exact Or.inr hg
      · rw [Finset.mem_union, not_or] at hg
        refine Or.inl (Finset.mem_filter.mpr ⟨Finset.mem_univ _, ?_⟩)
        obtain ⟨pk, sk, ek, dk, f', hset⟩ := hset0 g hg.1
        exact hplay true g _ _ _ _ _ hset hg.2
    · rw [show d.size + 2 * n.toNat + 3 = d.size + 2 + (2 * n.toNat + 1) by omega, Nat.add_mul]
      omega
  · refine le_trans (Finset.card_le_card ?_) hDeg
    intro g hg
    by_contra hc
    have := (Finset.mem_filter.mp hg).2
    cases hset : setupForGroth16 T (tape E) 1 (tapeOf g) b gens with
    | ok x =>
      obtain ⟨⟨pk, sk, ek, dk⟩, f'⟩ := x
      rw [hplay false g _ _ _ _ _ hset hc] at this
      cases this
    | err e => unfold experimentCca at this; rw [hset] at this; cases this
    | panic => unfold experimentCca at this; rw [hset] at this; cases this

end Cca

include hG in
/-- **C88** Withholding cannot be dropped: if the holder of the secret key verifies, but tells every message it decrypts,
then an adversary that asks nothing, receives one encryption, re-randomises it and submits it once distinguishes any
two messages on all but few draws. -/
theorem C88_withholding_needed (hp : 3 * d.size < E.fr.p) (chk : Bool) (m0 m1 : E.Fr) (hm : m0 ≠ m1) :
    ∃ A : CcaAdversary E, A.AtMost 0 1 1 ∧ ∀ K, 7 + 3 * n.toNat ≤ K →
      E.fr.p ^ K ≤ rightGuessesCca ⟨true, false⟩ K true T chk b gens A +
        (d.size + 2 * n.toNat + 3) * E.fr.p ^ (K - 1) ∧
      rightGuessesCca ⟨true, false⟩ K false T chk b gens A ≤ (2 * n.toNat + 1) * E.fr.p ^ (K - 1) := by
  obtain ⟨S, hS⟩ := C81_rerandomiser_uniform T b n hb hn hbm hal gens hH d hd 1 0 (by omega) 1 1 0 one_ne_zero
  refine ⟨Cca.attacker m0 m1 S m1, ⟨le_refl _, le_refl _, fun r => trivial⟩, Cca.attack T b n hb hn hbm hal gens hG hH d hd
    (by omega) ⟨true, false⟩ chk m0 m1 m0 m1 hm S ?_⟩
  intro side f f' pk sk ek dk l f'' hset hl hnd
  obtain ⟨⟨ct, proof, h1, h2, -⟩, hacc⟩ := hS _ rfl (tape E) 1 f f' pk sk ek dk hset chk (tape E) f' f'' l hl
  obtain ⟨g_i, st3, hg, hkg⟩ := Nm.setup_keygen hset
  obtain ⟨c0, cs, hc0, -⟩ := setup_shape (E := E) hn hbm
  obtain ⟨g_i', st4, hsrs, hg', hk⟩ := Nm.setup_parts hc0 hset
  rw [hg] at hg'
  cases hg'
  obtain ⟨-, h3⟩ := Nm.encryptAll_facts T (tape E) 1 f st4 b hb hal c0 gens pk hc0 hsrs g_i hg ek hk chk (tape E) _ f' f''
    l hl
  obtain ⟨m, st5, r, hmj, henc, -⟩ := h3 0 _ h1
  simp only [List.getElem?_cons_zero, Option.some.injEq] at hmj
  obtain ⟨ct', r', st6, henc', hdec, -⟩ := C18_decrypt_encrypt (tape E) st3 f' b gens g_i _ _ sk ek dk hkg hb hal
    (by rw [Cca.gs_tail hg]; exact hnd.1) hnd.2 (tape E) st5 m
  rw [henc] at henc'
  simp only [Res.ok.injEq, Prod.mk.injEq] at henc'
  obtain ⟨⟨rfl, rfl⟩, -⟩ := henc'
  have hd1 := hdec chk
  unfold Ciphertext.decrypt decrypt at hd1
  obtain ⟨⟨chunks, nu⟩, hd2, hd3⟩ := Res.bind_eq_ok.mp hd1
  dsimp only at hd2 hd3
  obtain ⟨m', hd4, hd5⟩ := Res.bind_eq_ok.mp hd3
  simp only [Res.pure_eq, Res.ok.injEq, Prod.mk.injEq] at hd5
  obtain ⟨rfl, rfl⟩ := hd5
  unfold openVerified
  rw [if_pos rfl, hacc]
  unfold Ciphertext.decryptGivenGroth16Vk Ciphertext.decrypt decrypt
  rw [hg, Res.ok_bind, h2, C77_same_plaintext (tape E) st3 f' b gens g_i _ _ sk ek dk hkg
    (by rcases hb with rfl | rfl | rfl <;> decide) chk ct 1, hd2]
  simp only [Res.ok_bind]
  rw [hd4]
  simp [hmj]

include hG in
/-- **C88** Verification cannot be dropped: if the holder of the secret key withholds the messages of the adversary, but
decrypts without `verify_commitment_and_proof`, then an adversary that asks nothing, receives one encryption, adds an
encryption of its own `m2` to it and submits the sum once distinguishes `m0` and `m1` on all but few draws. -/
theorem C88_verification_needed (hp : 3 * d.size < E.fr.p) (chk : Bool) (m0 m1 m2 : E.Fr) (hm : m0 ≠ m1)
    (h0 : NoCarry b m0 m2) (h1 : NoCarry b m1 m2) (hm2 : m2 ≠ 0) (hm01 : m0 + m2 ≠ m1) (hm10 : m1 + m2 ≠ m0) :
    ∃ A : CcaAdversary E, A.AtMost 0 1 1 ∧ ∀ K, 7 + 3 * n.toNat ≤ K →
      E.fr.p ^ K ≤ rightGuessesCca ⟨false, true⟩ K true T chk b gens A +
        (d.size + 2 * n.toNat + 3) * E.fr.p ^ (K - 1) ∧
      rightGuessesCca ⟨false, true⟩ K false T chk b gens A ≤ (2 * n.toNat + 1) * E.fr.p ^ (K - 1) := by
  obtain ⟨S, hS⟩ := C81_rerandomiser_uniform T b n hb hn hbm hal gens hH d hd 1 0 (by omega) 1 1 0 one_ne_zero
  obtain ⟨d2, hd2, hd2l, hd2r, -⟩ := decompose_spec (K := E.fr) m2 hb
  have hl2 := (decomp_len_eq_iff E.fr b n hb hn).mpr hal
  obtain ⟨S', hS'⟩ := C81_own_message T b n hn hbm gens d hd (fun i => (nums d2).getD i 0) (by
    intro i hi
    have hi' : i < d2.length := by omega
    simp only [nums, List.getD_eq_getElem?_getD, List.getElem?_map, List.getElem?_eq_getElem hi', Option.map_some,
      Option.getD_some]
    exact hd2r _ (List.getElem_mem hi')) 0
  refine ⟨Cca.attacker m0 m1 (Cca.plus S S') (m1 + m2), ⟨le_refl _, le_refl _, fun r => trivial⟩,
    Cca.attack T b n hb hn hbm hal gens hG hH d hd (by omega) ⟨false, true⟩ chk m0 m1 (m0 + m2) (m1 + m2)
      (fun h => hm (add_right_cancel h)) _ ?_⟩
  intro side f f' pk sk ek dk l f'' hset hl hnd
  obtain ⟨⟨ct, proof, e1, e2, -⟩, -⟩ := hS _ rfl (tape E) 1 f f' pk sk ek dk hset chk (tape E) f' f'' l hl
  obtain ⟨e3, -⟩ := hS' (tape E) 1 f f' pk sk ek dk hset l
  obtain ⟨g_i, st3, hg, hkg⟩ := Nm.setup_keygen hset
  obtain ⟨c0, cs, hc0, -⟩ := setup_shape (E := E) hn hbm
  obtain ⟨g_i', st4, hsrs, hg', hk⟩ := Nm.setup_parts hc0 hset
  rw [hg] at hg'
  cases hg'
  obtain ⟨-, h3⟩ := Nm.encryptAll_facts T (tape E) 1 f st4 b hb hal c0 gens pk hc0 hsrs g_i hg ek hk chk (tape E) _ f' f''
    l hl
  obtain ⟨m, st5, r, hmj, henc, -⟩ := h3 0 _ e1
  simp only [List.getElem?_cons_zero, Option.some.injEq] at hmj
  have hnc : NoCarry b m m2 := by rw [← hmj]; cases side <;> assumption
  obtain ⟨dm, d2', d'', hdm, hd2', hd'', hz⟩ := hnc
  rw [hd2] at hd2'
  cases hd2'
  obtain ⟨n', s, t, hn', hgn, hek⟩ := fromSetup_inv hk
  rw [hn] at hn'
  cases hn'
  have hwf : WellFormed ek := by rw [hek]; exact encKey_wf _ _ _ _ _ _ _
  have hX : ek.X.length = n.toNat := by rw [hek]; simp [encKey]
  obtain ⟨_, hdm', hdml, -, -⟩ := decompose_spec (K := E.fr) m hb
  rw [hdm] at hdm'
  cases hdm'
  obtain ⟨_, hdm', hdml', -, -⟩ := decompose_spec (K := E.fr) (m + m2) hb
  rw [hd''] at hdm'
  cases hdm'
  have hct := encrypt_ok (tape E) st5 m ek g_i b hdm hwf (by rw [hX]; exact n.toNat_lt) (by omega) (by omega)
  rw [henc] at hct
  simp only [Res.ok.injEq, Prod.mk.injEq] at hct
  obtain ⟨⟨hct, hr⟩, -⟩ := hct
  let F : ℕ → E.Fr := fun _ => r + 1
  have hct2 := encrypt_ok (tape E) F (m + m2) ek g_i b hd'' hwf (by rw [hX]; exact n.toNat_lt) (by omega) (by omega)
  obtain ⟨ct', r', st6, henc', hdec, -⟩ := C18_decrypt_encrypt (tape E) st3 f' b gens g_i _ _ sk ek dk hkg hb hal
    (by rw [Cca.gs_tail hg]; exact hnd.1) hnd.2 (tape E) F (m + m2)
  rw [hct2] at henc'
  simp only [Res.ok.injEq, Prod.mk.injEq] at henc'
  obtain ⟨⟨rfl, rfl⟩, -⟩ := henc'
  have hd1 := hdec chk
  have hFr : draw (tape E) F 0 = r + 1 := by rw [draw_tape]
  have key : ∀ {c c' : Ciphertext E}, c.X_r = c'.X_r → c.enc_chunks = c'.enc_chunks →
      c.decrypt chk sk dk.prepare g_i b = c'.decrypt chk sk dk.prepare g_i b := by
    intro c c' h h'
    unfold Ciphertext.decrypt
    rw [h, h']
  have hsum : ((Cca.plus S S').cipher (view1 gens pk ek l)).decrypt chk sk dk.prepare g_i b =
      (cipher ek (fun i => g_i.getD i 0) (fun i => (nums d'').getD i 0) (draw (tape E) F 0)).decrypt chk sk dk.prepare
        g_i b := by
    have hx := congrArg Ciphertext.X_r e2
    have hx' := congrArg Ciphertext.X_r e3
    have hc := congrArg Ciphertext.enc_chunks e2
    have hc' := congrArg Ciphertext.enc_chunks e3
    refine key ?_ ?_
    · show comb (fun i => S.x i + S'.x i) _ = _
      rw [Cca.comb_add]
      change comb S.x _ = _ at hx
      change comb S'.x _ = _ at hx'
      rw [hx, hx', hFr, hct, ← hr]
      simp only [rerandomise, cipher]
      module
    · have hlenS : S.len = n.toNat := by
        have := congrArg List.length hc
        rw [hct] at this
        simpa [Strategy.cipher, rerandomise, cipher, hX] using this
      have hlenS' : S'.len = n.toNat := by
        have := congrArg List.length hc'
        simpa [Strategy.cipher, cipher, hX] using this
      show tab S.len (fun i => comb (fun j => S.chunk i j + S'.chunk i j) _) = tab ek.X.length _
      rw [hlenS, hX]
      refine tab_congr fun i hi => ?_
      rw [Cca.comb_add]
      have a1 := congrArg (fun L => L.getD i 0) hc
      have a2 := congrArg (fun L => L.getD i 0) hc'
      rw [hct] at a1
      simp only [Strategy.cipher, rerandomise, cipher, hlenS, hlenS', hX, length_tab, getD_tab, if_pos hi] at a1 a2
      rw [a1, a2, hFr, ← hr, hz]
      have hgt : pk.pk.vk.gamma_abc_g1.tail.getD i 0 = g_i.getD i 0 := by rw [Cca.gs_tail hg]
      rw [hgt]
      have hzi : (List.zipWith (· + ·) (nums dm) (nums d2)).getD i 0 = (nums dm).getD i 0 + (nums d2).getD i 0 := by
        have hi1 : i < (nums dm).length := by simp [nums]; omega
        have hi2 : i < (nums d2).length := by simp [nums]; omega
        simp [List.getD_eq_getElem?_getD, List.getElem?_zipWith, List.getElem?_eq_getElem hi1,
          List.getElem?_eq_getElem hi2]
      dsimp only
      rw [hzi, add_smul]
      module
  unfold openVerified
  rw [if_neg (by simp)]
  dsimp only
  unfold Ciphertext.decryptGivenGroth16Vk
  rw [hg, Res.ok_bind, hsum, hd1]
  dsimp only
  rw [if_neg]
  · rw [← hmj]; cases side <;> rfl
  · rintro ⟨-, h⟩
    rw [← hmj] at h
    cases side
    · simp [hm2, hm01] at h
    · simp [hm2, hm10] at h

end
end

theorem Cca.beats {N p c w l k : ℕ} (hbig : c + w + l + 1 ≤ p) (h1 : p ^ (k + 1) ≤ N + c * p ^ k) :
    w * p ^ k + l * p ^ k < N := by
  have hpos : 0 < p ^ k := Nat.pow_pos (by omega)
  rw [pow_succ] at h1
  generalize p ^ k = q at h1 hpos ⊢
  have h2 := Nat.mul_le_mul_left q hbig
  nlinarith

/-- The concrete instance (one challenge with the messages 11 and 22, one submitted ciphertext): there is an adversary
which a holder of the secret key that tells every message lets win, by far more than the bound of
`C88_chosen_ciphertexts`, which it cannot exceed if its own messages are withheld. -/
example : ∃ A : CcaAdversary Fix.E, A.AtMost 0 1 1 ∧
    rightGuessesCca ⟨true, false⟩ 34 false goldFft true 8 Fix.gens A +
      ((0 + 1) * (3 * Fix.dom8.size + 6) + (2 * (8 : UInt8).toNat + 1)) * Fix.E.fr.p ^ 33 <
    rightGuessesCca ⟨true, false⟩ 34 true goldFft true 8 Fix.gens A ∧
    rightGuessesCca ⟨true, true⟩ 34 true goldFft true 8 Fix.gens A ≤
      rightGuessesCca ⟨true, true⟩ 34 false goldFft true 8 Fix.gens A +
        ((0 + 1) * (3 * Fix.dom8.size + 6) + (2 * (8 : UInt8).toNat + 1)) * Fix.E.fr.p ^ 33 := by
  have hsz : Fix.dom8.size = 2 ^ 10 := rfl
  have hbig : 10 * 2 ^ 10 ≤ Fix.E.fr.p := (by decide : 10 * 2 ^ 10 ≤ goldR)
  have h8 : (8 : UInt8).toNat = 8 := rfl
  obtain ⟨A, hA, h⟩ := C88_withholding_needed (E := Fix.E) goldFft 8 8 (Or.inr (Or.inl rfl)) Fix.count8 Fix.bits8
    Fix.aligned8 Fix.gens Fix.gens_ne.1 Fix.gens_ne.2 Fix.dom8 Fix.dom8_count (by omega) true
    (show Fix.E.Fr from (11 : Fix.F)) (show Fix.E.Fr from (22 : Fix.F))
    (by intro h; exact absurd h (by decide +kernel : ¬ (11 : Fix.F) = 22))
  obtain ⟨h1, h2⟩ := h 34 (by decide)
  refine ⟨A, hA, ?_, C88_chosen_ciphertexts (E := Fix.E) goldFft 8 8 (Or.inr (Or.inl rfl)) Fix.count8 Fix.bits8
    Fix.aligned8 Fix.gens Fix.gens_ne.1 Fix.gens_ne.2 Fix.dom8 Fix.dom8_count true A 0 1 1 hA 34 (by decide) true⟩
  have h3 := Cca.beats (N := rightGuessesCca ⟨true, false⟩ 34 true goldFft true 8 Fix.gens A) (p := Fix.E.fr.p)
    (c := Fix.dom8.size + 2 * (8 : UInt8).toNat + 3)
    (w := 2 * (8 : UInt8).toNat + 1) (l := (0 + 1) * (3 * Fix.dom8.size + 6) + (2 * (8 : UInt8).toNat + 1)) (k := 33)
    (by omega) h1
  exact lt_of_le_of_lt (Nat.add_le_add_right h2 _) h3

/-- The hypotheses of `C88_verification_needed` are met by the messages 11, 22 and 1. -/
example : NoCarry (E := Fix.E) 8 (show Fix.E.Fr from (11 : Fix.F)) (show Fix.E.Fr from (1 : Fix.F)) ∧
    NoCarry (E := Fix.E) 8 (show Fix.E.Fr from (22 : Fix.F)) (show Fix.E.Fr from (1 : Fix.F)) ∧
    (1 : Fix.F) ≠ 0 ∧ (11 : Fix.F) + 1 ≠ 22 ∧ (22 : Fix.F) + 1 ≠ 11 := by
  refine ⟨⟨[0, 0, 0, 0, 0, 0, 0, 11], [0, 0, 0, 0, 0, 0, 0, 1], [0, 0, 0, 0, 0, 0, 0, 12], ?_, ?_, ?_, ?_⟩,
    ⟨[0, 0, 0, 0, 0, 0, 0, 22], [0, 0, 0, 0, 0, 0, 0, 1], [0, 0, 0, 0, 0, 0, 0, 23], ?_, ?_, ?_, ?_⟩, ?_, ?_, ?_⟩ <;>
    decide +kernel

end Verif
