/-
Property C117: in a poll with proofs, dishonest users can copy the ballot of an honest user, and so learn it.
-/
import Verif.Props.ProvedPoll
import Verif.Props.Rerandomise

namespace Verif
open Spec

variable {E : Engine}

namespace Spec

/-- What a user can do with the submission `bs` of somebody else: read it, shift the ciphertext by `u` times the public elements
of the key, re-randomise the proof accordingly, and encode the result.  It needs nothing but the public keys. -/
def copySubmission (C : Codecs E) (vk : VerifyingKey E) (ek : EncryptionKey E) (u z w : E.Fr) (bs : List UInt8) :
    Option (List UInt8) := do
  let ((ct, proof), _) ← (arkSubmission C).de bs
  return (arkSubmission C).ser (rerandomise ek u ct, rerandomiseProof vk ek u z w proof)

/-- All that the dishonest users put on the board are copies of submissions of user `i`. -/
def OnlyCopies (K : ProvedCfg E) (bad : ℕ → Prop) (i : ℕ) (S : Poll) : Prop :=
  ∀ p ∈ S.posted, bad p.1 → ∃ bs u z w, (i, bs) ∈ S.posted ∧ z ≠ 0 ∧
    copySubmission K.codecs K.pk.pk.vk K.ek u z w bs = some p.2

end Spec

namespace Cpy

/-- shifting does not change what a ciphertext carries -/
theorem content_rerandomise {K : PollCfg E} {parties : List (Party E)} {b : UInt8} {D G : E.G1}
    (hdkg : dkg parties b K.gens K.g_i D G = .ok (K.sks, K.ek)) (ct : Ciphertext E) (u : E.Fr)
    (hct : ct.enc_chunks.length = K.ek.X.length) {i : ℕ} (hi : i < K.ek.X.length) :
    content K.sks (rerandomise K.ek u ct) i = content K.sks ct i := by
  obtain ⟨n, t, hgn, hsne, hsl, hek⟩ := dkg_inv hdkg
  have hX : K.ek.X.length = n.toNat := by rw [hek]; simp [encKey]
  have hX0 : K.ek.X_0 = D := by rw [hek]; rfl
  have hXi : K.ek.X.getD i 0 = (K.sks.map fun sk => sk.s.getD i 0).sum • D := by
    rw [hek]
    simp only [encKey]
    rw [getD_tab, if_pos (by omega)]
  unfold content
  simp only [rerandomise]
  rw [getD_tab, if_pos (by omega), hX0, hXi]
  module

section
variable {K : ProvedCfg E} {bad : ℕ → Prop} (hC : LawfulCodecs K.codecs) (hb : Supported K.bits)
  (hal : 64 * E.fr.limbs < E.fr.modBits + K.bits.toNat ∧ chunksNeeded E.fr K.bits.toNat ≤ 255)
  {c0 : BitsizeCheckCircuit E.fr} (hc0 : BitsizeCheckCircuit.new (K := E.fr) K.bits none none true = .ok c0)
  {R : RngCore E} {fuel : ℕ} {st st' : R.σ}
  (hsrs : generateSrs K.fft R fuel st c0.generateConstraints K.gens = .ok (K.pk, st'))
  (hg : getGsForEncryption K.pk.pk.vk = .ok K.g_i) {parties : List (Party E)}
  (hdkg : dkg parties K.bits K.gens K.g_i K.pk.pk.delta_g1 K.pk.gamma_g1 = .ok (K.sks, K.ek))
include hC hb hal hc0 hsrs hg hdkg

/-- what honest users have cast, and what they have put on the board -/
theorem honest {S : Poll} (h : ProvedRuns K bad Poll.init S) :
    (∀ v ∈ S.cast, ¬ bad v.1 ∧ v.1 < K.users ∧ ∀ x ∈ v.2, x.toNat < 2 ^ K.bits.toNat) ∧
    (∀ p ∈ S.posted, ¬ bad p.1 → ∃ chunks ct proof, (p.1, chunks) ∈ S.cast ∧ Provable K p.2 ct proof ∧
      ∀ l < K.ek.X.length, content K.sks ct l = (nums chunks).getD l 0 • K.g_i.getD l 0) ∧
    (∀ v ∈ S.cast, ∃ bs, (v.1, bs) ∈ S.posted) := by
  induction h with
  | refl => simp [Poll.init]
  | step _ hs ih =>
    obtain ⟨i1, i2, i3⟩ := ih
    cases hs with
    | vote j P m chunks ct r proof st' h1 h2 h3 h4 =>
      obtain ⟨hp, hsm, ρ, he⟩ := PPoll.honest_provable hC hb hal hc0 hsrs hg hdkg h3 h4
      refine ⟨?_, ?_, ?_⟩
      · intro v hv
        rcases List.mem_cons.mp hv with rfl | hv
        · exact ⟨h2, h1, hsm⟩
        · exact i1 v hv
      · intro p hp' hnb
        rcases List.mem_cons.mp hp' with rfl | hp'
        · obtain ⟨-, -, -, -, hfl, -⟩ := encryptDecomposed_inv he
          refine ⟨chunks, ct, proof, List.mem_cons_self, hp, fun l hl => ?_⟩
          rw [flat_inj hfl]
          exact PPoll.content_cipher (K := K.toPollCfg) hdkg _ _ hl
        · obtain ⟨ch, ct', pr', k1, k2⟩ := i2 p hp' hnb
          exact ⟨ch, ct', pr', List.mem_cons_of_mem _ k1, k2⟩
      · intro v hv
        rcases List.mem_cons.mp hv with rfl | hv
        · exact ⟨_, List.mem_cons_self⟩
        · obtain ⟨bs, k⟩ := i3 v hv
          exact ⟨bs, List.mem_cons_of_mem _ k⟩
    | post j bs h1 h2 =>
      refine ⟨i1, ?_, ?_⟩
      · intro p hp' hnb
        rcases List.mem_cons.mp hp' with rfl | hp'
        · exact absurd h2 hnb
        · exact i2 p hp' hnb
      · intro v hv
        obtain ⟨bs, k⟩ := i3 v hv
        exact ⟨bs, List.mem_cons_of_mem _ k⟩
    | count => exact ⟨i1, i2, i3⟩
    | torn => exact ⟨i1, i2, i3⟩
    | close => exact ⟨i1, i2, i3⟩
    | share => exact ⟨i1, i2, i3⟩

omit hb hal hc0 in
theorem accepted (hH : K.gens.H ≠ 0) {bs : List UInt8} {ct : Ciphertext E} {proof : Proof E} (hp : Provable K bs ct proof)
    (u z w : E.Fr) (hz : z ≠ 0) :
    ∃ bs', copySubmission K.codecs K.pk.pk.vk K.ek u z w bs = some bs' ∧
      Provable K bs' (rerandomise K.ek u ct) (rerandomiseProof K.pk.pk.vk K.ek u z w proof) := by
  obtain ⟨hw, hX, hgl⟩ := Poll'.facts hdkg
  have hl := PPoll.provable_length hX hp
  obtain ⟨⟨rest, h1⟩, h2⟩ := hp
  refine ⟨(arkSubmission K.codecs).ser (rerandomise K.ek u ct, rerandomiseProof K.pk.pk.vk K.ek u z w proof), ?_, ⟨[], ?_⟩, ?_⟩
  · unfold copySubmission
    rw [h1]
    rfl
  · have := (PPoll.submission_faithful hC).1 (rerandomise K.ek u ct, rerandomiseProof K.pk.pk.vk K.ek u z w proof)
      (by show Fits (rerandomise K.ek u ct).enc_chunks; unfold Fits; simp only [rerandomise, length_tab]; omega) []
    rwa [List.append_nil] at this
  · rw [C77_same_verdict K.fft R fuel st st' _ K.gens hH K.pk hsrs K.g_i hg K.ek K.bits (Or.inr ⟨_, K.sks, hdkg⟩) ct proof
      u z w hz]
    exact h2

end
end Cpy

/-! ### C117 -/

section
variable {K : ProvedCfg E} {bad : ℕ → Prop} (hC : LawfulCodecs K.codecs) (hU : K.users < 2 ^ 64) (hb : Supported K.bits)
  (hal : 64 * E.fr.limbs < E.fr.modBits + K.bits.toNat ∧ chunksNeeded E.fr K.bits.toNat ≤ 255)
  {c0 : BitsizeCheckCircuit E.fr} (hc0 : BitsizeCheckCircuit.new (K := E.fr) K.bits none none true = .ok c0)
  {R : RngCore E} {fuel : ℕ} {st st' : R.σ}
  (hsrs : generateSrs K.fft R fuel st c0.generateConstraints K.gens = .ok (K.pk, st'))
  (hg : getGsForEncryption K.pk.pk.vk = .ok K.g_i) (hH : K.gens.H ≠ 0) {parties : List (Party E)}
  (hdkg : dkg parties K.bits K.gens K.g_i K.pk.pk.delta_g1 K.pk.gamma_g1 = .ok (K.sks, K.ek))

include hC hsrs hg hH hdkg in
/-- **C117** every accepted submission, whoever made it, can be copied by whoever sees it: for all scalars `u`, `z ≠ 0`, `w`, the
copy is accepted and carries the same chunks; and if `u ≠ 0` it is not the same bytes. -/
theorem C117_accepted (hG : K.gens.G ≠ 0) (bs : List UInt8) (ct : Ciphertext E) (proof : Proof E)
    (hp : Provable K bs ct proof) (u z w : E.Fr) (hz : z ≠ 0) :
    ∃ bs' ct' proof', copySubmission K.codecs K.pk.pk.vk K.ek u z w bs = some bs' ∧ Provable K bs' ct' proof' ∧
      (∀ l < K.ek.X.length, content K.sks ct' l = content K.sks ct l) ∧
      (u ≠ 0 → bs' ≠ bs ∧ ct'.X_r ≠ ct.X_r) := by
  obtain ⟨hw, hX, hgl⟩ := Poll'.facts hdkg
  obtain ⟨bs', h1, h2⟩ := Cpy.accepted hC hsrs hg hdkg hH hp u z w hz
  refine ⟨bs', _, _, h1, h2, fun l hl => Cpy.content_rerandomise hdkg ct u (PPoll.provable_length hX hp) hl, fun hu => ?_⟩
  have hne : (rerandomise K.ek u ct).X_r ≠ ct.X_r := by
    obtain ⟨n, t, -, -, -, hek⟩ := dkg_inv hdkg
    have hX0 : K.ek.X_0 = K.pk.pk.delta_g1 := by rw [hek]; rfl
    obtain ⟨cs, d, tau, alpha, beta, gamma, delta, -, -, -, -, hd, hpk⟩ := srs_inv hsrs
    have hD : K.pk.pk.delta_g1 = delta • K.gens.G := by rw [hpk]; rfl
    intro h
    have h' : ct.X_r + u • K.ek.X_0 = ct.X_r := h
    rw [add_eq_left, hX0, hD] at h'
    exact smul_ne_zero hu (smul_ne_zero hd hG) h'
  refine ⟨?_, hne⟩
  rintro rfl
  exact hne (congrArg Ciphertext.X_r (PPoll.provable_unique h2 hp).1)

variable (hgi : ∀ g ∈ K.g_i, g ≠ 0) {Rd : RngCore E} {std std' : Rd.σ} {skd : SecretKey E}
  (hdest : fkeygenDest Rd std K.gens = .ok ((skd, K.ekd), std')) (chk : Bool) (b' : UInt8) (hb' : b'.toNat ≤ 16)
  (hlt : K.users * (2 ^ K.bits.toNat - 1) < 2 ^ b'.toNat) (hltp : K.users * (2 ^ K.bits.toNat - 1) < E.fr.p)
include hC hU hb hal hc0 hsrs hg hH hdkg hgi hdest hb' hlt hltp

/-- **C117** what copies do: in every history in which all that dishonest users put on the board are copies of ballots of an
honest user `i`, who votes `chunks`, the destination gets the sums in which every counted dishonest user counts as another vote
for `chunks`. -/
theorem C117_counted_again (i : ℕ) (hi : ¬ bad i) (chunks : List UInt16) (S : Poll) (hS : ProvedRuns K bad Poll.init S)
    (hv : ∀ v ∈ S.cast, v.1 = i → v.2 = chunks) (hcp : OnlyCopies K bad i S) (res : Res (List UInt16))
    (hout : S.outcome K.toPollCfg chk skd b' = some res) :
    ∃ votes : List (ℕ × List UInt16), S.counted K.toPollCfg = some (votes.map (·.1)) ∧ (votes.map (·.1)).Nodup ∧
      (∀ v ∈ votes, (¬ bad v.1 → v ∈ S.cast) ∧ (bad v.1 → v.2 = chunks ∧ ∃ bs, (v.1, bs) ∈ S.posted)) ∧
      ∃ ds, res = .ok ds ∧ ds.length = K.ek.X.length ∧
        ∀ l < K.ek.X.length, (nums ds).getD l 0 = (votes.map fun v => (nums v.2).getD l 0).sum := by
  classical
  obtain ⟨hw, hX, hgl⟩ := Poll'.facts hdkg
  obtain ⟨i1, i2, i3⟩ := Cpy.honest hC hb hal hc0 hsrs hg hdkg hS
  obtain ⟨cnt, h1, h2, hu, h3, h4, h5, h6, -, -⟩ := C114_every_history hC hU hb hal hc0 hsrs hg hdkg hdest chk b' (by omega) S hS
    res hout
  have key : ∀ p ∈ cnt, ∃ ch : List UInt16, ((¬ bad p.1 → (p.1, ch) ∈ S.cast) ∧ (bad p.1 → ch = chunks ∧
      ∃ bs, (p.1, bs) ∈ S.posted)) ∧ (∀ x ∈ ch, x.toNat < 2 ^ K.bits.toNat) ∧
      ∀ l < K.ek.X.length, content K.sks p.2 l = (nums ch).getD l 0 • K.g_i.getD l 0 := by
    intro p hp
    by_cases hbp : bad p.1
    · obtain ⟨bs, rest, proof, k1, k2, k3⟩ := h4 p hp
      obtain ⟨bs0, u, z, w, c1, c2, c3⟩ := hcp _ k1 hbp
      obtain ⟨ch, ct0, proof0, d1, d2, d3⟩ := i2 _ c1 hi
      obtain rfl : ch = chunks := hv _ d1 rfl
      obtain ⟨bs', e1, e2⟩ := Cpy.accepted hC hsrs hg hdkg hH d2 u z w c2
      rw [c3] at e1
      cases e1
      have := (PPoll.provable_unique (K := K) ⟨⟨rest, k2⟩, k3⟩ e2).1
      refine ⟨ch, ⟨fun h => absurd hbp h, fun _ => ⟨rfl, bs, k1⟩⟩, (i1 _ d1).2.2, fun l hl => ?_⟩
      rw [this, Cpy.content_rerandomise hdkg ct0 u (PPoll.provable_length hX d2) hl]
      exact d3 l hl
    · obtain ⟨ch, k1, k2⟩ := h5 p hp hbp
      exact ⟨ch, ⟨fun _ => k1, fun h => absurd h hbp⟩, (i1 _ k1).2.2, k2⟩
  choose! f hf using key
  have hcl : cnt.length ≤ K.users := by
    have := (List.Nodup.subperm h2 (l₂ := List.range K.users) fun j hj => by
      obtain ⟨p, hp, rfl⟩ := List.mem_map.mp hj
      exact List.mem_range.mpr (hu p hp)).length_le
    rwa [List.length_map, List.length_range] at this
  have hsum : ∀ l, (cnt.map fun p => (nums (f p)).getD l 0).sum ≤ K.users * (2 ^ K.bits.toNat - 1) := by
    intro l
    have := List.sum_le_card_nsmul (cnt.map fun p => (nums (f p)).getD l 0) (2 ^ K.bits.toNat - 1) (fun x hx => by
      obtain ⟨p, hp, rfl⟩ := List.mem_map.mp hx
      exact Agg.nums_le (hf p hp).2.1 l)
    rw [List.length_map, smul_eq_mul] at this
    exact this.trans (Nat.mul_le_mul_right _ hcl)
  obtain ⟨ds, d1, d2, d3⟩ := OPoll.sum_of (K := K.toPollCfg) hgl hgi h6 (fun p l => (nums (f p)).getD l 0)
    (fun p hp l hl => (hf p hp).2.2 l hl) (fun l _ => by
      have h16 : 2 ^ b'.toNat ≤ 2 ^ 16 := Nat.pow_le_pow_right (by omega) hb'
      have := hsum l
      unfold searchBound
      omega)
  refine ⟨cnt.map fun p => (p.1, f p), ?_, ?_, ?_, ds, d1, d2, fun l hl => ?_⟩
  · rw [List.map_map]
    exact h3
  · rw [List.map_map]
    exact h2
  · intro v hv'
    obtain ⟨p, hp, rfl⟩ := List.mem_map.mp hv'
    exact (hf p hp).1
  · rw [d3 l hl, List.map_map]
    rfl

/-- **C117** (the attack) From every reachable state in which the tally has not been published, an honest user `i` has voted
`chunks` and no dishonest user has put anything on the board: any dishonest users `J` can copy the ballot of `i`, and the
poll goes on, without any further step of a user, to a state in which all honest users who have voted and the copies are
counted; and the destination then gets, at each position, `J.length + 1` times the vote of `i` plus the votes of the other
honest users.  So where the others' votes sum to at most `J.length`, the quotient of the result by `J.length + 1` is the vote
of `i`, and the remainder is the sum of the others. -/
theorem C117_attack (i : ℕ) (chunks : List UInt16) (S : Poll) (hS : ProvedRuns K bad Poll.init S) (hn : S.total = none)
    (hi : (i, chunks) ∈ S.cast) (hv : ∀ v ∈ S.cast, v.1 = i → v.2 = chunks) (hnb : ∀ p ∈ S.posted, ¬ bad p.1)
    (J : List ℕ) (hJ : J.Nodup) (hJb : ∀ j ∈ J, bad j ∧ j < K.users) :
    ∃ (T : Poll) (others : List (ℕ × List UInt16)) (ds : List UInt16), ProvedRuns K bad S T ∧ T.cast = S.cast ∧ OnlyCopies K bad i T ∧
      (∃ done, T.counted K.toPollCfg = some done ∧ done.Nodup ∧ done.Perm (J ++ i :: others.map (·.1))) ∧
      (∀ v ∈ others, v ∈ S.cast) ∧ (∀ v ∈ S.cast, v.1 = i ∨ v.1 ∈ others.map (·.1)) ∧
      T.outcome K.toPollCfg chk skd b' = some (.ok ds) ∧ ds.length = K.ek.X.length ∧
      ∀ l < K.ek.X.length,
        (nums ds).getD l 0 = (J.length + 1) * (nums chunks).getD l 0 + (others.map fun v => (nums v.2).getD l 0).sum ∧
        ((others.map fun v => (nums v.2).getD l 0).sum ≤ J.length →
          (nums ds).getD l 0 / (J.length + 1) = (nums chunks).getD l 0 ∧
          (nums ds).getD l 0 % (J.length + 1) = (others.map fun v => (nums v.2).getD l 0).sum) := by
  classical
  obtain ⟨hw, hX, hgl⟩ := Poll'.facts hdkg
  obtain ⟨i1, i2, i3⟩ := Cpy.honest hC hb hal hc0 hsrs hg hdkg hS
  obtain ⟨bs0, hbs0⟩ := i3 _ hi
  dsimp only at hbs0
  have hib : ¬ bad i := (i1 _ hi).1
  obtain ⟨-, ct0, proof0, -, hpr0, -⟩ := i2 _ hbs0 hib
  obtain ⟨bsc, hcopy, hprc⟩ := Cpy.accepted hC hsrs hg hdkg hH hpr0 1 1 0 one_ne_zero
  -- the posts
  obtain ⟨S', r1, s1, s2, s3, s4, s5⟩ : ∃ S', ProvedRuns K bad S S' ∧ S'.cast = S.cast ∧ S'.total = none ∧
      (∀ p ∈ S.posted, p ∈ S'.posted) ∧ (∀ p ∈ S'.posted, p ∈ S.posted ∨ (p.1 ∈ J ∧ p.2 = bsc)) ∧
      ∀ j ∈ J, S'.ballots j = some bsc := by
    clear hJ
    induction J with
    | nil => exact ⟨S, .refl S, rfl, hn, fun _ h => h, fun _ h => .inl h, by simp⟩
    | cons j J ih =>
      obtain ⟨S', r1, s1, s2, s3, s4, s5⟩ := ih fun k hk => hJb k (List.mem_cons_of_mem _ hk)
      refine ⟨_, .step r1 (.post j bsc (hJb j (by simp)).2 (hJb j (by simp)).1), s1, s2,
        fun p hp => List.mem_cons_of_mem _ (s3 p hp), fun p hp => ?_, fun k hk => ?_⟩
      · rcases List.mem_cons.mp hp with rfl | hp
        · exact .inr ⟨by simp, rfl⟩
        · exact (s4 p hp).imp id fun h => ⟨List.mem_cons_of_mem _ h.1, h.2⟩
      · dsimp only
        by_cases hkj : k = j
        · rw [hkj, Function.update_self]
        · rw [Function.update_of_ne hkj]
          exact s5 k ((List.mem_cons.mp hk).resolve_left hkj)
  have hS' := PPoll.trans hS r1
  obtain ⟨T, res, done, t1, ⟨t2, t3, t4⟩, t5, t6, t7⟩ := C114_no_deadlock hC hU hb hal hc0 hsrs hg hdkg hdest chk b' (by omega) S'
    hS' (Or.inr (Or.inl (by rw [s1]; exact List.ne_nil_of_mem hi)))
  obtain ⟨t8, t9⟩ := t7 s2
  have hcp : OnlyCopies K bad i T := by
    intro p hp hbp
    rw [t3] at hp ⊢
    rcases s4 p hp with h | ⟨h, h'⟩
    · exact absurd hbp (hnb p h)
    · exact ⟨bs0, 1, 1, 0, s3 _ hbs0, one_ne_zero, by rw [hcopy, h']⟩
  obtain ⟨votes, v1, v2, v3, ds, d1, d2, d3⟩ := C117_counted_again hC hU hb hal hc0 hsrs hg hH hdkg hgi hdest chk b' hb' hlt hltp
    i hib chunks T (PPoll.trans hS' t1) (by rw [t2, s1]; exact hv) hcp res t5
  rw [t6] at v1
  obtain rfl : done = votes.map (·.1) := Option.some.inj v1
  subst d1
  -- the votes of the others
  obtain ⟨rest, hperm⟩ : ∃ rest : List (ℕ × List UInt16), votes.Perm (J.map (fun j => (j, chunks)) ++ rest) := by
    have hsub : (J.map fun j => (j, chunks)).Subperm votes := by
      refine List.Nodup.subperm (hJ.map fun a b h => (Prod.mk.inj h).1) ?_
      intro v hv'
      obtain ⟨j, hj, rfl⟩ := List.mem_map.mp hv'
      obtain ⟨⟨j', ch⟩, hm, rfl⟩ := List.mem_map.mp (t9 j bsc _ _ (s5 j hj) hprc)
      have := ((v3 _ hm).2 (hJb _ hj).1).1
      dsimp only at this
      rwa [this] at hm
    obtain ⟨l, hl1, hl2⟩ := hsub
    obtain ⟨l', hl'⟩ := hl2.exists_perm_append
    exact ⟨l', hl'.trans (hl1.append_right _)⟩
  have hnd : (J ++ rest.map (·.1)).Nodup := by
    have := (hperm.map (·.1)).nodup_iff.mp v2
    rw [List.map_append, List.map_map, show ((·.1) ∘ fun j => (j, chunks) : ℕ → ℕ) = id from rfl, List.map_id] at this
    exact this
  have hrest : ∀ v ∈ rest, v ∈ S.cast := by
    intro v hv'
    have hm : v ∈ votes := hperm.mem_iff.mpr (List.mem_append_right _ hv')
    have hnbv : ¬ bad v.1 := by
      intro hbv
      obtain ⟨-, bs, hbs⟩ := (v3 v hm).2 hbv
      rw [t3] at hbs
      rcases s4 _ hbs with h | ⟨h, -⟩
      · exact hnb _ h hbv
      · exact (List.nodup_append'.mp hnd).2.2 h (List.mem_map_of_mem hv')
    have := (v3 v hm).1 hnbv
    rwa [t2, s1] at this
  have hall : ∀ v ∈ S.cast, v.1 ∈ rest.map (·.1) := by
    intro v hv'
    have h1 := t8 v (by rw [s1]; exact hv')
    have h2 := (hperm.map (·.1)).mem_iff.mp h1
    rw [List.map_append, List.map_map, List.mem_append] at h2
    rcases h2 with h2 | h2
    · obtain ⟨j, hj, he⟩ := List.mem_map.mp h2
      exact absurd (he ▸ (hJb j hj).1 : bad v.1) (i1 v hv').1
    · exact h2
  have hir : (i, chunks) ∈ rest := by
    obtain ⟨⟨i', ch⟩, hm, he⟩ := List.mem_map.mp (hall _ hi)
    dsimp only at he
    subst he
    have := hv _ (hrest _ hm) rfl
    dsimp only at this
    rwa [this] at hm
  obtain ⟨others, ho⟩ : ∃ others, rest.Perm ((i, chunks) :: others) := ⟨_, List.perm_cons_erase hir⟩
  have hvp : votes.Perm (J.map (fun j => (j, chunks)) ++ (i, chunks) :: others) := hperm.trans (ho.append_left _)
  have hsum : ∀ l < K.ek.X.length, (nums ds).getD l 0 =
      (J.length + 1) * (nums chunks).getD l 0 + (others.map fun v => (nums v.2).getD l 0).sum := by
    intro l hl
    rw [d3 l hl, (hvp.map fun v => (nums v.2).getD l 0).sum_eq, List.map_append, List.sum_append, List.map_map, List.map_cons,
      List.sum_cons]
    have : (J.map ((fun v : ℕ × List UInt16 => (nums v.2).getD l 0) ∘ fun j => (j, chunks))).sum =
        J.length * (nums chunks).getD l 0 := by
      rw [show ((fun v : ℕ × List UInt16 => (nums v.2).getD l 0) ∘ fun j => (j, chunks)) =
        fun _ : ℕ => (nums chunks).getD l 0 from rfl, List.map_const', List.sum_replicate, smul_eq_mul]
    rw [this, Nat.add_mul, Nat.one_mul, Nat.add_assoc]
  refine ⟨T, others, ds, PPoll.trans r1 t1, by rw [t2, s1], hcp, ⟨_, t6, v2, ?_⟩, ?_, ?_, t5, d2, fun l hl => ⟨hsum l hl, fun hle => ?_⟩⟩
  · have := hvp.map (·.1)
    rw [List.map_append, List.map_map, List.map_cons, show ((·.1) ∘ fun j => (j, chunks) : ℕ → ℕ) = id from rfl,
      List.map_id] at this
    exact this
  · exact fun v hv' => hrest v (ho.mem_iff.mpr (List.mem_cons_of_mem _ hv'))
  · intro v hv'
    have := (ho.map (·.1)).mem_iff.mp (hall v hv')
    rw [List.map_cons] at this
    exact List.mem_cons.mp this
  · rw [hsum l hl]
    constructor
    · rw [Nat.add_comm, Nat.add_mul_div_left _ _ (by omega), Nat.div_eq_of_lt (by omega), Nat.zero_add]
    · rw [Nat.add_comm, Nat.add_mul_mod_self_left, Nat.mod_eq_of_lt (by omega)]

end

/-- The attack on a poll among three users: user 0 votes for the message 258, user 1 for the message 1, and user 2, who is
dishonest, copies the ballot of user 0.  The destination gets numbers whose halves, rounded down, are the vote of user 0, and
whose parities are the vote of user 1. -/
example : ∃ (K : ProvedCfg Fix.E) (T : Poll) (ds d0 d1 : List UInt16), K.users = 3 ∧
    ProvedRuns K (· = 2) Poll.init T ∧ T.cast = [(1, d1), (0, d0)] ∧ OnlyCopies K (· = 2) 0 T ∧
    decompose (K := Fix.E.fr) (show Fix.E.Fr from (258 : Fix.F)) 8 = .ok d0 ∧
    decompose (K := Fix.E.fr) (show Fix.E.Fr from (1 : Fix.F)) 8 = .ok d1 ∧
    T.outcome K.toPollCfg true Fix.skd 16 = some (.ok ds) ∧
    (∀ l < 8, (nums ds).getD l 0 / 2 = (nums d0).getD l 0) ∧ ∀ l < 8, (nums ds).getD l 0 % 2 = (nums d1).getD l 0 := by
  have hC := scalarCodecs_lawful goldFr
  obtain ⟨c0, pk, ek0, g_i, st1, -, hc0, hsrs, hg, hgi, hgl, -⟩ := Fix.run8
  have hb : Supported 8 := .inr (.inl rfl)
  obtain ⟨sks, ek, hdkg⟩ : ∃ sks ek, dkg [⟨listRng Fix.E, Fix.st⟩, ⟨listRng Fix.E, Fix.st1⟩] 8 Fix.gens g_i pk.pk.delta_g1
      pk.gamma_g1 = .ok (sks, ek) := by
    exact ⟨_, _, dkg_eq _ (by simp) Fix.gens g_i _ _ Fix.count8 hgl⟩
  have hXn : ek.X.length = 8 := by
    obtain ⟨n, s, t, hn, hgn, hek⟩ := fromSetup_inv (Or.inr ⟨_, sks, hdkg⟩ :
      FromSetup ek 8 Fix.gens g_i pk.pk.delta_g1 pk.gamma_g1)
    rw [Fix.count8] at hn
    cases hn
    rw [hek]
    simp [encKey, Fix.eight]
  obtain ⟨K, hK⟩ : ∃ K : ProvedCfg Fix.E, K = { codecs := scalarCodecs goldFr, users := 3, ek := ek, g_i := g_i,
                                                gens := Fix.gens, ekd := Fix.ekd, sks := sks, pk := pk, fft := goldFft,
                                                chk := true, bits := 8 } := ⟨_, rfl⟩
  have hu3 : K.users = 3 := by rw [hK]
  have hU : K.users < 2 ^ 64 := by rw [hu3]; decide
  have hC' : LawfulCodecs K.codecs := by rw [hK]; exact hC
  have hb' : Supported K.bits := by rw [hK]; exact hb
  have hal' : 64 * Fix.E.fr.limbs < Fix.E.fr.modBits + K.bits.toNat ∧ chunksNeeded Fix.E.fr K.bits.toNat ≤ 255 := by
    rw [hK]; exact Fix.aligned8
  have hc0' : BitsizeCheckCircuit.new (K := Fix.E.fr) K.bits none none true = .ok c0 := by rw [hK]; exact hc0
  have hsrs' : generateSrs K.fft (listRng Fix.E) 1 Fix.stFull8 c0.generateConstraints K.gens = .ok (K.pk, st1) := by
    rw [hK]; exact hsrs
  have hg' : getGsForEncryption K.pk.pk.vk = .ok K.g_i := by rw [hK]; exact hg
  have hdkg' : dkg [⟨listRng Fix.E, Fix.st⟩, ⟨listRng Fix.E, Fix.st1⟩] K.bits K.gens K.g_i K.pk.pk.delta_g1 K.pk.gamma_g1 =
      .ok (K.sks, K.ek) := by rw [hK]; exact hdkg
  have hdest : fkeygenDest (listRng Fix.E) Fix.st3 K.gens = .ok ((Fix.skd, K.ekd), ([], [], [])) := by
    rw [hK]; exact Fix.dest_ok
  have hgi' : ∀ g ∈ K.g_i, g ≠ 0 := by rw [hK]; exact hgi
  have hX' : K.ek.X.length = 8 := by rw [hK]; exact hXn
  have hH : K.gens.H ≠ 0 := by
    rw [hK]
    show Fix.gens.H ≠ 0
    decide +kernel
  have hb8 : K.bits = 8 := by rw [hK]
  have hlt : K.users * (2 ^ K.bits.toNat - 1) < 2 ^ (16 : UInt8).toNat := by rw [hu3, hb8]; decide
  have hltp : K.users * (2 ^ K.bits.toNat - 1) < Fix.E.fr.p := by rw [hu3, hb8]; decide +kernel
  obtain ⟨d0, hd0, -, -, -⟩ := decompose_spec (K := Fix.E.fr) (show Fix.E.Fr from (258 : Fix.F)) hb
  obtain ⟨d1, hd1, h1l, -, -⟩ := decompose_spec (K := Fix.E.fr) (show Fix.E.Fr from (1 : Fix.F)) hb
  have hd1c : decompose (K := Fix.E.fr) (show Fix.E.Fr from (1 : Fix.F)) 8 = .ok [0, 0, 0, 0, 0, 0, 0, 1] := by decide +kernel
  have hle1 : ∀ l, (nums d1).getD l 0 ≤ 1 := by
    rw [hd1] at hd1c
    cases hd1c
    intro l
    by_cases hl : l < 8
    · interval_cases l <;> decide
    · rw [List.getD_eq_default _ _ (by show 8 ≤ l; omega)]
      omega
  obtain ⟨ct0, r0, proof0, t0, henc0, -, -⟩ := C46_encrypt_with_proof K.fft _ _ _ _ K.bits hb' hal' c0 K.gens K.pk hc0' hsrs'
    K.g_i hg' K.ek (Or.inr ⟨_, K.sks, hdkg'⟩) K.chk (listRng Fix.E) Fix.st1 (show Fix.E.Fr from (258 : Fix.F))
  obtain ⟨ct1, r1, proof1, t1, henc1, -, -⟩ := C46_encrypt_with_proof K.fft _ _ _ _ K.bits hb' hal' c0 K.gens K.pk hc0' hsrs'
    K.g_i hg' K.ek (Or.inr ⟨_, K.sks, hdkg'⟩) K.chk (listRng Fix.E) Fix.st2 (show Fix.E.Fr from (1 : Fix.F))
  have u1 := ProvedRuns.step (.refl Poll.init) (ProvedStep.vote (K := K) (bad := (· = 2)) 0 ⟨listRng Fix.E, Fix.st1⟩ _ d0
    ct0 r0 proof0 t0 (by omega) (by decide) (by rw [hb8]; exact hd0) henc0)
  have u2 := ProvedRuns.step u1 (ProvedStep.vote (K := K) (bad := (· = 2)) 1 ⟨listRng Fix.E, Fix.st2⟩ _ d1
    ct1 r1 proof1 t1 (by omega) (by decide) (by rw [hb8]; exact hd1) henc1)
  obtain ⟨S, u3, htot, hcast, hpost⟩ : ∃ S, ProvedRuns K (· = 2) Poll.init S ∧ S.total = none ∧
    S.cast = [(1, d1), (0, d0)] ∧ S.posted.map (·.1) = [1, 0] := ⟨_, u2, rfl, rfl, rfl⟩
  obtain ⟨T, others, ds, a1, a2, a3, ⟨done, -, b1, b2⟩, a4, a5, a6, -, a7⟩ := C117_attack hC' hU hb' hal' hc0' hsrs' hg' hH hdkg' hgi' hdest true
    16 (by decide) hlt hltp 0 d0 S u3 htot (by rw [hcast]; simp) (by
      rw [hcast]
      intro v hv h0
      simp only [List.mem_cons, List.not_mem_nil, or_false] at hv
      rcases hv with rfl | rfl
      · cases h0
      · rfl) (by
      intro p hp
      have : p.1 ∈ S.posted.map (·.1) := List.mem_map_of_mem hp
      rw [hpost] at this
      simp only [List.mem_cons, List.not_mem_nil, or_false] at this
      omega) [2] (by decide) (by simp [hu3])
  have hnd : (0 :: others.map (·.1)).Nodup := ((b2.nodup_iff.mp b1).of_append_right)
  have hone : ∀ v ∈ others, v = (1, d1) := by
    intro v hv
    have := a4 v hv
    rw [hcast] at this
    simp only [List.mem_cons, List.not_mem_nil, or_false] at this
    rcases this with rfl | rfl
    · rfl
    · exact absurd (List.mem_map_of_mem (f := (·.1)) hv) (List.nodup_cons.mp hnd).1
  have hoth : others = [(1, d1)] := by
    rcases others with _ | ⟨v, _ | ⟨v', l⟩⟩
    · have := a5 (1, d1) (by rw [hcast]; simp)
      simp at this
    · rw [hone v (by simp)]
    · rw [hone v (by simp), hone v' (by simp)] at hnd
      simp at hnd
  have hres : ∀ l < 8, (nums ds).getD l 0 / 2 = (nums d0).getD l 0 ∧ (nums ds).getD l 0 % 2 = (nums d1).getD l 0 := by
    intro l hl
    have := (a7 l (by omega)).2
    rw [hoth] at this
    simp only [List.map_cons, List.map_nil, List.sum_cons, List.sum_nil, add_zero] at this
    exact this (hle1 l)
  exact ⟨K, T, ds, d0, d1, hu3, PPoll.trans u3 a1, a2.trans hcast, a3, hd0, hd1, a6, fun l hl => (hres l hl).1,
    fun l hl => (hres l hl).2⟩

end Verif
