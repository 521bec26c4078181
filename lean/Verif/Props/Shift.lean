/-
Property C112: what one dishonest user does to a poll in which the ranges of the votes are not proved.
-/
import Verif.Props.OpenPoll

namespace Verif
open Spec
variable {E : Engine}

namespace Shf

/-- the natural number below `p` that stands for `z` -/
def rep (E : Engine) (z : ℤ) : ℕ := (z % (E.fr.p : ℤ)).toNat

theorem p_pos : 0 < E.fr.p := (Fact.out : E.fr.p.Prime).pos

theorem rep_cast (z : ℤ) : ((rep E z : ℕ) : E.Fr) = (z : E.Fr) := by
  have h : ((rep E z : ℕ) : ℤ) = z % (E.fr.p : ℤ) :=
    Int.toNat_of_nonneg (Int.emod_nonneg _ (by have := p_pos (E := E); omega))
  have : (((rep E z : ℕ) : ℤ) : E.Fr) = (z : E.Fr) := by
    rw [h]
    exact (ZMod.intCast_eq_intCast_iff_dvd_sub _ _ _).mpr ⟨z / E.fr.p, by
      have := Int.emod_add_mul_ediv z E.fr.p
      linarith⟩
  simpa using this

theorem rep_smul {A : Type} [AddCommGroup A] [Module (ZMod E.fr.p) A] (z : ℤ) (g : A) : rep E z • g = z • g := by
  rw [← Nat.cast_smul_eq_nsmul (ZMod E.fr.p), ← Int.cast_smul_eq_zsmul (ZMod E.fr.p)]
  exact congrArg (· • g) (rep_cast z)

theorem shift_eq (ek : EncryptionKey E) (g_i : List E.G1) (δ : ℕ → ℤ) (r : E.Fr) :
    shiftBallot ek g_i δ r = cipher ek (fun i => g_i.getD i 0) (fun i => rep E (δ i)) r := by
  unfold shiftBallot cipher
  simp only [rep_smul]

section
variable {K : PollCfg E} (hC : LawfulCodecs K.codecs)
  {parties : List (Party E)} {b : UInt8} {D G : E.G1} (hdkg : dkg parties b K.gens K.g_i D G = .ok (K.sks, K.ek))
include hdkg

theorem content_shift (δ : ℕ → ℤ) (r : E.Fr) (i : ℕ) (hi : i < K.ek.X.length) :
    content K.sks (shiftBallot K.ek K.g_i δ r) i = δ i • K.g_i.getD i 0 := by
  obtain ⟨n, t, hgn, hsne, hsl, hek⟩ := dkg_inv hdkg
  rw [content]
  rw [hek] at hi ⊢
  simp only [encKey, length_tab] at hi
  simp only [shiftBallot, encKey, length_tab, getD_tab, if_pos hi, smul_smul]
  rw [mul_comm r]
  abel

include hC

theorem shift_de (δ : ℕ → ℤ) (r : E.Fr) : (arkVec K.codecs.g1).de ((arkVec K.codecs.g1).ser (flat (shiftBallot K.ek K.g_i δ r)))
    = some (flat (shiftBallot K.ek K.g_i δ r), []) := by
  obtain ⟨hw, hX, hg⟩ := Poll'.facts hdkg
  rw [shift_eq]
  have h1 := arkVec_roundtrip hC.g1 _ (Poll'.flat_fits hX (fun i => rep E (δ i)) r) []
  rwa [List.append_nil] at h1

theorem shift_acceptable (δ : ℕ → ℤ) (r : E.Fr) :
    Acceptable K ((arkVec K.codecs.g1).ser (flat (shiftBallot K.ek K.g_i δ r))) (flat (shiftBallot K.ek K.g_i δ r)) := by
  obtain ⟨hw, hX, hg⟩ := Poll'.facts hdkg
  refine ⟨⟨_, shift_de hC hdkg δ r⟩, ?_⟩
  rw [shift_eq]
  have hl : (cipher K.ek (fun i => K.g_i.getD i 0) (fun i => rep E (δ i)) r).enc_chunks.length =
      K.ek.X.length := by simp [cipher]
  refine ⟨?_, ?_⟩
  · rw [flat, List.length_cons, List.length_append, hl]
    rfl
  rw [OPoll.check_flat hl]
  obtain ⟨n, t, hgn, hsne, hsl, hek⟩ := dkg_inv hdkg
  rw [hek]
  exact cipher_verifies n _ t _ D G K.gens _ _

end

/-- take one out of a list without repetitions -/
theorem split {α : Type} (cnt : List (ℕ × α)) (hnd : (cnt.map (·.1)).Nodup) (j : ℕ) (hj : j ∈ cnt.map (·.1)) :
    ∃ a rest, cnt.Perm ((j, a) :: rest) ∧ j ∉ rest.map (·.1) := by
  obtain ⟨⟨j', a⟩, hp, rfl⟩ := List.mem_map.mp hj
  obtain ⟨s, t, rfl⟩ := List.append_of_mem hp
  refine ⟨a, s ++ t, List.perm_middle, fun h => ?_⟩
  have h2 : ((s ++ (j', a) :: t).map (·.1)).Perm (j' :: (s ++ t).map (·.1)) := by
    simpa using (List.perm_middle (a := (j', a)) (l₁ := s) (l₂ := t)).map (·.1)
  exact (List.nodup_cons.mp (h2.nodup_iff.mp hnd)).1 h

end Shf

/-! ### C112 -/

section
variable {K : PollCfg E} {j : ℕ} (hC : LawfulCodecs K.codecs) (hU : K.users < 2 ^ 64)
  {parties : List (Party E)} {b : UInt8} {D G : E.G1} (hdkg : dkg parties b K.gens K.g_i D G = .ok (K.sks, K.ek))
  {Rd : RngCore E} {std std' : Rd.σ} {skd : SecretKey E}
  (hdest : fkeygenDest Rd std K.gens = .ok ((skd, K.ekd), std'))
include hC hdkg

/-- **C112** the ballot passes every check of the poll, whatever the integers. -/
theorem C112_accepted (δ : ℕ → ℤ) (r : E.Fr) :
    (shiftBallot K.ek K.g_i δ r).verifyCommitment K.ek.prepare K.gens.prepare = .ok () ∧
    Acceptable K ((arkVec K.codecs.g1).ser (flat (shiftBallot K.ek K.g_i δ r))) (flat (shiftBallot K.ek K.g_i δ r)) := by
  refine ⟨?_, Shf.shift_acceptable hC hdkg δ r⟩
  rw [Shf.shift_eq]
  obtain ⟨n, t, hgn, hsne, hsl, hek⟩ := dkg_inv hdkg
  rw [hek]
  exact cipher_verifies n _ t _ D G K.gens _ _

include hU hdest

/-- **C112** in every history in which the one dishonest user `j` has put nothing but such a ballot on the board and is
counted, the destination gets the sums of the other counted users' votes, shifted by the integers `δ i`, if these are
within its search range, and the search error if one of them is not, modulo the group order. -/
theorem C112_shift (hgi : ∀ g ∈ K.g_i, g ≠ 0) (δ : ℕ → ℤ) (r : E.Fr) (chk : Bool) (b' : UInt8) (hb' : b'.toNat < 32)
    (S : Poll) (hS : OpenRuns K (· = j) Poll.init S)
    (hj : ∀ bs, (j, bs) ∈ S.posted → bs = (arkVec K.codecs.g1).ser (flat (shiftBallot K.ek K.g_i δ r)))
    (res : Res (List UInt16)) (hout : S.outcome K chk skd b' = some res)
    (done : List ℕ) (hdone : S.counted K = some done) (hmem : j ∈ done) :
    ∃ votes : List (ℕ × List UInt16), done.Perm (j :: votes.map (·.1)) ∧ done.Nodup ∧ (∀ v ∈ votes, v ∈ S.cast) ∧
      ((∀ i < K.ek.X.length, ∃ x : ℕ, ((votes.map fun v => (nums v.2).getD i 0).sum : ℤ) + δ i = x ∧
          x ≤ searchBound b'.toNat ∧ x < E.fr.p) →
        ∃ ds, res = .ok ds ∧ ds.length = K.ek.X.length ∧
          ∀ i < K.ek.X.length, ((nums ds).getD i 0 : ℤ) = ((votes.map fun v => (nums v.2).getD i 0).sum : ℤ) + δ i) ∧
      ((∃ i < K.ek.X.length, ∀ x : ℕ, x ≤ searchBound b'.toNat →
          ¬ ((votes.map fun v => (nums v.2).getD i 0).sum : ℤ) + δ i ≡ x [ZMOD E.fr.p]) →
        res = .err .couldNotFindDiscreteLog) := by
  obtain ⟨hw, hX, hg⟩ := Poll'.facts hdkg
  obtain ⟨cnt, -, h2, h3, h4, h5, h6, h7, -⟩ := C109_every_history hC hU hdkg hdest chk b' hb' S hS res hout
  have hd : done = cnt.map (·.1) := Option.some.inj (hdone.symm.trans h3)
  subst hd
  obtain ⟨ct, rest, hperm, hjr⟩ := Shf.split cnt h2 j hmem
  have hct : ct = shiftBallot K.ek K.g_i δ r := by
    obtain ⟨-, bs, rst, a1, a2⟩ := h4 (j, ct) (hperm.mem_iff.mpr (by simp))
    rw [hj bs a1, Shf.shift_de hC hdkg] at a2
    exact (flat_inj (Prod.mk.inj (Option.some.inj a2)).1).symm
  have hh : ∀ p ∈ rest, ∃ chunks, (p.1, chunks) ∈ S.cast ∧
        ∀ i < K.ek.X.length, content K.sks p.2 i = (nums chunks).getD i 0 • K.g_i.getD i 0 := by
    intro p hp
    refine h5 p (hperm.mem_iff.mpr (List.mem_cons_of_mem _ hp)) ?_
    rintro rfl
    exact hjr (List.mem_map_of_mem hp)
  obtain ⟨votes, hv1, hv2, hv3⟩ : ∃ votes : List (ℕ × List UInt16), votes.map (·.1) = rest.map (·.1) ∧
      (∀ v ∈ votes, v ∈ S.cast) ∧ ∀ i < K.ek.X.length, (rest.map fun p => content K.sks p.2 i).sum =
        (votes.map fun v => (nums v.2).getD i 0).sum • K.g_i.getD i 0 := by
    clear hperm hjr
    induction rest with
    | nil => exact ⟨[], rfl, by simp, by simp⟩
    | cons p rest ih =>
      obtain ⟨vs, a1, a2, a3⟩ := ih fun q hq => hh q (List.mem_cons_of_mem _ hq)
      obtain ⟨ch, c1, c2⟩ := hh p (by simp)
      refine ⟨(p.1, ch) :: vs, by simp [a1], ?_, fun i hi => ?_⟩
      · intro v hv
        rcases List.mem_cons.mp hv with rfl | hv
        · exact c1
        · exact a2 v hv
      · simp only [List.map_cons, List.sum_cons, add_smul, a3 i hi, c2 i hi]
  have hsum : ∀ i < K.ek.X.length, (cnt.map fun p => content K.sks p.2 i).sum =
      (((votes.map fun v => (nums v.2).getD i 0).sum : ℤ) + δ i) • K.g_i.getD i 0 := by
    intro i hi
    rw [(hperm.map _).sum_eq, List.map_cons, List.sum_cons, hv3 i hi, hct, Shf.content_shift hdkg δ r i hi, add_smul,
      add_comm, natCast_zsmul]
  refine ⟨votes, ?_, h2, hv2, fun hx => ?_, ?_⟩
  · rw [hv1]
    exact hperm.map _
  · choose! x hx1 hx2 hx3 using hx
    have hxs : ∀ i < K.ek.X.length, (UInt16.ofNat (x i)).toNat = x i := by
      intro i hi
      have := searchBound_lt b'.toNat
      have := hx2 i hi
      rw [UInt16.toNat_ofNat']
      exact Nat.mod_eq_of_lt (by omega)
    refine ⟨tab K.ek.X.length fun i => UInt16.ofNat (x i), ?_, by simp, fun i hi => ?_⟩
    · rw [h6]
      refine ⟨by simp, fun i hi => ?_⟩
      rw [hsum i hi, hx1 i hi, natCast_zsmul, nums, map_tab, getD_tab, if_pos hi, hxs i hi]
      exact isLeastLog_nsmul (E := E) (getD_mem_ne hgi (by omega)) (hx3 i hi) (hx2 i hi)
    · rw [hx1 i hi, nums, map_tab, getD_tab, if_pos hi, hxs i hi]
  · rintro ⟨i, hi, hno⟩
    rw [h7]
    refine ⟨rfl, i, hi, fun x hx he => ?_⟩
    refine hno x hx ?_
    rw [hsum i hi, ← Shf.rep_smul (E := E), nsmul_fr (E := E), nsmul_fr (E := E), Shf.rep_cast] at he
    have h0 := getD_mem_ne hgi (show i < K.g_i.length by omega)
    have h8 : (((x : ℕ) : E.Fr) - (((((votes.map fun v => (nums v.2).getD i 0).sum : ℤ) + δ i : ℤ)) : E.Fr)) •
        K.g_i.getD i 0 = 0 := by
      rw [sub_smul, he, sub_self]
    rcases smul_eq_zero.mp h8 with h9 | h9
    · have h10 := sub_eq_zero.mp h9
      have h11 : ((x : ℤ) : ZMod E.fr.p) =
          (((((votes.map fun v => (nums v.2).getD i 0).sum : ℤ) + δ i : ℤ)) : ZMod E.fr.p) := by
        simpa using h10
      exact ((ZMod.intCast_eq_intCast_iff _ _ _).mp h11).symm
    · exact absurd h9 h0

/-- **C112** so it can deny everybody the result, without knowing anything about the votes: if it adds more than the search
range to the first number, then in every such history the destination gets the search error. -/
theorem C112_denied (hgi : ∀ g ∈ K.g_i, g ≠ 0) (r : E.Fr) (chk : Bool) (b' : UInt8) (hb' : b'.toNat < 32)
    (hn : 0 < K.ek.X.length) (hp : K.users * 65535 + searchBound b'.toNat + 1 < E.fr.p)
    (S : Poll) (hS : OpenRuns K (· = j) Poll.init S)
    (hj : ∀ bs, (j, bs) ∈ S.posted →
      bs = (arkVec K.codecs.g1).ser (flat (shiftBallot K.ek K.g_i (fun _ => searchBound b'.toNat + 1) r)))
    (res : Res (List UInt16)) (hout : S.outcome K chk skd b' = some res)
    (done : List ℕ) (hdone : S.counted K = some done) (hmem : j ∈ done) : res = .err .couldNotFindDiscreteLog := by
  obtain ⟨votes, h1, h2, h3, -, h4⟩ := C112_shift hC hU hdkg hdest hgi _ r chk b' hb' S hS hj res hout done hdone hmem
  have hI := OPoll.reach_inv hC hU hdkg hS
  have hlen : votes.length ≤ K.users := by
    have hnd : (votes.map (·.1)).Nodup := (List.nodup_cons.mp (h1.nodup_iff.mp h2)).2
    have hsub : votes.map (·.1) ⊆ List.range K.users := by
      intro u hu
      obtain ⟨v, hv, rfl⟩ := List.mem_map.mp hu
      obtain ⟨-, hb⟩ := hI.cast v (h3 v hv)
      obtain ⟨bs, hbs⟩ := Option.ne_none_iff_exists'.mp hb
      exact List.mem_range.mpr (hI.ballots _ _ hbs).1
    simpa using (hnd.subperm hsub).length_le
  have hsum : ∀ l : List (ℕ × List UInt16), (l.map fun v => (nums v.2).getD 0 0).sum ≤ l.length * 65535 := by
    intro l
    induction l with
    | nil => simp
    | cons v l ih =>
      have : (nums v.2).getD 0 0 ≤ 65535 := by
        rcases v with ⟨u, _ | ⟨c, cs⟩⟩
        · exact Nat.zero_le _
        · have := c.toNat_lt
          simp only [nums, List.map_cons, List.getD_cons_zero]
          omega
      simp only [List.map_cons, List.sum_cons, List.length_cons, Nat.add_mul]
      omega
  refine h4 ⟨0, hn, fun x hx he => ?_⟩
  have h5 := hsum votes
  have h6 := Nat.mul_le_mul_right 65535 hlen
  generalize (votes.map fun v => (nums v.2).getD 0 0).sum = y at *
  have h7 : ((y + (searchBound b'.toNat + 1) : ℕ) : ℤ) ≡ (x : ℕ) [ZMOD E.fr.p] := by
    push_cast
    exact he
  have h8 := (Int.natCast_modEq_iff).mp h7
  have h9 := Nat.ModEq.eq_of_lt_of_lt h8 (by omega) (by omega)
  omega

/-- **C112** the dishonest user can do that at any time before the tally is published, if it has put nothing on the board
before, and the aggregator and the key holders, doing their duty, finish the poll with it: whatever the integers. -/
theorem C112_one_user_decides (hgi : ∀ g ∈ K.g_i, g ≠ 0) (δ : ℕ → ℤ) (r : E.Fr) (chk : Bool) (b' : UInt8)
    (hb' : b'.toNat < 32) (S : Poll) (hS : OpenRuns K (· = j) Poll.init S) (hju : j < K.users)
    (hnew : ∀ bs, (j, bs) ∉ S.posted) (hopen : S.total = none) :
    ∃ (T : Poll) (res : Res (List UInt16)) (done : List ℕ) (votes : List (ℕ × List UInt16)), OpenRuns K (· = j) S T ∧ T.cast = S.cast ∧
      (∀ bs, (j, bs) ∈ T.posted → bs = (arkVec K.codecs.g1).ser (flat (shiftBallot K.ek K.g_i δ r))) ∧
      T.outcome K chk skd b' = some res ∧ T.counted K = some done ∧
      done.Perm (j :: votes.map (·.1)) ∧ done.Nodup ∧ (∀ v ∈ votes, v ∈ S.cast) ∧ (∀ v ∈ S.cast, v.1 ∈ votes.map (·.1)) ∧
      ((∀ i < K.ek.X.length, ∃ x : ℕ, ((votes.map fun v => (nums v.2).getD i 0).sum : ℤ) + δ i = x ∧
          x ≤ searchBound b'.toNat ∧ x < E.fr.p) →
        ∃ ds, res = .ok ds ∧ ds.length = K.ek.X.length ∧
          ∀ i < K.ek.X.length, ((nums ds).getD i 0 : ℤ) = ((votes.map fun v => (nums v.2).getD i 0).sum : ℤ) + δ i) ∧
      ((∃ i < K.ek.X.length, ∀ x : ℕ, x ≤ searchBound b'.toNat →
          ¬ ((votes.map fun v => (nums v.2).getD i 0).sum : ℤ) + δ i ≡ x [ZMOD E.fr.p]) →
        res = .err .couldNotFindDiscreteLog) := by
  have hstep : OpenStep K (· = j) S _ := .post j ((arkVec K.codecs.g1).ser (flat (shiftBallot K.ek K.g_i δ r))) hju rfl
  obtain ⟨S1, r1, e1, e2, e3, e4⟩ : ∃ S1 : Poll, OpenRuns K (· = j) S S1 ∧ S1.cast = S.cast ∧
      S1.posted = (j, (arkVec K.codecs.g1).ser (flat (shiftBallot K.ek K.g_i δ r))) :: S.posted ∧ S1.total = none ∧
      S1.ballots j = some ((arkVec K.codecs.g1).ser (flat (shiftBallot K.ek K.g_i δ r))) :=
    ⟨_, .step (.refl S) hstep, rfl, rfl, hopen, Function.update_self ..⟩
  have hacc := Shf.shift_acceptable hC hdkg δ r
  obtain ⟨T, res, done, a1, ⟨a2, a2'⟩, a3, a4, a5, a6⟩ := C109_no_deadlock hC hU hdkg hdest chk b' hb' S1 (OPoll.trans hS r1)
    (.inr (.inr ⟨j, _, _, e4, hacc⟩))
  obtain ⟨a7, a8⟩ := a6 e3
  have honly : ∀ bs, (j, bs) ∈ T.posted → bs = (arkVec K.codecs.g1).ser (flat (shiftBallot K.ek K.g_i δ r)) := by
    intro bs h
    rw [a2', e2] at h
    rcases List.mem_cons.mp h with h | h
    · exact (Prod.mk.inj h).2
    · exact absurd h (hnew bs)
  have hT := OPoll.trans (OPoll.trans hS r1) a1
  obtain ⟨votes, b1, b2, b3, b4, b5⟩ := C112_shift hC hU hdkg hdest hgi δ r chk b' hb' T hT honly res a4 done a5
    (a8 j _ _ e4 hacc)
  refine ⟨T, res, done, votes, OPoll.trans r1 a1, a2.trans e1, honly, a4, a5, b1, b2, fun v hv => ?_, fun v hv => ?_, b4, b5⟩
  · rw [← e1, ← a2]
    exact b3 v hv
  · have h1 := b1.mem_iff.mp (a7 v (e1 ▸ hv))
    rcases List.mem_cons.mp h1 with h1 | h1
    · obtain ⟨hnb, -⟩ := (OPoll.reach_inv hC hU hdkg hS).cast v hv
      exact absurd h1 hnb
    · exact h1

end

/-- Non-vacuity: user 0 votes `1, 2, 300, 4`; user 1 takes away 300 of the third number, and the destination reads
`1, 2, 0, 4`. -/
example : ∃ T : Poll, OpenRuns Poll'.cfg (· = 1) Poll.init T ∧ T.cast = [(0, Fix.m1)] ∧
    T.outcome Poll'.cfg true Fix.skd 16 = some (.ok [1, 2, 0, 4]) := by
  have hC := scalarCodecs_lawful goldFr
  obtain ⟨hw, hX, hg⟩ := Poll'.facts (K := Poll'.cfg) Fix.dkg_ok
  have hm1 : Fix.m1.length = Fix.dek.X.length := by decide +kernel
  have he1 := encryptDecomposed_ok (listRng Fix.E) Fix.st1 Fix.m1 Fix.dek Fix.gi hw hX hm1 hg
  have r1 := OpenRuns.step (.refl Poll.init) (OpenStep.vote (K := Poll'.cfg) (bad := (· = 1)) 0 ⟨listRng Fix.E, Fix.st1⟩ Fix.m1
    _ _ _ (by decide) (by decide) he1)
  obtain ⟨S1, r1, hcast, htot, hpost⟩ : ∃ S1, OpenRuns Poll'.cfg (· = 1) Poll.init S1 ∧ S1.cast = [(0, Fix.m1)] ∧
    S1.total = none ∧ ∀ bs, (1, bs) ∉ S1.posted := ⟨_, r1, rfl, rfl, by simp [Poll.init]⟩
  obtain ⟨T, res, done, votes, a1, a2, -, a4, a5, a6, a7, a8, a9, a10, -⟩ := C112_one_user_decides (K := Poll'.cfg) (j := 1)
    hC (by decide) Fix.dkg_ok Fix.dest_ok Fix.gi_ne (fun i => if i = 2 then -300 else 0) (show Fix.E.Fr from (5 : Fix.F)) true 16
    (by decide) S1 r1 (by decide) hpost htot
  have hX4 : Poll'.cfg.ek.X.length = 4 := by decide +kernel
  have hvotes : votes = [(0, Fix.m1)] := by
    rw [hcast] at a8 a9
    have h0 : (votes.map (·.1)).Nodup := (List.nodup_cons.mp (a6.nodup_iff.mp a7)).2
    match votes, a8, a9, h0 with
    | [], _, a9, _ => simpa using a9 (0, Fix.m1) (by simp)
    | [v], a8, _, _ => rw [List.mem_singleton.mp (a8 v (by simp))]
    | v :: w :: l, a8, _, h0 =>
      have h1 := List.mem_singleton.mp (a8 v (by simp))
      have h2 := List.mem_singleton.mp (a8 w (by simp))
      simp [h1, h2] at h0
  subst hvotes
  obtain ⟨ds, d1, d2, d3⟩ := a10 (fun i hi => by
    rw [hX4] at hi
    refine ⟨(nums [1, 2, 0, 4]).getD i 0, ?_⟩
    revert i
    decide +kernel)
  refine ⟨T, OPoll.trans r1 a1, a2.trans hcast, ?_⟩
  suffices hds : ds = [1, 2, 0, 4] by rw [a4, d1, hds]
  rw [hX4] at d2 d3
  have hinj : Function.Injective nums := List.map_injective_iff.mpr fun (x y : UInt16) h => UInt16.toNat_inj.mp h
  apply hinj
  apply List.ext_getElem (by simp [nums, d2])
  intro i h1 h2
  have h3 : i < 4 := by simpa [nums, d2] using h1
  have := d3 i h3
  rw [List.getD_eq_getElem _ _ h1] at this
  have h4 : ∀ i : Fin 4, (((List.map (fun v : ℕ × List UInt16 => (nums v.2).getD i 0) [(0, Fix.m1)]).sum : ℕ) : ℤ) +
      (if (i : ℕ) = 2 then -300 else 0) = (((nums [1, 2, 0, 4]).getD i 0 : ℕ) : ℤ) := by decide +kernel
  have h5 := this.trans (h4 ⟨i, h3⟩)
  rw [List.getD_eq_getElem _ _ h2] at h5
  exact_mod_cast h5

/-- Non-vacuity: whatever user 0 votes, user 1 can make the destination get the search error. -/
example : ∃ T : Poll, OpenRuns Poll'.cfg (· = 1) Poll.init T ∧ T.cast = [(0, Fix.m1)] ∧
    T.outcome Poll'.cfg true Fix.skd 16 = some (.err .couldNotFindDiscreteLog) := by
  have hC := scalarCodecs_lawful goldFr
  obtain ⟨hw, hX, hg⟩ := Poll'.facts (K := Poll'.cfg) Fix.dkg_ok
  have hm1 : Fix.m1.length = Fix.dek.X.length := by decide +kernel
  have he1 := encryptDecomposed_ok (listRng Fix.E) Fix.st1 Fix.m1 Fix.dek Fix.gi hw hX hm1 hg
  have r1 := OpenRuns.step (.refl Poll.init) (OpenStep.vote (K := Poll'.cfg) (bad := (· = 1)) 0 ⟨listRng Fix.E, Fix.st1⟩ Fix.m1
    _ _ _ (by decide) (by decide) he1)
  obtain ⟨S1, r1, hcast, htot, hpost⟩ : ∃ S1, OpenRuns Poll'.cfg (· = 1) Poll.init S1 ∧ S1.cast = [(0, Fix.m1)] ∧
    S1.total = none ∧ ∀ bs, (1, bs) ∉ S1.posted := ⟨_, r1, rfl, rfl, by simp [Poll.init]⟩
  obtain ⟨T, res, done, votes, a1, a2, a3, a4, a5, a6, -⟩ := C112_one_user_decides (K := Poll'.cfg) (j := 1)
    hC (by decide) Fix.dkg_ok Fix.dest_ok Fix.gi_ne (fun _ => searchBound (16 : UInt8).toNat + 1) (show Fix.E.Fr from (5 : Fix.F))
    true 16 (by decide) S1 r1 (by decide) hpost htot
  refine ⟨T, OPoll.trans r1 a1, a2.trans hcast, a4.trans (congrArg some ?_)⟩
  exact C112_denied (K := Poll'.cfg) (j := 1) hC (by decide) Fix.dkg_ok Fix.dest_ok Fix.gi_ne (show Fix.E.Fr from (5 : Fix.F))
    true 16 (by decide) (by decide +kernel) (by decide +kernel) T (OPoll.trans r1 a1) a3 res a4 done a5
    (a6.mem_iff.mpr (by simp))

end Verif
