/-
Helper lemmas for C71: the messages of distributed key generation are fixed linear combinations of the public
values of a single key generation with the joint `s` and the honest party's `t`.
-/
import Verif.Lemmas.Span
import Verif.Lemmas.SecDkg
import Verif.Props.Error
import Verif.SpecDkg

namespace Verif
open Spec

variable {E : Engine}

namespace SDkg
open Span Sec

/-- the lengths of all lists agree -/
def Same (pk0 pk : ProvingKey E) : Prop :=
  pk.pk.l_query.length = pk0.pk.l_query.length ∧ pk.pk.h_query.length = pk0.pk.h_query.length ∧
  pk.pk.a_query.length = pk0.pk.a_query.length ∧ pk.pk.b_g1_query.length = pk0.pk.b_g1_query.length ∧
  pk.pk.vk.gamma_abc_g1.length = pk0.pk.vk.gamma_abc_g1.length ∧
  pk.pk.b_g2_query.length = pk0.pk.b_g2_query.length

/-- parameters and secrets -/
structure Env (pk0 : ProvingKey E) where
  pk : ProvingKey E
  same : Same pk0 pk
  s : ℕ → E.Fr
  t : ℕ → E.Fr
  v : ℕ → E.Fr
  rho : E.Fr

/-- the bases of the chunks -/
def gs (pk : ProvingKey E) (i : ℕ) : E.G1 := pk.pk.vk.gamma_abc_g1.getD (i + 1) 0

section
variable {pk0 : ProvingKey E} (gens : EncryptionGens E) (n : ℕ)

/-- the key for given secrets -/
def key (pk : ProvingKey E) (s t : ℕ → E.Fr) : EncryptionKey E :=
  encKey n s t (gs pk) pk.pk.delta_g1 pk.gamma_g1 gens.H

def L1 (ω : Env pk0) : List E.G1 := public1 gens ω.pk (key gens n ω.pk ω.s ω.t)

def L2 (ω : Env pk0) : List E.G2 :=
  public2 gens ω.pk (key gens n ω.pk ω.s ω.t) (decKey n ω.rho ω.s ω.v gens.H)

/-- the published part of the parameters -/
def par1 (pk : ProvingKey E) : List E.G1 :=
  pk.pk.l_query ++ (pk.pk.h_query ++ ([gens.G, pk.pk.vk.alpha_g1, pk.pk.beta_g1, pk.pk.delta_g1,
    pk.gamma_g1] ++ (pk.pk.a_query ++ (pk.pk.b_g1_query ++ pk.pk.vk.gamma_abc_g1))))

theorem public1_split (pk : ProvingKey E) (ek : EncryptionKey E) :
    public1 gens pk ek = par1 gens pk ++ ([ek.X_0] ++ (ek.X ++ ([ek.P_2] ++ (ek.Y ++ [ek.P_1])))) := by
  unfold public1 par1
  simp only [List.append_assoc]

def par2 (pk : ProvingKey E) : List E.G2 :=
  [gens.H, pk.pk.vk.beta_g2, pk.pk.vk.gamma_g2, pk.pk.vk.delta_g2] ++ pk.pk.b_g2_query

/-- everything needed about the span of `L1` -/
theorem pieces :
    All E.Fr (L1 (pk0 := pk0) gens n) (fun ω => par1 gens ω.pk) ∧
    In E.Fr (L1 (pk0 := pk0) gens n) (fun ω => ω.pk.pk.delta_g1) ∧
    In E.Fr (L1 (pk0 := pk0) gens n) (fun ω => ω.pk.gamma_g1) ∧
    (∀ i, In E.Fr (L1 (pk0 := pk0) gens n) fun ω => gs ω.pk i) ∧
    (∀ i < n, In E.Fr (L1 (pk0 := pk0) gens n) fun ω => ω.s i • ω.pk.pk.delta_g1) ∧
    (∀ i < n, In E.Fr (L1 (pk0 := pk0) gens n) fun ω => ω.t (i + 1) • gs ω.pk i) ∧
    (In E.Fr (L1 (pk0 := pk0) gens n) fun ω => (∑ i ∈ Finset.range n, ω.s i) • ω.pk.gamma_g1) ∧
    In E.Fr (L1 (pk0 := pk0) gens n) fun ω => ω.t 0 • ω.pk.pk.delta_g1 +
      ∑ j ∈ Finset.range n, ω.t (j + 1) • ω.s j • ω.pk.pk.delta_g1 := by
  have hpar : ∃ N, ∀ ω : Env pk0, (par1 gens ω.pk).length = N := by
    refine ⟨(par1 gens pk0).length, fun ω => ?_⟩
    obtain ⟨h1, h2, h3, h4, h5, h6⟩ := ω.same
    simp only [par1, List.length_append, h1, h2, h3, h4, h5, List.length_cons, List.length_nil]
  obtain ⟨N, hN⟩ := hpar
  have h0 : All E.Fr (L1 (pk0 := pk0) gens n) (L1 gens n) := by
    refine All.refl (N := N + (1 + (n + (1 + (n + 1))))) fun ω => ?_
    unfold L1
    rw [public1_split, List.length_append, hN]
    simp [key, encKey]
    omega
  have h1 := h0.congr fun ω => (public1_split gens ω.pk (key gens n ω.pk ω.s ω.t)).symm
  have hp := h1.left hN
  have hk := h1.right hN
  have q1 := hk.right (N := 1) fun _ => rfl
  have qX := q1.left (N := n) fun ω => by simp [key, encKey]
  have q2 := q1.right (N := n) fun ω => by simp [key, encKey]
  have qP2 := q2.left (N := 1) fun _ => rfl
  have q3 := q2.right (N := 1) fun _ => rfl
  have qY := q3.left (N := n) fun ω => by simp [key, encKey]
  have qP1 := q3.right (N := n) fun ω => by simp [key, encKey]
  have p1 := hp.right (N := pk0.pk.l_query.length) fun ω => ω.same.1
  have p2 := p1.right (N := pk0.pk.h_query.length) fun ω => ω.same.2.1
  have p3 := p2.left (N := 5) fun _ => rfl
  have p4 := p2.right (N := 5) fun _ => rfl
  have p5 := p4.right (N := pk0.pk.a_query.length) fun ω => ω.same.2.2.1
  have p6 := p5.right (N := pk0.pk.b_g1_query.length) fun ω => ω.same.2.2.2.1
  have hD := p3.2 3
  have hC := p3.2 4
  refine ⟨hp, hD, hC, fun i => p6.2 (i + 1), fun i hi => ?_, fun i hi => ?_, ?_, ?_⟩
  · refine (qX.2 i).congr fun ω => ?_
    simp only [key, encKey]
    rw [getD_tab, if_pos hi]
  · refine (qY.2 i).congr fun ω => ?_
    simp only [key, encKey]
    rw [getD_tab, if_pos hi]
  · refine ((qP2.2 0).sub hC).congr fun ω => ?_
    simp only [key, encKey]
    show _ = (1 + ∑ i ∈ Finset.range n, ω.s i) • ω.pk.gamma_g1 - ω.pk.gamma_g1
    rw [add_smul, one_smul, add_sub_cancel_left]
  · refine (qP1.2 0).congr fun ω => ?_
    simp only [key, encKey]
    show _ = (ω.t 0 + ∑ i ∈ Finset.range n, ω.s i * ω.t (i + 1)) • ω.pk.pk.delta_g1
    rw [add_smul, Finset.sum_smul]
    congr 1
    refine Finset.sum_congr rfl fun j _ => ?_
    rw [smul_smul, mul_comm]

theorem pieces2 :
    All E.Fr (L2 (pk0 := pk0) gens n) (fun ω => par2 gens ω.pk) ∧
    (In E.Fr (L2 (pk0 := pk0) gens n) fun _ => gens.H) ∧
    (∀ i < n + 1, In E.Fr (L2 (pk0 := pk0) gens n) fun ω => ω.t i • gens.H) := by
  have e : ∀ ω : Env pk0, L2 gens n ω = par2 gens ω.pk ++ ((key gens n ω.pk ω.s ω.t).Z ++
      ([(decKey n ω.rho ω.s ω.v gens.H).V_0] ++ ((decKey n ω.rho ω.s ω.v gens.H).V_1 ++
        (decKey n ω.rho ω.s ω.v gens.H).V_2))) := by
    intro ω
    unfold L2 public2 par2
    simp only [List.append_assoc]
  have hN : ∀ ω : Env pk0, (par2 gens ω.pk).length = 4 + pk0.pk.b_g2_query.length := by
    intro ω
    unfold par2
    rw [List.length_append, ω.same.2.2.2.2.2]
    rfl
  have h0 : All E.Fr (L2 (pk0 := pk0) gens n) (L2 gens n) := by
    refine All.refl (N := 4 + pk0.pk.b_g2_query.length + ((n + 1) + (1 + (n + n)))) fun ω => ?_
    rw [e, List.length_append, hN]
    simp [key, encKey, decKey]
    omega
  have h1 := h0.congr fun ω => (e ω).symm
  have hp := h1.left hN
  have q := (h1.right hN).left (N := n + 1) fun ω => by simp [key, encKey]
  have p := hp.left (N := 4) fun _ => rfl
  refine ⟨hp, p.2 0, fun i hi => (q.2 i).congr fun ω => ?_⟩
  simp only [key, encKey]
  rw [getD_tab, if_pos hi]

variable (o1 o2 : List (Party E))

/-- what is published during distributed key generation, in terms of the joint `s` and the honest `t` -/
def D1 (ω : Env pk0) : List E.G1 :=
  public1 gens ω.pk (key gens n ω.pk ω.s fun i => ω.t i + othersT n o1 o2 i) ++
    (((optParties o1 o2).map fun o => partialElems1 (partialKey n (oS (fun i => ω.s i - othersS o1 o2 i) o)
      (oT n ω.t o) (gs ω.pk) ω.pk.pk.delta_g1 ω.pk.gamma_g1 gens.H)).flatten ++
    (optParties o1 o2).map fun o => oT n ω.t o 0 • ω.pk.pk.delta_g1 +
      ∑ j ∈ Finset.range n, oT n ω.t o (j + 1) • ω.s j • ω.pk.pk.delta_g1)

def D2 (ω : Env pk0) : List E.G2 :=
  par2 gens ω.pk ++ (tab (n + 1) (fun i => (ω.t i + othersT n o1 o2 i) • gens.H) ++
    ((optParties o1 o2).map fun o => tab (n + 1) fun i => oT n ω.t o i • gens.H).flatten)

theorem all_D1 : All E.Fr (L1 (pk0 := pk0) gens n) (D1 gens n o1 o2) := by
  obtain ⟨hp, hD, hC, hg, hX, hY, hP2, hP1⟩ := pieces (pk0 := pk0) gens n
  have hP2' : In E.Fr (L1 (pk0 := pk0) gens n) fun ω => (1 + ∑ i ∈ Finset.range n, ω.s i) • ω.pk.gamma_g1 :=
    (hC.add hP2).congr fun ω => by rw [add_smul, one_smul]
  have hP1' : In E.Fr (L1 (pk0 := pk0) gens n) fun ω => (ω.t 0 + othersT n o1 o2 0 + ∑ i ∈ Finset.range n,
      ω.s i * (ω.t (i + 1) + othersT n o1 o2 (i + 1))) • ω.pk.pk.delta_g1 := by
    refine (hP1.add ((hD.smul (othersT n o1 o2 0)).add (In.sum n fun i hi =>
      (hX i hi).smul (othersT n o1 o2 (i + 1))))).congr fun ω => ?_
    have e : ∀ i, (ω.s i * (ω.t (i + 1) + othersT n o1 o2 (i + 1))) • ω.pk.pk.delta_g1 =
        ω.t (i + 1) • ω.s i • ω.pk.pk.delta_g1 + othersT n o1 o2 (i + 1) • ω.s i • ω.pk.pk.delta_g1 := by
      intro i
      rw [smul_smul, smul_smul, ← add_smul]
      congr 1
      ring
    rw [add_smul, add_smul, Finset.sum_smul, Finset.sum_congr rfl fun i _ => e i, Finset.sum_add_distrib]
    abel
  unfold D1
  refine All.append ((hp.append ((All.single hD).append (All.append (All.tab hX) (All.append (All.single hP2')
    (All.append (All.tab (n := n) (f := fun ω i => (ω.t (i + 1) + othersT n o1 o2 (i + 1)) • gs ω.pk i)
      fun i hi => ?_) (All.single hP1')))))).congr fun ω => ?_) ?_
  · refine ((hY i hi).add ((hg i).smul (othersT n o1 o2 (i + 1)))).congr fun ω => ?_
    rw [add_smul]
  · rw [public1_split]
    rfl
  · refine All.append (All.flattenMap _ fun o _ => ?_) (All.map _ fun o _ => ?_)
    · unfold partialElems1 partialKey
      cases o with
      | none =>
        refine All.append (All.cons hD (All.single ?_)) (All.append (All.tab fun i hi => ?_) (All.tab fun i hi => ?_))
        · refine (hP2.sub (hC.smul (∑ i ∈ Finset.range n, othersS o1 o2 i))).congr fun ω => ?_
          simp only [oS]
          rw [Finset.sum_sub_distrib, sub_smul]
        · refine ((hX i hi).sub (hD.smul (othersS o1 o2 i))).congr fun ω => ?_
          simp only [oS]
          rw [sub_smul]
        · exact hY i hi
      | some P =>
        exact All.append (All.cons hD (All.single (hC.smul (∑ i ∈ Finset.range n, partyS P i))))
          (All.append (All.tab fun i hi => hD.smul (partyS P i))
            (All.tab fun i hi => (hg i).smul (partyT n P (i + 1))))
    · cases o with
      | none => exact hP1
      | some P => exact (hD.smul (partyT n P 0)).add (In.sum n fun j hj => (hX j hj).smul (partyT n P (j + 1)))

theorem all_D2 : All E.Fr (L2 (pk0 := pk0) gens n) (D2 gens n o1 o2) := by
  obtain ⟨hp, hH, hZ⟩ := pieces2 (pk0 := pk0) gens n
  unfold D2
  refine hp.append (All.append (All.tab fun i hi => ?_) (All.flattenMap _ fun o _ => ?_))
  · refine ((hZ i hi).add (hH.smul (othersT n o1 o2 i))).congr fun ω => ?_
    rw [add_smul]
  · cases o with
    | none => exact All.tab hZ
    | some P => exact All.tab fun i hi => hH.smul (partyT n P i)

/-- translation of coefficients -/
theorem exists_conv : ∃ (c1 c2 : (ℕ → E.Fr) → ℕ → E.Fr), ∀ (k : ℕ → E.Fr) (ω : Env pk0),
    comb k (D1 gens n o1 o2 ω) = comb (c1 k) (L1 gens n ω) ∧
    comb k (D2 gens n o1 o2 ω) = comb (c2 k) (L2 gens n ω) := by
  choose c1 h1 using fun k => (all_D1 (pk0 := pk0) gens n o1 o2).comb k
  choose c2 h2 using fun k => (all_D2 (pk0 := pk0) gens n o1 o2).comb k
  exact ⟨c1, c2, fun k ω => ⟨h1 k ω, h2 k ω⟩⟩

/-- the environment of a run with honest party `P` -/
def env (pk : ProvingKey E) (h : Same pk0 pk) (P : Party E) (v : ℕ → E.Fr) (rho : E.Fr) : Env pk0 :=
  ⟨pk, h, fun i => partyS P i + othersS o1 o2 i, partyT n P, v, rho⟩

/-- the lists of published elements, for one run -/
theorem dkg_lists {b n8 : UInt8} (hn : chunksCount E.fr b = .ok n8) (pk : ProvingKey E) (hs : Same pk0 pk)
    (P : Party E) (v : ℕ → E.Fr) (rho : E.Fr) (g_i : List E.G1) (hgi : ∀ i, g_i.getD i 0 = gs pk i)
    (hg : n8.toNat ≤ g_i.length) :
    ∃ keys shares ek, dkgTranscript (o1 ++ P :: o2) b gens g_i pk.pk.delta_g1 pk.gamma_g1 =
        .ok (keys, shares, ek) ∧
      ek = key gens n8.toNat pk (fun i => partyS P i + othersS o1 o2 i)
        (fun i => partyT n8.toNat P i + othersT n8.toNat o1 o2 i) ∧
      dkgPublic1 gens pk keys shares ek = D1 gens n8.toNat o1 o2 (env n8.toNat o1 o2 pk hs P v rho) ∧
      dkgPublic2 gens pk keys ek = D2 gens n8.toNat o1 o2 (env n8.toNat o1 o2 pk hs P v rho) := by
  have hS : sumS (o1 ++ P :: o2) = fun i => partyS P i + othersS o1 o2 i := by
    funext i
    simp only [sumS, othersS, List.map_append, List.map_cons, List.sum_append, List.sum_cons]
    ring
  have hT : sumT n8.toNat (o1 ++ P :: o2) = fun i => partyT n8.toNat P i + othersT n8.toNat o1 o2 i := by
    funext i
    simp only [sumT, othersT, List.map_append, List.map_cons, List.sum_append, List.sum_cons]
    ring
  have hgf : (fun i => g_i.getD i 0) = gs pk := funext hgi
  refine ⟨_, _, _, dkgTranscript_eq _ (by simp) gens g_i _ _ hn hg, ?_, ?_, ?_⟩
  · rw [hS, hT, hgf]
    rfl
  · rw [hS, hT, hgf]
    unfold dkgPublic1 D1 env
    simp only [optParties, List.map_append, List.map_cons, List.map_map, oS, oT, Function.comp_def,
      add_sub_cancel_right]
    rfl
  · rw [hT]
    unfold dkgPublic2 D2 env par2
    simp only [optParties, List.map_append, List.map_cons, List.map_map, oT, Function.comp_def, partialKey, encKey,
      List.append_assoc]

/-- the ciphertext with the contribution of `T` removed from the commitment -/
def unshift (T : ℕ → E.Fr) (ct : Ciphertext E) : Ciphertext E where
  X_r := ct.X_r
  enc_chunks := ct.enc_chunks
  commitment := ct.commitment - (T 0 • ct.X_r + ∑ i ∈ Finset.range ct.enc_chunks.length,
    T (i + 1) • ct.enc_chunks.getD i 0)

/-- the translated strategy -/
def translate (T : ℕ → E.Fr) (c1 c2 : (ℕ → E.Fr) → ℕ → E.Fr) (S : Strategy E.Fr) : Strategy E.Fr where
  x := c1 S.x
  len := S.len
  chunk i := c1 (S.chunk i)
  psi j := c1 S.psi j - (T 0 * c1 S.x j + ∑ i ∈ Finset.range S.len, T (i + 1) * c1 (S.chunk i) j)
  a := c1 S.a
  b := c2 S.b
  c := c1 S.c

theorem translate_outputs (T : ℕ → E.Fr) (c1 c2 : (ℕ → E.Fr) → ℕ → E.Fr) (S : Strategy E.Fr)
    (l1 d1 : List E.G1) (l2 d2 : List E.G2) (h1 : ∀ k, comb k d1 = comb (c1 k) l1)
    (h2 : ∀ k, comb k d2 = comb (c2 k) l2) :
    (translate T c1 c2 S).cipher l1 = unshift T (S.cipher d1) ∧
      (translate T c1 c2 S).proof l1 l2 = S.proof d1 d2 := by
  refine ⟨?_, ?_⟩
  · unfold Strategy.cipher unshift translate
    simp only [h1, length_tab]
    congr 1
    have hsum : ∑ i ∈ Finset.range S.len, T (i + 1) • (tab S.len fun i => comb (c1 (S.chunk i)) l1).getD i 0 =
        ∑ i ∈ Finset.range S.len, T (i + 1) • comb (c1 (S.chunk i)) l1 :=
      Finset.sum_congr rfl fun i hi => by rw [getD_tab, if_pos (Finset.mem_range.mp hi)]
    rw [hsum]
    simp only [comb, sub_smul, add_smul, Finset.sum_smul, mul_smul, Finset.sum_sub_distrib,
      Finset.sum_add_distrib, Finset.smul_sum]
    congr 2
    exact Finset.sum_comm
  · unfold Strategy.proof translate
    simp only [h1, h2]

theorem accept_iff (pk : ProvingKey E) (s t T : ℕ → E.Fr) (hn : n < 256) (hH : gens.H ≠ 0) (ct : Ciphertext E)
    (proof : Proof E) (pvk : PreparedVerifyingKey E) :
    ct.verifyCommitmentAndProof proof pvk (key gens n pk s fun i => t i + T i).prepare gens.prepare = .ok () ↔
    (unshift T ct).verifyCommitmentAndProof proof pvk (key gens n pk s t).prepare gens.prepare = .ok () := by
  have hX : ∀ t, (key gens n pk s t).X.length = n := fun t => by simp [key, encKey]
  have hc : ∀ (t : ℕ → E.Fr) (ct : Ciphertext E),
      ct.verifyCommitment (key gens n pk s t).prepare gens.prepare = .ok () ↔ ct.enc_chunks.length = n ∧
        ct.commitment = t 0 • ct.X_r + ∑ i ∈ Finset.range ct.enc_chunks.length,
          t (i + 1) • ct.enc_chunks.getD i 0 := by
    intro t ct
    have := (C16_accept_iff (key gens n pk s t) gens t (encKey_wf _ _ _ _ _ _ _) (by rw [hX]; exact hn) hH (by
      intro i hi
      rw [hX] at hi
      simp only [key, encKey]
      rw [getD_tab, if_pos hi]) ct.X_r ct.enc_chunks ct.commitment).1
    rw [hX] at this
    exact this
  have hb : ∀ (t : ℕ → E.Fr) (ct : Ciphertext E),
      ct.verifyCommitmentAndProof proof pvk (key gens n pk s t).prepare gens.prepare = .ok () ↔
      ct.verifyCommitment (key gens n pk s t).prepare gens.prepare = .ok () ∧ verifyProof pvk proof ct = .ok () := by
    intro t ct
    unfold Ciphertext.verifyCommitmentAndProof
    rw [Res.bind_eq_ok]
    exact ⟨fun ⟨_, h, h'⟩ => ⟨h, h'⟩, fun ⟨h, h'⟩ => ⟨(), h, h'⟩⟩
  rw [hb, hb, hc, hc]
  refine and_congr (and_congr Iff.rfl ?_) Iff.rfl
  simp only [unshift, add_smul, Finset.sum_add_distrib]
  rw [sub_eq_iff_eq_add, add_add_add_comm]

theorem cipher_of_unshift (pk : ProvingKey E) (s t T : ℕ → E.Fr) (ct : Ciphertext E) (m : ℕ → ℕ) (r : E.Fr)
    (h : unshift T ct = cipher (key gens n pk s t) (gs pk) m r) :
    ct = cipher (key gens n pk s fun i => t i + T i) (gs pk) m r := by
  obtain ⟨x, c, psi⟩ := ct
  simp only [unshift, cipher, key, encKey, length_tab, Ciphertext.mk.injEq] at h ⊢
  obtain ⟨rfl, rfl, h3⟩ := h
  refine ⟨rfl, rfl, ?_⟩
  rw [length_tab, sub_eq_iff_eq_add] at h3
  rw [h3]
  have e1 : ∀ (t : ℕ → E.Fr), ∑ i ∈ Finset.range n, m i • (tab n fun i => t (i + 1) • gs pk i).getD i 0 =
      ∑ i ∈ Finset.range n, m i • t (i + 1) • gs pk i := fun t =>
    Finset.sum_congr rfl fun i hi => by rw [getD_tab, if_pos (Finset.mem_range.mp hi)]
  have e2 : ∑ i ∈ Finset.range n, T (i + 1) • (tab n fun i => r • (tab n fun i => s i • pk.pk.delta_g1).getD i 0 +
      m i • gs pk i).getD i 0 = (∑ i ∈ Finset.range n, (r * (s i * T (i + 1))) • pk.pk.delta_g1) +
        ∑ i ∈ Finset.range n, m i • T (i + 1) • gs pk i := by
    rw [← Finset.sum_add_distrib]
    refine Finset.sum_congr rfl fun i hi => ?_
    have hi := Finset.mem_range.mp hi
    rw [getD_tab, if_pos hi, getD_tab, if_pos hi, smul_add, smul_smul, smul_smul, nsmul_fr (E := E),
      nsmul_fr (E := E), smul_smul, smul_smul]
    congr 2
    · ring
    · ring
  rw [e1 t, e1 fun i => t i + T i, e2]
  have a : ∑ i ∈ Finset.range n, m i • (t (i + 1) + T (i + 1)) • gs pk i =
      (∑ i ∈ Finset.range n, m i • t (i + 1) • gs pk i) + ∑ i ∈ Finset.range n, m i • T (i + 1) • gs pk i := by
    rw [← Finset.sum_add_distrib]
    exact Finset.sum_congr rfl fun i _ => by rw [add_smul, smul_add]
  have b : r • (t 0 + T 0 + ∑ i ∈ Finset.range n, s i * (t (i + 1) + T (i + 1))) • pk.pk.delta_g1 =
      r • (t 0 + ∑ i ∈ Finset.range n, s i * t (i + 1)) • pk.pk.delta_g1 + (T 0 • r • pk.pk.delta_g1 +
        ∑ i ∈ Finset.range n, (r * (s i * T (i + 1))) • pk.pk.delta_g1) := by
    rw [← Finset.sum_smul, ← Finset.mul_sum, smul_smul, smul_smul, smul_smul, ← add_smul, ← add_smul]
    congr 1
    simp only [mul_add, Finset.sum_add_distrib]
    ring
  rw [a, b]
  generalize (∑ i ∈ Finset.range n, m i • t (i + 1) • gs pk i) = A
  generalize (∑ i ∈ Finset.range n, m i • T (i + 1) • gs pk i) = B
  generalize (∑ i ∈ Finset.range n, (r * (s i * T (i + 1))) • pk.pk.delta_g1) = C
  abel

end

end SDkg
end Verif
