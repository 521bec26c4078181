/-
Helper lemmas for C90: an adaptive adversary against a distributed key, turned into one against a single key.
-/
import Verif.SpecNmDkg
import Verif.Lemmas.NmAdapt
import Verif.Props.SoundDkg
import Verif.Props.AdaptiveDkg

namespace Verif
open Spec

/-! ### Provers that see derived elements -/

theorem Span.All.trans {Ω F G : Type} [Field F] [AddCommGroup G] [Module F G] {L l l' : Ω → List G}
    (h : Span.All F L l) (h' : Span.All F l l') : Span.All F L l' := by
  refine ⟨h'.1, fun i => ?_⟩
  obtain ⟨k, hk⟩ := h'.2 i
  exact (h.comb k).congr hk

namespace Adapt
variable {E : Engine} {α β : Type}

/-- the same prover with other questions and another output -/
def mapProver (φq : Question E → Question E) (φ : α → β) : Prover E α → Prover E β
  | .output a => .output (φ a)
  | .ask q yes no => .ask (φq q) (mapProver φq φ yes) (mapProver φq φ no)

theorem mapProver_questions (φq : Question E → Question E) (φ : α → β) (A : Prover E α) :
    (mapProver φq φ A).questions = A.questions := by
  induction A with
  | output a => rfl
  | ask q yes no h1 h2 => simp only [mapProver, Prover.questions, h1, h2]

theorem mapProver_choice (φq : Question E → Question E) (φ : α → β) (A : Prover E α) (V1 l1 : List E.G1)
    (V2 l2 : List E.G2) (h : ∀ q, (φq q).Yes V1 V2 ↔ q.Yes l1 l2) :
    (mapProver φq φ A).choice V1 V2 = φ (A.choice l1 l2) := by
  induction A with
  | output a => rfl
  | ask q yes no h1 h2 =>
    simp only [mapProver, Prover.choice, h1, h2]
    by_cases hq : q.Yes l1 l2
    · rw [if_pos hq, if_pos ((h q).mpr hq)]
    · rw [if_neg hq, if_neg (mt (h q).mp hq)]

/-- the same strategy with other coefficients -/
def mapStrategy (c1 c2 : (ℕ → E.Fr) → ℕ → E.Fr) (S : Strategy E.Fr) : Strategy E.Fr where
  x := c1 S.x
  len := S.len
  chunk i := c1 (S.chunk i)
  psi := c1 S.psi
  a := c1 S.a
  b := c2 S.b
  c := c1 S.c

/-- A prover that is shown fixed combinations of the elements of `L1`, `L2` can be replaced by one that is shown
these. -/
theorem pull_prover {Ω : Type} {L1 l1 : Ω → List E.G1} {L2 l2 : Ω → List E.G2} (h1 : Span.All E.Fr L1 l1)
    (h2 : Span.All E.Fr L2 l2) (A : Prover E (Strategy E.Fr)) :
    ∃ A' : Prover E (Strategy E.Fr), A'.questions = A.questions ∧ ∀ ω,
      A'.cipher (L1 ω) (L2 ω) = A.cipher (l1 ω) (l2 ω) ∧ A'.proof (L1 ω) (L2 ω) = A.proof (l1 ω) (l2 ω) := by
  choose φq hq using Span.pull h1 h2
  choose c1 hc1 using fun k => h1.comb k
  choose c2 hc2 using fun k => h2.comb k
  refine ⟨mapProver φq (mapStrategy c1 c2) A, mapProver_questions _ _ _, fun ω => ?_⟩
  have e := mapProver_choice φq (mapStrategy c1 c2) A (L1 ω) (l1 ω) (L2 ω) (l2 ω) fun q => hq q ω
  have e1 : ∀ k, comb (c1 k) (L1 ω) = comb k (l1 ω) := fun k => (hc1 k ω).symm
  have e2 : ∀ k, comb (c2 k) (L2 ω) = comb k (l2 ω) := fun k => (hc2 k ω).symm
  unfold Prover.cipher Prover.proof
  rw [e]
  unfold Strategy.cipher Strategy.proof mapStrategy
  simp only [e1, e2, and_self]

end Adapt

namespace NmDkg
open Verif.Span Sec SDkg
variable {E : Engine}

section
variable {pk0 : ProvingKey E} (gens : EncryptionGens E) (n : ℕ) (o1 o2 : List (Party E))

/-- the honest party's `t`, given the joint one -/
def sh (ω : Env pk0) : Env pk0 := { ω with t := fun i => ω.t i - othersT n o1 o2 i }

/-- the lengths of the published lists are fixed -/
theorem len_L1 : ∃ N, ∀ ω : Env pk0, (L1 gens n ω).length = N := by
  obtain ⟨⟨M, hM⟩, -⟩ := (pieces (pk0 := pk0) gens n).1
  refine ⟨M + (1 + (n + (1 + (n + 1)))), fun ω => ?_⟩
  unfold L1
  have := hM ω
  beta_reduce at this
  rw [public1_split, List.length_append, this]
  simp [key, encKey]
  omega

theorem len_L2 : ∃ N, ∀ ω : Env pk0, (L2 gens n ω).length = N := by
  refine ⟨4 + pk0.pk.b_g2_query.length + ((n + 1) + (1 + (n + n))), fun ω => ?_⟩
  unfold L2 public2
  simp only [List.length_append, ω.same.2.2.2.2.2]
  simp [key, encKey, decKey]
  omega

/-- a change of `t` by fixed amounts -/
theorem all_shift (δ : ℕ → E.Fr) :
    All E.Fr (L1 (pk0 := pk0) gens n) fun ω => L1 gens n { ω with t := fun i => ω.t i + δ i } := by
  have h := all_D1 (pk0 := pk0) gens n [⟨tape E, fun j => δ (j - n)⟩] []
  have hT : othersT n [(⟨tape E, fun j => δ (j - n)⟩ : Party E)] [] = δ := by
    funext i
    simp only [othersT, sumT, List.map_cons, List.map_nil, List.sum_cons, List.sum_nil, add_zero]
    rw [Adapt.partyT_tape]
    dsimp only
    rw [Nat.add_sub_cancel_left]
  obtain ⟨N, hN⟩ := len_L1 (pk0 := pk0) gens n
  unfold D1 at h
  rw [hT] at h
  exact h.left (N := N) fun ω => hN { ω with t := fun i => ω.t i + δ i }

theorem all_D1_sh : All E.Fr (L1 (pk0 := pk0) gens n) fun ω => D1 gens n o1 o2 (sh n o1 o2 ω) := by
  have h := all_shift (pk0 := pk0) gens n fun i => - othersT n o1 o2 i
  refine Span.All.trans (h.congr fun ω => ?_) ((all_D1 (pk0 := pk0) gens n o1 o2).comp (sh n o1 o2))
  simp only [sh, sub_eq_add_neg]

theorem all_D2_sh : All E.Fr (L2 (pk0 := pk0) gens n) fun ω => D2 gens n o1 o2 (sh n o1 o2 ω) := by
  obtain ⟨hp, hH, hZ⟩ := pieces2 (pk0 := pk0) gens n
  unfold D2
  refine All.append (hp.congr fun _ => rfl) (All.append (All.tab fun i hi => ?_) (All.flattenMap _ fun o _ => ?_))
  · refine (hZ i hi).congr fun ω => ?_
    simp only [sh, sub_add_cancel]
  · cases o with
    | none =>
      refine All.tab fun i hi => ((hZ i hi).sub (hH.smul (othersT n o1 o2 i))).congr fun ω => ?_
      simp only [oT, sh, sub_smul]
    | some P => exact All.tab fun i hi => hH.smul (partyT n P i)

/-- honest ciphertexts and proofs of the right shape -/
abbrev Lists (E : Engine) (n q : ℕ) : Type :=
  {l : List (Ciphertext E × Proof E) // l.length = q ∧ ∀ p ∈ l, p.1.enc_chunks.length = n}

theorem len_seen (q : ℕ) (l : Lists E n q) :
    (seen1 l.1).length = q * (n + 4) ∧ (seen2 l.1).length = q := by
  obtain ⟨l, rfl, hl⟩ := l
  refine ⟨?_, by simp [seen2]⟩
  dsimp only
  induction l with
  | nil => simp [seen1]
  | cons a l ih =>
    have e : seen1 (a :: l) = Nm.blockOf a ++ seen1 l := by
      unfold seen1
      rw [List.map_cons, List.flatten_cons]
      rfl
    rw [e, List.length_append, (Nm.blockOf_getD a n (hl a (by simp))).1, ih fun p hp => hl p (by simp [hp]),
      List.length_cons]
    ring

/-- The adversary against the single key. -/
theorem exists_adversary (q : ℕ) (A : Prover E (Strategy E.Fr)) :
    ∃ A' : Prover E (Strategy E.Fr), A'.questions = A.questions ∧ ∀ (ω : Env pk0) (l : Lists E n q),
      A'.cipher (L1 gens n ω ++ seen1 l.1) (L2 gens n ω ++ seen2 l.1) =
        A.cipher (D1 gens n o1 o2 (sh n o1 o2 ω) ++ seen1 l.1) (D2 gens n o1 o2 (sh n o1 o2 ω) ++ seen2 l.1) ∧
      A'.proof (L1 gens n ω ++ seen1 l.1) (L2 gens n ω ++ seen2 l.1) =
        A.proof (D1 gens n o1 o2 (sh n o1 o2 ω) ++ seen1 l.1) (D2 gens n o1 o2 (sh n o1 o2 ω) ++ seen2 l.1) := by
  obtain ⟨N1, hN1⟩ := len_L1 (pk0 := pk0) gens n
  obtain ⟨N2, hN2⟩ := len_L2 (pk0 := pk0) gens n
  let Ω := Env pk0 × Lists E n q
  have h1 : All E.Fr (fun ω : Ω => L1 gens n ω.1 ++ seen1 ω.2.1) (fun ω : Ω => L1 gens n ω.1 ++ seen1 ω.2.1) :=
    All.refl (N := N1 + q * (n + 4)) fun ω => by rw [List.length_append, hN1, (len_seen n q ω.2).1]
  have h2 : All E.Fr (fun ω : Ω => L2 gens n ω.1 ++ seen2 ω.2.1) (fun ω : Ω => L2 gens n ω.1 ++ seen2 ω.2.1) :=
    All.refl (N := N2 + q) fun ω => by rw [List.length_append, hN2, (len_seen n q ω.2).2]
  have k1 := (Span.All.trans (h1.left fun ω => hN1 ω.1) ((all_D1_sh (pk0 := pk0) gens n o1 o2).comp
    (fun ω : Ω => ω.1))).append (h1.right fun ω => hN1 ω.1)
  have k2 := (Span.All.trans (h2.left fun ω => hN2 ω.1) ((all_D2_sh (pk0 := pk0) gens n o1 o2).comp
    (fun ω : Ω => ω.1))).append (h2.right fun ω => hN2 ω.1)
  obtain ⟨A', hq, h⟩ := Adapt.pull_prover k1 k2 A
  exact ⟨A', hq, fun ω l => h (ω, l)⟩

end

/-! ### The tapes -/

/-- the tape of a single setup whose key is the joint one; `z` is what distributed key generation does not draw -/
def merge2 (n : ℕ) (S T : ℕ → E.Fr) (f z : ℕ → E.Fr) (j : ℕ) : E.Fr :=
  if j < 5 then f j
  else if j = 5 then z 0
  else if j < 6 + n then f (j - 1) + S (j - 6)
  else if j < 7 + 2 * n then f (j - 1) + T (j - (6 + n))
  else if j < 7 + 3 * n then z (j - (7 + 2 * n) + 1)
  else f (j - (n + 1))

variable (n : ℕ) (S T f z : ℕ → E.Fr)

theorem merge2_lt {j : ℕ} (h : j < 5) : merge2 n S T f z j = f j := by
  unfold merge2
  rw [if_pos h]

theorem merge2_5 : merge2 n S T f z 5 = z 0 := by
  unfold merge2
  rw [if_neg (by omega), if_pos rfl]

theorem merge2_s {i : ℕ} (h : i < n) : merge2 n S T f z (6 + i) = f (5 + i) + S i := by
  unfold merge2
  rw [if_neg (by omega), if_neg (by omega), if_pos (by omega), Nat.add_sub_cancel_left,
    show 6 + i - 1 = 5 + i by omega]

theorem merge2_t {i : ℕ} (h : i < n + 1) : merge2 n S T f z (6 + n + i) = f (5 + (n + i)) + T i := by
  unfold merge2
  rw [if_neg (by omega), if_neg (by omega), if_neg (by omega), if_pos (by omega), Nat.add_sub_cancel_left,
    show 6 + n + i - 1 = 5 + (n + i) by omega]

theorem merge2_v {i : ℕ} (h : i < n) : merge2 n S T f z (7 + 2 * n + i) = z (i + 1) := by
  unfold merge2
  rw [if_neg (by omega), if_neg (by omega), if_neg (by omega), if_neg (by omega), if_pos (by omega),
    Nat.add_sub_cancel_left]

theorem merge2_u (i : ℕ) : merge2 n S T f z (7 + 3 * n + i) = f (6 + 2 * n + i) := by
  unfold merge2
  rw [if_neg (by omega), if_neg (by omega), if_neg (by omega), if_neg (by omega), if_neg (by omega)]
  congr 1
  omega

theorem tapeOf_merge2 (q : ℕ) (x : Fin (6 + 2 * n + 3 * q) → E.Fr) (z : Fin (n + 1) → E.Fr) :
    (tapeOf fun j : Fin (7 + 3 * n + 3 * q) => merge2 n S T (tapeOf x) (tapeOf z) j) =
      merge2 n S T (tapeOf x) (tapeOf z) := by
  funext j
  by_cases hj : j < 7 + 3 * n + 3 * q
  · rw [tapeOf, dif_pos hj]
  · rw [tapeOf, dif_neg hj]
    have := merge2_u n S T (tapeOf x) (tapeOf z) (j - (7 + 3 * n))
    rw [show 7 + 3 * n + (j - (7 + 3 * n)) = j by omega] at this
    rw [this, tapeOf, dif_neg (by omega)]

theorem merge2_inj (q : ℕ) (x x' : Fin (6 + 2 * n + 3 * q) → E.Fr) (z z' : Fin (n + 1) → E.Fr)
    (h : (fun j : Fin (7 + 3 * n + 3 * q) => merge2 n S T (tapeOf x) (tapeOf z) j) =
      fun j : Fin (7 + 3 * n + 3 * q) => merge2 n S T (tapeOf x') (tapeOf z') j) : (x, z) = (x', z') := by
  have hj : ∀ j < 7 + 3 * n + 3 * q, merge2 n S T (tapeOf x) (tapeOf z) j = merge2 n S T (tapeOf x') (tapeOf z') j :=
    fun j hj => congrFun h ⟨j, hj⟩
  have get : ∀ {K : ℕ} (y : Fin K → E.Fr) (i : Fin K), tapeOf y i.1 = y i := by
    intro K y i
    rw [tapeOf, dif_pos i.2]
  refine Prod.ext (funext fun i => ?_) (funext fun i => ?_)
  · dsimp only
    rw [← get x i, ← get x' i]
    have hi := i.2
    by_cases h5 : i.1 < 5
    · have := hj i.1 (by omega)
      rwa [merge2_lt _ _ _ _ _ h5, merge2_lt _ _ _ _ _ h5] at this
    · by_cases hs : i.1 < 5 + n
      · have := hj (6 + (i.1 - 5)) (by omega)
        rw [merge2_s _ _ _ _ _ (by omega), merge2_s _ _ _ _ _ (by omega), show 5 + (i.1 - 5) = i.1 by omega] at this
        exact add_right_cancel this
      · by_cases ht : i.1 < 6 + 2 * n
        · have := hj (6 + n + (i.1 - (5 + n))) (by omega)
          rw [merge2_t _ _ _ _ _ (by omega), merge2_t _ _ _ _ _ (by omega),
            show 5 + (n + (i.1 - (5 + n))) = i.1 by omega] at this
          exact add_right_cancel this
        · have := hj (7 + 3 * n + (i.1 - (6 + 2 * n))) (by omega)
          rwa [merge2_u, merge2_u, show 6 + 2 * n + (i.1 - (6 + 2 * n)) = i.1 by omega] at this
  · dsimp only
    rw [← get z i, ← get z' i]
    have hi := i.2
    by_cases h0 : i.1 = 0
    · have := hj 5 (by omega)
      rw [merge2_5, merge2_5] at this
      rw [h0]
      exact this
    · have := hj (7 + 2 * n + (i.1 - 1)) (by omega)
      rwa [merge2_v _ _ _ _ _ (by omega), merge2_v _ _ _ _ _ (by omega), Nat.sub_add_cancel (by omega)] at this

/-- events of the distributed game that imply an event of the single-key game are as rare -/
theorem count_le (q : ℕ) (A : (ℕ → E.Fr) → Prop) (B : (ℕ → E.Fr) → Prop)
    (h : ∀ f z, A f → B (merge2 n S T f z)) :
    {x : Fin (6 + 2 * n + 3 * q) → E.Fr | A (tapeOf x)}.ncard * E.fr.p ^ (n + 1) ≤
      {g : Fin (7 + 3 * n + 3 * q) → E.Fr | B (tapeOf g)}.ncard := by
  have hcard : (Set.univ : Set (Fin (n + 1) → E.Fr)).ncard = E.fr.p ^ (n + 1) := by
    rw [Set.ncard_univ, Nat.card_eq_fintype_card, Fintype.card_fun, Fintype.card_fin]
    congr 1
    exact ZMod.card _
  rw [← hcard, ← Set.ncard_prod]
  refine Set.ncard_le_ncard_of_injOn (fun xz : (Fin (6 + 2 * n + 3 * q) → E.Fr) × (Fin (n + 1) → E.Fr) =>
      fun j : Fin (7 + 3 * n + 3 * q) => merge2 n S T (tapeOf xz.1) (tapeOf xz.2) j) ?_ ?_ (Set.toFinite _)
  · rintro ⟨x, z⟩ ⟨hx, -⟩
    show B (tapeOf _)
    dsimp only
    rw [tapeOf_merge2 n S T q x z]
    exact h _ _ hx
  · rintro ⟨x, z⟩ - ⟨x', z'⟩ - h
    exact merge2_inj n S T q x x' z z' h

theorem pow_split (q : ℕ) (p : ℕ) : p ^ (6 + 3 * n + 3 * q) = p ^ (5 + 2 * n + 3 * q) * p ^ (n + 1) := by
  rw [← pow_add]
  congr 1
  omega

end NmDkg
end Verif
