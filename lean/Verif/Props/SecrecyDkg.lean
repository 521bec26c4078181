/-
Properties C66 and C67: secrecy of ciphertexts under a distributedly generated key, against all parties but one.
-/
import Verif.Lemmas.SecDkg
import Verif.Props.SecrecyProof

namespace Verif
open Spec

variable {E : Engine}

namespace Sec

theorem fkeygenPartial_ok_inv {R : RngCore E} {st : R.σ} {b : UInt8} {gens : EncryptionGens E}
    {g_i : List E.G1} {D C : E.G1} {out} (h : fkeygenPartial R st b gens g_i D C = .ok out) :
    ∃ n, chunksCount E.fr b = .ok n ∧ n.toNat ≤ g_i.length := by
  unfold fkeygenPartial at h
  obtain ⟨n, hn, h⟩ := Res.bind_eq_ok.mp h
  refine ⟨n, hn, ?_⟩
  by_contra hc
  rw [if_pos (by omega)] at h
  cases h

/-- any joint secrets and encryption scalars occur for some draws of the honest party -/
theorem reachDkg (n N K : ℕ) (hK : 2 * n + 1 + N ≤ K) (s t r : ℕ → E.Fr) :
    ∃ x : Fin K → E.Fr, (∀ i < n, tapeOf x i = s i) ∧ (∀ i < n + 1, tapeOf x (n + i) = t i) ∧
      ∀ c < N, tapeOf x (2 * n + 1 + c) = r c := by
  refine ⟨fun j => if j.1 < n then s j.1 else if j.1 < 2 * n + 1 then t (j.1 - n) else
    r (j.1 - (2 * n + 1)), ?_, ?_, ?_⟩
  · intro i hi
    unfold tapeOf
    rw [dif_pos (by omega)]
    dsimp only
    rw [if_pos (by omega)]
  · intro i hi
    unfold tapeOf
    rw [dif_pos (by omega)]
    dsimp only
    rw [if_neg (by omega), if_pos (by omega), Nat.add_sub_cancel_left]
  · intro i hi
    unfold tapeOf
    rw [dif_pos (by omega)]
    dsimp only
    rw [if_neg (by omega), if_neg (by omega), Nat.add_sub_cancel_left]

section views
variable (n : ℕ) (g : ℕ → E.G1) (D C : E.G1) (H : E.G2) (o1 o2 : List (Party E)) (pub1 : List E.G1)
  (pub2 : List E.G2)

/-- key material as a function of the joint secrets -/
def preD1 (S T : ℕ → E.Fr) : List E.G1 :=
  pub1 ++ dkgElems1 n g D C H (optParties o1 o2) (fun i => S i - othersS o1 o2 i) (fun i => T i - othersT n o1 o2 i)
    S T

def preD2 (_S T _v : ℕ → E.Fr) (_rho : E.Fr) : List E.G2 :=
  pub2 ++ dkgElems2 n H (optParties o1 o2) (fun i => T i - othersT n o1 o2 i) T

/-- and of the tape -/
def tpreD1 (f : ℕ → E.Fr) : List E.G1 :=
  pub1 ++ dkgElems1 n g D C H (optParties o1 o2) f (fun i => f (n + i))
    (fun i => f i + othersS o1 o2 i) (fun i => f (n + i) + othersT n o1 o2 i)

def tpreD2 (f : ℕ → E.Fr) : List E.G2 :=
  pub2 ++ dkgElems2 n H (optParties o1 o2) (fun i => f (n + i)) (fun i => f (n + i) + othersT n o1 o2 i)

theorem tpreD1_eq (f : ℕ → E.Fr) : tpreD1 n g D C H o1 o2 pub1 f =
    preD1 n g D C H o1 o2 pub1 (fun i => f i + othersS o1 o2 i) (fun i => f (n + i) + othersT n o1 o2 i) := by
  unfold tpreD1 preD1
  simp only [add_sub_cancel_right]

theorem tpreD2_eq (f S v : ℕ → E.Fr) (rho : E.Fr) : tpreD2 n H o1 o2 pub2 f =
    preD2 n H o1 o2 pub2 S (fun i => f (n + i) + othersT n o1 o2 i) v rho := by
  unfold tpreD2 preD2
  simp only [add_sub_cancel_right]

theorem preD1_congr {S S' T T' : ℕ → E.Fr} (hS : ∀ i < n, S i = S' i) (hT : ∀ i < n + 1, T i = T' i) :
    preD1 n g D C H o1 o2 pub1 S T = preD1 n g D C H o1 o2 pub1 S' T' := by
  unfold preD1
  rw [dkgElems1_congr n g D C H _ (fun i hi => by rw [hS i hi]) (fun i hi => by rw [hT i hi]) hS hT]

theorem preD2_congr {S S' T T' v v' : ℕ → E.Fr} {rho rho' : E.Fr} (hT : ∀ i < n + 1, T i = T' i) :
    preD2 n H o1 o2 pub2 S T v rho = preD2 n H o1 o2 pub2 S' T' v' rho' := by
  unfold preD2
  rw [dkgElems2_congr n H _ (fun i hi => by rw [hT i hi]) hT]

theorem blocks_congr {s s' t t' r r' : ℕ → E.Fr} (h : List (List UInt16)) (hs : ∀ i < n, s i = s' i)
    (ht : ∀ i < n + 1, t i = t' i) (hr : ∀ c < h.length, r c = r' c) :
    Sec.blocks n g D C H s t r h = Sec.blocks n g D C H s' t' r' h := by
  unfold Sec.blocks
  rw [encKey_congr' g D C H hs ht, tab_congr fun c hc => by rw [hr c hc]]

theorem poly_shift {K : ℕ} (i : ℕ) (c : E.Fr) :
    Agm.PolyOn (fun _ => True) 1 fun x : Fin K → E.Fr => tapeOf x i + c :=
  (poly_tape i).add (Agm.PolyOn.const _ _)

theorem vpolyL_tpreD1 {K : ℕ} : VPolyL 2 fun x : Fin K → E.Fr => tpreD1 n g D C H o1 o2 pub1 (tapeOf x) :=
  VPolyL.append (VPolyL.const _ _) (vpolyL_dkg1 n g D C H _ (fun _ => poly_tape _) (fun _ => poly_tape _)
    (fun _ => poly_shift _ _) (fun _ => poly_shift _ _))

theorem vpolyL_tpreD2 {K : ℕ} : VPolyL 2 fun x : Fin K → E.Fr => tpreD2 n H o1 o2 pub2 (tapeOf x) :=
  VPolyL.append (VPolyL.const _ _) (vpolyL_dkg2 n H _ (fun _ => poly_tape _) (fun _ => poly_shift _ _))

theorem shape_preD2 (k : ℕ → E.Fr) : Shape fun s t v rho => comb k (preD2 n H o1 o2 pub2 s t v rho) :=
  Shape.ofT fun t => comb k (preD2 n H o1 o2 pub2 t t t 0)

end views

/-! ### With proofs -/

section withProof
variable (n : ℕ) (g : ℕ → E.G1) (gens : EncryptionGens E) (g0 D C : E.G1) (alpha beta gamma delta : E.Fr)
  (mc : E.Fr → ℕ → ℕ) (x0 y0 : E.Fr → E.Fr) (o1 o2 : List (Party E)) (pub1 : List E.G1) (pub2 : List E.G2)

def dviewP1 (f : ℕ → E.Fr) (h : List E.Fr) : List E.G1 :=
  tpreD1 n g D C gens.H o1 o2 pub1 f ++ (tab h.length fun c => blockP n g gens g0 D C alpha beta gamma delta
    (fun i => f i + othersS o1 o2 i) (fun i => f (n + i) + othersT n o1 o2 i) (mc (h.getD c 0))
    (f (2 * n + 1 + 3 * c)) (x0 (h.getD c 0) + f (2 * n + 1 + (3 * c + 1)) * delta)
    (y0 (h.getD c 0) + f (2 * n + 1 + (3 * c + 2)) * delta)).flatten

def dviewP2 (f : ℕ → E.Fr) (h : List E.Fr) : List E.G2 :=
  tpreD2 n gens.H o1 o2 pub2 f ++ tab h.length fun c =>
    (y0 (h.getD c 0) + f (2 * n + 1 + (3 * c + 2)) * delta) • gens.H

theorem vpolyL_blockP {K : ℕ} {s t : (Fin K → E.Fr) → ℕ → E.Fr} {r x y : (Fin K → E.Fr) → E.Fr}
    (hs : ∀ i, Agm.PolyOn (fun _ => True) 1 fun x => s x i)
    (ht : ∀ i, Agm.PolyOn (fun _ => True) 1 fun x => t x i) (hr : Agm.PolyOn (fun _ => True) 1 r)
    (hx : Agm.PolyOn (fun _ => True) 1 x) (hy : Agm.PolyOn (fun _ => True) 1 y) (m : ℕ → ℕ) :
    VPolyL 3 fun w => blockP n g gens g0 D C alpha beta gamma delta (s w) (t w) m (r w) (x w) (y w) := by
  have hf : VPolyL 3 fun w => flat (cipher (encKey n (s w) (t w) g D C gens.H) g m (r w)) :=
    vpolyL_flat n g D C gens.H hs ht hr _
  have hsum : VPoly 3 fun w => componentSum (cipher (encKey n (s w) (t w) g D C gens.H) g m (r w)) := by
    refine (hf.comb fun i => if i < n + 1 then 1 else 0).congr fun w => ?_
    have := pairSum_componentSum n g D C (LinearMap.lsmul E.Fr E.G1).flip (s w) (t w) m (r w) gens.H (1 : E.Fr)
    simp only [LinearMap.flip_apply, LinearMap.lsmul_apply, one_smul] at this
    exact this.symm
  unfold blockP proofC
  refine VPolyL.append hf (VPolyL.cons (VPoly.term _ _ (hx.mono (by omega))) (VPolyL.cons ?_ VPolyL.nil))
  have h1 : VPoly 3 fun w => (x w * y w - alpha * beta) • gens.G :=
    VPoly.term _ _ ((hx.mul hy (by omega)).sub (Agm.PolyOn.const _ _))
  have h3 := VPoly.smul (Agm.PolyOn.const 0 (-gamma)) (hsum.add (VPoly.const 3 g0)) (by omega : 0 + 3 ≤ 3)
  refine (VPoly.smul (Agm.PolyOn.const 0 delta⁻¹) (h1.add h3) (by omega : 0 + 3 ≤ 3)).congr fun x => ?_
  rw [neg_smul, ← sub_eq_add_neg]

theorem poly_affine {K : ℕ} (w : E.Fr) (j : ℕ) :
    Agm.PolyOn (fun _ => True) 1 fun x : Fin K → E.Fr => w + tapeOf x j * delta :=
  (Agm.PolyOn.const 1 w).add ((poly_tape j).mul (Agm.PolyOn.const 0 delta) (by omega))

theorem vpolyL_dviewP1 {K : ℕ} (h : List E.Fr) : VPolyL 3 fun x : Fin K → E.Fr =>
    dviewP1 n g gens g0 D C alpha beta gamma delta mc x0 y0 o1 o2 pub1 (tapeOf x) h := by
  unfold dviewP1
  refine VPolyL.append ?_ (VPolyL.flatten _ _ fun c _ => ?_)
  · obtain ⟨a, e1, e2⟩ := vpolyL_tpreD1 (K := K) n g D C gens.H o1 o2 pub1
    exact ⟨a, e1, fun i => (e2 i).mono (by omega)⟩
  · exact vpolyL_blockP n g gens g0 D C alpha beta gamma delta (fun _ => poly_shift _ _) (fun _ => poly_shift _ _)
      (poly_tape _) (poly_affine _ _ _) (poly_affine _ _ _) _

theorem vpolyL_dviewP2 {K : ℕ} (h : List E.Fr) : VPolyL 2 fun x : Fin K → E.Fr =>
    dviewP2 n gens delta y0 o1 o2 pub2 (tapeOf x) h := by
  unfold dviewP2
  refine VPolyL.append (vpolyL_tpreD2 _ _ _ _ _) (VPolyL.tab _ _ fun c _ => ?_)
  exact VPoly.term _ _ ((poly_affine _ _ _).mono (by omega))

theorem question_transfer_dkg (hD : D ≠ 0) (hdel : delta ≠ 0) (h2 : (2 : E.Fr) ≠ 0) (o1 o2 : List (Party E))
    (pub1 : List E.G1)
    (pub2 : List E.G2) (q : Question E) (h h' : List E.Fr) (hlen : h'.length = h.length) (K : ℕ)
    (hK : 2 * n + 1 + 3 * h.length ≤ K)
    (hall : ∀ x : Fin K → E.Fr, q.Yes
      (dviewP1 n g gens g0 D C alpha beta gamma delta mc x0 y0 o1 o2 pub1 (tapeOf x) h)
      (dviewP2 n gens delta y0 o1 o2 pub2 (tapeOf x) h)) (f : ℕ → E.Fr) :
    q.Yes (dviewP1 n g gens g0 D C alpha beta gamma delta mc x0 y0 o1 o2 pub1 f h')
      (dviewP2 n gens delta y0 o1 o2 pub2 f h') := by
  unfold dviewP1 dviewP2
  rw [hlen, tpreD1_eq, tpreD2_eq _ _ _ _ _ _ (fun _ => 0) (fun _ => 0) 0]
  refine question_transferPG n g D C gens g0 alpha beta gamma delta hD h2
    (preD1 n g D C gens.H o1 o2 pub1) _ (fun s t => by rw [preD1, List.length_append, length_dkgElems1])
    (preD2 n gens.H o1 o2 pub2) _ (fun s t v rho => by rw [preD2, List.length_append, length_dkgElems2])
    (shape_preD2 _ _ _ _ _) q h.length
    (fun c => mc (h.getD c 0)) (fun c => mc (h'.getD c 0))
    (fun c => x0 (h'.getD c 0) + f (2 * n + 1 + (3 * c + 1)) * delta)
    (fun c => y0 (h'.getD c 0) + f (2 * n + 1 + (3 * c + 2)) * delta)
    (fun s t v rho r => ?_) _ _ (fun _ => 0) 0 (fun c => f (2 * n + 1 + 3 * c))
  obtain ⟨x, e1, e2, e4⟩ := reachDkg n (3 * h.length) K hK (fun i => s i - othersS o1 o2 i)
    (fun i => t i - othersT n o1 o2 i) (fun j =>
    if j % 3 = 0 then r (j / 3) else if j % 3 = 1 then
      (x0 (h'.getD (j / 3) 0) + f (2 * n + 1 + (3 * (j / 3) + 1)) * delta - x0 (h.getD (j / 3) 0)) * delta⁻¹ else
      (y0 (h'.getD (j / 3) 0) + f (2 * n + 1 + (3 * (j / 3) + 2)) * delta - y0 (h.getD (j / 3) 0)) * delta⁻¹)
  have d0 : ∀ c, 3 * c % 3 = 0 ∧ 3 * c / 3 = c := fun c => by omega
  have d1 : ∀ c, (3 * c + 1) % 3 = 1 ∧ (3 * c + 1) / 3 = c := fun c => by omega
  have d2 : ∀ c, (3 * c + 2) % 3 = 2 ∧ (3 * c + 2) / 3 = c := fun c => by omega
  have e1' : ∀ i < n, tapeOf x i + othersS o1 o2 i = s i := fun i hi => by
    rw [e1 i hi, sub_add_cancel]
  have e2' : ∀ i < n + 1, tapeOf x (n + i) + othersT n o1 o2 i = t i :=
    fun i hi => by rw [e2 i hi, sub_add_cancel]
  have hr : ∀ c < h.length, tapeOf x (2 * n + 1 + 3 * c) = r c := fun c hc => by
    rw [e4 (3 * c) (by omega), (d0 c).1, (d0 c).2, if_pos rfl]
  have hx : ∀ c < h.length, x0 (h.getD c 0) + tapeOf x (2 * n + 1 + (3 * c + 1)) * delta =
      x0 (h'.getD c 0) + f (2 * n + 1 + (3 * c + 1)) * delta := by
    intro c hc
    rw [e4 (3 * c + 1) (by omega), (d1 c).1, (d1 c).2, if_neg (by omega), if_pos rfl,
      inv_mul_cancel_right₀ hdel]
    ring
  have hy : ∀ c < h.length, y0 (h.getD c 0) + tapeOf x (2 * n + 1 + (3 * c + 2)) * delta =
      y0 (h'.getD c 0) + f (2 * n + 1 + (3 * c + 2)) * delta := by
    intro c hc
    rw [e4 (3 * c + 2) (by omega), (d2 c).1, (d2 c).2, if_neg (by omega), if_neg (by omega),
      inv_mul_cancel_right₀ hdel]
    ring
  have := hall x
  unfold dviewP1 dviewP2 at this
  rw [tpreD1_eq, tpreD2_eq _ _ _ _ _ _ (fun _ => 0) (fun _ => 0) 0, preD1_congr _ _ _ _ _ _ _ _ e1' e2',
    preD2_congr (S' := s) (v' := v) (rho' := rho) _ _ _ _ _ e2',
    tab_congr (f := fun c => (y0 (h.getD c 0) + tapeOf x (2 * n + 1 + (3 * c + 2)) * delta) • gens.H)
      (g := fun c => (y0 (h'.getD c 0) + f (2 * n + 1 + (3 * c + 2)) * delta) • gens.H)
      (fun c hc => by rw [hy c hc])] at this
  unfold blockP at this ⊢
  rw [encKey_congr' g D C gens.H e1' e2'] at this
  have hb := tab_congr (n := h.length) (f := fun c => flat (cipher (encKey n s t g D C gens.H) g (mc (h.getD c 0))
      (tapeOf x (2 * n + 1 + 3 * c))) ++ [(x0 (h.getD c 0) + tapeOf x (2 * n + 1 + (3 * c + 1)) * delta) • gens.G,
      proofC gens g0 alpha beta gamma delta (cipher (encKey n s t g D C gens.H) g (mc (h.getD c 0))
        (tapeOf x (2 * n + 1 + 3 * c))) (x0 (h.getD c 0) + tapeOf x (2 * n + 1 + (3 * c + 1)) * delta)
        (y0 (h.getD c 0) + tapeOf x (2 * n + 1 + (3 * c + 2)) * delta)])
    (g := fun c => flat (cipher (encKey n s t g D C gens.H) g (mc (h.getD c 0))
      (r c)) ++ [(x0 (h'.getD c 0) + f (2 * n + 1 + (3 * c + 1)) * delta) • gens.G,
      proofC gens g0 alpha beta gamma delta (cipher (encKey n s t g D C gens.H) g (mc (h.getD c 0))
        (r c)) (x0 (h'.getD c 0) + f (2 * n + 1 + (3 * c + 1)) * delta)
        (y0 (h'.getD c 0) + f (2 * n + 1 + (3 * c + 2)) * delta)])
    (fun c hc => by rw [hr c hc, hx c hc, hy c hc])
  rw [hb] at this
  exact this

end withProof
end Sec

open Sec in
/-- **C66** Ciphertexts under a distributedly generated key hide their messages from all parties but one.  One
party is honest, i.e. draws its secrets at random; the secrets of all others are arbitrary constants (known to
the adversary, who may be chosen depending on them), and so are the positions of the parties in the order of
combination.  The adversary sees all partial keys, all `P_1` shares and the final key, and receives encryptions.
Among the `p^K` choices of the honest party's and the encryptors' draws, the number of those on which it guesses
"right" differs between the two games by at most `5 Q p^(K-1)`. -/
theorem C66_secrecy_against_coalition (b n : UInt8) (hn : chunksCount E.fr b = .ok n) (gens : EncryptionGens E)
    (g_i : List E.G1) (D C : E.G1) (hD : D ≠ 0) (others1 others2 : List (Party E))
    (pub1 : List E.G1) (pub2 : List E.G2)
    (A : Adversary E (List UInt16)) (hA : A.Fair fun m m' => m.length = m'.length)
    (K : ℕ) (hK : 2 * n.toNat + 1 + A.challenges ≤ K) (side : Bool) :
    rightGuessesDkg K side b gens g_i D C others1 others2 pub1 pub2 A ≤
      rightGuessesDkg K (!side) b gens g_i D C others1 others2 pub1 pub2 A +
        5 * A.questions * E.fr.p ^ (K - 1) := by
  unfold rightGuessesDkg
  classical
  by_cases hg : n.toNat ≤ g_i.length
  swap
  · have hbad : ∀ right f, experimentDkg right b gens g_i D C others1 others2 pub1 pub2 A f = false := by
      intro right f
      unfold experimentDkg
      split
      · next h =>
          obtain ⟨n', h1, h2⟩ := fkeygenPartial_ok_inv h
          rw [hn] at h1
          cases h1
          exact absurd h2 hg
      · rfl
    simp [hbad]
  have hplay : ∀ right (x : Fin K → E.Fr) (A : Adversary E (List UInt16)) (h : List (List UInt16)),
      play right (encKey n.toNat (fun i => tapeOf x i + othersS others1 others2 i)
          (fun i => tapeOf x (n.toNat + i) + othersT n.toNat others1 others2 i) (fun i => g_i.getD i 0) D C gens.H)
        g_i (tpreD2 n.toNat gens.H others1 others2 pub2 (tapeOf x)) A
        (fun i => tapeOf x (2 * n.toNat + 1 + h.length + i))
        (tpreD1 n.toNat (fun i => g_i.getD i 0) D C gens.H others1 others2 pub1 (tapeOf x) ++
          Sec.blocks n.toNat (fun i => g_i.getD i 0) D C gens.H (fun i => tapeOf x i + othersS others1 others2 i)
            (fun i => tapeOf x (n.toNat + i) + othersT n.toNat others1 others2 i)
            (fun c => tapeOf x (2 * n.toNat + 1 + c)) h) =
      run (fun m => decide (m.length = n.toNat)) (fun h q (x : Fin K → E.Fr) => decide (q.Yes
        (tpreD1 n.toNat (fun i => g_i.getD i 0) D C gens.H others1 others2 pub1 (tapeOf x) ++
          Sec.blocks n.toNat (fun i => g_i.getD i 0) D C gens.H (fun i => tapeOf x i + othersS others1 others2 i)
            (fun i => tapeOf x (n.toNat + i) + othersT n.toNat others1 others2 i)
            (fun c => tapeOf x (2 * n.toNat + 1 + c)) h)
        (tpreD2 n.toNat gens.H others1 others2 pub2 (tapeOf x)))) right A h x := by
    intro right x A
    have hn256 := n.toNat_lt
    generalize n.toNat = n at hg hn256 ⊢
    induction A with
    | guess b => exact fun h => rfl
    | ask q yes no ihy ihn =>
      intro h
      simp only [play, run, decide_eq_true_eq]
      rw [ihy, ihn]
    | challenge m0 m1 next ih =>
      intro h
      simp only [play, run, decide_eq_true_eq]
      generalize (if right = true then m1 else m0) = m
      by_cases hm : m.length = n
      · have henc := encryptDecomposed_ok (tape E) (fun i => tapeOf x (2 * n + 1 + h.length + i)) m
          (encKey n (fun i => tapeOf x i + othersS others1 others2 i)
            (fun i => tapeOf x (n + i) + othersT n others1 others2 i) (fun i => g_i.getD i 0) D C gens.H) g_i
          (encKey_wf _ _ _ _ _ _ _) (by simpa [encKey] using hn256)
          (by simpa [encKey] using hm) (by simpa [encKey] using hg)
        rw [if_pos hm, henc]
        rw [← ih (h ++ [m])]
        dsimp only
        congr 1
        · rw [after_tape]
          funext i
          rw [List.length_append, List.length_singleton]
          congr 1
          omega
        · rw [List.append_assoc]
          congr 1
          unfold Sec.blocks
          rw [List.length_append, List.length_singleton, tab_succ_last, List.flatten_append]
          congr 1
          · refine congrArg List.flatten (tab_congr fun c hc => ?_)
            rw [List.getD_append _ _ _ _ hc]
          · rw [List.getD_append_right _ _ _ _ le_rfl, Nat.sub_self, draw_tape]
            simp
      · rw [if_neg hm]
        have : ∀ out, encryptDecomposedMessage (tape E) (fun i => tapeOf x (2 * n + 1 + h.length + i)) m
            (encKey n (fun i => tapeOf x i + othersS others1 others2 i)
            (fun i => tapeOf x (n + i) + othersT n others1 others2 i) (fun i => g_i.getD i 0) D C gens.H)
            g_i ≠ .ok out := by
          rintro ⟨⟨v, r⟩, f'⟩ hc
          have := (encryptDecomposed_inv hc).2.2.1
          exact hm (by simpa [encKey] using this)
        split
        · next h1 => exact absurd h1 (this _)
        · rfl
  have hrun : ∀ right (x : Fin K → E.Fr),
      experimentDkg right b gens g_i D C others1 others2 pub1 pub2 A (tapeOf x) = _ :=
    fun right x => by
      refine Eq.trans ?_ (hplay right x A [])
      obtain ⟨keys, shares, ek, ht, hek, h1, h2⟩ := dkg_elems others1 others2 (tapeOf x) gens g_i D C hn hg
      unfold experimentDkg
      rw [ht, fkeygenPartial_eq (tape E) (tapeOf x) gens g_i D C hn hg]
      simp only
      rw [List.append_assoc, List.append_assoc, List.append_assoc, ← List.append_assoc _ _ (keyElems1 ek), h1, h2,
        hek]
      congr 1
      · rw [after_tape]
        funext i
        congr 1
        simp
        omega
      · simp [tpreD1, Sec.blocks, tab]
  obtain ⟨d, h0, h1⟩ := run_close (X := Fin K → E.Fr) (fun m => decide (m.length = n.toNat))
    (fun h q (x : Fin K → E.Fr) => decide (q.Yes
        (tpreD1 n.toNat (fun i => g_i.getD i 0) D C gens.H others1 others2 pub1 (tapeOf x) ++
          Sec.blocks n.toNat (fun i => g_i.getD i 0) D C gens.H (fun i => tapeOf x i + othersS others1 others2 i)
            (fun i => tapeOf x (n.toNat + i) + othersT n.toNat others1 others2 i)
            (fun c => tapeOf x (2 * n.toNat + 1 + c)) h)
        (tpreD2 n.toNat gens.H others1 others2 pub2 (tapeOf x))))
    A.challenges (5 * E.fr.p ^ (K - 1))
    (by
      intro h q _ _ hx
      obtain ⟨x0, hx0⟩ := hx
      simp only [decide_eq_true_eq, decide_eq_false_iff_not] at hx0 ⊢
      refine question_sparse (a := 3) (b := 2) (VPolyL.append ?_ (VPolyL.flatten _ _ fun c _ => ?_))
        (vpolyL_tpreD2 _ _ _ _ _) (by omega) q x0 hx0
      · obtain ⟨a, e1, e2⟩ := vpolyL_tpreD1 (K := K) n.toNat (fun i => g_i.getD i 0) D C gens.H others1 others2 pub1
        exact ⟨a, e1, fun i => (e2 i).mono (by omega)⟩
      · exact vpolyL_flat _ _ D C gens.H (fun i => poly_shift _ _) (fun i => poly_shift _ _) (poly_tape _) _)
    (by
      intro hB h h' q _ _ hl hlen hall x
      have h2 := two_ne_zero_of_card (K := K) (by omega) hB
      simp only [decide_eq_true_eq] at hall ⊢
      rw [tpreD1_eq, tpreD2_eq _ _ _ _ _ _ (fun _ => 0) (fun _ => 0) 0]
      refine question_transferG n.toNat _ D C gens.H hD h2
        (preD1 n.toNat (fun i => g_i.getD i 0) D C gens.H others1 others2 pub1) _
        (fun s t => by rw [preD1, List.length_append, length_dkgElems1])
        (preD2 n.toNat gens.H others1 others2 pub2) (shape_preD2 _ _ _ _ _) q h h' hlen (fun s t v rho r => ?_)
        _ _ (fun _ => 0) 0 _
      obtain ⟨x, e1, e2, e3⟩ := reachDkg n.toNat A.challenges K hK (fun i => s i - othersS others1 others2 i)
        (fun i => t i - othersT n.toNat others1 others2 i) r
      have e1' : ∀ i < n.toNat, tapeOf x i + othersS others1 others2 i = s i := fun i hi => by
        rw [e1 i hi, sub_add_cancel]
      have e2' : ∀ i < n.toNat + 1, tapeOf x (n.toNat + i) + othersT n.toNat others1 others2 i = t i :=
        fun i hi => by rw [e2 i hi, sub_add_cancel]
      have := hall x
      rw [tpreD1_eq, tpreD2_eq _ _ _ _ _ _ (fun _ => 0) (fun _ => 0) 0, preD1_congr _ _ _ _ _ _ _ _ e1' e2',
        preD2_congr (S' := s) (v' := v) (rho' := rho) _ _ _ _ _ e2'] at this
      rw [blocks_congr n.toNat _ D C gens.H h e1' e2' (r' := r) (fun c hc => e3 c (by omega))] at this
      exact this)
    A (fair_mono (fun m m' (h : m.length = m'.length) => by simp only [h]) A hA) le_rfl
  simp only [hrun]
  have e : A.questions * (5 * E.fr.p ^ (K - 1)) = 5 * A.questions * E.fr.p ^ (K - 1) := by ring
  rw [e] at h0 h1
  cases side with
  | false => exact close_of_default h0 h1
  | true => exact close_of_default h1 h0

/-- The key in the transcript is the key `dkg` returns. -/
theorem C66_transcript_is_dkg (parties : List (Party E)) (b : UInt8) (gens : EncryptionGens E) (g_i : List E.G1)
    (D C : E.G1) (ek : EncryptionKey E) :
    (∃ keys shares, dkgTranscript parties b gens g_i D C = .ok (keys, shares, ek)) ↔
      ∃ sks, dkg parties b gens g_i D C = .ok (sks, ek) := by
  unfold dkgTranscript dkg
  constructor
  · rintro ⟨keys, shares, h⟩
    obtain ⟨outs, h1, h⟩ := Res.bind_eq_ok.mp h
    obtain ⟨ek1, h2, h⟩ := Res.bind_eq_ok.mp h
    obtain ⟨sh, h3, h⟩ := Res.bind_eq_ok.mp h
    obtain ⟨p1, h4, h⟩ := Res.bind_eq_ok.mp h
    simp only [Res.pure_eq, Res.ok.injEq, Prod.mk.injEq] at h
    rw [h1, Res.ok_bind, h2, Res.ok_bind, h3, Res.ok_bind, h4, Res.ok_bind, h.2.2]
    exact ⟨_, rfl⟩
  · rintro ⟨sks, h⟩
    obtain ⟨outs, h1, h⟩ := Res.bind_eq_ok.mp h
    obtain ⟨ek1, h2, h⟩ := Res.bind_eq_ok.mp h
    obtain ⟨sh, h3, h⟩ := Res.bind_eq_ok.mp h
    obtain ⟨p1, h4, h⟩ := Res.bind_eq_ok.mp h
    simp only [Res.pure_eq, Res.ok.injEq, Prod.mk.injEq] at h
    rw [h1, Res.ok_bind, h2, Res.ok_bind, h3, Res.ok_bind, h4, Res.ok_bind, h.2]
    exact ⟨_, _, rfl⟩

namespace Sec

theorem play_alwaysRight (n : ℕ) (hn : n < 256) (side : Bool) (ek : EncryptionKey E) (hw : WellFormed ek)
    (hX : ek.X.length = n) (g_i : List E.G1) (hg : n ≤ g_i.length) (A : Adversary E (List UInt16))
    (hA : A.AlwaysRight) (hF : A.Fair fun m m' => m.length = n ∧ m'.length = n) (v2 : List E.G2) (f : ℕ → E.Fr)
    (v1 : List E.G1) : play side ek g_i v2 A f v1 = true := by
  induction A generalizing f v1 with
  | guess b => exact hA
  | ask q yes no ihy ihn =>
    simp only [play]
    rw [ihy hA.1 hF.1, ihn hA.2 hF.2, ite_self]
  | challenge m0 m1 next ih =>
    simp only [play]
    have henc := encryptDecomposed_ok (tape E) f (if side = true then m1 else m0) ek g_i hw
      (by omega) (by cases side <;> simp [hF.1.1, hF.1.2, hX]) (by omega)
    rw [henc]
    exact ih hA hF.2 _ _

end Sec

open Sec in
/-- With parameters that fit, no run of the experiment aborts. -/
theorem C66_no_abort (b n : UInt8) (hn : chunksCount E.fr b = .ok n) (gens : EncryptionGens E)
    (g_i : List E.G1) (hgn : n.toNat ≤ g_i.length) (D C : E.G1) (others1 others2 : List (Party E))
    (pub1 : List E.G1) (pub2 : List E.G2)
    (A : Adversary E (List UInt16)) (hA : A.AlwaysRight)
    (hF : A.Fair fun m m' => m.length = n.toNat ∧ m'.length = n.toNat) (K : ℕ) (side : Bool) :
    rightGuessesDkg K side b gens g_i D C others1 others2 pub1 pub2 A = E.fr.p ^ K := by
  classical
  have hall : ∀ f, experimentDkg side b gens g_i D C others1 others2 pub1 pub2 A f = true := by
    intro f
    obtain ⟨keys, shares, ek, ht, hek, -, -⟩ := dkg_elems others1 others2 f gens g_i D C hn hgn
    unfold experimentDkg
    rw [ht, fkeygenPartial_eq (tape E) f gens g_i D C hn hgn]
    exact play_alwaysRight n.toNat n.toNat_lt side ek (by rw [hek]; exact encKey_wf _ _ _ _ _ _ _)
      (by rw [hek]; simp [encKey]) g_i hgn A hA hF _ _ _
  unfold rightGuessesDkg
  simp only [hall]
  simp

open Sec in
/-- **C67** The same when every ciphertext is published with its proof: for every SRS (its trapdoors may be known
to the adversary), all parties but one may collude. -/
theorem C67_coalition_with_proofs (T : FftCfg E.Fr) (R : RngCore E) (fuel : ℕ) (st st' : R.σ)
    (b n : UInt8) (hb : Supported b) (hn : chunksCount E.fr b = .ok n)
    (hal : 64 * E.fr.limbs < E.fr.modBits + b.toNat ∧ chunksNeeded E.fr b.toNat ≤ 255)
    (c0 : BitsizeCheckCircuit E.fr) (gens : EncryptionGens E) (pk : ProvingKey E)
    (hc0 : BitsizeCheckCircuit.new (K := E.fr) b none none true = .ok c0)
    (hsrs : generateSrs T R fuel st c0.generateConstraints gens = .ok (pk, st'))
    (hG : gens.G ≠ 0) (hH : gens.H ≠ 0) (chk : Bool) (others1 others2 : List (Party E))
    (pub1 : List E.G1) (pub2 : List E.G2)
    (A : Adversary E E.Fr) (K : ℕ) (hK : 2 * n.toNat + 1 + 3 * A.challenges ≤ K) (side : Bool) :
    rightGuessesDkgWithProof K side T chk b gens pk others1 others2 pub1 pub2 A ≤
      rightGuessesDkgWithProof K (!side) T chk b gens pk others1 others2 pub1 pub2 A +
        5 * A.questions * E.fr.p ^ (K - 1) := by
  classical
  unfold rightGuessesDkgWithProof
  obtain ⟨cs0, d, k, -, -, -, -, -, -, hdel, -, hpk⟩ := srs_inv_draws hsrs
  have hD : pk.pk.delta_g1 ≠ 0 := by
    rw [hpk]
    intro hc
    rcases smul_eq_zero.mp (show draw R st 3 • gens.G = 0 from hc) with h | h
    · exact hdel h
    · exact hG h
  by_cases hgs : ∃ g_i, getGsForEncryption pk.pk.vk = .ok g_i ∧ n.toNat ≤ g_i.length
  swap
  · have hbad : ∀ right f, experimentDkgWithProof right T chk b gens pk others1 others2 pub1 pub2 A f = false := by
      intro right f
      unfold experimentDkgWithProof
      split
      · next g_i hg =>
          split
          · next h =>
              obtain ⟨n', h1, h2⟩ := fkeygenPartial_ok_inv h
              rw [hn] at h1
              cases h1
              exact absurd ⟨g_i, hg, h2⟩ hgs
          · rfl
      · rfl
    simp [hbad]
  obtain ⟨g_i, hg, hgn⟩ := hgs
  choose mc x0 y0 hform using withProof_form T R fuel st st' b n hb hn hal c0 gens pk hc0 hsrs hH g_i hg
  generalize hdelta : draw R st 3 = delta at hform hdel
  have hplay : ∀ right (x : Fin K → E.Fr) (A : Adversary E E.Fr) (h : List E.Fr),
      playWithProof right T chk b pk (encKey n.toNat (fun i => tapeOf x i + othersS others1 others2 i)
          (fun i => tapeOf x (n.toNat + i) + othersT n.toNat others1 others2 i) (fun i => g_i.getD i 0)
          pk.pk.delta_g1 pk.gamma_g1 gens.H) A
        (fun i => tapeOf x (2 * n.toNat + 1 + (3 * h.length + i)))
        (dviewP1 n.toNat (fun i => g_i.getD i 0) gens (pk.pk.vk.gamma_abc_g1.getD 0 0) pk.pk.delta_g1 pk.gamma_g1
          (draw R st 0) (draw R st 1) (draw R st 2) delta mc x0 y0 others1 others2 pub1 (tapeOf x) h)
        (dviewP2 n.toNat gens delta y0 others1 others2 pub2 (tapeOf x) h) =
      run (fun _ => true) (fun h q (x : Fin K → E.Fr) => decide (q.Yes
        (dviewP1 n.toNat (fun i => g_i.getD i 0) gens (pk.pk.vk.gamma_abc_g1.getD 0 0) pk.pk.delta_g1 pk.gamma_g1
          (draw R st 0) (draw R st 1) (draw R st 2) delta mc x0 y0 others1 others2 pub1 (tapeOf x) h)
        (dviewP2 n.toNat gens delta y0 others1 others2 pub2 (tapeOf x) h))) right A h x := by
    intro right x A
    obtain ⟨keys, shares, ek, ht, hek, -, -⟩ := dkg_elems others1 others2 (tapeOf x) gens g_i pk.pk.delta_g1
      pk.gamma_g1 hn hgn
    obtain ⟨sks, hkey⟩ := (C66_transcript_is_dkg _ _ _ _ _ _ _).mp ⟨_, _, ht⟩
    have hfrom : FromSetup ek b gens g_i pk.pk.delta_g1 pk.gamma_g1 := Or.inr ⟨_, _, hkey⟩
    rw [hek] at hfrom
    induction A with
    | guess b => exact fun h => rfl
    | ask q yes no ihy ihn =>
      intro h
      simp only [playWithProof, run, decide_eq_true_eq]
      rw [ihy, ihn]
    | challenge m0 m1 next ih =>
      intro h
      simp only [playWithProof, run, if_true]
      generalize (if right = true then m1 else m0) = m
      have henc := hform m _ hfrom chk (tape E) (fun i => tapeOf x (2 * n.toNat + 1 + (3 * h.length + i)))
      rw [henc, ← ih (h ++ [m])]
      simp only [draw_tape]
      have hlast : ∀ (a : E.Fr), (h ++ [m]).getD h.length a = m := fun a => by
        rw [List.getD_append_right _ _ _ _ le_rfl, Nat.sub_self]
        rfl
      congr 1
      · rw [after_tape]
        funext i
        rw [List.length_append, List.length_singleton]
        congr 1
        omega
      · unfold dviewP1
        rw [List.append_assoc]
        congr 1
        rw [List.length_append, List.length_singleton, tab_succ_last, List.flatten_append]
        congr 1
        · refine congrArg List.flatten (tab_congr fun c hc => ?_)
          simp only [List.getD_append _ _ _ _ hc]
        · simp only [hlast, List.flatten_cons, List.flatten_nil, List.append_nil]
          simp only [blockP, flat, simulate, proofC, add_zero, List.cons_append, List.nil_append,
            List.append_assoc]
      · unfold dviewP2
        rw [List.append_assoc]
        congr 1
        rw [List.length_append, List.length_singleton, tab_succ_last]
        congr 1
        · refine tab_congr fun c hc => ?_
          simp only [List.getD_append _ _ _ _ hc]
        · simp only [hlast]
          rfl
  have hrun : ∀ right (x : Fin K → E.Fr),
      experimentDkgWithProof right T chk b gens pk others1 others2 pub1 pub2 A (tapeOf x) = _ :=
    fun right x => by
      refine Eq.trans ?_ (hplay right x A [])
      obtain ⟨keys, shares, ek, ht, hek, h1, h2⟩ := dkg_elems others1 others2 (tapeOf x) gens g_i pk.pk.delta_g1
        pk.gamma_g1 hn hgn
      unfold experimentDkgWithProof
      rw [hg]
      dsimp only
      rw [ht, fkeygenPartial_eq (tape E) (tapeOf x) gens g_i pk.pk.delta_g1 pk.gamma_g1 hn hgn]
      simp only
      rw [List.append_assoc, List.append_assoc, List.append_assoc, ← List.append_assoc _ _ (keyElems1 ek), h1, h2,
        hek]
      congr 1
      · rw [after_tape]
        funext i
        congr 1
        simp
        omega
      · simp [dviewP1, tpreD1, tab]
      · simp [dviewP2, tpreD2, tab]
  obtain ⟨d, h0, h1⟩ := run_close (X := Fin K → E.Fr) (fun _ => true) (fun h q (x : Fin K → E.Fr) => decide (q.Yes
        (dviewP1 n.toNat (fun i => g_i.getD i 0) gens (pk.pk.vk.gamma_abc_g1.getD 0 0) pk.pk.delta_g1 pk.gamma_g1
          (draw R st 0) (draw R st 1) (draw R st 2) delta mc x0 y0 others1 others2 pub1 (tapeOf x) h)
        (dviewP2 n.toNat gens delta y0 others1 others2 pub2 (tapeOf x) h)))
    A.challenges (5 * E.fr.p ^ (K - 1))
    (by
      intro h q _ _ hx
      obtain ⟨x0', hx0⟩ := hx
      simp only [decide_eq_true_eq, decide_eq_false_iff_not] at hx0 ⊢
      exact question_sparse (vpolyL_dviewP1 _ _ _ _ _ _ _ _ _ _ _ _ _ _ _ _ h)
        (vpolyL_dviewP2 _ _ _ _ _ _ _ h) (by omega) q x0' hx0)
    (by
      intro hB h h' q _ _ hl hlen hall x
      have h2 := two_ne_zero_of_card (K := K) (by omega) hB
      simp only [decide_eq_true_eq] at hall ⊢
      exact question_transfer_dkg n.toNat _ gens _ _ _ _ _ _ _ mc x0 y0 hD hdel h2 others1 others2 pub1 pub2 q h h'
        hlen K (by omega) hall _)
    A (fair_mono (P := fun _ _ => True) (fun _ _ _ => rfl) A (fair_true A)) le_rfl
  simp only [hrun]
  have e : A.questions * (5 * E.fr.p ^ (K - 1)) = 5 * A.questions * E.fr.p ^ (K - 1) := by ring
  rw [e] at h0 h1
  cases side with
  | false => exact close_of_default h0 h1
  | true => exact close_of_default h1 h0

open Sec in
/-- With parameters that fit, no run of the experiment aborts. -/
theorem C67_no_abort (T : FftCfg E.Fr) (R : RngCore E) (fuel : ℕ) (st st' : R.σ)
    (b n : UInt8) (hb : Supported b) (hn : chunksCount E.fr b = .ok n)
    (hal : 64 * E.fr.limbs < E.fr.modBits + b.toNat ∧ chunksNeeded E.fr b.toNat ≤ 255)
    (c0 : BitsizeCheckCircuit E.fr) (gens : EncryptionGens E) (pk : ProvingKey E)
    (hc0 : BitsizeCheckCircuit.new (K := E.fr) b none none true = .ok c0)
    (hsrs : generateSrs T R fuel st c0.generateConstraints gens = .ok (pk, st'))
    (hH : gens.H ≠ 0) (g_i : List E.G1) (hg : getGsForEncryption pk.pk.vk = .ok g_i) (hgn : n.toNat ≤ g_i.length)
    (chk : Bool) (others1 others2 : List (Party E)) (pub1 : List E.G1) (pub2 : List E.G2)
    (A : Adversary E E.Fr) (hA : A.AlwaysRight) (K : ℕ) (side : Bool) :
    rightGuessesDkgWithProof K side T chk b gens pk others1 others2 pub1 pub2 A = E.fr.p ^ K := by
  classical
  choose mc x0 y0 hform using withProof_form T R fuel st st' b n hb hn hal c0 gens pk hc0 hsrs hH g_i hg
  have hplay : ∀ (ek : EncryptionKey E) (_ : FromSetup ek b gens g_i pk.pk.delta_g1 pk.gamma_g1)
      (A : Adversary E E.Fr) (_ : A.AlwaysRight) f v1 v2,
      playWithProof side T chk b pk ek A f v1 v2 = true := by
    intro ek hk A
    induction A with
    | guess b => exact fun h f v1 v2 => h
    | ask q yes no ihy ihn =>
      intro h f v1 v2
      simp only [playWithProof]
      rw [ihy h.1, ihn h.2, ite_self]
    | challenge m0 m1 next ih =>
      intro h f v1 v2
      simp only [playWithProof]
      have henc := hform (if side = true then m1 else m0) ek hk chk (tape E) f
      rw [henc]
      exact ih h _ _ _
  have hall : ∀ f, experimentDkgWithProof side T chk b gens pk others1 others2 pub1 pub2 A f = true := by
    intro f
    obtain ⟨keys, shares, ek, ht, -, -, -⟩ := dkg_elems others1 others2 f gens g_i pk.pk.delta_g1 pk.gamma_g1 hn hgn
    obtain ⟨sks, hkey⟩ := (C66_transcript_is_dkg _ _ _ _ _ _ _).mp ⟨_, _, ht⟩
    unfold experimentDkgWithProof
    rw [hg]
    dsimp only
    rw [ht, fkeygenPartial_eq (tape E) f gens g_i pk.pk.delta_g1 pk.gamma_g1 hn hgn]
    exact hplay _ (Or.inr ⟨_, _, hkey⟩) A hA _ _ _
  unfold rightGuessesDkgWithProof
  simp only [hall]
  simp

/-- C66 on concrete data: the two parties of `Fix` and a third, honest one between them -/
example : rightGuessesDkg 11 true 16 Fix.gens Fix.gi Fix.D Fix.C [⟨listRng Fix.E, Fix.st1⟩]
      [⟨listRng Fix.E, Fix.st2⟩] [] [] Fix.adv ≤
    rightGuessesDkg 11 false 16 Fix.gens Fix.gi Fix.D Fix.C [⟨listRng Fix.E, Fix.st1⟩]
      [⟨listRng Fix.E, Fix.st2⟩] [] [] Fix.adv + 10 * Fix.E.fr.p ^ 10 ∧
    rightGuessesDkg 11 true 16 Fix.gens Fix.gi Fix.D Fix.C [⟨listRng Fix.E, Fix.st1⟩]
      [⟨listRng Fix.E, Fix.st2⟩] [] [] (.challenge Fix.m1 Fix.m2 (.guess true)) = Fix.E.fr.p ^ 11 := by
  constructor
  · have h := C66_secrecy_against_coalition (E := Fix.E) 16 4 Fix.count Fix.gens Fix.gi Fix.D Fix.C
      (show (17 : Fix.F) ≠ 0 by decide +kernel) [⟨listRng Fix.E, Fix.st1⟩]
      [⟨listRng Fix.E, Fix.st2⟩] [] [] Fix.adv ⟨rfl, trivial, rfl, trivial, trivial⟩ 11
      (by decide) true
    have hq : 5 * Fix.adv.questions = 10 := rfl
    rw [hq, Bool.not_true, show 11 - 1 = 10 from rfl] at h
    generalize Fix.E.fr.p ^ 10 = N at h ⊢
    exact h
  · have h := C66_no_abort (E := Fix.E) 16 4 Fix.count Fix.gens Fix.gi (by decide) Fix.D Fix.C
      [⟨listRng Fix.E, Fix.st1⟩] [⟨listRng Fix.E, Fix.st2⟩] [] []
      (.challenge Fix.m1 Fix.m2 (.guess true)) rfl ⟨⟨rfl, rfl⟩, trivial⟩ 11 true
    generalize Fix.E.fr.p ^ 11 = N at h ⊢
    exact h

/-- the hypotheses of C67 are met by the SRS for 8-bit chunks -/
example : ∃ pk : ProvingKey Fix.E,
    (rightGuessesDkgWithProof 40 true goldFft true 8 Fix.gens pk [⟨listRng Fix.E, Fix.st1⟩]
        [⟨listRng Fix.E, Fix.st2⟩] [] [] Fix.advP ≤
      rightGuessesDkgWithProof 40 false goldFft true 8 Fix.gens pk [⟨listRng Fix.E, Fix.st1⟩]
        [⟨listRng Fix.E, Fix.st2⟩] [] [] Fix.advP + 10 * Fix.E.fr.p ^ 39) ∧
    rightGuessesDkgWithProof 40 true goldFft true 8 Fix.gens pk [⟨listRng Fix.E, Fix.st1⟩]
        [⟨listRng Fix.E, Fix.st2⟩] [] [] (.challenge (5 : Fix.F) (6 : Fix.F) (.guess true))
      = Fix.E.fr.p ^ 40 := by
  obtain ⟨c0, pk, ek, g_i, st1, -, hc0, hsrs, hg, hgi, hlen, hk⟩ := Fix.run8
  have hG : Fix.gens.G ≠ 0 := by exact (by decide +kernel : (2 : Fix.F) ≠ 0)
  have hH : Fix.gens.H ≠ 0 := by exact (by decide +kernel : (3 : Fix.F) ≠ 0)
  refine ⟨pk, ?_, ?_⟩
  · have h := C67_coalition_with_proofs goldFft (listRng Fix.E) 1 Fix.stFull8 st1 8 8 (Or.inr (Or.inl rfl)) Fix.count8
      Fix.aligned8 c0 Fix.gens pk hc0 hsrs hG hH true [⟨listRng Fix.E, Fix.st1⟩]
        [⟨listRng Fix.E, Fix.st2⟩] [] [] Fix.advP 40 (by decide) true
    have hq : 5 * Fix.advP.questions = 10 := rfl
    rw [hq, Bool.not_true, show 40 - 1 = 39 from rfl] at h
    generalize Fix.E.fr.p ^ 39 = N at h ⊢
    exact h
  · have h := C67_no_abort goldFft (listRng Fix.E) 1 Fix.stFull8 st1 8 8 (Or.inr (Or.inl rfl)) Fix.count8
      Fix.aligned8 c0 Fix.gens pk hc0 hsrs hH g_i hg (by rw [Fix.eight]; exact hlen) true [⟨listRng Fix.E, Fix.st1⟩]
        [⟨listRng Fix.E, Fix.st2⟩] [] []
      (.challenge (5 : Fix.F) (6 : Fix.F) (.guess true)) rfl 40 true
    generalize Fix.E.fr.p ^ 40 = N at h ⊢
    exact h

end Verif
