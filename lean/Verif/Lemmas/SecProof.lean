/-
Helper lemmas for C65: what `encrypt_with_proof` publishes, as a function of its random draws.
-/
import Verif.Lemmas.SecGame
import Verif.Props.Verified
import Verif.Props.Secrecy

namespace Verif
open Spec

namespace Sec
variable {E : Engine}

/-- For a fixed SRS and message: the chunks, and the two shifts `wA`, `wB` such that, for every key and every
generator state, `encrypt_with_proof` returns the ciphertext of these chunks for the first draw, and the
simulated proof at `(alpha + wA + t delta, beta + wB + s delta)` for the next two draws `t`, `s`. -/
theorem withProof_form (T : FftCfg E.Fr) (R : RngCore E) (fuel : ℕ) (st st' : R.σ)
    (b n : UInt8) (hb : Supported b) (hn : chunksCount E.fr b = .ok n)
    (hal : 64 * E.fr.limbs < E.fr.modBits + b.toNat ∧ chunksNeeded E.fr b.toNat ≤ 255)
    (c0 : BitsizeCheckCircuit E.fr) (gens : EncryptionGens E) (pk : ProvingKey E)
    (hc0 : BitsizeCheckCircuit.new (K := E.fr) b none none true = .ok c0)
    (hsrs : generateSrs T R fuel st c0.generateConstraints gens = .ok (pk, st')) (hH : gens.H ≠ 0)
    (g_i : List E.G1) (hg : getGsForEncryption pk.pk.vk = .ok g_i) (m : E.Fr) :
    ∃ (mc : ℕ → ℕ) (x0 y0 : E.Fr), ∀ (ek : EncryptionKey E)
      (_ : FromSetup ek b gens g_i pk.pk.delta_g1 pk.gamma_g1) (chk : Bool) (R' : RngCore E) (st1 : R'.σ),
      encryptWithProof T chk R' st1 m ek pk b = .ok ((cipher ek (fun i => g_i.getD i 0) mc (draw R' st1 0),
        draw R' st1 0, simulate gens pk.pk.vk (draw R st 0) (draw R st 1) (draw R st 2) (draw R st 3)
          (cipher ek (fun i => g_i.getD i 0) mc (draw R' st1 0))
          (x0 + draw R' st1 1 * draw R st 3) (y0 + draw R' st1 2 * draw R st 3)), after R' st1 3) := by
  obtain ⟨cs0, d, k, hcs0, hd, -, hvan, -, hgam, hdel, -, hpk⟩ := srs_inv_draws hsrs
  obtain ⟨ds, hds, hlen, hlt, -⟩ := decompose_spec m hb
  have hl := (decomp_len_eq_iff E.fr b n hb hn).mpr hal
  obtain ⟨hbm, hnum⟩ := srs_bitsize_le hc0 hsrs hn
  obtain ⟨c, hc⟩ : ∃ c, BitsizeCheckCircuit.new (K := E.fr) b none
      (some (ds.map fun c => ((c.toNat : ℕ) : E.Fr))) true = .ok c := by
    unfold BitsizeCheckCircuit.new
    simp only [hn, Res.ok_bind]
    exact ⟨_, rfl⟩
  obtain ⟨a1, -, a3, -, -⟩ := new_ok hc0
  obtain ⟨b1, b2, b3, -, -⟩ := new_ok hc
  obtain ⟨wA, wB, hab⟩ := groth16_complete_ab T c0 c gens cs0 d (draw R st (4 + k)) (draw R st 0)
    (draw R st 1) (draw R st 2) (draw R st 3) hcs0 hd hvan hgam hdel (a1.trans b1.symm)
    (by rw [b1]; exact hbm) a3 b3 _ b2 (by rw [hnum, List.length_map]; omega)
    (by
      intro x hx
      obtain ⟨y, hy, rfl⟩ := List.mem_map.mp hx
      rw [ZMod.val_natCast, b1]
      exact lt_of_le_of_lt (Nat.mod_le _ _) (hlt y hy))
  refine ⟨fun i => (nums ds).getD i 0, draw R st 0 + wA, draw R st 1 + wB, fun ek hk chk R' st1 => ?_⟩
  obtain ⟨n', s, t, hn', hgn, hek⟩ := fromSetup_inv hk
  rw [hn] at hn'
  cases hn'
  have hX : ek.X.length = n.toNat := by rw [hek]; simp [encKey]
  have hw : WellFormed ek := by rw [hek]; exact encKey_wf _ _ _ _ _ _ _
  have hX256 : ek.X.length < 256 := by rw [hX]; exact n.toNat_lt
  have h1 := encryptDecomposed_ok R' st1 ds ek g_i hw hX256 (by omega) (by omega)
  have h2 := encrypt_ok R' st1 m ek g_i b hds hw hX256 (by omega) (by omega)
  obtain ⟨proof0, h0, -, ha, hbb⟩ := hab chk (draw R' st1 1) (draw R' st1 2)
  obtain ⟨ct', proof, st4, hv, hp, hver⟩ := C46_chunk_level T R fuel st st' b c0 gens pk hc0 hsrs g_i hg
    ek hk R' st1 _ ds _ _ h1 hlt none c hc chk R' (after R' st1 1)
  have hct := flat_inj hv
  subst hct
  have hver' : verifyProof (prepareVerifyingKey pk.pk.vk) proof
      (cipher ek (fun i => g_i.getD i 0) (fun i => (nums ds).getD i 0) (draw R' st1 0)) = .ok () := by
    unfold Ciphertext.verifyCommitmentAndProof at hver
    obtain ⟨_, _, h⟩ := Res.bind_eq_ok.mp hver
    exact h
  have hrun : createProof T chk R' (after R' st1 1) c.generateConstraints (draw R' st1 0) pk ek =
      .ok ({ proof0 with c := proof0.c + draw R' st1 0 • ek.P_2 }, after R' st1 3) := by
    show (createProofWithReduction T chk c.generateConstraints pk.pk (draw R' (after R' st1 1) 0)
      (draw R' (after R' (after R' st1 1) 1) 0) >>= _) = _
    have h0' : createProofWithReduction T chk c.generateConstraints pk.pk (draw R' (after R' st1 1) 0)
        (draw R' (after R' (after R' st1 1) 1) 0) = .ok proof0 := by
      rw [hpk, draw_after, after_after, draw_after]; exact h0
    rw [h0', Res.ok_bind, mulBigint_intoBigint]
    rfl
  have hpe : ({ proof0 with c := proof0.c + draw R' st1 0 • ek.P_2 } : Proof E) = simulate gens pk.pk.vk
      (draw R st 0) (draw R st 1) (draw R st 2) (draw R st 3)
      (cipher ek (fun i => g_i.getD i 0) (fun i => (nums ds).getD i 0) (draw R' st1 0))
      (draw R st 0 + wA + draw R' st1 1 * draw R st 3) (draw R st 1 + wB + draw R' st1 2 * draw R st 3) := by
    rw [hrun] at hp
    simp only [Res.ok.injEq, Prod.mk.injEq] at hp
    have hne := (getGs_inv hg).1
    rw [← hp.1, ha, hbb, hpk] at hver'
    rw [hpk] at hne
    have := (verifyProof_srs cs0 d _ _ _ _ _ gens hdel hH hne _ _ _ _).mp hver'
    rw [← hpk] at this
    rw [ha, hbb, this]
    rfl
  unfold encryptWithProof
  rw [hg, Res.ok_bind, h2, Res.ok_bind]
  simp only
  rw [hds, Res.ok_bind, hc, Res.ok_bind, hrun, Res.ok_bind, hpe]
  rfl

/-! ### The views -/

section views
variable (n : ℕ) (g : ℕ → E.G1) (gens : EncryptionGens E) (g0 D C : E.G1) (alpha beta gamma delta : E.Fr)

/-- the third proof element for the ciphertext `ct` at the point `(x, y)` -/
def proofC (ct : Ciphertext E) (x y : E.Fr) : E.G1 :=
  delta⁻¹ • ((x * y - alpha * beta) • gens.G - gamma • (componentSum ct + g0))

/-- the first-group elements of a ciphertext and its proof -/
def blockP (s t : ℕ → E.Fr) (m : ℕ → ℕ) (r x y : E.Fr) : List E.G1 :=
  flat (cipher (encKey n s t g D C gens.H) g m r) ++ [x • gens.G,
    proofC gens g0 alpha beta gamma delta (cipher (encKey n s t g D C gens.H) g m r) x y]

def viewP1 (pub1 : List E.G1) (s t : ℕ → E.Fr) (N : ℕ) (m : ℕ → ℕ → ℕ) (r x y : ℕ → E.Fr) : List E.G1 :=
  pub1 ++ keyElems1 (encKey n s t g D C gens.H) ++
    (tab N fun c => blockP n g gens g0 D C alpha beta gamma delta s t (m c) (r c) (x c) (y c)).flatten

def viewP2 (pub2 : List E.G2) (s t v : ℕ → E.Fr) (rho : E.Fr) (N : ℕ) (y : ℕ → E.Fr) : List E.G2 :=
  pub2 ++ keyElems2 (encKey n s t g D C gens.H) (decKey n rho s v gens.H) ++ tab N fun c => y c • gens.H

theorem blockP_length (s t : ℕ → E.Fr) (m : ℕ → ℕ) (r x y : E.Fr) :
    (blockP n g gens g0 D C alpha beta gamma delta s t m r x y).length = n + 4 := by
  unfold blockP
  rw [List.length_append, flat_cipher_length]
  rfl

section pair
variable {M2 MT : Type} [AddCommGroup M2] [Module E.Fr M2] [AddCommGroup MT] [Module E.Fr MT]
  (β : E.G1 →ₗ[E.Fr] M2 →ₗ[E.Fr] MT)

theorem pairSum_add (B B' : ℕ → M2) (l : List E.G1) :
    pairSum β (fun i => B i + B' i) l = pairSum β B l + pairSum β B' l := by
  simp [pairSum, Finset.sum_add_distrib]

theorem pairSum_componentSum (s t : ℕ → E.Fr) (m : ℕ → ℕ) (r : E.Fr) (H : E.G2) (Z : M2) :
    pairSum β (fun i => if i < n + 1 then Z else 0) (flat (cipher (encKey n s t g D C H) g m r)) =
      β (componentSum (cipher (encKey n s t g D C H) g m r)) Z := by
  have hl : (cipher (encKey n s t g D C H) g m r).enc_chunks.length = n := by simp [cipher, encKey]
  generalize cipher (encKey n s t g D C H) g m r = ct at hl ⊢
  unfold flat componentSum
  rw [pairSum_cons, pairSum_append, pairSum_cons, pairSum_nil, hl, if_pos (by omega), if_neg (by omega), map_zero,
    add_zero, add_zero, map_add, LinearMap.add_apply]
  congr 1
  obtain ⟨f, hf⟩ : ∃ f, ct.enc_chunks = tab n f := ⟨_, eq_tab hl 0⟩
  rw [hf, pairSum_tab, sum_tab, map_sum, LinearMap.sum_apply]
  refine Finset.sum_congr rfl fun i hi => ?_
  rw [if_pos (by have := Finset.mem_range.mp hi; omega)]

theorem pairSum_blockP (s t : ℕ → E.Fr) (m : ℕ → ℕ) (r x y : E.Fr) (B : ℕ → M2) :
    pairSum β B (blockP n g gens g0 D C alpha beta gamma delta s t m r x y) =
      (β (x • gens.G) (B (n + 2)) + β (delta⁻¹ • ((x * y - alpha * beta) • gens.G - gamma • g0)) (B (n + 3))) +
      pairSum β (fun i => B i + if i < n + 1 then -(delta⁻¹ * gamma) • B (n + 3) else 0)
        (flat (cipher (encKey n s t g D C gens.H) g m r)) := by
  have hc : pairSum β (fun i => if i < n + 1 then -(delta⁻¹ * gamma) • B (n + 3) else 0)
      (flat (cipher (encKey n s t g D C gens.H) g m r)) = _ :=
    pairSum_componentSum n g D C β s t m r gens.H (-(delta⁻¹ * gamma) • B (n + 3))
  rw [pairSum_add, hc]
  unfold blockP
  rw [pairSum_append, pairSum_cons, pairSum_cons, pairSum_nil, flat_cipher_length]
  generalize hct : cipher (encKey n s t g D C gens.H) g m r = ct
  have : β (proofC gens g0 alpha beta gamma delta ct x y) (B (n + 3)) =
      β (delta⁻¹ • ((x * y - alpha * beta) • gens.G - gamma • g0)) (B (n + 3)) +
      β (componentSum ct) (-(delta⁻¹ * gamma) • B (n + 3)) := by
    unfold proofC
    simp only [map_add, map_sub, map_smul, LinearMap.add_apply, LinearMap.sub_apply, LinearMap.smul_apply,
      smul_add, smul_sub, neg_smul, mul_smul, map_neg]
    abel
  rw [show n + 2 + (0 + 1) = n + 3 from rfl, this]
  abel

end pair

theorem shape_viewP2 (pub2 : List E.G2) (N : ℕ) (y : ℕ → E.Fr) (k : ℕ → E.Fr) :
    Shape fun s t v rho => comb k (viewP2 n g gens D C pub2 s t v rho N y) := by
  have hl : ∀ s t v rho, (pub2 ++ keyElems2 (encKey n s t g D C gens.H) (decKey n rho s v gens.H)).length =
      pub2.length + (n + 1 + (1 + (n + n))) := by
    intro s t v rho
    simp [keyElems2, encKey, decKey]
    omega
  unfold viewP2
  simp only [comb_append k (_ ++ _), hl]
  exact (shape_view2 n g D C gens.H pub2 k).add (Shape.ofT fun _ => _)

/-- a question answered "yes" identically, whatever the messages -/
theorem question_transferP (hD : D ≠ 0) (h2 : (2 : E.Fr) ≠ 0)
    (pub1 : List E.G1) (pub2 : List E.G2) (q : Question E) (N : ℕ) (m m' : ℕ → ℕ → ℕ) (x y : ℕ → E.Fr)
    (hz : ∀ s t v rho r, q.Yes (viewP1 n g gens g0 D C alpha beta gamma delta pub1 s t N m r x y)
      (viewP2 n g gens D C pub2 s t v rho N y)) :
    ∀ s t v rho r, q.Yes (viewP1 n g gens g0 D C alpha beta gamma delta pub1 s t N m' r x y)
      (viewP2 n g gens D C pub2 s t v rho N y) := by
  have hoff : ∀ s t, (pub1 ++ keyElems1 (encKey n s t g D C gens.H)).length = pub1.length + (3 + (n + n)) := by
    intro s t
    simp [keyElems1, encKey]
    omega
  have main : ∀ {M2 MT : Type} [AddCommGroup M2] [Module E.Fr M2] [AddCommGroup MT] [Module E.Fr MT]
      (β : E.G1 →ₗ[E.Fr] M2 →ₗ[E.Fr] MT) (_ : ∀ b, β D b = 0 → b = 0) (T : MT)
      (B : ℕ → (ℕ → E.Fr) → (ℕ → E.Fr) → (ℕ → E.Fr) → E.Fr → M2) (_ : ∀ j, Shape (B j)),
      (∀ s t v rho r, T + pairSum β (fun j => B j s t v rho)
        (viewP1 n g gens g0 D C alpha beta gamma delta pub1 s t N m r x y) = 0) →
      ∀ s t v rho r, T + pairSum β (fun j => B j s t v rho)
        (viewP1 n g gens g0 D C alpha beta gamma delta pub1 s t N m' r x y) = 0 := by
    intro M2 MT _ _ _ _ β hβ T B hB hz
    have e : ∀ (l : ℕ → ℕ → ℕ) s t v rho (r : ℕ → E.Fr), T + pairSum β (fun j => B j s t v rho)
        (viewP1 n g gens g0 D C alpha beta gamma delta pub1 s t N l r x y) =
        ((T + pairSum β (fun j => B j s t v rho) (pub1 ++ keyElems1 (encKey n s t g D C gens.H))) +
          ∑ c ∈ Finset.range N, (β (x c • gens.G) (B (pub1.length + (3 + (n + n)) + (c * (n + 4) + (n + 2))) s t v rho) +
            β (delta⁻¹ • ((x c * y c - alpha * beta) • gens.G - gamma • g0))
              (B (pub1.length + (3 + (n + n)) + (c * (n + 4) + (n + 3))) s t v rho))) +
        ∑ c ∈ Finset.range N, pairSum β (fun j => B (pub1.length + (3 + (n + n)) + (c * (n + 4) + j)) s t v rho +
            (if j < n + 1 then -(delta⁻¹ * gamma) •
              B (pub1.length + (3 + (n + n)) + (c * (n + 4) + (n + 3))) s t v rho else 0))
          (flat (cipher (encKey n s t g D C gens.H) g (l c) (r c))) := by
      intro l s t v rho r
      unfold viewP1
      rw [pairSum_append, hoff, (pairSum_flatten β _ (n + 4) N _ fun i _ =>
        blockP_length n g gens g0 D C alpha beta gamma delta s t _ _ _ _).1]
      simp only [pairSum_blockP, Finset.sum_add_distrib]
      abel
    simp only [e] at hz ⊢
    refine transfer_sum β n N g D C gens.H hβ h2 (fun c j s t v rho =>
      B (pub1.length + (3 + (n + n)) + (c * (n + 4) + j)) s t v rho +
            (if j < n + 1 then -(delta⁻¹ * gamma) •
              B (pub1.length + (3 + (n + n)) + (c * (n + 4) + (n + 3))) s t v rho else 0)) (fun c j => ?_) _ m m' hz
    by_cases hj : j < n + 1
    · simp only [if_pos hj]
      exact (hB _).add ((hB _).smul fun _ => -(delta⁻¹ * gamma))
    · simp only [if_neg hj, add_zero]
      exact hB _
  cases q with
  | second k => exact fun s t v rho r => hz s t v rho r
  | first k =>
    have e : ∀ l : List E.G1, comb k l = 0 + pairSum (LinearMap.lsmul E.Fr E.G1).flip k l :=
      fun l => (zero_add _).symm
    simp only [Question.Yes, e] at hz ⊢
    intro s t v rho r
    exact main (LinearMap.lsmul E.Fr E.G1).flip (fun b hb => by
      rcases smul_eq_zero.mp (show b • D = 0 from hb) with h | h
      · exact h
      · exact absurd h hD) 0 (fun j _ _ _ _ => k j) (fun j => Shape.ofT fun _ => _)
      (fun s t v rho r => hz s t v rho r) s t v rho r
  | target k T =>
    have e : ∀ (l : List E.G1) (l2 : List E.G2), (∑ i ∈ Finset.range l.length, ∑ j ∈ Finset.range l2.length,
        k i j • E.e (l.getD i 0) (l2.getD j 0)) + T = T + pairSum E.e (fun i => comb (k i) l2) l := by
      intro l l2
      rw [add_comm]
      congr 1
      refine Finset.sum_congr rfl fun i _ => ?_
      unfold comb
      rw [map_sum]
      exact Finset.sum_congr rfl fun j _ => (map_smul _ _ _).symm
    simp only [Question.Yes, e] at hz ⊢
    exact main E.e (fun b hb => (E.nondeg _ _ hb).resolve_left hD) T
      (fun j s t v rho => comb (k j) (viewP2 n g gens D C pub2 s t v rho N y))
      (fun j => shape_viewP2 n g gens D C pub2 N y _) hz

end views

/-! ### Congruence and degrees -/

section game
variable (n : ℕ) (g : ℕ → E.G1) (gens : EncryptionGens E) (g0 D C : E.G1) (alpha beta gamma delta : E.Fr)
  (mc : E.Fr → ℕ → ℕ) (x0 y0 : E.Fr → E.Fr)

/-- the views for given draws and messages -/
def tviewP1 (pub1 : List E.G1) (f : ℕ → E.Fr) (h : List E.Fr) : List E.G1 :=
  viewP1 n g gens g0 D C alpha beta gamma delta pub1 (fun i => f (1 + i)) (fun i => f (1 + n + i)) h.length
    (fun c => mc (h.getD c 0)) (fun c => f (2 + 3 * n + 3 * c))
    (fun c => x0 (h.getD c 0) + f (2 + 3 * n + (3 * c + 1)) * delta)
    (fun c => y0 (h.getD c 0) + f (2 + 3 * n + (3 * c + 2)) * delta)

def tviewP2 (pub2 : List E.G2) (f : ℕ → E.Fr) (h : List E.Fr) : List E.G2 :=
  viewP2 n g gens D C pub2 (fun i => f (1 + i)) (fun i => f (1 + n + i)) (fun i => f (2 + 2 * n + i)) (f 0)
    h.length (fun c => y0 (h.getD c 0) + f (2 + 3 * n + (3 * c + 2)) * delta)

theorem vpolyL_viewP1 {K : ℕ} (pub1 : List E.G1) (h : List E.Fr) :
    VPolyL 3 fun x : Fin K → E.Fr =>
      tviewP1 n g gens g0 D C alpha beta gamma delta mc x0 y0 pub1 (tapeOf x) h := by
  unfold tviewP1 viewP1
  refine VPolyL.append (VPolyL.append (VPolyL.const _ _) ?_) (VPolyL.flatten _ _ fun c _ => ?_)
  · obtain ⟨a, h1, h2⟩ := vpolyL_key1 (K := K) n g D C gens.H (s := fun x i => tapeOf x (1 + i))
      (t := fun x i => tapeOf x (1 + n + i)) (fun i => poly_tape _) (fun i => poly_tape _)
    exact ⟨a, h1, fun i => (h2 i).mono (by omega)⟩
  · have hf : VPolyL 3 fun x : Fin K → E.Fr => flat (cipher (encKey n (fun i => tapeOf x (1 + i))
        (fun i => tapeOf x (1 + n + i)) g D C gens.H) g (mc (h.getD c 0)) (tapeOf x (2 + 3 * n + 3 * c))) :=
      vpolyL_flat n g D C gens.H (fun i => poly_tape _) (fun i => poly_tape _) (poly_tape _) _
    have hx : ∀ (w : E.Fr) j, Agm.PolyOn (fun _ => True) 1 fun x : Fin K → E.Fr => w + tapeOf x j * delta :=
      fun w j => (Agm.PolyOn.const 1 w).add ((poly_tape j).mul (Agm.PolyOn.const 0 delta) (by omega))
    have hsum : VPoly 3 fun x : Fin K → E.Fr => componentSum (cipher (encKey n (fun i => tapeOf x (1 + i))
        (fun i => tapeOf x (1 + n + i)) g D C gens.H) g (mc (h.getD c 0)) (tapeOf x (2 + 3 * n + 3 * c))) := by
      refine (hf.comb fun i => if i < n + 1 then 1 else 0).congr fun x => ?_
      have := pairSum_componentSum n g D C (LinearMap.lsmul E.Fr E.G1).flip (fun i => tapeOf x (1 + i))
        (fun i => tapeOf x (1 + n + i)) (mc (h.getD c 0)) (tapeOf x (2 + 3 * n + 3 * c)) gens.H (1 : E.Fr)
      simp only [LinearMap.flip_apply, LinearMap.lsmul_apply, one_smul] at this
      exact this.symm
    unfold blockP proofC
    refine VPolyL.append hf (VPolyL.cons (VPoly.term _ _ ((hx _ _).mono (by omega))) (VPolyL.cons ?_ VPolyL.nil))
    have h1 : VPoly 3 fun x : Fin K → E.Fr => ((x0 (h.getD c 0) + tapeOf x (2 + 3 * n + (3 * c + 1)) * delta) *
        (y0 (h.getD c 0) + tapeOf x (2 + 3 * n + (3 * c + 2)) * delta) - alpha * beta) • gens.G :=
      VPoly.term _ _ (((hx _ _).mul (hx _ _) (by omega)).sub (Agm.PolyOn.const _ _))
    have h3 := VPoly.smul (Agm.PolyOn.const 0 (-gamma)) (hsum.add (VPoly.const 3 g0)) (by omega : 0 + 3 ≤ 3)
    refine (VPoly.smul (Agm.PolyOn.const 0 delta⁻¹) (h1.add h3) (by omega : 0 + 3 ≤ 3)).congr fun x => ?_
    rw [neg_smul, ← sub_eq_add_neg]

theorem vpolyL_viewP2 {K : ℕ} (pub2 : List E.G2) (h : List E.Fr) :
    VPolyL 2 fun x : Fin K → E.Fr => tviewP2 n g gens D C delta y0 pub2 (tapeOf x) h := by
  unfold tviewP2 viewP2
  refine VPolyL.append (VPolyL.append (VPolyL.const _ _) (vpolyL_key2 n g D C gens.H (fun i => poly_tape _)
    (fun i => poly_tape _) (fun i => poly_tape _) (poly_tape _))) (VPolyL.tab _ _ fun c _ => ?_)
  exact VPoly.term _ _ ((Agm.PolyOn.const _ _).add (((poly_tape _).mul (Agm.PolyOn.const 0 delta)
    (by omega : 1 + 0 ≤ 1)).mono (by omega)))

theorem viewP1_congr {s s' t t' r r' x x' y y' : ℕ → E.Fr} (pub1 : List E.G1) (N : ℕ) (m : ℕ → ℕ → ℕ)
    (hs : ∀ i < n, s i = s' i) (ht : ∀ i < n + 1, t i = t' i) (hr : ∀ c < N, r c = r' c)
    (hx : ∀ c < N, x c = x' c) (hy : ∀ c < N, y c = y' c) :
    viewP1 n g gens g0 D C alpha beta gamma delta pub1 s t N m r x y =
      viewP1 n g gens g0 D C alpha beta gamma delta pub1 s' t' N m r' x' y' := by
  unfold viewP1 blockP
  rw [encKey_congr' g D C gens.H hs ht, tab_congr fun c hc => by rw [hr c hc, hx c hc, hy c hc]]

theorem viewP2_congr {s s' t t' v v' y y' : ℕ → E.Fr} (pub2 : List E.G2) (rho : E.Fr) (N : ℕ)
    (hs : ∀ i < n, s i = s' i) (ht : ∀ i < n + 1, t i = t' i) (hv : ∀ i < n, v i = v' i)
    (hy : ∀ c < N, y c = y' c) :
    viewP2 n g gens D C pub2 s t v rho N y = viewP2 n g gens D C pub2 s' t' v' rho N y' := by
  unfold viewP2
  rw [encKey_congr' g D C gens.H hs ht, decKey_congr' rho gens.H hs hv, tab_congr fun c hc => by rw [hy c hc]]

/-- a question answered "yes" for all draws for one list of messages: so for every other list -/
theorem question_transfer_tape (hD : D ≠ 0) (hdel : delta ≠ 0) (h2 : (2 : E.Fr) ≠ 0) (pub1 : List E.G1)
    (pub2 : List E.G2) (q : Question E) (h h' : List E.Fr) (hlen : h'.length = h.length) (K : ℕ)
    (hK : 2 + 3 * n + 3 * h.length ≤ K)
    (hall : ∀ x : Fin K → E.Fr, q.Yes
      (tviewP1 n g gens g0 D C alpha beta gamma delta mc x0 y0 pub1 (tapeOf x) h)
      (tviewP2 n g gens D C delta y0 pub2 (tapeOf x) h)) (f : ℕ → E.Fr) :
    q.Yes (tviewP1 n g gens g0 D C alpha beta gamma delta mc x0 y0 pub1 f h')
      (tviewP2 n g gens D C delta y0 pub2 f h') := by
  unfold tviewP1 tviewP2
  rw [hlen]
  refine question_transferP n g gens g0 D C alpha beta gamma delta hD h2 pub1 pub2 q h.length
    (fun c => mc (h.getD c 0)) (fun c => mc (h'.getD c 0)) _ _ (fun s t v rho r => ?_) _ _ _ _ _
  obtain ⟨x, e0, e1, e2, e3, e4⟩ := reach n (3 * h.length) K hK s t v (fun j =>
    if j % 3 = 0 then r (j / 3) else if j % 3 = 1 then
      (x0 (h'.getD (j / 3) 0) + f (2 + 3 * n + (3 * (j / 3) + 1)) * delta - x0 (h.getD (j / 3) 0)) * delta⁻¹ else
      (y0 (h'.getD (j / 3) 0) + f (2 + 3 * n + (3 * (j / 3) + 2)) * delta - y0 (h.getD (j / 3) 0)) * delta⁻¹) rho
  have d0 : ∀ c, 3 * c % 3 = 0 ∧ 3 * c / 3 = c := fun c => by omega
  have d1 : ∀ c, (3 * c + 1) % 3 = 1 ∧ (3 * c + 1) / 3 = c := fun c => by omega
  have d2 : ∀ c, (3 * c + 2) % 3 = 2 ∧ (3 * c + 2) / 3 = c := fun c => by omega
  have := hall x
  unfold tviewP1 tviewP2 at this
  have hy : ∀ c < h.length, y0 (h.getD c 0) + tapeOf x (2 + 3 * n + (3 * c + 2)) * delta =
      y0 (h'.getD c 0) + f (2 + 3 * n + (3 * c + 2)) * delta := by
    intro c hc
    rw [e4 (3 * c + 2) (by omega), (d2 c).1, (d2 c).2, if_neg (by omega), if_neg (by omega),
      inv_mul_cancel_right₀ hdel]
    ring
  rw [viewP1_congr n g gens g0 D C alpha beta gamma delta pub1 h.length _ e1 e2
      (r' := r) (x' := fun c => x0 (h'.getD c 0) + f (2 + 3 * n + (3 * c + 1)) * delta)
      (y' := fun c => y0 (h'.getD c 0) + f (2 + 3 * n + (3 * c + 2)) * delta)
      (fun c hc => by rw [e4 (3 * c) (by omega), (d0 c).1, (d0 c).2, if_pos rfl])
      (fun c hc => by
        rw [e4 (3 * c + 1) (by omega), (d1 c).1, (d1 c).2, if_neg (by omega), if_pos rfl,
          inv_mul_cancel_right₀ hdel]
        ring) hy,
    viewP2_congr n g gens D C pub2 _ _ e1 e2 e3 hy, e0] at this
  exact this

end game

end Sec
end Verif
