/-
Properties C56-C58: the whole verified-aggregation workflow, injectivity of encryption, and perfect
zero-knowledge of the proofs.
-/
import Verif.Props.Generic
import Verif.Props.ReEncrypt
import Verif.Props.Aggregate

namespace Verif
open Spec

section
variable {E : Engine}

/-! ### C56 -/

theorem sum_le_of_le {α : Type*} (l : List α) (f : α → ℕ) (B : ℕ) (h : ∀ a ∈ l, f a ≤ B) :
    (l.map f).sum ≤ l.length * B := by
  induction l with
  | nil => simp
  | cons a l ih =>
    have h1 := h a (by simp)
    have h2 := ih fun a ha => h a (by simp [ha])
    simp only [List.map_cons, List.sum_cons, List.length_cons, Nat.add_mul, Nat.one_mul]
    omega

theorem nums_getD_le {l : List UInt16} {B : ℕ} (h : ∀ c ∈ l, c.toNat ≤ B) (i : ℕ) :
    (nums l).getD i 0 ≤ B := by
  rw [nums, getD_map_toNat]
  rcases Nat.lt_or_ge i l.length with hi | hi
  · rw [List.getD_eq_getElem?_getD, List.getElem?_eq_getElem hi]
    exact h _ (List.getElem_mem hi)
  · rw [List.getD_eq_getElem?_getD, List.getElem?_eq_none hi]
    simp

/-- **C56** The workflow of the crate's integration test, for any number of key holders and any number of
encryptors up to `2^b + 1`: with an SRS for `b`-bit chunks (`b` = 4 or 8) whose generators are nonzero,
keys from the distributed key generation, and a destination key,
* all encryptors with chunk vectors of the right length succeed;
* each can prove its ciphertext, and it passes the commitment check and the proof check;
* the aggregate ciphertext passes the commitment check;
* all key holders together, in any order, re-encrypt the aggregate for the destination;
* the destination's decryption with chunk size `2 * b` returns exactly the chunk-wise sums. -/
theorem C56_verified_aggregation (T : FftCfg E.Fr) (R : RngCore E) (fuel : ℕ) (st st' : R.σ)
    (b : UInt8) (hb : b = 4 ∨ b = 8) (n : UInt8) (hn : chunksCount E.fr b = .ok n)
    (c0 : BitsizeCheckCircuit E.fr)
    (hc0 : BitsizeCheckCircuit.new (K := E.fr) b (some n) none true = .ok c0)
    (gens : EncryptionGens E) (pk : ProvingKey E)
    (hsrs : generateSrs T R fuel st c0.generateConstraints gens = .ok (pk, st'))
    (g_i : List E.G1) (hg : getGsForEncryption pk.pk.vk = .ok g_i) (hgi : ∀ g ∈ g_i, g ≠ 0)
    (hp : 65535 < E.fr.p)
    (parties : List (Party E)) (sks : List (SecretKeyST E)) (ek : EncryptionKey E)
    (hdkg : dkg parties b gens g_i pk.pk.delta_g1 pk.gamma_g1 = .ok (sks, ek))
    (Rd : RngCore E) (std std' : Rd.σ) (skd : SecretKey E) (ekd : FEncryptionKeyDest E)
    (hdest : fkeygenDest Rd std gens = .ok ((skd, ekd), std'))
    (encs : List (Party E × List UInt16)) (hne : encs ≠ [])
    (hcount : encs.length ≤ 2 ^ b.toNat + 1)
    (hlen : ∀ e ∈ encs, e.2.length = n.toNat)
    (hch : ∀ e ∈ encs, ∀ c ∈ e.2, c.toNat < 2 ^ b.toNat)
    (rp : List (SecretKeyST E × Party E)) (hrp : (rp.map (·.1)).Perm sks) (chk : Bool) :
    ∃ outs ct g_r cs ds,
      encryptMany encs ek g_i = .ok outs ∧
      (∀ e o, (e, o) ∈ encs.zip outs → ∀ (R'' : RngCore E) (st3 : R''.σ)
        (c : BitsizeCheckCircuit E.fr), BitsizeCheckCircuit.new (K := E.fr) b (some n)
          (some (e.2.map fun c => ((c.toNat : ℕ) : E.Fr))) true = .ok c →
        ∃ ct_e proof st4, o.1 = flat ct_e ∧
          createProof T chk R'' st3 c.generateConstraints o.2 pk ek = .ok (proof, st4) ∧
          ct_e.verifyCommitmentAndProof proof (prepareVerifyingKey pk.pk.vk) ek.prepare gens.prepare
            = .ok ()) ∧
      aggregate (outs.map (·.1)) = .ok (flat ct) ∧
      ct.verifyCommitment ek.prepare gens.prepare = .ok () ∧
      reEncryptAll gens ct.X_r ct.enc_chunks ekd rp = .ok (g_r :: cs) ∧
      decryptAfterReEncryption chk g_r cs skd g_i (b * 2) = .ok ds ∧
      ds.length = n.toNat ∧
      ∀ i < n.toNat, (nums ds).getD i 0 = (encs.map fun e => (nums e.2).getD i 0).sum := by
  have hc0' : BitsizeCheckCircuit.new (K := E.fr) b none none true = .ok c0 := by
    rw [← hc0]
    unfold BitsizeCheckCircuit.new
    rw [hn]
  have hk : FromSetup ek b gens g_i pk.pk.delta_g1 pk.gamma_g1 := Or.inr ⟨parties, sks, hdkg⟩
  obtain ⟨n', s, t, hn', hgn, hek⟩ := fromSetup_inv hk
  rw [hn] at hn'
  cases hn'
  have hX : ek.X.length = n.toNat := by rw [hek]; simp [encKey]
  have hw : WellFormed ek := by rw [hek]; exact encKey_wf _ _ _ _ _ _ _
  have hX256 : ek.X.length < 256 := by rw [hX]; exact n.toNat_lt
  obtain ⟨outs, henc⟩ := encryptMany_ok encs ek g_i hw hX256 (by omega)
    (fun e he => by rw [hX]; exact hlen e he)
  obtain ⟨ct, hagg, hver⟩ := C25_aggregate_verifies encs hne ek b gens g_i _ _ hk outs henc
  have hb2 : (b * 2).toNat = 2 * b.toNat ∧ b.toNat ≤ 8 ∧ 0 < b.toNat := by
    rcases hb with rfl | rfl <;> decide
  have hbound : ∀ i, (encs.map fun e => (nums e.2).getD i 0).sum ≤ 2 ^ (2 * b.toNat) - 1 := by
    intro i
    have h1 := sum_le_of_le encs (fun e => (nums e.2).getD i 0) (2 ^ b.toNat - 1)
      (fun e he => nums_getD_le (fun c hc => by have := hch e he c hc; omega) i)
    have h2 : encs.length * (2 ^ b.toNat - 1) ≤ (2 ^ b.toNat + 1) * (2 ^ b.toNat - 1) :=
      Nat.mul_le_mul_right _ hcount
    have h3 : (2 ^ b.toNat + 1) * (2 ^ b.toNat - 1) = 2 ^ (2 * b.toNat) - 1 := by
      rw [two_mul, pow_add, ← Nat.sq_sub_sq, pow_two]
    omega
  have h16 : 2 ^ (2 * b.toNat) - 1 ≤ 65535 := by
    have : 2 ^ (2 * b.toNat) ≤ 2 ^ 16 := Nat.pow_le_pow_right (by norm_num) (by omega)
    omega
  obtain ⟨ct', g_r, cs, hagg', hre, hdec, -⟩ := C28_pipeline parties b gens g_i _ _ sks ek hdkg hgi Rd std
    std' skd ekd hdest encs hne outs henc rp hrp
    (fun i => (encs.map fun e => (nums e.2).getD i 0).sum) (fun i _ => rfl)
    (fun i _ => by have := hbound i; omega) chk (b * 2) (by omega)
  rw [hagg] at hagg'
  have := flat_inj (Res.ok.inj hagg')
  subst this
  obtain ⟨ds, hds, hdl, hdv⟩ := hdec (by
    intro i _
    rw [hb2.1]
    unfold searchBound
    have := hbound i
    omega)
  rw [hX] at hdl hdv
  refine ⟨outs, ct, g_r, cs, ds, henc, ?_, hagg, hver, hre, hds, hdl, hdv⟩
  intro e o heo R'' st3 c hc
  obtain ⟨hout, -⟩ := encryptMany_inv henc
  have he : e ∈ encs := (List.of_mem_zip heo).1
  have ho : o = (flat (cipher ek (fun i => g_i.getD i 0) (fun i => (nums e.2).getD i 0)
      (draw e.1.1 e.1.2 0)), draw e.1.1 e.1.2 0) := by
    rw [hout] at heo
    obtain ⟨k, hk1, hk2⟩ := List.mem_iff_getElem.mp heo
    simp only [List.getElem_zip, List.getElem_map, Prod.mk.injEq] at hk2
    rw [← hk2.2, hk2.1]
  have hone := encryptDecomposed_ok e.1.1 e.1.2 e.2 ek g_i hw hX256
    (by rw [hX]; exact hlen e he) (by omega)
  obtain ⟨ct_e, proof, st4, h1, h2, h3⟩ := C46_chunk_level T R fuel st st' b c0 gens pk hc0' hsrs g_i hg
    ek hk e.1.1 e.1.2 _ e.2 _ _ hone (hch e he) (some n) c hc chk R'' st3
  exact ⟨ct_e, proof, st4, by rw [ho]; exact h1, by rw [ho]; exact h2, h3⟩

/-! ### C57 -/

/-- **C57** Encryption is injective: with a nonzero `X_0` and nonzero generators in a group of order above
`65535`, two successful encryptions (any randomness, any random number generators) that agree in `X_r` and
in the encrypted chunks are encryptions of the same chunks with the same randomness, and agree in the
commitment as well. -/
theorem C57_injective (R R' : RngCore E) (st st1 : R.σ) (st' st1' : R'.σ) (m m' : List UInt16)
    (ek : EncryptionKey E) (g_i : List E.G1) (ct ct' : Ciphertext E) (r r' : E.Fr)
    (h : encryptDecomposedMessage R st m ek g_i = .ok ((flat ct, r), st1))
    (h' : encryptDecomposedMessage R' st' m' ek g_i = .ok ((flat ct', r'), st1'))
    (hX : ek.X_0 ≠ 0) (hgi : ∀ g ∈ g_i, g ≠ 0) (hp : 65535 < E.fr.p)
    (e1 : ct.X_r = ct'.X_r) (e2 : ct.enc_chunks = ct'.enc_chunks) :
    m = m' ∧ r = r' ∧ ct.commitment = ct'.commitment := by
  obtain ⟨hw, h256, hl, hg, hv, hr, -⟩ := encryptDecomposed_inv h
  obtain ⟨-, -, hl', -, hv', hr', -⟩ := encryptDecomposed_inv h'
  have hct := flat_inj hv
  have hct' := flat_inj hv'
  subst hct hct'
  simp only [cipher] at e1 e2 ⊢
  have err : r = r' := by
    have := sub_eq_zero.mpr e1
    rw [← sub_smul] at this
    exact sub_eq_zero.mp ((smul_eq_zero.mp this).resolve_right hX)
  subst err
  have emm : m = m' := by
    apply List.ext_getElem (by omega)
    intro i hi hi'
    have hi0 : i < ek.X.length := by omega
    have h3 := congrArg (fun l => l.getD i 0) e2
    simp only [getD_tab, if_pos hi0] at h3
    have h4 := add_left_cancel h3
    rw [nsmul_fr (E := E), nsmul_fr (E := E)] at h4
    have h5 := sub_eq_zero.mpr h4
    rw [← sub_smul] at h5
    have h6 := sub_eq_zero.mp ((smul_eq_zero.mp h5).resolve_right
      (getD_mem_ne hgi (by omega)))
    have b1 := (m[i]).toNat_lt
    have b2 := (m'[i]).toNat_lt
    have g1 : (nums m).getD i 0 = (m[i]).toNat := by
      rw [nums, getD_map_toNat, List.getD_eq_getElem?_getD, List.getElem?_eq_getElem hi]; rfl
    have g2 : (nums m').getD i 0 = (m'[i]).toNat := by
      rw [nums, getD_map_toNat, List.getD_eq_getElem?_getD, List.getElem?_eq_getElem hi']; rfl
    rw [g1, g2, ZMod.natCast_eq_natCast_iff', Nat.mod_eq_of_lt (by omega),
      Nat.mod_eq_of_lt (by omega)] at h6
    exact UInt16.toNat_inj.mp h6
  subst emm
  exact ⟨rfl, rfl, rfl⟩

/-- **C57** message level: for the supported chunk sizes equal ciphertexts come from equal messages. -/
theorem C57_injective_messages (R R' : RngCore E) (st st1 : R.σ) (st' st1' : R'.σ) (m m' : E.Fr)
    (ek : EncryptionKey E) (g_i : List E.G1) (b : UInt8) (hb : Supported b) (ct ct' : Ciphertext E)
    (r r' : E.Fr)
    (h : encrypt R st m ek g_i b = .ok ((ct, r), st1))
    (h' : encrypt R' st' m' ek g_i b = .ok ((ct', r'), st1'))
    (hX : ek.X_0 ≠ 0) (hgi : ∀ g ∈ g_i, g ≠ 0) (hp : 65535 < E.fr.p)
    (e1 : ct.X_r = ct'.X_r) (e2 : ct.enc_chunks = ct'.enc_chunks) :
    m = m' ∧ r = r' ∧ ct.commitment = ct'.commitment := by
  obtain ⟨d, hd, hs, -⟩ := C14_encrypt_splits R st m ek g_i b hb
  obtain ⟨d', hd', hs', -⟩ := C14_encrypt_splits R' st' m' ek g_i b hb
  obtain ⟨hdd, hrest⟩ := C57_injective R R' st st1 st' st1' d d' ek g_i ct ct' r r' (hs _ _ _ h)
    (hs' _ _ _ h') hX hgi hp e1 e2
  refine ⟨?_, hrest⟩
  obtain ⟨e, he, hc⟩ := C01_decompose_compose_roundtrip E.fr m b hb
  obtain ⟨e', he', hc'⟩ := C01_decompose_compose_roundtrip E.fr m' b hb
  rw [hd] at he
  rw [hd'] at he'
  cases he
  cases he'
  subst hdd
  have := (hc true).symm.trans (hc' true)
  exact Res.ok.inj this

/-! ### C58 -/

namespace Spec

/-- The simulator: a proof made from the trapdoors and the ciphertext alone (no chunks, no encryption
randomness, no witness), for two field elements `x`, `y`. -/
def simulate (gens : EncryptionGens E) (vk : VerifyingKey E) (alpha beta gamma delta : E.Fr)
    (ct : Ciphertext E) (x y : E.Fr) : Proof E :=
  { a := x • gens.G
    b := y • gens.H
    c := delta⁻¹ • ((x * y - alpha * beta) • gens.G -
      gamma • (componentSum ct + vk.gamma_abc_g1.getD 0 0)) }

end Spec

theorem verifyProof_srs (cs0 : CS E.Fr) (d : EvalDomain E.Fr) (tau alpha beta gamma delta : E.Fr)
    (gens : EncryptionGens E) (hdel : delta ≠ 0) (hH : gens.H ≠ 0)
    (hne : (srsKey cs0 d tau alpha beta gamma delta gens.G gens.H).pk.vk.gamma_abc_g1 ≠ [])
    (x y : E.Fr) (c : E.G1) (ct : Ciphertext E) :
    verifyProof (prepareVerifyingKey (srsKey cs0 d tau alpha beta gamma delta gens.G gens.H).pk.vk)
      ⟨x • gens.G, y • gens.H, c⟩ ct = .ok () ↔
    c = (simulate gens (srsKey cs0 d tau alpha beta gamma delta gens.G gens.H).pk.vk alpha beta gamma
      delta ct x y).c := by
  rw [verifyProof_eq _ _ _ hne]
  generalize hk : (srsKey cs0 d tau alpha beta gamma delta gens.G gens.H).pk.vk.gamma_abc_g1.getD 0 0
    = g0
  have key : (E.e (x • gens.G) (y • gens.H) =
      E.e (srsKey cs0 d tau alpha beta gamma delta gens.G gens.H).pk.vk.alpha_g1
        (srsKey cs0 d tau alpha beta gamma delta gens.G gens.H).pk.vk.beta_g2 +
      E.e c (srsKey cs0 d tau alpha beta gamma delta gens.G gens.H).pk.vk.delta_g2 +
      E.e (ct.X_r + ct.enc_chunks.sum + g0)
        (srsKey cs0 d tau alpha beta gamma delta gens.G gens.H).pk.vk.gamma_g2) ↔
      delta • c = (x * y - alpha * beta) • gens.G - gamma • (componentSum ct + g0) := by
    simp only [srsKey, componentSum]
    have hinj : ∀ u v : E.G1, E.e u gens.H = E.e v gens.H ↔ u = v :=
      fun u v => ⟨e_left_inj hH, fun h => by rw [h]⟩
    rw [← hinj]
    simp only [map_smul, LinearMap.smul_apply, map_sub, LinearMap.sub_apply, map_add,
      LinearMap.add_apply]
    generalize E.e gens.G gens.H = gt
    generalize E.e c gens.H = x1
    generalize E.e ct.X_r gens.H = x2
    generalize E.e ct.enc_chunks.sum gens.H = x3
    generalize E.e g0 gens.H = x4
    constructor
    · intro h
      rw [← sub_eq_zero] at h ⊢
      rw [← neg_eq_zero, ← h]
      module
    · intro h
      rw [← sub_eq_zero] at h ⊢
      rw [← neg_eq_zero, ← h]
      module
  have key2 : delta • c = (x * y - alpha * beta) • gens.G - gamma • (componentSum ct + g0) ↔
      c = (simulate gens (srsKey cs0 d tau alpha beta gamma delta gens.G gens.H).pk.vk alpha beta gamma
      delta ct x y).c := by
    simp only [simulate, hk]
    rw [eq_inv_smul_iff₀ hdel]
  rw [← key2, ← key]
  split <;> simp_all

/-- **C58** Perfect zero-knowledge of the proofs.  Fix an SRS for `b`-bit chunks, a key on its
parameters, in-range chunks and their ciphertext.  The proof `create_proof` returns is the simulated
proof (made from the trapdoors and the ciphertext only) at a point that is a bijective function of the
prover's two random draws.  Hence for uniform draws the proof is distributed exactly as the simulator's
output at uniform points, whatever chunks and randomness the ciphertext was made of. -/
theorem C58_perfect_zero_knowledge (T : FftCfg E.Fr) (R : RngCore E) (fuel : ℕ) (st st' : R.σ)
    (b : UInt8) (c0 : BitsizeCheckCircuit E.fr) (gens : EncryptionGens E) (pk : ProvingKey E)
    (hc0 : BitsizeCheckCircuit.new (K := E.fr) b none none true = .ok c0)
    (hsrs : generateSrs T R fuel st c0.generateConstraints gens = .ok (pk, st'))
    (hH : gens.H ≠ 0)
    (g_i : List E.G1) (hg : getGsForEncryption pk.pk.vk = .ok g_i) (ek : EncryptionKey E)
    (hk : FromSetup ek b gens g_i pk.pk.delta_g1 pk.gamma_g1)
    (R' : RngCore E) (st1 st2 : R'.σ) (chunks : List UInt16) (ct : Ciphertext E) (r : E.Fr)
    (henc : encryptDecomposedMessage R' st1 chunks ek g_i = .ok ((flat ct, r), st2))
    (hch : ∀ c ∈ chunks, c.toNat < 2 ^ b.toNat)
    (num : Option UInt8) (c : BitsizeCheckCircuit E.fr)
    (hc : BitsizeCheckCircuit.new (K := E.fr) b num
      (some (chunks.map fun c => ((c.toNat : ℕ) : E.Fr))) true = .ok c) :
    ∃ φ : E.Fr × E.Fr → E.Fr × E.Fr, Function.Bijective φ ∧
      ∀ (chk : Bool) (R'' : RngCore E) (st3 : R''.σ),
        createProof T chk R'' st3 c.generateConstraints r pk ek =
          .ok (simulate gens pk.pk.vk (draw R st 0) (draw R st 1) (draw R st 2) (draw R st 3) ct
            (φ (draw R'' st3 0, draw R'' st3 1)).1 (φ (draw R'' st3 0, draw R'' st3 1)).2,
            after R'' st3 2) := by
  obtain ⟨cs0, d, k, hcs0, hd, -, hvan, -, hgam, hdel, -, hpk⟩ := srs_inv_draws hsrs
  obtain ⟨n, s, t, hn, hgn, hek⟩ := fromSetup_inv hk
  obtain ⟨hbm, hnum⟩ := srs_bitsize_le hc0 hsrs hn
  obtain ⟨a1, -, a3, -, -⟩ := new_ok hc0
  obtain ⟨b1, b2, b3, -, -⟩ := new_ok hc
  have hX : ek.X.length = n.toNat := by rw [hek]; simp [encKey]
  obtain ⟨hw, hX256, hlen, -⟩ := encryptDecomposed_inv henc
  obtain ⟨wA, wB, hab⟩ := groth16_complete_ab T c0 c gens cs0 d (draw R st (4 + k)) (draw R st 0)
    (draw R st 1) (draw R st 2) (draw R st 3) hcs0 hd hvan hgam hdel (a1.trans b1.symm)
    (by rw [b1]; exact hbm) a3 b3 _ b2 (by rw [hnum, List.length_map, hlen, hX])
    (by
      intro x hx
      obtain ⟨y, hy, rfl⟩ := List.mem_map.mp hx
      rw [ZMod.val_natCast, b1]
      exact lt_of_le_of_lt (Nat.mod_le _ _) (hch y hy))
  refine ⟨fun p => (draw R st 0 + wA + p.1 * draw R st 3, draw R st 1 + wB + p.2 * draw R st 3), ?_, ?_⟩
  · constructor
    · rintro ⟨p1, p2⟩ ⟨q1, q2⟩ h
      simp only [Prod.mk.injEq, add_right_inj] at h
      exact Prod.ext (mul_right_cancel₀ hdel h.1) (mul_right_cancel₀ hdel h.2)
    · rintro ⟨q1, q2⟩
      refine ⟨((q1 - draw R st 0 - wA) * (draw R st 3)⁻¹, (q2 - draw R st 1 - wB) * (draw R st 3)⁻¹), ?_⟩
      simp only [inv_mul_cancel_right₀ hdel, Prod.mk.injEq]
      constructor <;> ring
  · intro chk R'' st3
    obtain ⟨proof0, h0, -, ha, hbb⟩ := hab chk (draw R'' st3 0) (draw R'' st3 1)
    obtain ⟨ct', proof, st4, hv, hp, hver⟩ := C46_chunk_level T R fuel st st' b c0 gens pk hc0 hsrs g_i
      hg ek hk R' st1 st2 chunks _ r henc hch num c hc chk R'' st3
    have hct := flat_inj hv
    subst hct
    have hver' : verifyProof (prepareVerifyingKey pk.pk.vk) proof ct = .ok () := by
      unfold Ciphertext.verifyCommitmentAndProof at hver
      obtain ⟨_, _, h⟩ := Res.bind_eq_ok.mp hver
      exact h
    have hrun : createProof T chk R'' st3 c.generateConstraints r pk ek =
        .ok ({ proof0 with c := proof0.c + r • ek.P_2 }, after R'' st3 2) := by
      show (createProofWithReduction T chk c.generateConstraints pk.pk (draw R'' st3 0)
        (draw R'' (after R'' st3 1) 0) >>= _) = _
      have h0' : createProofWithReduction T chk c.generateConstraints pk.pk (draw R'' st3 0)
        (draw R'' (after R'' st3 1) 0) = .ok proof0 := by rw [hpk]; exact h0
      rw [h0', Res.ok_bind, mulBigint_intoBigint]
      rfl
    rw [hrun] at hp
    simp only [Res.ok.injEq, Prod.mk.injEq] at hp
    obtain ⟨hpe, hst⟩ := hp
    rw [hrun]
    have hne := (getGs_inv hg).1
    rw [← hpe, ha, hbb, hpk] at hver'
    rw [hpk] at hne
    have := (verifyProof_srs cs0 d _ _ _ _ _ gens hdel hH hne _ _ _ ct).mp hver'
    rw [← hpk] at this
    refine congrArg Res.ok (Prod.ext ?_ rfl)
    dsimp only
    rw [ha, hbb, this]
    rfl

/-- **C58** every simulated proof is accepted, and it is the only accepted proof with these first two
elements: the accepted proofs for a ciphertext are exactly the simulated ones (when the first two elements
are multiples of the generators, as all elements of prime-order groups are). -/
theorem C58_accepted_iff_simulated (T : FftCfg E.Fr) (R : RngCore E) (fuel : ℕ) (st st' : R.σ)
    (C : Synthesizer E.Fr) (gens : EncryptionGens E) (pk : ProvingKey E)
    (hsrs : generateSrs T R fuel st C gens = .ok (pk, st')) (hH : gens.H ≠ 0)
    (hne : pk.pk.vk.gamma_abc_g1 ≠ []) (ct : Ciphertext E) (x y : E.Fr) (proof : Proof E)
    (ha : proof.a = x • gens.G) (hb : proof.b = y • gens.H) :
    verifyProof (prepareVerifyingKey pk.pk.vk) proof ct = .ok () ↔
      proof = simulate gens pk.pk.vk (draw R st 0) (draw R st 1) (draw R st 2) (draw R st 3) ct x y := by
  obtain ⟨cs0, d, k, hcs0, hd, -, hvan, -, hgam, hdel, -, rfl⟩ := srs_inv_draws hsrs
  obtain ⟨a, b, c⟩ := proof
  dsimp only at ha hb
  subst ha hb
  rw [verifyProof_srs _ _ _ _ _ _ _ gens hdel hH hne]
  constructor
  · rintro h
    rw [h]
    rfl
  · intro h
    rw [← h]

end
/-! ### A concrete run with 8-bit chunks -/

namespace Fix
noncomputable section

/-- alpha, beta, gamma, delta, tau = 1, 2, 3, 4, 5; then rho, 8 `s`, 9 `t` and 8 `v` -/
def stFull8 : (listRng E).σ :=
  (([1, 2, 3, 4, 5, 3, 2, 4, 6, 8, 1, 3, 5, 7, 9, 10, 11, 12, 13, 14, 15, 16, 17,
     18, 19, 20, 21, 22, 23, 24, 25] : List F), [], [])

/-- the domain of size 1024 -/
def dom8 : EvalDomain E.Fr := goldDomain 10 (by norm_num)

/-- its generator -/
def w8 : F := goldRoot ^ 2 ^ (32 - 10)

theorem w8_pow (m : ℕ) (hm : m < 2 ^ 64) :
    w8 ^ m = ((powMod goldR 64 11353340290879379826 m : ℕ) : F) := by
  have h : w8 = ((11353340290879379826 : ℕ) : F) := by
    unfold w8 goldRoot
    rw [← pow_mul, zmod_pow_powMod goldR 64 7 _ (by decide +kernel)]
    exact congrArg _ (by decide +kernel)
  rw [h, zmod_pow_powMod goldR 64 _ _ hm]

theorem w8_prim : IsPrimitiveRoot w8 (2 ^ 10) := dom8.prim

theorem dom8_ok : goldFft.newDomain (8 * 121 + (8 + 1)) = some dom8 := by
  have h : Nat.clog 2 977 = 10 := by decide +kernel
  have hn : ∀ (m : ℕ) (h : m = 10) (hm : m ≤ 32), goldDomain m hm = dom8 := by
    rintro m rfl hm; rfl
  show (if h : Nat.clog 2 977 ≤ 32 then some (goldDomain (Nat.clog 2 977) h) else none) = _
  rw [dif_pos (by rw [h]; norm_num), hn _ h]

theorem tau8_ok : (5 : F) ^ (2 ^ 10) ≠ 1 := by
  have : (5 : F) = ((5 : ℕ) : F) := by norm_num
  rw [this, zmod_pow_powMod goldR 64 _ _ (by decide +kernel)]
  decide +kernel

theorem tau8_ok' (x : F) (N : ℕ) (hx : x = 5) (hN : N = 2 ^ 10) : x ^ N ≠ 1 := by
  subst hx hN; exact tau8_ok

theorem beta8_ok : (2 : F) ∉ badBetas 8 121 64 w8 (5 : F) := by
  intro h
  obtain ⟨i, hi, h⟩ := Finset.mem_image.mp h
  have hi := Finset.mem_range.mp hi
  have hd : ∀ m, (5 : F) - w8 ^ m ≠ 0 := by
    intro m h
    apply tau8_ok
    rw [sub_eq_zero.mp h, ← pow_mul, mul_comm, pow_mul, w8_prim.pow_eq_one, one_pow]
  have hw : ∀ m, w8 ^ m ≠ 0 := fun m => pow_ne_zero _ (w8_prim.ne_zero (by norm_num))
  rw [div_eq_iff (mul_ne_zero (hw _) (hd _)), w8_pow _ (by omega), w8_pow _ (by omega)] at h
  revert h
  interval_cases i <;> decide +kernel

theorem eight : (8 : UInt8).toNat = 8 := by decide

theorem count8 : chunksCount E.fr 8 = .ok 8 := by
  show chunksCount goldFr 8 = .ok 8
  simp [chunksCount, goldFr_modBits]

theorem rows8_eq : constraintsPerValue E.fr.modBits (8 : UInt8).toNat = 121 := by
  rw [show E.fr.modBits = 64 from goldFr_modBits]; decide

theorem aligned8 : 64 * E.fr.limbs < E.fr.modBits + (8 : UInt8).toNat ∧
    chunksNeeded E.fr (8 : UInt8).toNat ≤ 255 := by
  have h : E.fr.modBits = 64 := goldFr_modBits
  unfold chunksNeeded
  rw [h]
  exact ⟨by decide +kernel, by decide +kernel⟩

/-- SRS, nonzero generators and keys for 8-bit chunks -/
theorem run8 : ∃ (c0 : BitsizeCheckCircuit E.fr) (pk : ProvingKey E) (ek : EncryptionKey E)
    (g_i : List E.G1) (st1 : (listRng E).σ),
    BitsizeCheckCircuit.new (K := E.fr) 8 (some 8) none true = .ok c0 ∧
    BitsizeCheckCircuit.new (K := E.fr) 8 none none true = .ok c0 ∧
    generateSrs goldFft (listRng E) 1 stFull8 c0.generateConstraints gens = .ok (pk, st1) ∧
    getGsForEncryption pk.pk.vk = .ok g_i ∧ (∀ g ∈ g_i, g ≠ 0) ∧ 8 ≤ g_i.length ∧
    FromSetup ek 8 gens g_i pk.pk.delta_g1 pk.gamma_g1 := by
  have hpipe : ∃ pk sk ek dk st',
      setupForGroth16 (E := E) goldFft (listRng E) 1 stFull8 8 gens = .ok ((pk, sk, ek, dk), st') ∧
      ∀ (chk : Bool) (R' : RngCore E) (st1 : R'.σ) (m : E.Fr),
        ∃ ct r proof nu st2, encryptWithProof goldFft chk R' st1 m ek pk 8 =
            .ok ((ct, r, proof), st2) ∧
          ct.verifyCommitmentAndProof proof (prepareVerifyingKey pk.pk.vk) ek.prepare
            gens.prepare = .ok () ∧
          ct.decryptGivenGroth16Vk chk sk dk.prepare pk.pk.vk 8 = .ok (m, nu) ∧
          E.e nu gens.H = E.e ct.X_r dk.V_0 := by
    refine C55_pipeline (E := E) goldFft (listRng E) 1 stFull8 8 8
      ?_ ?_ ?_ ?_ gens ?_ ?_ 121 ?_ dom8 ?_ (by norm_num) ?_ ?_ ?_ ?_ ?_ ?_
    · exact Or.inr (Or.inl rfl)
    · exact count8
    · rw [show E.fr.modBits = 64 from goldFr_modBits]; decide
    · exact aligned8
    · exact (by decide +kernel : (2 : F) ≠ 0)
    · exact (by decide +kernel : (3 : F) ≠ 0)
    · exact rows8_eq.symm
    · rw [eight]; exact dom8_ok
    · exact tau8_ok' _ _ rfl rfl
    · rw [show E.fr.modBits = 64 from goldFr_modBits]
      exact beta8_ok
    · exact (by decide +kernel : (3 : F) ≠ 0)
    · exact (by decide +kernel : (4 : F) ≠ 0)
    · exact (by decide +kernel : (3 : F) ≠ 0)
    · intro i hi
      rw [eight] at hi ⊢
      interval_cases i
      · exact (by decide +kernel : (18 : F) ≠ 0)
      · exact (by decide +kernel : (19 : F) ≠ 0)
      · exact (by decide +kernel : (20 : F) ≠ 0)
      · exact (by decide +kernel : (21 : F) ≠ 0)
      · exact (by decide +kernel : (22 : F) ≠ 0)
      · exact (by decide +kernel : (23 : F) ≠ 0)
      · exact (by decide +kernel : (24 : F) ≠ 0)
      · exact (by decide +kernel : (25 : F) ≠ 0)
  obtain ⟨pk, sk, ek, dk, st', hset, -⟩ := hpipe
  unfold setupForGroth16 at hset
  obtain ⟨c0, hc0, hset⟩ := Res.bind_eq_ok.mp hset
  obtain ⟨⟨pk', st2⟩, hsrs, hset⟩ := Res.bind_eq_ok.mp hset
  obtain ⟨g_i, hg, hset⟩ := Res.bind_eq_ok.mp hset
  obtain ⟨⟨⟨sk', ek', dk'⟩, st3⟩, hkg, hset⟩ := Res.bind_eq_ok.mp hset
  simp only [Res.pure_eq, Res.ok.injEq, Prod.mk.injEq] at hset
  obtain ⟨⟨rfl, rfl, rfl, rfl⟩, rfl⟩ := hset
  have hk : FromSetup ek' 8 gens g_i pk'.pk.delta_g1 pk'.gamma_g1 := Or.inl ⟨_, _, _, _, _, hkg⟩
  obtain ⟨n, s, t, hn, hgn, -⟩ := fromSetup_inv hk
  rw [count8] at hn
  cases hn
  refine ⟨c0, _, _, g_i, st2, ?_, hc0, hsrs, hg, ?_, hgn, hk⟩
  · rw [← hc0]
    unfold BitsizeCheckCircuit.new
    rw [count8]
  · have htail : pk'.pk.vk.gamma_abc_g1.tail = g_i := by
      unfold getGsForEncryption at hg
      split at hg
      · cases hg
      · rename_i g gs hv
        cases hg
        rw [hv]
        rfl
    intro g hgm h0
    rcases (C55_zero_generators goldFft (listRng E) 1 stFull8 _ 8 8 count8 c0 hc0 gens pk' hsrs 121
      rows8_eq.symm dom8 (by rw [eight]; exact dom8_ok) 0 (tau8_ok' _ _ rfl rfl) (by simp)).1.mp
      ⟨g, by rw [htail]; exact hgm, h0⟩ with h | h
    · exact absurd h.2 (by decide +kernel : (2 : F) ≠ 0)
    · rw [show E.fr.modBits = 64 from goldFr_modBits] at h
      exact beta8_ok h

end
end Fix

/-- the hypotheses of C56 are met by three encryptors with 8-bit chunks and two key holders; sums up to
`3 * 255` come out exactly -/
example : ∃ (ek : EncryptionKey Fix.E) (g_i : List Fix.E.G1)
    (outs : List (List Fix.E.G1 × Fix.E.Fr)) (ct : Ciphertext Fix.E) (ds : List UInt16),
    encryptMany [(⟨listRng Fix.E, Fix.st1⟩, [1, 2, 3, 4, 5, 6, 7, 255]),
      (⟨listRng Fix.E, Fix.st2⟩, [9, 8, 7, 6, 5, 4, 3, 255]),
      (⟨listRng Fix.E, Fix.st3⟩, [0, 0, 0, 0, 0, 0, 200, 255])] ek g_i = .ok outs ∧
    aggregate (outs.map (·.1)) = .ok (flat ct) ∧
    ct.verifyCommitment ek.prepare Fix.gens.prepare = .ok () ∧
    (nums ds).getD 7 0 = 765 ∧ (nums ds).getD 6 0 = 210 := by
  obtain ⟨c0, pk, -, g_i, st1, hc0, -, hsrs, hg, hgi, hlen, -⟩ := Fix.run8
  have hdkg := dkg_eq Fix.parties (by simp [Fix.parties]) Fix.gens g_i pk.pk.delta_g1 pk.gamma_g1
    Fix.count8 (by rw [Fix.eight]; exact hlen)
  have main := C56_verified_aggregation goldFft (listRng Fix.E) 1 Fix.stFull8 st1 8
    (Or.inr rfl) 8 Fix.count8 c0 hc0 Fix.gens pk hsrs g_i hg hgi (by decide +kernel) Fix.parties _ _ hdkg
    (listRng Fix.E) Fix.st3 _ Fix.skd Fix.ekd Fix.dest_ok
    [(⟨listRng Fix.E, Fix.st1⟩, [1, 2, 3, 4, 5, 6, 7, 255]),
      (⟨listRng Fix.E, Fix.st2⟩, [9, 8, 7, 6, 5, 4, 3, 255]),
      (⟨listRng Fix.E, Fix.st3⟩, [0, 0, 0, 0, 0, 0, 200, 255])]
    (List.cons_ne_nil _ _) (by decide) (by simp) (by simp)
    ((Fix.parties.map (partySK (8 : UInt8).toNat)).map fun sk => (sk, ⟨listRng Fix.E, Fix.st1⟩))
    (by simp [Function.comp_def]) true
  obtain ⟨outs, ct, g_r, cs, ds, h1, -, h3, h4, -, -, h7, h8⟩ := main
  refine ⟨_, g_i, outs, ct, ds, h1, h3, h4, ?_, ?_⟩
  · exact (h8 7 (by decide)).trans (by decide)
  · exact (h8 6 (by decide)).trans (by decide)

/-- C57 on the concrete key: no other chunk vector, with whatever randomness, has the same `X_r` and
encrypted chunks as `ct1` -/
example (R' : RngCore Fix.E) (st' st1' : R'.σ) (m' : List UInt16) (ct' : Ciphertext Fix.E)
    (r' : Fix.E.Fr) (h' : encryptDecomposedMessage R' st' m' Fix.ek Fix.gi = .ok ((flat ct', r'), st1'))
    (e1 : Fix.ct1.X_r = ct'.X_r) (e2 : Fix.ct1.enc_chunks = ct'.enc_chunks) :
    Fix.m1 = m' ∧ (20 : Fix.F) = r' ∧ Fix.ct1.commitment = ct'.commitment :=
  C57_injective (listRng Fix.E) R' Fix.st1 _ st' st1' Fix.m1 m' Fix.ek Fix.gi Fix.ct1 ct' _ r' Fix.enc1 h'
    (by exact (by decide +kernel : (17 : Fix.F) ≠ 0)) Fix.gi_ne (by decide +kernel) e1 e2

/-- the hypotheses of C58 are met by the run with 8-bit chunks -/
example : ∃ (pk : ProvingKey Fix.E) (ek : EncryptionKey Fix.E) (g_i : List Fix.E.G1)
    (ct : Ciphertext Fix.E) (c : BitsizeCheckCircuit Fix.E.fr)
    (φ : Fix.E.Fr × Fix.E.Fr → Fix.E.Fr × Fix.E.Fr),
    encryptDecomposedMessage (listRng Fix.E) Fix.st1 [1, 2, 3, 4, 5, 6, 7, 255] ek g_i
      = .ok ((flat ct, draw (listRng Fix.E) Fix.st1 0), after (listRng Fix.E) Fix.st1 1) ∧
    Function.Bijective φ ∧
    ∀ (chk : Bool) (R'' : RngCore Fix.E) (st3 : R''.σ),
      createProof goldFft chk R'' st3 c.generateConstraints (draw (listRng Fix.E) Fix.st1 0) pk ek =
        .ok (simulate Fix.gens pk.pk.vk (1 : Fix.F) (2 : Fix.F) (3 : Fix.F) (4 : Fix.F) ct
          (φ (draw R'' st3 0, draw R'' st3 1)).1 (φ (draw R'' st3 0, draw R'' st3 1)).2,
          after R'' st3 2) := by
  obtain ⟨c0, pk, ek, g_i, st1, -, hc0, hsrs, hg, hgi, hlen, hk⟩ := Fix.run8
  obtain ⟨n, s, t, hn, hgn, hek⟩ := fromSetup_inv hk
  rw [Fix.count8] at hn
  cases hn
  have hX : ek.X.length = 8 := by rw [hek]; simp [encKey, Fix.eight]
  have hw : WellFormed ek := by rw [hek]; exact encKey_wf _ _ _ _ _ _ _
  have henc := encryptDecomposed_ok (listRng Fix.E) Fix.st1 [1, 2, 3, 4, 5, 6, 7, 255] ek g_i hw
    (by omega) (by rw [hX]; rfl) (by omega)
  obtain ⟨c, hc⟩ : ∃ c, BitsizeCheckCircuit.new (K := Fix.E.fr) 8 none
      (some (([1, 2, 3, 4, 5, 6, 7, 255] : List UInt16).map fun c => ((c.toNat : ℕ) : Fix.E.Fr))) true
        = .ok c := by
    unfold BitsizeCheckCircuit.new
    exact ⟨_, rfl⟩
  obtain ⟨φ, h1, h2⟩ := C58_perfect_zero_knowledge goldFft (listRng Fix.E) 1 Fix.stFull8 st1 8 c0 Fix.gens
    pk hc0 hsrs (by exact (by decide +kernel : (3 : Fix.F) ≠ 0)) g_i hg ek hk (listRng Fix.E) Fix.st1 _ _ _
    _ henc (by decide) none c hc
  exact ⟨pk, ek, g_i, _, c, φ, henc, h1, h2⟩

end Verif
