/-
Properties C45-C48: SAVER proofs over Groth16.
-/
import Verif.Lemmas.Groth16
import Verif.Props.Circuit
import Verif.Props.Encrypt

namespace Verif

variable {E : Engine}

namespace Spec

/-- The plain Groth16 verification equation (Groth 2016) with the unprepared pairing, for public
inputs `inputs`:
`e(a, b) = e(alpha, beta) + e(gabc_0 + sum inputs_i gabc_(i+1), gamma) + e(c, delta)`. -/
def Groth16Eq (vk : VerifyingKey E) (proof : Proof E) (inputs : List E.Fr) : Prop :=
  E.e proof.a proof.b = E.e vk.alpha_g1 vk.beta_g2 +
    E.e (vk.gamma_abc_g1.getD 0 0 +
      ∑ i ∈ Finset.range inputs.length, inputs.getD i 0 • vk.gamma_abc_g1.getD (i + 1) 0)
      vk.gamma_g2 +
    E.e proof.c vk.delta_g2

/-- The sum of the components of a ciphertext that the proof check looks at. -/
def componentSum (ct : Ciphertext E) : E.G1 := ct.X_r + ct.enc_chunks.sum

end Spec
open Spec

theorem getGs_inv {vk : VerifyingKey E} {g_i : List E.G1} (h : getGsForEncryption vk = .ok g_i) :
    vk.gamma_abc_g1 ≠ [] ∧ ∀ i, g_i.getD i 0 = vk.gamma_abc_g1.getD (i + 1) 0 := by
  unfold getGsForEncryption at h
  split at h
  · cases h
  · rename_i g gs hv
    cases h
    rw [hv]
    exact ⟨by simp, fun i => by simp⟩

/-- component sum of an honest ciphertext -/
theorem componentSum_cipher (n : ℕ) (s t : ℕ → E.Fr) (g : ℕ → E.G1) (D C : E.G1) (H : E.G2)
    (m : ℕ → ℕ) (r : E.Fr) :
    componentSum (cipher (encKey n s t g D C H) g m r) =
      (r * (1 + ∑ i ∈ Finset.range n, s i)) • D +
        ∑ i ∈ Finset.range n, ((m i : ℕ) : E.Fr) • g i := by
  unfold componentSum cipher encKey
  simp only [length_tab, sum_tab]
  have h : ∀ i ∈ Finset.range n, r • (tab n fun i => s i • D).getD i 0 + m i • g i =
      (r * s i) • D + ((m i : ℕ) : E.Fr) • g i := by
    intro i hi
    rw [getD_tab, if_pos (Finset.mem_range.mp hi), smul_smul, nsmul_fr (E := E)]
  rw [Finset.sum_congr rfl h, Finset.sum_add_distrib, ← Finset.sum_smul, ← Finset.mul_sum]
  module

/-! ### C45 -/

theorem saver_iff (vk : VerifyingKey E) (G : E.G1) (H : E.G2) (gamma delta : E.Fr)
    (hga : vk.gamma_g2 = gamma • H) (hde : vk.delta_g2 = delta • H)
    (g_i : List E.G1) (hg : getGsForEncryption vk = .ok g_i) (n : ℕ) (s t : ℕ → E.Fr)
    (m : ℕ → ℕ) (r : E.Fr) (proof : Proof E) :
    verifyProof (prepareVerifyingKey vk)
      { proof with c := proof.c +
          r • (encKey n s t (fun i => g_i.getD i 0) (delta • G) ((-gamma) • G) H).P_2 }
      (cipher (encKey n s t (fun i => g_i.getD i 0) (delta • G) ((-gamma) • G) H)
        (fun i => g_i.getD i 0) m r) =
    open Classical in if Groth16Eq vk proof (tab n fun i => ((m i : ℕ) : E.Fr)) then Res.ok ()
    else .err .pairingCheckFailed := by
  classical
  obtain ⟨hne, hgi⟩ := getGs_inv hg
  rw [verifyProof_eq _ _ _ hne]
  have hiff : (E.e proof.a proof.b = E.e vk.alpha_g1 vk.beta_g2 + E.e (proof.c +
          r • (encKey n s t (fun i => g_i.getD i 0) (delta • G) ((-gamma) • G) H).P_2)
          vk.delta_g2 + E.e (componentSum (cipher (encKey n s t (fun i => g_i.getD i 0)
            (delta • G) ((-gamma) • G) H) (fun i => g_i.getD i 0) m r) +
            vk.gamma_abc_g1.getD 0 0) vk.gamma_g2) ↔
      Groth16Eq vk proof (tab n fun i => ((m i : ℕ) : E.Fr)) := by
    rw [componentSum_cipher]
    unfold Groth16Eq
    rw [length_tab]
    have hs : ∑ i ∈ Finset.range n, (tab n fun i => ((m i : ℕ) : E.Fr)).getD i 0 •
        vk.gamma_abc_g1.getD (i + 1) 0 = ∑ i ∈ Finset.range n, ((m i : ℕ) : E.Fr) • g_i.getD i 0 := by
      apply Finset.sum_congr rfl
      intro i hi
      rw [getD_tab, if_pos (Finset.mem_range.mp hi), hgi]
    rw [hs]
    simp only [encKey, hga, hde, map_add, LinearMap.add_apply, map_smul, LinearMap.smul_apply]
    generalize E.e G H = gt
    generalize E.e proof.a proof.b = l
    constructor
    · intro h
      rw [h]
      module
    · intro h
      rw [h]
      module
  by_cases h : Groth16Eq vk proof (tab n fun i => ((m i : ℕ) : E.Fr))
  · exact (if_pos (hiff.mpr h)).trans (if_pos h).symm
  · exact (if_neg (fun h' => h (hiff.mp h'))).trans (if_neg h).symm

/-- **C45** For every SRS from `generate_srs` (of any circuit), every key from `keygen` or distributed
key generation on the SRS's parameters, every (integer) chunk vector, every randomness and every
proof, honest or not: `verify_proof` of the proof with `c` shifted by `r * P_2`, on the ciphertext of
the chunks, succeeds iff the unshifted proof satisfies the plain Groth16 equation with the chunks as
public inputs; otherwise it returns `PairingCheckFailed`. -/
theorem C45_reduces_to_groth16 (T : FftCfg E.Fr) (R : RngCore E) (fuel : ℕ) (st st' : R.σ)
    (C : Synthesizer E.Fr) (gens : EncryptionGens E) (pk : ProvingKey E)
    (hsrs : generateSrs T R fuel st C gens = .ok (pk, st'))
    (g_i : List E.G1) (hg : getGsForEncryption pk.pk.vk = .ok g_i) (ek : EncryptionKey E) (b : UInt8)
    (hk : FromSetup ek b gens g_i pk.pk.delta_g1 pk.gamma_g1)
    (m : ℕ → ℕ) (r : E.Fr) (proof : Proof E) :
    (Groth16Eq pk.pk.vk proof (tab ek.X.length fun i => ((m i : ℕ) : E.Fr)) →
      verifyProof (prepareVerifyingKey pk.pk.vk) { proof with c := proof.c + r • ek.P_2 }
        (cipher ek (fun i => g_i.getD i 0) m r) = .ok ()) ∧
    (¬ Groth16Eq pk.pk.vk proof (tab ek.X.length fun i => ((m i : ℕ) : E.Fr)) →
      verifyProof (prepareVerifyingKey pk.pk.vk) { proof with c := proof.c + r • ek.P_2 }
        (cipher ek (fun i => g_i.getD i 0) m r) = .err .pairingCheckFailed) := by
  obtain ⟨n, s, t, hn, hgn, rfl⟩ := fromSetup_inv hk
  obtain ⟨cs, d, tau, alpha, beta, gamma, delta, -, -, -, -, -, rfl⟩ := srs_inv hsrs
  have hX : (encKey n.toNat s t (fun i => g_i.getD i 0)
      (srsKey cs d tau alpha beta gamma delta gens.G gens.H).pk.delta_g1
      (srsKey cs d tau alpha beta gamma delta gens.G gens.H).gamma_g1 gens.H).X.length =
      n.toNat := by simp [encKey]
  rw [hX]
  have key := saver_iff _ gens.G gens.H gamma delta rfl rfl g_i hg n.toNat s t m r proof
  exact ⟨fun h => key.trans (if_pos h), fun h => key.trans (if_neg h)⟩

theorem flat_inj {ct ct' : Ciphertext E} (h : flat ct = flat ct') : ct = ct' := by
  obtain ⟨x, l, c⟩ := ct
  obtain ⟨x', l', c'⟩ := ct'
  simp only [flat, List.cons.injEq] at h
  obtain ⟨rfl, h⟩ := h
  obtain ⟨h1, h2⟩ := List.append_inj' h rfl
  cases h1
  cases h2
  rfl

theorem getD_map_toNat (l : List UInt16) (i : ℕ) :
    (l.map UInt16.toNat).getD i 0 = (l.getD i 0).toNat := by
  rw [List.getD_eq_getElem?_getD, List.getD_eq_getElem?_getD, List.getElem?_map]
  cases l[i]? <;> rfl

/-- **C45** the same about the API functions only: whatever `encrypt_decomposed_message` returns, and
whatever Groth16 proof `create_proof` starts from. -/
theorem C45_api (T : FftCfg E.Fr) (R : RngCore E) (fuel : ℕ) (st st' : R.σ)
    (C : Synthesizer E.Fr) (gens : EncryptionGens E) (pk : ProvingKey E)
    (hsrs : generateSrs T R fuel st C gens = .ok (pk, st'))
    (g_i : List E.G1) (hg : getGsForEncryption pk.pk.vk = .ok g_i) (ek : EncryptionKey E) (b : UInt8)
    (hk : FromSetup ek b gens g_i pk.pk.delta_g1 pk.gamma_g1)
    (R' : RngCore E) (st1 st2 : R'.σ) (chunks : List UInt16) (ct : Ciphertext E) (r : E.Fr)
    (henc : encryptDecomposedMessage R' st1 chunks ek g_i = .ok ((flat ct, r), st2))
    (chk : Bool) (C' : Synthesizer E.Fr) (R'' : RngCore E) (st3 st4 : R''.σ) (proof : Proof E)
    (hproof : createProof T chk R'' st3 C' r pk ek = .ok (proof, st4)) :
    ∃ proof0 : Proof E, proof0.a = proof.a ∧ proof0.b = proof.b ∧
      createProofWithReduction T chk C' pk.pk (draw R'' st3 0) (draw R'' st3 1) = .ok proof0 ∧
      (Groth16Eq pk.pk.vk proof0 (chunks.map fun c => ((c.toNat : ℕ) : E.Fr)) →
        verifyProof (prepareVerifyingKey pk.pk.vk) proof ct = .ok ()) ∧
      (¬ Groth16Eq pk.pk.vk proof0 (chunks.map fun c => ((c.toNat : ℕ) : E.Fr)) →
        verifyProof (prepareVerifyingKey pk.pk.vk) proof ct = .err .pairingCheckFailed) := by
  have hinv := fromSetup_inv hk
  obtain ⟨n, s, t, hn, hgn, hek⟩ := hinv
  have hX : ek.X.length = n.toNat := by rw [hek]; simp [encKey]
  have hw : WellFormed ek := by rw [hek]; exact encKey_wf _ _ _ _ _ _ _
  have hX256 : ek.X.length < 256 := by rw [hX]; exact n.toNat_lt
  have hlen : chunks.length = ek.X.length := by
    by_contra hc
    rw [(C14_encrypt_decomposed R' st1 chunks ek g_i).2.2.1 hw
      (by rwa [Nat.mod_eq_of_lt hX256])] at henc
    cases henc
  rw [encryptDecomposed_ok R' st1 chunks ek g_i hw hX256 hlen (by omega)] at henc
  simp only [Res.ok.injEq, Prod.mk.injEq] at henc
  obtain ⟨⟨hflat, hr⟩, -⟩ := henc
  have hct := flat_inj hflat
  unfold createProof at hproof
  rw [fr_eq R'' st3] at hproof
  simp only at hproof
  obtain ⟨proof0, h0, hp⟩ := Res.bind_eq_ok.mp hproof
  simp only [Res.pure_eq, Res.ok.injEq, Prod.mk.injEq] at hp
  have hin : (chunks.map fun c => ((c.toNat : ℕ) : E.Fr)) =
      tab ek.X.length fun i => (((nums chunks).getD i 0 : ℕ) : E.Fr) := by
    conv_lhs => rw [eq_tab hlen 0]
    rw [map_tab]
    apply tab_congr
    intro i hi
    rw [nums, getD_map_toNat]
  have key := C45_reduces_to_groth16 T R fuel st st' C gens pk hsrs g_i hg ek b hk
    (fun i => (nums chunks).getD i 0) r proof0
  rw [hr] at hct
  rw [hct] at key
  have hpe : proof = { proof0 with c := proof0.c + r • ek.P_2 } := by
    rw [← hp.1, mulBigint_intoBigint]
  refine ⟨proof0, by rw [hpe], by rw [hpe], h0, ?_⟩
  rw [hin, hpe]
  exact key

/-! ### C46 -/

/-- Groth16 completeness for the bit-size circuit, with the first two proof elements in closed form: the
constraint system `cs1` (with the prover's values) depends on the values only, not on the SRS or the prover's
randomness `r`, `s`. -/
theorem groth16_complete_cs (T : FftCfg E.Fr) (c0 c : BitsizeCheckCircuit E.fr)
    (gens : EncryptionGens E) (cs0 : CS E.Fr) (d : EvalDomain E.Fr)
    (hcs0 : c0.generateConstraints (CS.new true) = .ok cs0)
    (hd : T.newDomain (cs0.cons.length + cs0.numInst) = some d)
    (hb : c0.required_bit_size = c.required_bit_size) (hbm : c.required_bit_size.toNat ≤ E.fr.modBits)
    (hp0 : c0.alloc_as_public = true) (hp : c.alloc_as_public = true) (vs : List E.Fr)
    (hv : c.values = some vs) (hk : numValues c0 = vs.length)
    (hall : ∀ v ∈ vs, ZMod.val v < 2 ^ c.required_bit_size.toNat) :
    ∃ cs1 : CS E.Fr, cs1.cons.length = cs0.cons.length ∧ cs1.numInst = cs0.numInst ∧
    ∀ tau alpha beta gamma delta : E.Fr, d.vanishing tau ≠ 0 → gamma ≠ 0 → delta ≠ 0 →
    ∀ (chk : Bool) (r s : E.Fr),
    ∃ proof, createProofWithReduction T chk c.generateConstraints
        (srsKey cs0 d tau alpha beta gamma delta gens.G gens.H).pk r s = .ok proof ∧
      Groth16Eq (srsKey cs0 d tau alpha beta gamma delta gens.G gens.H).pk.vk proof vs ∧
      proof.a = (alpha + wsum cs1 (qapA cs1 (d.lagrange tau)) + r * delta) • gens.G ∧
      proof.b = (beta + wsum cs1 (qapB cs1 (d.lagrange tau)) + s * delta) • gens.H := by
  obtain ⟨cs, hcs, hsat, -⟩ := C43_complete c vs hv hbm
  obtain ⟨cs', hcs', -, -, hshape⟩ := (C44_shape c false).1 (Or.inr (by rw [hv]; rfl)) hbm
  rw [hcs] at hcs'
  cases hcs'
  obtain ⟨hinst, hil, hwl⟩ := hshape vs rfl hv
  rw [hp, if_pos rfl] at hinst
  have hnum : numValues c = vs.length := by simp [numValues, hv]
  obtain ⟨e1, e2, e3⟩ := C44_value_independent c0 c true false cs0 cs hb (hp0.trans hp.symm)
    (hk.trans hnum.symm) hcs0 hcs
  obtain ⟨-, hsat⟩ := hsat.mpr hall
  have hpos : cs.numInst = vs.length + 1 := by rw [← hil, hinst, List.length_cons]
  refine ⟨cs, by rw [e1], e2.symm, fun tau alpha beta gamma delta hvan hgam hdel chk r s => ?_⟩
  obtain ⟨A, B, Cc, hrun, heq, hA, hB⟩ := groth16_proof_eq T chk c.generateConstraints cs0 cs d tau alpha beta
    gamma delta gens.G gens.H r s hcs e1 e2 e3 hil hwl (by rw [hinst]; rfl) (by omega) hsat
    (by rw [← e1, ← e2]; exact hd) hvan hdel
  refine ⟨_, hrun, ?_, by rw [hA], by rw [hB]⟩
  unfold Groth16Eq
  have hsum : ∀ k, k < vs.length + 1 →
      (srsKey cs0 d tau alpha beta gamma delta gens.G gens.H).pk.vk.gamma_abc_g1.getD k 0 =
      (mixAt cs0 (d.lagrange tau) alpha beta (.inst k) * gamma⁻¹) • gens.G := by
    intro k hk'
    simp only [srsKey]
    rw [List.getD_eq_getElem?_getD, List.getElem?_map, List.getElem?_range (by omega)]
    rfl
  have hlin : (srsKey cs0 d tau alpha beta gamma delta gens.G gens.H).pk.vk.gamma_abc_g1.getD 0 0 +
      ∑ i ∈ Finset.range vs.length, vs.getD i 0 •
        (srsKey cs0 d tau alpha beta gamma delta gens.G gens.H).pk.vk.gamma_abc_g1.getD (i + 1) 0 =
      ((∑ i ∈ Finset.range cs0.numInst,
          lookup cs.inst i * mixAt cs0 (d.lagrange tau) alpha beta (.inst i)) * gamma⁻¹) •
        gens.G := by
    rw [e2, hpos, Finset.sum_range_succ', hinst, hsum 0 (by omega), Finset.sum_congr rfl
      (fun i hi => by rw [hsum (i + 1) (by have := Finset.mem_range.mp hi; omega), smul_smul]),
      ← Finset.sum_smul, ← add_smul, add_mul, Finset.sum_mul]
    congr 1
    rw [add_comm]
    congr 1
    · apply Finset.sum_congr rfl
      intro i _
      show vs.getD i 0 * _ = (1 :: vs).getD (i + 1) 0 * _ * _
      rw [List.getD_cons_succ, mul_assoc]
    · show _ = (1 :: vs).getD 0 0 * _ * _
      rw [List.getD_cons_zero, one_mul]
  rw [hlin]
  simp only [srsKey, map_smul, LinearMap.smul_apply, smul_smul]
  rw [← add_smul, ← add_smul]
  congr 1
  have hg : ∀ S : E.Fr, gamma * (S * gamma⁻¹) = S := fun S => by field_simp
  rw [mul_comm B A, heq, hg]
  ring

/-- Groth16 completeness for the bit-size circuit, with the shape of the first two proof elements: `wA`
and `wB` depend on the circuit's values but not on the prover's randomness `r`, `s`. -/
theorem groth16_complete_ab (T : FftCfg E.Fr) (c0 c : BitsizeCheckCircuit E.fr)
    (gens : EncryptionGens E) (cs0 : CS E.Fr) (d : EvalDomain E.Fr) (tau alpha beta gamma delta : E.Fr)
    (hcs0 : c0.generateConstraints (CS.new true) = .ok cs0)
    (hd : T.newDomain (cs0.cons.length + cs0.numInst) = some d)
    (hvan : d.vanishing tau ≠ 0) (hgam : gamma ≠ 0) (hdel : delta ≠ 0)
    (hb : c0.required_bit_size = c.required_bit_size) (hbm : c.required_bit_size.toNat ≤ E.fr.modBits)
    (hp0 : c0.alloc_as_public = true) (hp : c.alloc_as_public = true) (vs : List E.Fr)
    (hv : c.values = some vs) (hk : numValues c0 = vs.length)
    (hall : ∀ v ∈ vs, ZMod.val v < 2 ^ c.required_bit_size.toNat) :
    ∃ wA wB : E.Fr, ∀ (chk : Bool) (r s : E.Fr),
    ∃ proof, createProofWithReduction T chk c.generateConstraints
        (srsKey cs0 d tau alpha beta gamma delta gens.G gens.H).pk r s = .ok proof ∧
      Groth16Eq (srsKey cs0 d tau alpha beta gamma delta gens.G gens.H).pk.vk proof vs ∧
      proof.a = (alpha + wA + r * delta) • gens.G ∧ proof.b = (beta + wB + s * delta) • gens.H := by
  obtain ⟨cs1, -, -, h⟩ := groth16_complete_cs T c0 c gens cs0 d hcs0 hd hb hbm hp0 hp vs hv hk hall
  exact ⟨_, _, h tau alpha beta gamma delta hvan hgam hdel⟩

/-- Groth16 completeness for the bit-size circuit: with an SRS of a circuit of the same bit size and
number of (public) values, the prover's output satisfies the Groth16 equation with the values as
public inputs. -/
theorem groth16_complete (T : FftCfg E.Fr) (R : RngCore E) (fuel : ℕ) (st st' : R.σ)
    (c0 c : BitsizeCheckCircuit E.fr) (gens : EncryptionGens E) (pk : ProvingKey E)
    (hsrs : generateSrs T R fuel st c0.generateConstraints gens = .ok (pk, st'))
    (hb : c0.required_bit_size = c.required_bit_size) (hbm : c.required_bit_size.toNat ≤ E.fr.modBits)
    (hp0 : c0.alloc_as_public = true) (hp : c.alloc_as_public = true) (vs : List E.Fr)
    (hv : c.values = some vs) (hk : numValues c0 = vs.length)
    (hall : ∀ v ∈ vs, ZMod.val v < 2 ^ c.required_bit_size.toNat) (chk : Bool) (r s : E.Fr) :
    ∃ proof, createProofWithReduction T chk c.generateConstraints pk.pk r s = .ok proof ∧
      Groth16Eq pk.pk.vk proof vs := by
  obtain ⟨cs0, d, tau, alpha, beta, gamma, delta, hcs0, hd, hvan, hgam, hdel, rfl⟩ := srs_inv hsrs
  obtain ⟨wA, wB, h⟩ := groth16_complete_ab T c0 c gens cs0 d tau alpha beta gamma delta hcs0 hd hvan
    hgam hdel hb hbm hp0 hp vs hv hk hall
  obtain ⟨proof, h1, h2, -⟩ := h chk r s
  exact ⟨proof, h1, h2⟩

theorem new_ok {b : UInt8} {num : Option UInt8} {vs : Option (List E.Fr)} {pub : Bool}
    {c : BitsizeCheckCircuit E.fr} (h : BitsizeCheckCircuit.new (K := E.fr) b num vs pub = .ok c) :
    c.required_bit_size = b ∧ c.values = vs ∧ c.alloc_as_public = pub ∧
      (num = none → chunksCount E.fr b = .ok c.num_values) ∧
      (∀ k, num = some k → c.num_values = k) := by
  unfold BitsizeCheckCircuit.new at h
  cases num with
  | none =>
    obtain ⟨n, hn, h⟩ := Res.bind_eq_ok.mp h
    simp only [Res.pure_eq, Res.ok.injEq] at h
    subst h
    exact ⟨rfl, rfl, rfl, fun _ => hn, by simp⟩
  | some k =>
    obtain ⟨n, hn, h⟩ := Res.bind_eq_ok.mp h
    simp only [Res.pure_eq, Res.ok.injEq] at h hn
    subst h
    refine ⟨rfl, rfl, rfl, by simp, ?_⟩
    rintro k' hk
    cases hk
    exact hn.symm

/-- a successful SRS generation for the default number of values bounds the chunk size -/
theorem srs_bitsize_le {T : FftCfg E.Fr} {R : RngCore E} {fuel : ℕ} {st st' : R.σ} {b n : UInt8}
    {c0 : BitsizeCheckCircuit E.fr} {gens : EncryptionGens E} {pk : ProvingKey E}
    (hc0 : BitsizeCheckCircuit.new (K := E.fr) b none none true = .ok c0)
    (hsrs : generateSrs T R fuel st c0.generateConstraints gens = .ok (pk, st'))
    (hn : chunksCount E.fr b = .ok n) : b.toNat ≤ E.fr.modBits ∧ numValues c0 = n.toNat := by
  obtain ⟨e1, e2, -, e4, -⟩ := new_ok hc0
  have hn0 : c0.num_values = n := by
    have := e4 rfl
    rw [hn] at this
    exact (Res.ok.inj this).symm
  have hnum : numValues c0 = n.toNat := by simp [numValues, e2, hn0]
  refine ⟨?_, hnum⟩
  by_contra hc
  have hpos : 0 < n.toNat := by
    have hb0 : b ≠ 0 := by
      rintro rfl
      simp [chunksCount] at hn
    have hn' : n.toNat = (E.fr.modBits + b.toNat - 1) / b.toNat % 256 := by
      simp only [chunksCount] at hn
      rw [if_neg (by intro h; exact hb0 (UInt8.toNat_inj.mp h))] at hn
      injection hn with hn
      rw [← hn]
      simp
    have hm := modBits_pos E.fr
    have : (E.fr.modBits + b.toNat - 1) / b.toNat = 1 := by
      rw [Nat.div_eq_iff (by omega)]
      omega
    omega
  obtain ⟨cs, d, tau, alpha, beta, gamma, delta, hcs, -⟩ := srs_inv hsrs
  rw [(C44_shape c0 true).2.1 (Or.inl rfl) (by rw [e1]; omega) (by omega)] at hcs
  cases hcs

/-- **C46** chunk level: SRS for chunk size `b` (default number of values), key from `keygen` or
distributed key generation on the SRS's parameters.  Whenever `encrypt_decomposed_message` succeeds
on chunks below `2^b`, `create_proof` with the circuit on these chunks succeeds, in checked and
unchecked builds, and the ciphertext and proof pass `verify_commitment_and_proof`. -/
theorem C46_chunk_level (T : FftCfg E.Fr) (R : RngCore E) (fuel : ℕ) (st st' : R.σ) (b : UInt8)
    (c0 : BitsizeCheckCircuit E.fr) (gens : EncryptionGens E) (pk : ProvingKey E)
    (hc0 : BitsizeCheckCircuit.new (K := E.fr) b none none true = .ok c0)
    (hsrs : generateSrs T R fuel st c0.generateConstraints gens = .ok (pk, st'))
    (g_i : List E.G1) (hg : getGsForEncryption pk.pk.vk = .ok g_i) (ek : EncryptionKey E)
    (hk : FromSetup ek b gens g_i pk.pk.delta_g1 pk.gamma_g1)
    (R' : RngCore E) (st1 st2 : R'.σ) (chunks : List UInt16) (v : List E.G1) (r : E.Fr)
    (henc : encryptDecomposedMessage R' st1 chunks ek g_i = .ok ((v, r), st2))
    (hch : ∀ c ∈ chunks, c.toNat < 2 ^ b.toNat)
    (num : Option UInt8) (c : BitsizeCheckCircuit E.fr)
    (hc : BitsizeCheckCircuit.new (K := E.fr) b num
      (some (chunks.map fun c => ((c.toNat : ℕ) : E.Fr))) true = .ok c)
    (chk : Bool) (R'' : RngCore E) (st3 : R''.σ) :
    ∃ (ct : Ciphertext E) (proof : Proof E) (st4 : R''.σ), v = flat ct ∧
      createProof T chk R'' st3 c.generateConstraints r pk ek = .ok (proof, st4) ∧
      ct.verifyCommitmentAndProof proof (prepareVerifyingKey pk.pk.vk) ek.prepare gens.prepare
        = .ok () := by
  obtain ⟨n, s, t, hn, hgn, hek⟩ := fromSetup_inv hk
  obtain ⟨hbm, hnum⟩ := srs_bitsize_le hc0 hsrs hn
  obtain ⟨a1, -, a3, -, -⟩ := new_ok hc0
  obtain ⟨b1, b2, b3, -, -⟩ := new_ok hc
  have hX : ek.X.length = n.toNat := by rw [hek]; simp [encKey]
  have hw : WellFormed ek := by rw [hek]; exact encKey_wf _ _ _ _ _ _ _
  have hX256 : ek.X.length < 256 := by rw [hX]; exact n.toNat_lt
  have hlen : chunks.length = ek.X.length := by
    by_contra hc'
    rw [(C14_encrypt_decomposed R' st1 chunks ek g_i).2.2.1 hw
      (by rwa [Nat.mod_eq_of_lt hX256])] at henc
    cases henc
  obtain ⟨proof0, h0, heq⟩ := groth16_complete T R fuel st st' c0 c gens pk hsrs (a1.trans b1.symm)
    (by rw [b1]; exact hbm) a3 b3 _ b2 (by rw [hnum, List.length_map, hlen, hX])
    (by
      intro x hx
      obtain ⟨y, hy, rfl⟩ := List.mem_map.mp hx
      rw [ZMod.val_natCast, b1]
      exact lt_of_le_of_lt (Nat.mod_le _ _) (hch y hy)) chk (draw R'' st3 0) (draw R'' st3 1)
  have henc' := encryptDecomposed_ok R' st1 chunks ek g_i hw hX256 hlen (by omega)
  rw [henc] at henc'
  simp only [Res.ok.injEq, Prod.mk.injEq] at henc'
  obtain ⟨⟨hv, hr⟩, -⟩ := henc'
  have hrun : createProof T chk R'' st3 c.generateConstraints r pk ek =
      .ok ({ proof0 with c := proof0.c + r • ek.P_2 }, after R'' st3 2) := by
    show (createProofWithReduction T chk c.generateConstraints pk.pk (draw R'' st3 0)
      (draw R'' (after R'' st3 1) 0) >>= _) = _
    have h0' : createProofWithReduction T chk c.generateConstraints pk.pk (draw R'' st3 0)
      (draw R'' (after R'' st3 1) 0) = .ok proof0 := h0
    rw [h0', Res.ok_bind, mulBigint_intoBigint]
    rfl
  refine ⟨_, _, _, hv, hrun, ?_⟩
  unfold Ciphertext.verifyCommitmentAndProof
  have hcom := cipher_verifies n s t (fun i => g_i.getD i 0) pk.pk.delta_g1 pk.gamma_g1 gens
    (fun i => (nums chunks).getD i 0) (draw R' st1 0)
  rw [← hek] at hcom
  rw [hcom, Res.ok_bind]
  obtain ⟨proof1, p1, p2, p3, p4, -⟩ := C45_api T R fuel st st' _ gens pk hsrs g_i hg ek b hk R' st1
    st2 chunks _ r (by rw [henc, hv]) chk c.generateConstraints R'' st3 _ _ hrun
  rw [h0] at p3
  cases p3
  exact p4 heq

/-- **C46** message level: with aligned fields (see C05; true for BLS12-381) `encrypt_with_proof`
succeeds for every message, and its output passes `verify_commitment_and_proof`. -/
theorem C46_encrypt_with_proof (T : FftCfg E.Fr) (R : RngCore E) (fuel : ℕ) (st st' : R.σ)
    (b : UInt8) (hb : Supported b)
    (hal : 64 * E.fr.limbs < E.fr.modBits + b.toNat ∧ chunksNeeded E.fr b.toNat ≤ 255)
    (c0 : BitsizeCheckCircuit E.fr) (gens : EncryptionGens E) (pk : ProvingKey E)
    (hc0 : BitsizeCheckCircuit.new (K := E.fr) b none none true = .ok c0)
    (hsrs : generateSrs T R fuel st c0.generateConstraints gens = .ok (pk, st'))
    (g_i : List E.G1) (hg : getGsForEncryption pk.pk.vk = .ok g_i) (ek : EncryptionKey E)
    (hk : FromSetup ek b gens g_i pk.pk.delta_g1 pk.gamma_g1)
    (chk : Bool) (R' : RngCore E) (st1 : R'.σ) (m : E.Fr) :
    ∃ ct r proof st2, encryptWithProof T chk R' st1 m ek pk b = .ok ((ct, r, proof), st2) ∧
      encrypt R' st1 m ek g_i b = .ok ((ct, r), after R' st1 1) ∧
      ct.verifyCommitmentAndProof proof (prepareVerifyingKey pk.pk.vk) ek.prepare gens.prepare
        = .ok () := by
  obtain ⟨n, s, t, hn, hgn, hek⟩ := fromSetup_inv hk
  obtain ⟨d, hd, hlen, hlt, -⟩ := decompose_spec m hb
  have hl := (decomp_len_eq_iff E.fr b n hb hn).mpr hal
  have hX : ek.X.length = n.toNat := by rw [hek]; simp [encKey]
  have hw : WellFormed ek := by rw [hek]; exact encKey_wf _ _ _ _ _ _ _
  have hX256 : ek.X.length < 256 := by rw [hX]; exact n.toNat_lt
  have h1 := encryptDecomposed_ok R' st1 d ek g_i hw hX256 (by omega) (by omega)
  have h2 := encrypt_ok R' st1 m ek g_i b hd hw hX256 (by omega) (by omega)
  obtain ⟨c, hc⟩ : ∃ c, BitsizeCheckCircuit.new (K := E.fr) b none
      (some (d.map fun c => ((c.toNat : ℕ) : E.Fr))) true = .ok c := by
    unfold BitsizeCheckCircuit.new
    simp only [hn, Res.ok_bind]
    exact ⟨_, rfl⟩
  obtain ⟨ct, proof, st4, hv, hp, hver⟩ := C46_chunk_level T R fuel st st' b c0 gens pk hc0 hsrs g_i hg
    ek hk R' st1 _ d _ _ h1 hlt none c hc chk R' (after R' st1 1)
  have hct := flat_inj hv
  subst hct
  refine ⟨_, _, proof, st4, ?_, h2, hver⟩
  unfold encryptWithProof
  rw [hg, Res.ok_bind, h2, Res.ok_bind]
  simp only
  rw [hd, Res.ok_bind, hc, Res.ok_bind, hp, Res.ok_bind]
  rfl

/-- **C46** (negative part) in checked builds `create_proof` aborts when a value does not fit in `b`
bits: the prover asserts satisfaction, and no witness satisfies the circuit. -/
theorem C46_checked_build_aborts (T : FftCfg E.Fr) (R : RngCore E) (st : R.σ) (b : UInt8)
    (num : Option UInt8) (vs : List E.Fr) (c : BitsizeCheckCircuit E.fr)
    (hc : BitsizeCheckCircuit.new (K := E.fr) b num (some vs) true = .ok c)
    (hbm : b.toNat ≤ E.fr.modBits) (hbad : ∃ v ∈ vs, 2 ^ b.toNat ≤ ZMod.val v) (r : E.Fr)
    (pk : ProvingKey E) (ek : EncryptionKey E) :
    createProof T true R st c.generateConstraints r pk ek = .panic := by
  obtain ⟨b1, b2, b3, -, -⟩ := new_ok hc
  obtain ⟨cs, hcs, hiff, -⟩ := C43_complete c vs b2 (by rw [b1]; exact hbm)
  have hns : cs.isSatisfied = false := by
    by_contra hcon
    have hsat : cs.isSatisfied = true := by simpa using hcon
    have h0 : assign cs.inst 0 = 1 := by
      obtain ⟨cs', hcs', -, -, hshape⟩ := (C44_shape c false).1 (Or.inr (by rw [b2]; rfl))
        (by rw [b1]; exact hbm)
      rw [hcs] at hcs'
      cases hcs'
      have := (hshape vs rfl b2).1
      rw [b3, if_pos rfl] at this
      rw [this]
      rfl
    have := hiff.mp ⟨h0, by
      intro q hq
      unfold CS.isSatisfied at hsat
      rw [List.all_eq_true] at hsat
      have := hsat q hq
      rw [decide_eq_true_iff] at this
      exact this⟩
    obtain ⟨v, hv, hge⟩ := hbad
    have h2 := this v hv
    rw [b1] at h2
    omega
  unfold createProof
  rw [fr_eq R st]
  simp only
  unfold createProofWithReduction
  rw [hcs]
  simp only [Res.ok_bind, hns, Bool.not_false, Bool.and_self, if_true]
  rfl

/-! ### C47, C48 -/

theorem verifyProof_sum (pvk : PreparedVerifyingKey E) (proof : Proof E) (ct ct' : Ciphertext E)
    (h : componentSum ct = componentSum ct') :
    verifyProof pvk proof ct = verifyProof pvk proof ct' := by
  unfold componentSum at h
  unfold verifyProof calculateD
  simp only [foldl_add, h]

/-- **C47** `verify_proof` gives the same result on any two ciphertexts with equal
`X_r + sum c_i`, whatever their number of chunks and their commitments, for every verification key
and proof; in particular for reordered chunks. -/
theorem C47_sum_only (pvk : PreparedVerifyingKey E) (proof : Proof E) :
    (∀ ct ct' : Ciphertext E, componentSum ct = componentSum ct' →
      verifyProof pvk proof ct = verifyProof pvk proof ct') ∧
    (∀ (X_r psi psi' : E.G1) (c c' : List E.G1), c.Perm c' →
      verifyProof pvk proof ⟨X_r, c, psi⟩ = verifyProof pvk proof ⟨X_r, c', psi'⟩) := by
  refine ⟨verifyProof_sum pvk proof, ?_⟩
  intro X_r psi psi' c c' h
  apply verifyProof_sum
  unfold componentSum
  simp only [h.sum_eq]

theorem sum_set {G F : Type} [Field F] [AddCommGroup G] [Module F G] (t : ℕ → F) (c : List G)
    (i : ℕ) (y : G) (hi : i < c.length) :
    ∑ k ∈ Finset.range (c.set i y).length, t k • (c.set i y).getD k 0 =
      ∑ k ∈ Finset.range c.length, t k • c.getD k 0 + t i • (y - c.getD i 0) := by
  rw [List.length_set]
  have hmem : i ∈ Finset.range c.length := Finset.mem_range.mpr hi
  rw [← Finset.add_sum_erase _ _ hmem, ← Finset.add_sum_erase (Finset.range c.length) _ hmem]
  have hother : ∑ j ∈ (Finset.range c.length).erase i, t j • (c.set i y).getD j 0
      = ∑ j ∈ (Finset.range c.length).erase i, t j • c.getD j 0 := by
    apply Finset.sum_congr rfl
    intro j hj
    have hji : j ≠ i := (Finset.mem_erase.mp hj).1
    simp [List.getD_eq_getElem?_getD, List.getElem?_set_ne hji.symm]
  have hself : (c.set i y).getD i 0 = y := by
    simp [List.getD_eq_getElem?_getD, List.getElem?_set_self hi]
  rw [hother, hself]
  module

theorem list_sum_getD {G : Type} [AddCommGroup G] (c : List G) :
    c.sum = ∑ k ∈ Finset.range c.length, c.getD k 0 := by
  conv_lhs => rw [eq_tab (l := c) rfl 0, sum_tab]

/-- moves `x` from chunk `j` to chunk `i` -/
def moveBetween {G : Type} [AddCommGroup G] (c : List G) (i j : ℕ) (x : G) : List G :=
  (c.set i (c.getD i 0 + x)).set j (c.getD j 0 - x)

theorem moveBetween_sum {G F : Type} [Field F] [AddCommGroup G] [Module F G] (t : ℕ → F) (c : List G)
    (i j : ℕ) (x : G) (hi : i < c.length) (hj : j < c.length) (hij : i ≠ j) :
    ∑ k ∈ Finset.range (moveBetween c i j x).length, t k • (moveBetween c i j x).getD k 0 =
      ∑ k ∈ Finset.range c.length, t k • c.getD k 0 + (t i - t j) • x := by
  unfold moveBetween
  rw [sum_set t _ j _ (by simpa using hj), sum_set t c i _ hi]
  have : (c.set i (c.getD i 0 + x)).getD j 0 = c.getD j 0 := by
    simp [List.getD_eq_getElem?_getD, List.getElem?_set_ne hij]
  rw [this]
  module

/-- **C47** moving a group element `x` between two chunks is never seen by `verify_proof`, but turns a
ciphertext accepted by the commitment check into one rejected with `InvalidCommitment` whenever
`x` is not zero and the two chunks' secret multipliers `t` differ. -/
theorem C47_move_between_chunks (pvk : PreparedVerifyingKey E) (proof : Proof E)
    (ek : EncryptionKey E) (gens : EncryptionGens E) (t : ℕ → E.Fr)
    (hw : WellFormed ek) (hn : ek.X.length < 256) (hH : gens.H ≠ 0)
    (hZ : ∀ i < ek.X.length + 1, ek.Z.getD i 0 = t i • gens.H)
    (X_r : E.G1) (c : List E.G1) (psi : E.G1) (i j : ℕ) (hi : i < c.length) (hj : j < c.length)
    (hij : i ≠ j) (x : E.G1) :
    verifyProof pvk proof ⟨X_r, moveBetween c i j x, psi⟩ = verifyProof pvk proof ⟨X_r, c, psi⟩ ∧
    (x ≠ 0 → t (i + 1) ≠ t (j + 1) →
      (⟨X_r, c, psi⟩ : Ciphertext E).verifyCommitment ek.prepare gens.prepare = .ok () →
      (⟨X_r, moveBetween c i j x, psi⟩ : Ciphertext E).verifyCommitment ek.prepare gens.prepare =
        .err .invalidCommitment) := by
  constructor
  · apply verifyProof_sum
    unfold componentSum
    have h := moveBetween_sum (fun _ => (1 : E.Fr)) c i j x hi hj hij
    simp only [one_smul, sub_self, zero_smul, add_zero] at h
    simp only [list_sum_getD, h]
  · intro hx ht hacc
    unfold Ciphertext.verifyCommitment at hacc ⊢
    simp only at hacc ⊢
    obtain ⟨hlen, hpsi⟩ := (C16_accept_iff ek gens t hw hn hH hZ X_r c psi).1.mp hacc
    rw [(C16_accept_iff ek gens t hw hn hH hZ X_r (moveBetween c i j x) psi).2.1]
    refine ⟨by simpa [moveBetween] using hlen, ?_⟩
    rw [moveBetween_sum (fun k => t (k + 1)) c i j x hi hj hij, ← add_assoc, ← hpsi]
    intro h
    have h0 : (t (i + 1) - t (j + 1)) • x = 0 := by
      have := h.symm
      rwa [add_eq_left] at this
    rcases smul_eq_zero.mp h0 with h | h
    · exact ht (sub_eq_zero.mp h)
    · exact hx h

/-- **C48** a proof accepted for one ciphertext is rejected, with `PairingCheckFailed`, for every
ciphertext whose component sum differs, for every verification key with nonzero `gamma_g2`. -/
theorem C48_no_transfer (vk : VerifyingKey E) (hg : vk.gamma_g2 ≠ 0) (proof : Proof E)
    (ct ct' : Ciphertext E)
    (hacc : verifyProof (prepareVerifyingKey vk) proof ct = .ok ())
    (hne : componentSum ct ≠ componentSum ct') :
    verifyProof (prepareVerifyingKey vk) proof ct' = .err .pairingCheckFailed := by
  have hv : vk.gamma_abc_g1 ≠ [] := by
    intro h
    unfold verifyProof calculateD prepareVerifyingKey at hacc
    simp only [h] at hacc
    cases hacc
  rw [verifyProof_eq vk proof _ hv] at hacc ⊢
  split at hacc
  · rename_i h1
    rw [if_neg]
    intro h2
    apply hne
    have h3 := add_left_cancel (h1.symm.trans h2)
    have h4 := e_left_inj hg h3
    exact add_right_cancel h4
  · cases hacc

/-- **C48** with an SRS from `generate_srs` over a nonzero `H`: changing any single chunk, or `X_r`, of
a ciphertext with an accepted proof makes `verify_proof` return `PairingCheckFailed`. -/
theorem C48_single_change (T : FftCfg E.Fr) (R : RngCore E) (fuel : ℕ) (st st' : R.σ)
    (C : Synthesizer E.Fr) (gens : EncryptionGens E) (pk : ProvingKey E)
    (hsrs : generateSrs T R fuel st C gens = .ok (pk, st')) (hH : gens.H ≠ 0)
    (proof : Proof E) (X_r : E.G1) (c : List E.G1) (psi : E.G1)
    (hacc : verifyProof (prepareVerifyingKey pk.pk.vk) proof ⟨X_r, c, psi⟩ = .ok ()) :
    (∀ i x psi', i < c.length → x ≠ c.getD i 0 →
      verifyProof (prepareVerifyingKey pk.pk.vk) proof ⟨X_r, c.set i x, psi'⟩
        = .err .pairingCheckFailed) ∧
    (∀ X_r' psi', X_r' ≠ X_r →
      verifyProof (prepareVerifyingKey pk.pk.vk) proof ⟨X_r', c, psi'⟩
        = .err .pairingCheckFailed) := by
  have hg : pk.pk.vk.gamma_g2 ≠ 0 := by
    obtain ⟨cs, d, tau, alpha, beta, gamma, delta, -, -, -, hgam, -, rfl⟩ := srs_inv hsrs
    exact smul_ne_zero hgam hH
  constructor
  · intro i x psi' hi hx
    apply C48_no_transfer _ hg _ _ _ hacc
    intro h
    unfold componentSum at h
    have h1 := add_left_cancel h
    have h2 := sum_set (fun _ => (1 : E.Fr)) c i x hi
    simp only [one_smul] at h2
    simp only [list_sum_getD, h2] at h1
    have : x - c.getD i 0 = 0 := by
      have := h1.symm
      rwa [add_eq_left] at this
    exact hx (sub_eq_zero.mp this)
  · intro X_r' psi' hx
    apply C48_no_transfer _ hg _ _ _ hacc
    intro h
    exact hx (add_right_cancel h).symm

end Verif
