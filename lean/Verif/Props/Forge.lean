/-
Property C73: who knows the secrets `t` of a key forges ciphertexts that pass all checks.  All parties of
distributed key generation know them together; a last party that has seen the other contributions knows them alone.
-/
import Verif.Props.Rogue
import Verif.Props.Generic

namespace Verif
open Spec

variable {E : Engine}

namespace Forge

/-- moving a group element between two chunks and correcting the commitment keeps a ciphertext accepted -/
theorem accepted (n : ℕ) (hn : n < 256) (s t : ℕ → E.Fr) (g : ℕ → E.G1) (D C : E.G1) (gens : EncryptionGens E)
    (hH : gens.H ≠ 0) (vk : VerifyingKey E) (proof : Proof E) (ct : Ciphertext E)
    (hacc : ct.verifyCommitmentAndProof proof (prepareVerifyingKey vk) (encKey n s t g D C gens.H).prepare
      gens.prepare = .ok ()) (i j : ℕ) (hi : i < n) (hj : j < n) (hij : i ≠ j) (A : E.G1) :
    (⟨ct.X_r, moveBetween ct.enc_chunks i j A, ct.commitment + (t (i + 1) - t (j + 1)) • A⟩ :
      Ciphertext E).verifyCommitmentAndProof proof (prepareVerifyingKey vk) (encKey n s t g D C gens.H).prepare
      gens.prepare = .ok () := by
  have hw : WellFormed (encKey n s t g D C gens.H) := encKey_wf _ _ _ _ _ _ _
  have hX : (encKey n s t g D C gens.H).X.length = n := by simp [encKey]
  have hZ : ∀ i < (encKey n s t g D C gens.H).X.length + 1,
      (encKey n s t g D C gens.H).Z.getD i 0 = t i • gens.H := by
    intro i hi
    rw [hX] at hi
    simp only [encKey]
    rw [getD_tab, if_pos hi]
  unfold Ciphertext.verifyCommitmentAndProof at hacc ⊢
  obtain ⟨u, h1, h2⟩ := Res.bind_eq_ok.mp hacc
  have hlen : ct.enc_chunks.length = n := by
    have := (C16_accept_iff _ gens t hw (by rw [hX]; exact hn) hH hZ ct.X_r ct.enc_chunks ct.commitment).1.mp h1
    rw [this.1, hX]
  have hpsi := ((C16_accept_iff _ gens t hw (by rw [hX]; exact hn) hH hZ ct.X_r ct.enc_chunks
    ct.commitment).1.mp h1).2
  have hml : (moveBetween ct.enc_chunks i j A).length = n := by simp [moveBetween, hlen]
  have h1' : (⟨ct.X_r, moveBetween ct.enc_chunks i j A, ct.commitment + (t (i + 1) - t (j + 1)) • A⟩ :
      Ciphertext E).verifyCommitment (encKey n s t g D C gens.H).prepare gens.prepare = .ok () := by
    refine (C16_accept_iff _ gens t hw (by rw [hX]; exact hn) hH hZ ct.X_r (moveBetween ct.enc_chunks i j A)
      (ct.commitment + (t (i + 1) - t (j + 1)) • A)).1.mpr ⟨by rw [hml, hX], ?_⟩
    rw [moveBetween_sum (fun k => t (k + 1)) ct.enc_chunks i j A (by omega) (by omega) hij, hpsi, add_assoc]
  rw [h1', Res.ok_bind, ← h2]
  exact (C47_move_between_chunks (prepareVerifyingKey vk) proof (encKey n s t g D C gens.H) gens t hw
    (by rw [hX]; exact hn) hH hZ ct.X_r ct.enc_chunks _ i j (by omega) (by omega) hij A).1

end Forge

/-- **C73** (all parties together) If a ciphertext passes `verify_commitment_and_proof` under the key of distributed
key generation, then the parties can move any group element `A` from chunk `j` to chunk `i`: with the commitment
corrected by `(Σ t_(i+1) - Σ t_(j+1)) A`, which they compute from their secret keys, it passes with the same proof. -/
theorem C73_all_parties_forge (parties : List (Party E)) (hne : parties ≠ []) (b : UInt8) (gens : EncryptionGens E)
    (g_i : List E.G1) (D C : E.G1) (sks : List (SecretKeyST E)) (ek : EncryptionKey E)
    (hk : dkg parties b gens g_i D C = .ok (sks, ek)) (hH : gens.H ≠ 0) (vk : VerifyingKey E) (proof : Proof E)
    (ct : Ciphertext E)
    (hacc : ct.verifyCommitmentAndProof proof (prepareVerifyingKey vk) ek.prepare gens.prepare = .ok ())
    (i j : ℕ) (hi : i < ek.X.length) (hj : j < ek.X.length) (hij : i ≠ j) (A : E.G1) :
    (⟨ct.X_r, moveBetween ct.enc_chunks i j A, ct.commitment +
        ((sks.map fun sk => sk.t.getD (i + 1) 0).sum - (sks.map fun sk => sk.t.getD (j + 1) 0).sum) • A⟩ :
      Ciphertext E).verifyCommitmentAndProof proof (prepareVerifyingKey vk) ek.prepare gens.prepare = .ok () := by
  obtain ⟨n, s, t, hn, hg, -⟩ := fromSetup_inv (.inr ⟨parties, sks, hk⟩ : FromSetup ek b gens g_i D C)
  rw [dkg_eq parties hne gens g_i D C hn hg] at hk
  simp only [Res.ok.injEq, Prod.mk.injEq] at hk
  obtain ⟨rfl, rfl⟩ := hk
  have hn256 := n.toNat_lt
  generalize n.toNat = N at *
  simp only [encKey, length_tab] at hi hj
  have h := Forge.accepted N hn256 _ _ _ D C gens hH vk proof ct hacc i j hi hj hij A
  have ht : ∀ i < N, (sumT N parties (i + 1)) =
      ((parties.map (partySK N)).map fun sk => sk.t.getD (i + 1) 0).sum := by
    intro i hi
    rw [List.map_map]
    unfold sumT
    congr 1
    refine List.map_congr_left fun P _ => ?_
    simp only [Function.comp_apply, partySK]
    rw [getD_tab, if_pos (by omega)]
  rw [ht i hi, ht j hj] at h
  exact h

/-- **C73** What is forged is in general no encryption: if `k g_i` is moved into chunk `i` of an encryption of
`m`, and no number below `2^b` equals `m_i + k` in the field, the result is, whatever its commitment, not the
encryption of any chunks below `2^b` with any randomness. -/
theorem C73_forgery_is_no_encryption (ek : EncryptionKey E) (g : ℕ → E.G1) (m : ℕ → ℕ) (r : E.Fr)
    (hX : ek.X_0 ≠ 0) (i j : ℕ) (hi : i < ek.X.length) (hij : i ≠ j) (hgi : g i ≠ 0) (k : E.Fr) (b : ℕ)
    (hk : ∀ x : ℕ, x < 2 ^ b → (x : E.Fr) ≠ (m i : E.Fr) + k) (psi : E.G1) (m' : ℕ → ℕ) (r' : E.Fr)
    (hm' : ∀ i < ek.X.length, m' i < 2 ^ b) :
    (⟨(cipher ek g m r).X_r, moveBetween (cipher ek g m r).enc_chunks i j (k • g i), psi⟩ : Ciphertext E)
      ≠ cipher ek g m' r' := by
  intro h
  have h1 : r • ek.X_0 = r' • ek.X_0 := congrArg Ciphertext.X_r h
  have hr : r = r' := smul_left_injective _ hX h1
  have h2 : moveBetween (cipher ek g m r).enc_chunks i j (k • g i) = (cipher ek g m' r').enc_chunks :=
    congrArg Ciphertext.enc_chunks h
  have h3 := congrArg (fun l => l.getD i 0) h2
  simp only [moveBetween, cipher] at h3
  rw [List.getD_eq_getElem?_getD, List.getElem?_set_ne hij.symm,
    List.getElem?_set_self (by simpa using hi), Option.getD_some, getD_tab, if_pos hi, getD_tab, if_pos hi, ← hr,
    add_assoc, add_right_inj, nsmul_fr (E := E), nsmul_fr (E := E), ← add_smul] at h3
  exact hk _ (hm' i hi) (smul_left_injective _ hgi h3).symm

namespace Forge

/-- the last party's partial key that cancels the others' `t` in favour of its own -/
def key (n : ℕ) (t : ℕ → E.Fr) (g : ℕ → E.G1) (D : E.G1) (H : E.G2)
    (keys : List (FEncryptionKeyPartial E)) : FEncryptionKeyPartial E where
  X_0 := D
  X := tab n fun _ => 0
  Y := tab n fun i => t (i + 1) • g i - (keys.map fun k => k.Y.getD i 0).sum
  Z := tab (n + 1) fun i => t i • H - (keys.map fun k => k.Z.getD i 0).sum
  P_2 := 0

/-- its share: computed from the combined key and the others' shares -/
def share (n : ℕ) (t : ℕ → E.Fr) (ek : FEncryptionKeyPartial E) (shares : List (P1share E)) : P1share E :=
  ⟨t 0 • ek.X_0 + ∑ j ∈ Finset.range n, t (j + 1) • ek.X.getD j 0 - (shares.map (·.P_1)).sum⟩

theorem takeover (parties : List (Party E)) (hne : parties ≠ []) {b n8 : UInt8}
    (gens : EncryptionGens E) (g_i : List E.G1) (D C : E.G1)
    (hn : chunksCount E.fr b = .ok n8) (hg : n8.toNat ≤ g_i.length) (t : ℕ → E.Fr) :
    dkgWithRogue parties (key n8.toNat t (fun i => g_i.getD i 0) D gens.H) (share n8.toNat t)
      b gens g_i D C = .ok (encKey n8.toNat (sumS parties) t (fun i => g_i.getD i 0) D C gens.H) := by
  refine (Rogue.dkgWithRogue_eq parties hne gens g_i D C hn hg _ _
    (fun _ => 0) (fun i => t (i + 1) • g_i.getD i 0 - sumT n8.toNat parties (i + 1) • g_i.getD i 0)
    (fun i => t i • gens.H - sumT n8.toNat parties i • gens.H) 0 D ?_).trans (congrArg Res.ok ?_)
  · generalize n8.toNat = n
    simp only [key, List.map_map, Function.comp_def, partialKey]
    congr 1
    · refine tab_congr fun i hi => ?_
      simp only [getD_tab, if_pos hi]
      rw [sum_map_smul]
      rfl
    · refine tab_congr fun i hi => ?_
      simp only [getD_tab, if_pos hi]
      rw [sum_map_smul]
      rfl
  · generalize n8.toNat = n
    unfold encKey
    simp only [add_sub_cancel, add_zero, share, add_smul, one_smul]
    congr 1
    simp only [List.map_map, Function.comp_def]
    rw [sum_map_add, sum_map_finset, sum_map_smul]
    have e : ∑ j ∈ Finset.range n, (parties.map fun Q => partyT n Q (j + 1) • sumS parties j • D).sum =
        ∑ j ∈ Finset.range n, sumT n parties (j + 1) • sumS parties j • D := by
      refine Finset.sum_congr rfl fun j _ => ?_
      rw [sum_map_smul]
      rfl
    have e2 : ∑ j ∈ Finset.range n, t (j + 1) • (tab n fun i => sumS parties i • D).getD j 0 =
        (∑ i ∈ Finset.range n, sumS parties i * t (i + 1)) • D := by
      rw [Finset.sum_smul]
      refine Finset.sum_congr rfl fun j hj => ?_
      rw [getD_tab, if_pos (Finset.mem_range.mp hj), smul_smul, mul_comm]
    rw [e, e2]
    exact add_sub_cancel _ _

end Forge

/-- **C73** (one party alone) For all scalars `t` of its choice there is a strategy of the last party, depending only
on `t` and published values, such that whatever the other parties are: key generation ends with a key that honest key
generation could have produced, and whatever ciphertext and proof pass `verify_commitment_and_proof`, the party can
move any group element `A` between any two chunks: with the commitment corrected by `(t_(i+1) - t_(j+1)) A` the result
passes with the same proof. -/
theorem C73_last_party_forges (b n : UInt8) (hn : chunksCount E.fr b = .ok n) (gens : EncryptionGens E)
    (hH : gens.H ≠ 0) (g_i : List E.G1) (hg : n.toNat ≤ g_i.length) (D C : E.G1) (t : ℕ → E.Fr) :
    ∃ (rogueKey : List (FEncryptionKeyPartial E) → FEncryptionKeyPartial E)
      (rogueShare : FEncryptionKeyPartial E → List (P1share E) → P1share E),
      ∀ parties : List (Party E), parties ≠ [] →
        ∃ ek, dkgWithRogue parties rogueKey rogueShare b gens g_i D C = .ok ek ∧
          FromSetup ek b gens g_i D C ∧ ek.X.length = n.toNat ∧
          ∀ (vk : VerifyingKey E) (proof : Proof E) (ct : Ciphertext E),
            ct.verifyCommitmentAndProof proof (prepareVerifyingKey vk) ek.prepare gens.prepare = .ok () →
            ∀ i j, i < n.toNat → j < n.toNat → i ≠ j → ∀ A : E.G1,
              (⟨ct.X_r, moveBetween ct.enc_chunks i j A, ct.commitment + (t (i + 1) - t (j + 1)) • A⟩ :
                Ciphertext E).verifyCommitmentAndProof proof (prepareVerifyingKey vk) ek.prepare gens.prepare
                = .ok () :=
  ⟨Forge.key n.toNat t (fun i => g_i.getD i 0) D gens.H, Forge.share n.toNat t, fun parties hne =>
    ⟨_, Forge.takeover parties hne gens g_i D C hn hg t, Rogue.from_keygen gens g_i D C hn hg _ _,
      by simp [encKey], fun vk proof ct hacc i j hi hj hij A =>
        Forge.accepted n.toNat n.toNat_lt _ t _ D C gens hH vk proof ct hacc i j hi hj hij A⟩⟩

/-- **C73** (end to end) On parameters from `generate_srs` with nonzero generators, the last party can contribute
so that, whatever the other parties are, it can turn the encryption of every message into a ciphertext that passes
`verify_commitment_and_proof` and is not the encryption of any chunks below `2^b`. -/
theorem C73_accepted_garbage (T : FftCfg E.Fr) (R : RngCore E) (fuel : ℕ) (st st' : R.σ)
    (b : UInt8) (hb : Supported b)
    (hal : 64 * E.fr.limbs < E.fr.modBits + b.toNat ∧ chunksNeeded E.fr b.toNat ≤ 255)
    (c0 : BitsizeCheckCircuit E.fr) (gens : EncryptionGens E) (hG : gens.G ≠ 0) (hH : gens.H ≠ 0)
    (pk : ProvingKey E)
    (hc0 : BitsizeCheckCircuit.new (K := E.fr) b none none true = .ok c0)
    (hsrs : generateSrs T R fuel st c0.generateConstraints gens = .ok (pk, st'))
    (g_i : List E.G1) (hg : getGsForEncryption pk.pk.vk = .ok g_i) (hgi : ∀ g ∈ g_i, g ≠ 0)
    (n : UInt8) (hn : chunksCount E.fr b = .ok n) (hgn : n.toNat ≤ g_i.length) (hn2 : 2 ≤ n.toNat)
    (hp : 2 ^ b.toNat < E.fr.p) :
    ∃ (rogueKey : List (FEncryptionKeyPartial E) → FEncryptionKeyPartial E)
      (rogueShare : FEncryptionKeyPartial E → List (P1share E) → P1share E),
      ∀ parties : List (Party E), parties ≠ [] →
        ∃ ek, dkgWithRogue parties rogueKey rogueShare b gens g_i pk.pk.delta_g1 pk.gamma_g1 = .ok ek ∧
          ∀ (chk : Bool) (R' : RngCore E) (st1 : R'.σ) (m : E.Fr), ∃ ct r proof st2 ct',
            encryptWithProof T chk R' st1 m ek pk b = .ok ((ct, r, proof), st2) ∧
            ct'.verifyCommitmentAndProof proof (prepareVerifyingKey pk.pk.vk) ek.prepare gens.prepare = .ok () ∧
            ∀ (x : ℕ → ℕ) (r' : E.Fr), (∀ i < n.toNat, x i < 2 ^ b.toNat) →
              ct' ≠ cipher ek (fun i => g_i.getD i 0) x r' := by
  obtain ⟨rk, rs, hall⟩ := C73_last_party_forges b n hn gens hH g_i hgn pk.pk.delta_g1 pk.gamma_g1 0
  refine ⟨rk, rs, fun parties hne => ?_⟩
  obtain ⟨ek, hek, hfrom, hX, hforge⟩ := hall parties hne
  refine ⟨ek, hek, fun chk R' st1 m => ?_⟩
  obtain ⟨ct, r, proof, st2, h1, h2, h3⟩ := C46_encrypt_with_proof T R fuel st st' b hb hal c0 gens pk hc0 hsrs g_i hg
    ek hfrom chk R' st1 m
  obtain ⟨d, hd, hs, -⟩ := C14_encrypt_splits R' st1 m ek g_i b hb
  obtain ⟨-, -, -, -, hv, -, -⟩ := encryptDecomposed_inv (hs _ _ _ h2)
  have hct := flat_inj hv
  have hX0 : ek.X_0 ≠ 0 := by
    obtain ⟨n', s, t, -, -, rfl⟩ := fromSetup_inv hfrom
    obtain ⟨cs, dm, tau, alpha, beta, gamma, delta, -, -, -, -, hdel, rfl⟩ := srs_inv hsrs
    exact smul_ne_zero hdel hG
  have hg0 : g_i.getD 0 0 ≠ 0 := by
    rw [List.getD_eq_getElem?_getD, List.getElem?_eq_getElem (by omega), Option.getD_some]
    exact hgi _ (List.getElem_mem _)
  refine ⟨ct, r, proof, st2, _, h1, hforge _ proof ct h3 0 1 (by omega) (by omega) (by omega)
    ((((2 ^ b.toNat : ℕ) : E.Fr) - (((nums d).getD 0 0 : ℕ) : E.Fr)) • g_i.getD 0 0), fun x r' hx => ?_⟩
  rw [hct]
  refine C73_forgery_is_no_encryption ek (fun i => g_i.getD i 0) (fun i => (nums d).getD i 0) _ hX0 0 1 (by omega)
    (by omega) hg0 _ b.toNat (fun y hy h => ?_) _ x r' (by rw [hX]; exact hx)
  rw [add_sub_cancel] at h
  have := congrArg ZMod.val h
  rw [ZMod.val_natCast_of_lt (by omega), ZMod.val_natCast_of_lt hp] at this
  omega

/-- the hypotheses are met: the 16-bit run of the fixtures, one honest party and a rogue one -/
example : ∃ (pk : ProvingKey Fix.E) (g_i : List Fix.E.G1)
    (rk : List (FEncryptionKeyPartial Fix.E) → FEncryptionKeyPartial Fix.E)
    (rs : FEncryptionKeyPartial Fix.E → List (P1share Fix.E) → P1share Fix.E) (ek : EncryptionKey Fix.E),
    dkgWithRogue [⟨listRng Fix.E, Fix.st⟩] rk rs 16 Fix.gens g_i pk.pk.delta_g1 pk.gamma_g1 = .ok ek ∧
    ∀ m : Fix.E.Fr, ∃ (ct' : Ciphertext Fix.E) (proof : Proof Fix.E),
      ct'.verifyCommitmentAndProof proof (prepareVerifyingKey pk.pk.vk) ek.prepare Fix.gens.prepare = .ok () ∧
      ∀ (x : ℕ → ℕ) (r' : Fix.E.Fr), (∀ i < (4 : UInt8).toNat, x i < 2 ^ (16 : UInt8).toNat) →
        ct' ≠ cipher ek (fun i => g_i.getD i 0) x r' := by
  obtain ⟨c0, pk, sk, ek, dk, g_i, st1, st2, hc0, hsrs, hg, hkg, hk, -⟩ := fix_run
  have hnz : ∀ g ∈ g_i, g ≠ 0 := by
    have hz := (C55_zero_generators (E := Fix.E) goldFft (listRng Fix.E) 1 Fix.stFull st1 16 4 Fix.count c0 hc0 Fix.gens
      pk hsrs 113 Fix.rows_eq.symm Fix.dom (by rw [Fix.four']; exact Fix.dom_ok) 0
      (Fix.tau_ok' _ _ Fix.draw4 Fix.dom_size) (by intro j hj; omega)).1
    intro g hmem h0
    have ht : g ∈ pk.pk.vk.gamma_abc_g1.tail := by
      unfold getGsForEncryption at hg
      split at hg
      · cases hg
      · rename_i a l hv
        cases hg
        rw [hv]
        exact hmem
    rcases hz.mp ⟨g, ht, h0⟩ with h | h
    · exact absurd h.2 (by decide +kernel : (2 : Fix.F) ≠ 0)
    · rw [show Fix.E.fr.modBits = 64 from goldFr_modBits] at h
      exact Fix.beta_ok h
  have hgl : (4 : UInt8).toNat ≤ g_i.length := by
    obtain ⟨n, s, t, hn, hgn, -⟩ := fromSetup_inv hk
    have h4 := Fix.count
    rw [h4] at hn
    cases hn
    exact hgn
  obtain ⟨rk, rs, h⟩ := C73_accepted_garbage goldFft (listRng Fix.E) 1 Fix.stFull st1 16 (Or.inr (Or.inr rfl))
    Fix.aligned c0 Fix.gens (by exact (by decide +kernel : (2 : Fix.F) ≠ 0))
    (by exact (by decide +kernel : (3 : Fix.F) ≠ 0)) pk hc0 hsrs g_i hg hnz 4 Fix.count hgl (by decide)
    (by decide)
  obtain ⟨ek, hek, hall⟩ := h [⟨listRng Fix.E, Fix.st⟩] (by simp)
  refine ⟨pk, g_i, rk, rs, ek, hek, fun m => ?_⟩
  obtain ⟨ct, r, proof, st3, ct', -, h2, h3⟩ := hall true (listRng Fix.E) Fix.st1 m
  exact ⟨ct', proof, h2, h3⟩

/-- and those of `C73_all_parties_forge`: two honest parties, any message, an element moved from chunk 3 to chunk 1 -/
example : ∃ (pk : ProvingKey Fix.E) (g_i : List Fix.E.G1) (sks : List (SecretKeyST Fix.E)) (ek : EncryptionKey Fix.E),
    dkg [⟨listRng Fix.E, Fix.st⟩, ⟨listRng Fix.E, Fix.st1⟩] 16 Fix.gens g_i pk.pk.delta_g1 pk.gamma_g1
      = .ok (sks, ek) ∧
    ∀ m : Fix.E.Fr, ∃ (ct : Ciphertext Fix.E) (r : Fix.E.Fr) (proof : Proof Fix.E) (st2 : (listRng Fix.E).σ),
      encryptWithProof goldFft true (listRng Fix.E) Fix.st1 m ek pk 16 = .ok ((ct, r, proof), st2) ∧
      (⟨ct.X_r, moveBetween ct.enc_chunks 1 3 Fix.D, ct.commitment + ((sks.map fun sk => sk.t.getD 2 0).sum -
        (sks.map fun sk => sk.t.getD 4 0).sum) • Fix.D⟩ : Ciphertext Fix.E).verifyCommitmentAndProof proof
        (prepareVerifyingKey pk.pk.vk) ek.prepare Fix.gens.prepare = .ok () := by
  obtain ⟨c0, pk, sk, ek, dk, g_i, st1, st2, hc0, hsrs, hg, hkg, hk, -⟩ := fix_run
  obtain ⟨n, s, t, hn, hgn, -⟩ := fromSetup_inv hk
  have h4 := Fix.count
  rw [h4] at hn
  cases hn
  have hd := dkg_eq (E := Fix.E) [⟨listRng Fix.E, Fix.st⟩, ⟨listRng Fix.E, Fix.st1⟩] (by simp) Fix.gens g_i
    pk.pk.delta_g1 pk.gamma_g1 Fix.count hgn
  refine ⟨pk, g_i, _, _, hd, fun m => ?_⟩
  obtain ⟨ct, r, proof, st3, h1, -, h2⟩ := C46_encrypt_with_proof goldFft (listRng Fix.E) 1 Fix.stFull
    st1 16 (Or.inr (Or.inr rfl)) Fix.aligned c0 Fix.gens pk hc0 hsrs g_i hg _ (.inr ⟨_, _, hd⟩) true (listRng Fix.E)
    Fix.st1 m
  exact ⟨ct, r, proof, st3, h1, C73_all_parties_forge _ (by simp) 16 Fix.gens g_i _ _ _ _ hd
    (by exact (by decide +kernel : (3 : Fix.F) ≠ 0)) _ proof ct h2 1 3 (by simp only [encKey, length_tab]; decide)
    (by simp only [encKey, length_tab]; decide) (by decide) Fix.D⟩

end Verif
