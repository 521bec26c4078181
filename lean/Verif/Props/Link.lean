/-
Property C93: chunked commitments and ciphertexts with a common opening belong to the same message.
-/
import Verif.SpecLink
import Verif.Props.Commit
import Verif.Props.ChosenCiphertext

namespace Verif
open Spec

section
variable {E : Engine} {G : Type} [AddCommGroup G] [Module E.Fr G]

namespace Link

theorem n_ne {K : FieldCfg} {b n : UInt8} (hb : Supported b) (hlen : 64 * K.limbs / b.toNat = n.toNat) : n ≠ 0 := by
  rintro rfl
  have hl : 0 < K.limbs := by
    rcases Nat.eq_zero_or_pos K.limbs with h | h
    · have := K.p_lt
      rw [h] at this
      have := K.prime.two_le
      simp at *
      omega
    · exact h
  have h64 : 64 / b.toNat ≠ 0 := by
    rcases hb with rfl | rfl | rfl <;> decide
  have h5 : 64 / b.toNat ≤ 64 * K.limbs / b.toNat := Nat.div_le_div_right (by omega)
  rw [hlen, show (0 : UInt8).toNat = 0 from rfl] at h5
  exact h64 (Nat.le_zero.mp h5)

/-- a combination with the powers of the radix -/
theorem opens_iff (radix n : ℕ) (cg : ChunkedCommitmentGens G) (J : G) (m : ℕ → E.Fr) (r : E.Fr) :
    OpensChunked (powersKey radix n cg.G ++ [cg.H]) J m r ↔
      J = (∑ i ∈ Finset.range n, m i * (radix : E.Fr) ^ (n - 1 - i)) • cg.G + r • cg.H := by
  unfold OpensChunked
  have hl : (powersKey radix n cg.G ++ [cg.H]).length - 1 = n := by simp [powersKey]
  have hp : (powersKey radix n cg.G).length = n := by simp [powersKey]
  rw [hl, List.getD_append_right _ _ _ _ (by omega), hp, Nat.sub_self, List.getD_cons_zero]
  have : (∑ i ∈ Finset.range n, m i • (powersKey radix n cg.G ++ [cg.H]).getD i 0) =
      (∑ i ∈ Finset.range n, m i * (radix : E.Fr) ^ (n - 1 - i)) • cg.G := by
    rw [Finset.sum_smul]
    refine Finset.sum_congr rfl fun i hi => ?_
    have hi := Finset.mem_range.mp hi
    rw [List.getD_append _ _ _ _ (by omega)]
    unfold powersKey
    rw [getD_tab, if_pos hi, ← Nat.cast_smul_eq_nsmul E.Fr, smul_smul, Nat.cast_pow]
  rw [this]

theorem sum_positional (radix : ℕ) (l : List ℕ) :
    (∑ i ∈ Finset.range l.length, ((l.getD i 0 : ℕ) : E.Fr) * (radix : E.Fr) ^ (l.length - 1 - i)) =
      ((positional radix l : ℕ) : E.Fr) := by
  unfold positional
  push_cast
  rfl

theorem nums_length (d : List UInt16) : (nums d).length = d.length := by simp [nums]

end Link

/-- **C93** (completeness) The commitment inside the ciphertext that `encrypt` returns for `m` and the chunked commitment
that `ChunkedCommitment::new` returns for the same message have a common opening: one vector of chunks, all below
`2^b`, opens both, together with the returned randomness `r` and the blinding `r'`, respectively. -/
theorem C93_common_opening (R : RngCore E) (st st' : R.σ) (m r r' : E.Fr) (b n : UInt8) (hb : Supported b)
    (hn : chunksCount E.fr b = .ok n) (hlen : 64 * E.fr.limbs / b.toNat = n.toNat) (ek : EncryptionKey E)
    (g_i : List E.G1) (ct : Ciphertext E) (he : encrypt R st m ek g_i b = .ok ((ct, r), st')) (chk : Bool)
    (cg : ChunkedCommitmentGens G) (J : ChunkedCommitment G)
    (hJ : ChunkedCommitment.new E.fr chk m r' b cg = .ok J) :
    ∃ c : ℕ → ℕ, (∀ i, c i < 2 ^ b.toNat) ∧ OpensPsi ek ct.commitment (fun i => (c i : E.Fr)) r ∧
      OpensChunked J.key J.comm (fun i => (c i : E.Fr)) r' ∧ J.key.length = n.toNat + 1 := by
  obtain ⟨d, hd, h1, -⟩ := C14_encrypt_splits R st m ek g_i b hb
  obtain ⟨d', hd', h2, h3, h4⟩ := decompose_spec m hb
  rw [hd] at hd'
  cases hd'
  obtain ⟨hw, hX, hc, hg, hv, -, -⟩ := encryptDecomposed_inv (h1 _ _ _ he)
  have hct := flat_inj hv
  rw [chunked_new_eq E.fr chk m r' b n cg hb hn hlen] at hJ
  cases hJ
  refine ⟨fun i => (nums d).getD i 0, fun i => ?_, ?_, ?_, ?_⟩
  · beta_reduce
    by_cases hi : i < d.length
    · have : (nums d).getD i 0 = d[i].toNat := by
        simp [nums, List.getD_eq_getElem?_getD, List.getElem?_eq_getElem hi]
      rw [this]
      exact h3 _ (List.getElem_mem hi)
    · rw [List.getD_eq_default _ _ (by rw [Link.nums_length]; omega)]
      positivity
  · unfold OpensPsi
    rw [hct, hw.1]
    simp only [cipher, nsmul_fr (E := E)]
  · refine (Link.opens_iff (E := E) _ _ cg _ _ _).mpr ?_
    have hl : n.toNat = (nums d).length := by rw [Link.nums_length, h2, hlen]
    rw [hl, Link.sum_positional, h4]
    have hv : ((ZMod.val m : ℕ) : E.Fr) = m := ZMod.natCast_zmod_val m
    rw [hv]
  · simp [powersKey]

/-- **C93** (a chunked commitment determines its message) Whatever scalars open a chunked commitment with respect to the
key of `commitment_key`, in range or not, it is the Pedersen commitment to their value in base `2^b`; so it is what
`ChunkedCommitment::new` returns for this value. -/
theorem C93_opened_chunks (chk : Bool) (b n : UInt8) (hb : Supported b)
    (hn : chunksCount E.fr b = .ok n) (hlen : 64 * E.fr.limbs / b.toNat = n.toNat) (cg : ChunkedCommitmentGens G)
    (key : List G) (hkey : commitmentKey E.fr chk cg b = .ok key) (J : G) (m : ℕ → E.Fr) (r : E.Fr) :
    OpensChunked key J m r ↔
      ChunkedCommitment.new E.fr chk
        (∑ i ∈ Finset.range n.toNat, m i * (2 ^ b.toNat) ^ (n.toNat - 1 - i)) r b cg = .ok ⟨J, key⟩ := by
  have h := C38_commitment_key E.fr chk cg b n (supported_le b hb).1 hn (Link.n_ne hb hlen)
  rw [h] at hkey
  cases hkey
  rw [Link.opens_iff, chunked_new_eq E.fr chk _ r b n cg hb hn hlen]
  simp only [Res.ok.injEq, ChunkedCommitment.mk.injEq, and_true, Nat.cast_pow, Nat.cast_ofNat]
  exact eq_comm

namespace Link

/-- decrypted chunks of a ciphertext of arbitrary field elements -/
theorem decrypted {R : RngCore E} {st st' : R.σ} {b n : UInt8}
    {gens : EncryptionGens E} {g_i : List E.G1} {D C : E.G1} {sk : SecretKey E} {ek : EncryptionKey E}
    {dk : DecryptionKey E} (hk : keygen R st b gens g_i D C = .ok ((sk, ek, dk), st')) (hb : Supported b)
    (hn : chunksCount E.fr b = .ok n)
    (hgi : ∀ g ∈ g_i, g ≠ 0) (hV : ∀ V ∈ dk.V_2, V ≠ 0) (m : ℕ → E.Fr) (r : E.Fr) (ct : Ciphertext E)
    (hct : ct = fieldCipher ek (fun i => g_i.getD i 0) m r) (chk : Bool) (ds : List UInt16) (nu : E.G1)
    (h : decryptToChunks chk ct.X_r ct.enc_chunks sk dk.prepare g_i b = .ok (ds, nu)) :
    ds.length = n.toNat ∧ (∀ x ∈ ds, x.toNat < 2 ^ b.toNat) ∧
      ∀ i < n.toNat, m i = (((nums ds).getD i 0 : ℕ) : E.Fr) := by
  obtain ⟨n', hn', hg⟩ := keygen_ok_inv hk
  rw [hn] at hn'
  cases hn'
  rw [keygen_eq R st gens g_i D C hn hg] at hk
  simp only [Res.ok.injEq, Prod.mk.injEq] at hk
  obtain ⟨⟨rfl, rfl, rfl⟩, -⟩ := hk
  have hlen : ct.enc_chunks.length = n.toNat := by rw [hct]; simp [fieldCipher, encKey]
  obtain ⟨-, hl, hall⟩ := ((C20_decrypt_cases chk ct.X_r ct.enc_chunks _ _ g_i b
    (by rcases hb with rfl | rfl | rfl <;> decide)).2.2.2 (by simp [decKey])
      (by rw [hlen]; simp only [decKey, length_tab]; exact (Nat.mod_eq_of_lt n.toNat_lt).symm) (by omega)).1 ds nu |>.mp h
  rw [hlen] at hl hall
  have hget : ∀ i (hi : i < ds.length), (nums ds).getD i 0 = ds[i].toNat := by
    intro i hi
    simp [nums, List.getD_eq_getElem?_getD, List.getElem?_eq_getElem hi]
  refine ⟨hl, ?_, ?_⟩
  · intro x hx
    obtain ⟨i, hi, rfl⟩ := List.getElem_of_mem hx
    have h1 := (hall i (by omega)).1
    rw [hget i hi, searchBound_eq (by rcases hb with rfl | rfl | rfl <;> decide)
      (by rcases hb with rfl | rfl | rfl <;> decide)] at h1
    have : 0 < 2 ^ b.toNat := by positivity
    omega
  · intro i hi
    have hlog := (hall i hi).2.1
    generalize (nums ds).getD i 0 = x at hlog
    have hv2 : ∀ (i : ℕ) (_ : i < n.toNat), (draw R st 0 * draw R st (2 + 2 * n.toNat + i)) • gens.H ≠ 0 := by
      intro i hi
      refine hV _ ?_
      simp only [decKey, tab, List.mem_map, List.mem_range]
      exact ⟨i, hi, rfl⟩
    have hgn : g_i.getD i 0 ≠ 0 := by
      rw [List.getD_eq_getElem?_getD, List.getElem?_eq_getElem (by omega)]
      exact hgi _ (List.getElem_mem _)
    have hval : chunkValue ct.X_r ct.enc_chunks (draw R st 0) (decKey n.toNat (draw R st 0)
        (fun i => draw R st (1 + i)) (fun i => draw R st (2 + 2 * n.toNat + i)) gens.H) i =
        m i • E.e (g_i.getD i 0) ((draw R st 0 * draw R st (2 + 2 * n.toNat + i)) • gens.H) := by
      rw [hct]
      simp only [chunkValue, fieldCipher, encKey, decKey, length_tab, getD_tab, if_pos hi]
      simp only [map_add, map_smul, LinearMap.add_apply, LinearMap.smul_apply, smul_smul, smul_add]
      module
    rw [hval] at hlog
    simp only [chunkBase, decKey, getD_tab, if_pos hi] at hlog
    rw [nsmul_fr (E := E)] at hlog
    have hne : E.e (g_i.getD i 0) ((draw R st 0 * draw R st (2 + 2 * n.toNat + i)) • gens.H) ≠ 0 :=
      fun h => (E.nondeg _ _ h).elim hgn (hv2 i hi)
    exact (smul_left_injective _ hne hlog).symm

theorem even_of_aligned {K : FieldCfg} {b n : UInt8} (hlen : 64 * K.limbs / b.toNat = n.toNat) :
    b = 4 → 2 ∣ n.toNat := by
  rintro rfl
  rw [← hlen]
  have : (4 : UInt8).toNat = 4 := rfl
  rw [this]
  omega

theorem gs_tail {vk : VerifyingKey E} {l : List E.G1} (h : getGsForEncryption vk = .ok l) :
    vk.gamma_abc_g1.tail = l := by
  unfold getGsForEncryption at h
  split at h
  · cases h
  · rename_i g gs hv
    cases h
    rw [hv]
    rfl

theorem setup_lengths {T : FftCfg E.Fr} {R : RngCore E} {fuel : ℕ} {st st' : R.σ} {b n : UInt8}
    (hn : chunksCount E.fr b = .ok n) {gens : EncryptionGens E}
    {pk : ProvingKey E} {sk : SecretKey E} {ek : EncryptionKey E} {dk : DecryptionKey E}
    (h : setupForGroth16 T R fuel st b gens = .ok ((pk, sk, ek, dk), st')) :
    ek.X.length = n.toNat ∧ ek.Y.length = n.toNat := by
  obtain ⟨g_i, st1, -, hkg⟩ := Nm.setup_keygen h
  obtain ⟨n', s, t, hn', hgn, hek⟩ := fromSetup_inv (Or.inl ⟨_, _, _, _, _, hkg⟩ :
    FromSetup ek b gens g_i pk.pk.delta_g1 pk.gamma_g1)
  rw [hn] at hn'
  cases hn'
  rw [hek]
  simp [encKey]

theorem sub_open {ek : EncryptionKey E} {n : ℕ} (hY : ek.Y.length = n) {psi : E.G1} {m m' : ℕ → E.Fr} {r r' : E.Fr}
    (h : OpensPsi ek psi m r) (h' : OpensPsi ek psi m' r') :
    (∑ i ∈ Finset.range n, (m i - m' i) • ek.Y.getD i 0) + (r - r') • ek.P_1 = 0 := by
  unfold OpensPsi at h h'
  rw [hY] at h h'
  have e := sub_eq_zero.mpr (h.symm.trans h')
  refine Eq.trans ?_ e
  simp only [sub_smul, Finset.sum_sub_distrib]
  abel

end Link

/-- **C93** (soundness) Let a ciphertext be the SAVER ciphertext of some field elements `c_i` (as every accepted one is, on
all but a few setups, see `C93_adaptive`), and let `c_i` with some blinding open a chunked commitment `J`.  If `decrypt`
returns the message `M`, then `J` is the chunked commitment to `M`, with the same blinding. -/
theorem C93_same_message (R : RngCore E) (st st' : R.σ) (b n : UInt8) (gens : EncryptionGens E)
    (g_i : List E.G1) (D C : E.G1) (sk : SecretKey E) (ek : EncryptionKey E) (dk : DecryptionKey E)
    (hk : keygen R st b gens g_i D C = .ok ((sk, ek, dk), st')) (hb : Supported b)
    (hn : chunksCount E.fr b = .ok n) (hlen : 64 * E.fr.limbs / b.toNat = n.toNat)
    (hgi : ∀ g ∈ g_i, g ≠ 0) (hV : ∀ V ∈ dk.V_2, V ≠ 0) (c : ℕ → E.Fr) (r : E.Fr) (chk : Bool) (M : E.Fr)
    (nu : E.G1) (h : (fieldCipher ek (fun i => g_i.getD i 0) c r).decrypt chk sk dk.prepare g_i b = .ok (M, nu))
    (chk' : Bool) (cg : ChunkedCommitmentGens G) (key : List G) (hkey : commitmentKey E.fr chk' cg b = .ok key) (J : G)
    (r' : E.Fr) (hJ : OpensChunked key J c r') :
    ChunkedCommitment.new E.fr chk' M r' b cg = .ok ⟨J, key⟩ := by
  have hJ' := (C93_opened_chunks chk' b n hb hn hlen cg key hkey J c r').mp hJ
  unfold Ciphertext.decrypt decrypt at h
  obtain ⟨⟨ds, nu'⟩, h1, h2⟩ := Res.bind_eq_ok.mp h
  obtain ⟨M', h3, h4⟩ := Res.bind_eq_ok.mp h2
  simp only [Res.pure_eq, Res.ok.injEq, Prod.mk.injEq] at h4
  obtain ⟨rfl, rfl⟩ := h4
  obtain ⟨hl, hr, hm⟩ := Link.decrypted hk hb hn hgi hV c r _ rfl chk ds nu' h1
  rw [C06_compose_positional E.fr chk ds b hb (by rw [hl]; exact Link.even_of_aligned hlen) hr] at h3
  cases h3
  rw [← hJ']
  congr 1
  have hl' : n.toNat = (nums ds).length := by rw [Link.nums_length, hl]
  have hs := Link.sum_positional (E := E) (2 ^ b.toNat) (nums ds)
  rw [← hl'] at hs
  refine hs.symm.trans (Finset.sum_congr rfl fun i hi => ?_)
  rw [hm i (Finset.mem_range.mp hi), Nat.cast_pow, Nat.cast_ofNat]

/-- **C93** (the documented caveat) If the same blinding is used for two chunked commitments to a message, with generators
that differ in `G` and agree in `H`, then their difference depends on the message only, and on all of it: for two such
pairs the differences are the same exactly if the messages are. -/
theorem C93_reused_blinding_links (chk : Bool) (b n : UInt8) (hb : Supported b) (hn : chunksCount E.fr b = .ok n)
    (hlen : 64 * E.fr.limbs / b.toNat = n.toNat) (cg cg' : ChunkedCommitmentGens G) (hG : cg.G ≠ cg'.G)
    (hH : cg.H = cg'.H) (m1 r1 m2 r2 : E.Fr) :
    ∃ J1 J1' J2 J2' : ChunkedCommitment G,
      ChunkedCommitment.new E.fr chk m1 r1 b cg = .ok J1 ∧ ChunkedCommitment.new E.fr chk m1 r1 b cg' = .ok J1' ∧
      ChunkedCommitment.new E.fr chk m2 r2 b cg = .ok J2 ∧ ChunkedCommitment.new E.fr chk m2 r2 b cg' = .ok J2' ∧
      (J1.comm - J1'.comm = J2.comm - J2'.comm ↔ m1 = m2) := by
  refine ⟨_, _, _, _, chunked_new_eq E.fr chk m1 r1 b n cg hb hn hlen, chunked_new_eq E.fr chk m1 r1 b n cg' hb hn hlen,
    chunked_new_eq E.fr chk m2 r2 b n cg hb hn hlen, chunked_new_eq E.fr chk m2 r2 b n cg' hb hn hlen, ?_⟩
  dsimp only
  rw [hH]
  have e : ∀ m r : E.Fr, m • cg.G + r • cg'.H - (m • cg'.G + r • cg'.H) = m • (cg.G - cg'.G) := by
    intro m r
    module
  have h1 := e m1 r1
  have h2 := e m2 r2
  constructor
  · intro h
    have h3 : m1 • (cg.G - cg'.G) = m2 • (cg.G - cg'.G) := h1.symm.trans (h.trans h2)
    exact smul_left_injective E.Fr (sub_ne_zero.mpr hG) h3
  · rintro rfl
    exact h1.trans h2.symm

end

section
variable {E : Engine}
variable (T : FftCfg E.Fr) (b n : UInt8) (hb : Supported b) (hn : chunksCount E.fr b = .ok n)
    (hbm : b.toNat ≤ E.fr.modBits)
    (hal : 64 * E.fr.limbs < E.fr.modBits + b.toNat ∧ chunksNeeded E.fr b.toNat ≤ 255)
    (gens : EncryptionGens E) (hG : gens.G ≠ 0) (hH : gens.H ≠ 0) (d : EvalDomain E.Fr)
    (hd : T.newDomain (n.toNat * constraintsPerValue E.fr.modBits b.toNat + (n.toNat + 1)) = some d)
include hn hbm hG hd

namespace Link

/-- a fixed relation between the bases of the commitment holds on few setups -/
theorem relation_count (a : ℕ → E.Fr) (c : E.Fr) (hac : c ≠ 0 ∨ ∃ i < n.toNat, a i ≠ 0)
    (A : Finset (Fin (7 + 3 * n.toNat) → E.Fr))
    (hA : ∀ g ∈ A, ∃ pk sk ek dk f', setupForGroth16 T (tape E) 1 (tapeOf g) b gens = .ok ((pk, sk, ek, dk), f') ∧
      (∀ g ∈ pk.pk.vk.gamma_abc_g1.tail, g ≠ 0) ∧
      (∑ i ∈ Finset.range n.toNat, a i • ek.Y.getD i 0) + c • ek.P_1 = 0) :
    A.card ≤ E.fr.p ^ (6 + 3 * n.toNat) := by
  classical
  obtain ⟨c0, cs, hc0, hcs, hI, hC, -⟩ := setup_shape hn hbm
  -- the equation, in terms of the tape
  let μ : (Fin (7 + 3 * n.toNat) → E.Fr) → ℕ → E.Fr := fun g i => mixAt cs (d.lagrange (tapeOf g 4)) (tapeOf g 0)
    (tapeOf g 1) (.inst (i + 1)) * (tapeOf g 2)⁻¹
  have key : ∀ g ∈ A, tapeOf g 3 ≠ 0 ∧ (∀ i0 < n.toNat, μ g i0 ≠ 0) ∧
      (∑ i ∈ Finset.range n.toNat, a i * (tapeOf g (7 + n.toNat + i) * μ g i)) + c * ((tapeOf g (6 + n.toNat) +
        ∑ i ∈ Finset.range n.toNat, tapeOf g (6 + i) * tapeOf g (7 + n.toNat + i)) * tapeOf g 3) = 0 := by
    intro g hg
    obtain ⟨pk, sk, ek, dk, f', hset, hne, heq⟩ := hA g hg
    obtain ⟨⟨h1, h2, h3⟩, -⟩ := Adapt.setup_views T b n hn hbm c0 hc0 cs hcs hI hC gens d hd _ pk sk ek dk f' hset
    have hrun := setup_run T (tape E) 1 (by omega) (tapeOf g) b n hn hbm c0 hc0 cs hcs hI gens d hd
      (by rw [draw_tape]; exact h2) (by rw [draw_tape]; exact h3) (by rw [draw_tape]; exact h1)
    rw [hset] at hrun
    simp only [draw_tape, Res.ok.injEq, Prod.mk.injEq] at hrun
    obtain ⟨⟨rfl, -, rfl, -⟩, -⟩ := hrun
    have hgs := gs_of_srs cs d (tapeOf g 4) (tapeOf g 0) (tapeOf g 1) (tapeOf g 2) (tapeOf g 3) gens.G gens.H n.toNat hI
    refine ⟨h3, ?_, ?_⟩
    · intro i0 hi0 h0
      rw [gs_tail hgs] at hne
      refine hne _ (List.mem_map.mpr ⟨i0, List.mem_range.mpr hi0, rfl⟩) ?_
      have : μ g i0 • gens.G = 0 := by rw [h0, zero_smul]
      exact this
    · have h6 : ((∑ i ∈ Finset.range n.toNat, a i * (tapeOf g (7 + n.toNat + i) * μ g i)) + c * ((tapeOf g (6 + n.toNat) +
        ∑ i ∈ Finset.range n.toNat, tapeOf g (6 + i) * tapeOf g (7 + n.toNat + i)) * tapeOf g 3)) • gens.G = 0 := by
        rw [← heq]
        simp only [encKey]
        rw [add_smul, Finset.sum_smul, smul_smul, smul_smul]
        have e7 : ∀ i, 6 + n.toNat + (i + 1) = 7 + n.toNat + i := fun i => by omega
        simp only [e7, Nat.add_zero]
        refine congrArg₂ (· + ·) (Finset.sum_congr rfl fun i hi => ?_) ?_
        · have hi := Finset.mem_range.mp hi
          rw [getD_tab, if_pos hi, getD_tab, if_pos hi, smul_smul, smul_smul]
          refine congrArg (· • gens.G) ?_
          simp only [μ]
          ring
        · refine congrArg (· • gens.G) ?_
          ring
      exact (smul_eq_zero.mp h6).resolve_right hG
  have hup : ∀ (g : Fin (7 + 3 * n.toNat) → E.Fr) (j : Fin (7 + 3 * n.toNat)) (x : E.Fr) (k : ℕ),
      tapeOf (Function.update g j x) k = if k = j.val then x else tapeOf g k := by
    intro g j x k
    unfold tapeOf
    by_cases hk : k < 7 + 3 * n.toNat
    · rw [dif_pos hk, dif_pos hk]
      by_cases hkj : k = j.val
      · have : (⟨k, hk⟩ : Fin (7 + 3 * n.toNat)) = j := Fin.ext hkj
        rw [this, Function.update_self, if_pos hkj]
      · rw [if_neg hkj, Function.update_of_ne (fun h => hkj (congrArg Fin.val h))]
    · rw [dif_neg hk, dif_neg hk, if_neg (by omega)]
  have main : ∀ j : Fin (7 + 3 * n.toNat), (∀ g x y, Function.update g j x ∈ A → Function.update g j y ∈ A → x = y) →
      A.card ≤ 1 * E.fr.p ^ (7 + 3 * n.toNat - 1) := by
    intro j hj
    refine Cca.count_fiber j 1 A (fun g => Finset.univ.filter fun x => Function.update g j x ∈ A) (fun g => ?_)
      (fun g hg => ?_)
    · refine Finset.card_le_one.mpr fun x hx y hy => ?_
      exact hj g x y (Finset.mem_filter.mp hx).2 (Finset.mem_filter.mp hy).2
    · refine Finset.mem_filter.mpr ⟨Finset.mem_univ _, ?_⟩
      rw [Function.update_idem, Function.update_eq_self]
      exact hg
  rw [Nat.one_mul, show 7 + 3 * n.toNat - 1 = 6 + 3 * n.toNat by omega] at main
  by_cases hc : c = 0
  · obtain ⟨i0, hi0, ha⟩ := hac.resolve_left (fun h => h hc)
    refine main ⟨7 + n.toNat + i0, by omega⟩ fun g x y hx hy => ?_
    have hμ : ∀ x i, μ (Function.update g ⟨7 + n.toNat + i0, by omega⟩ x) i = μ g i := by
      intro x i
      simp only [μ, hup]
      rw [if_neg (by omega), if_neg (by omega), if_neg (by omega), if_neg (by omega)]
    obtain ⟨-, h1, h2⟩ := key _ hx
    obtain ⟨-, -, h3⟩ := key _ hy
    have h1 := h1 i0 hi0
    rw [hμ] at h1
    rw [hc, zero_mul, add_zero] at h2 h3
    have h4 := h2.trans h3.symm
    rw [← sub_eq_zero, ← Finset.sum_sub_distrib, Finset.sum_eq_single i0] at h4
    · simp only [hup, if_true, hμ] at h4
      have : a i0 * μ g i0 * (x - y) = 0 := by rw [← h4]; ring
      exact sub_eq_zero.mp ((mul_eq_zero.mp this).resolve_left (mul_ne_zero ha h1))
    · intro i _ hi
      simp only [hup, hμ]
      rw [if_neg (by omega), if_neg (by omega), sub_self]
    · intro h
      exact absurd (Finset.mem_range.mpr hi0) h
  · refine main ⟨6 + n.toNat, by omega⟩ fun g x y hx hy => ?_
    have hμ : ∀ x i, μ (Function.update g ⟨6 + n.toNat, by omega⟩ x) i = μ g i := by
      intro x i
      simp only [μ, hup]
      rw [if_neg (by omega), if_neg (by omega), if_neg (by omega), if_neg (by omega)]
    have hform : ∀ x, Function.update g ⟨6 + n.toNat, by omega⟩ x ∈ A → tapeOf g 3 ≠ 0 ∧
      (∑ i ∈ Finset.range n.toNat, a i * (tapeOf g (7 + n.toNat + i) * μ g i)) + c * ((x +
        ∑ i ∈ Finset.range n.toNat, tapeOf g (6 + i) * tapeOf g (7 + n.toNat + i)) * tapeOf g 3) = 0 := by
      intro x hx
      obtain ⟨h1, -, h2⟩ := key _ hx
      rw [hup, if_neg (by simp only; omega)] at h1
      refine ⟨h1, Eq.trans ?_ h2⟩
      congr 1
      · refine Finset.sum_congr rfl fun i _ => ?_
        rw [hμ, hup, if_neg (by simp only; omega)]
      · rw [hup, if_pos rfl, hup, if_neg (by simp only; omega)]
        congr 3
        refine Finset.sum_congr rfl fun i hi => ?_
        have hi := Finset.mem_range.mp hi
        rw [hup, if_neg (by simp only; omega), hup, if_neg (by simp only; omega)]
    obtain ⟨h1, h2⟩ := hform x hx
    obtain ⟨-, h3⟩ := hform y hy
    have : c * tapeOf g 3 * (x - y) = 0 := by
      rw [← sub_self (0 : E.Fr)]
      nth_rw 1 [← h2]
      rw [← h3]
      ring
    exact sub_eq_zero.mp ((mul_eq_zero.mp this).resolve_left (mul_ne_zero hc h1))

omit hn hbm hG in
theorem size_ge : 2 * n.toNat + 2 ≤ 3 * d.size + 5 := by
  have h := T.le_size _ _ hd
  have h2 : n.toNat ≤ n.toNat * constraintsPerValue E.fr.modBits b.toNat + n.toNat := Nat.le_add_left _ _
  omega

end Link

include hb hal hH

/-- **C93** (the commitment inside ciphertexts is binding) An adversary asks up to `q` questions about everything
`setup_for_groth16` publishes and then outputs chunks and randomness twice.  On at most a `(q + 1) (3 size + 5) / p`
fraction of the draws of the setup are these two different openings of the same commitment. -/
theorem C93_binding (A : Prover E (((ℕ → E.Fr) × E.Fr) × ((ℕ → E.Fr) × E.Fr))) :
    {g : Fin (7 + 3 * n.toNat) → E.Fr | ∃ pk sk ek dk f' m r m' r' psi,
      setupForGroth16 T (tape E) 1 (tapeOf g) b gens = .ok ((pk, sk, ek, dk), f') ∧
      A.choice (public1 gens pk ek) (public2 gens pk ek dk) = ((m, r), (m', r')) ∧
      OpensPsi ek psi m r ∧ OpensPsi ek psi m' r' ∧ (r ≠ r' ∨ ∃ i < n.toNat, m i ≠ m' i)}.ncard ≤
      (A.questions + 1) * (3 * d.size + 5) * E.fr.p ^ (6 + 3 * n.toNat) := by
  classical
  obtain ⟨c0, cs, hc0, hcs, hI, hC, -⟩ := setup_shape hn hbm
  obtain ⟨⟨⟨m, r⟩, ⟨m', r'⟩⟩, Bad, hbad, hconst⟩ := Adapt.choice_const
    (Adapt.views (setupParams d n.toNat (7 + 3 * n.toNat)) cs n.toNat gens.G gens.H) hG hH A
  obtain ⟨Bad2, hbad2, hnd⟩ := Cca.degenerate T b n hb hn hbm hal gens hG hH d hd (7 + 3 * n.toNat) le_rfl
  rw [show 7 + 3 * n.toNat - 1 = 6 + 3 * n.toNat by omega] at hbad hbad2
  rw [show 2 * d.size + 3 + (d.size + 2) = 3 * d.size + 5 by omega] at hbad
  have hsz := Link.size_ge T b n d hd
  let Rel : Finset (Fin (7 + 3 * n.toNat) → E.Fr) := Finset.univ.filter fun g =>
    (r - r' ≠ 0 ∨ ∃ i < n.toNat, m i - m' i ≠ 0) ∧
    ∃ pk sk ek dk f', setupForGroth16 T (tape E) 1 (tapeOf g) b gens = .ok ((pk, sk, ek, dk), f') ∧
      (∀ g ∈ pk.pk.vk.gamma_abc_g1.tail, g ≠ 0) ∧
      (∑ i ∈ Finset.range n.toNat, (m i - m' i) • ek.Y.getD i 0) + (r - r') • ek.P_1 = 0
  have hRel : Rel.card ≤ E.fr.p ^ (6 + 3 * n.toNat) := by
    by_cases hne : r - r' ≠ 0 ∨ ∃ i < n.toNat, m i - m' i ≠ 0
    · exact Link.relation_count T b n hn hbm gens hG d hd (fun i => m i - m' i) (r - r') hne Rel
        fun g hg => (Finset.mem_filter.mp hg).2.2
    · have : Rel = ∅ := Finset.filter_eq_empty_iff.mpr fun g _ h => hne h.1
      rw [this]
      simp
  have hsub : {g : Fin (7 + 3 * n.toNat) → E.Fr | ∃ pk sk ek dk f' m r m' r' psi,
      setupForGroth16 T (tape E) 1 (tapeOf g) b gens = .ok ((pk, sk, ek, dk), f') ∧
      A.choice (public1 gens pk ek) (public2 gens pk ek dk) = ((m, r), (m', r')) ∧
      OpensPsi ek psi m r ∧ OpensPsi ek psi m' r' ∧ (r ≠ r' ∨ ∃ i < n.toNat, m i ≠ m' i)} ⊆
      ((Bad ∪ (Bad2 ∪ Rel) : Finset _) : Set _) := by
    rintro g ⟨pk, sk, ek, dk, f', m1, r1, m1', r1', psi, hset, hch, h1, h2, hne⟩
    rw [Finset.mem_coe, Finset.mem_union, Finset.mem_union]
    by_cases hg : g ∈ Bad
    · exact Or.inl hg
    by_cases hg2 : g ∈ Bad2
    · exact Or.inr (Or.inl hg2)
    refine Or.inr (Or.inr (Finset.mem_filter.mpr ⟨Finset.mem_univ _, ?_⟩))
    obtain ⟨hgood, e1, e2⟩ := Adapt.setup_views T b n hn hbm c0 hc0 cs hcs hI hC gens d hd _ _ _ _ _ _ hset
    rw [e1, e2] at hch
    have hch := (hconst g hgood hg).symm.trans hch
    simp only [Prod.mk.injEq] at hch
    obtain ⟨⟨rfl, rfl⟩, rfl, rfl⟩ := hch
    have hY : ek.Y.length = n.toNat := (Link.setup_lengths hn hset).2
    refine ⟨hne.imp sub_ne_zero.mpr (fun ⟨i, hi, h⟩ => ⟨i, hi, sub_ne_zero.mpr h⟩), pk, sk, ek, dk, f', hset,
      (hnd g hg2 _ _ _ _ _ hset).1, ?_⟩
    exact Link.sub_open hY h1 h2
  have h1 := Set.ncard_le_ncard hsub (Set.toFinite _)
  rw [Set.ncard_coe_finset] at h1
  refine h1.trans ((Finset.card_union_le _ _).trans ((Nat.add_le_add_left (Finset.card_union_le _ _) _).trans ?_))
  rw [Nat.mul_assoc, Nat.add_mul, Nat.one_mul]
  refine Nat.add_le_add hbad ((Nat.add_le_add hbad2 hRel).trans ?_)
  refine le_trans (le_of_eq ?_) (Nat.mul_le_mul_right _ hsz)
  ring

/-- **C93** (soundness of the link, against adaptive adversaries) An adversary asks up to `q` questions about everything
`setup_for_groth16` publishes and outputs a ciphertext and a proof, and chunks and randomness that open the commitment of
the ciphertext.  On at most a `(q + 1) (3 size + 5) / p` fraction of the draws of the setup does
`verify_commitment_and_proof` accept, unless the ciphertext decrypts to a message `M` such that every chunked commitment
that the same chunks open, for any generators and blinding, is the chunked commitment to `M`. -/
theorem C93_adaptive (A : Prover E (Claim E.Fr)) (chk : Bool) :
    {g : Fin (7 + 3 * n.toNat) → E.Fr | ∃ pk sk ek dk f' W ct,
      setupForGroth16 T (tape E) 1 (tapeOf g) b gens = .ok ((pk, sk, ek, dk), f') ∧
      W = A.choice (public1 gens pk ek) (public2 gens pk ek dk) ∧
      ct = W.strategy.cipher (public1 gens pk ek) ∧
      Accepted gens pk ek ct (W.strategy.proof (public1 gens pk ek) (public2 gens pk ek dk)) ∧
      OpensPsi ek ct.commitment W.m W.r ∧
      ¬ ∃ M nu, ct.decryptGivenGroth16Vk chk sk dk.prepare pk.pk.vk b = .ok (M, nu) ∧
        ∀ (G : Type) [AddCommGroup G] [Module E.Fr G] (cg : ChunkedCommitmentGens G) (chk' : Bool) key J r',
          commitmentKey E.fr chk' cg b = .ok key → OpensChunked key J W.m r' →
          ChunkedCommitment.new E.fr chk' M r' b cg = .ok ⟨J, key⟩}.ncard ≤
      (A.questions + 1) * (3 * d.size + 5) * E.fr.p ^ (6 + 3 * n.toNat) := by
  classical
  obtain ⟨c0, cs, hc0, hcs, hI, hC, -⟩ := setup_shape hn hbm
  have hlen := (decomp_len_eq_iff E.fr b n hb hn).mpr hal
  obtain ⟨W, Bad, hbad, hconst⟩ := Adapt.choice_const
    (Adapt.views (setupParams d n.toNat (7 + 3 * n.toNat)) cs n.toNat gens.G gens.H) hG hH A
  obtain ⟨Bad2, hbad2, hnd⟩ := Cca.degenerate T b n hb hn hbm hal gens hG hH d hd (7 + 3 * n.toNat) le_rfl
  rw [show 7 + 3 * n.toNat - 1 = 6 + 3 * n.toNat by omega] at hbad hbad2
  rw [show 2 * d.size + 3 + (d.size + 2) = 3 * d.size + 5 by omega] at hbad
  have hsz := Link.size_ge T b n d hd
  have hS : ∀ (g : Fin (7 + 3 * n.toNat) → E.Fr) pk sk ek dk f', g ∉ Bad →
      setupForGroth16 T (tape E) 1 (tapeOf g) b gens = .ok ((pk, sk, ek, dk), f') →
      A.choice (public1 gens pk ek) (public2 gens pk ek dk) = W := by
    intro g pk sk ek dk f' hg hset
    obtain ⟨hgood, h1, h2⟩ := Adapt.setup_views T b n hn hbm c0 hc0 cs hcs hI hC gens d hd _ _ _ _ _ _ hset
    rw [h1, h2]
    exact hconst g hgood hg
  rw [Nat.mul_assoc, Nat.add_mul, Nat.one_mul]
  by_cases hmany : (3 * d.size + 5) * E.fr.p ^ (6 + 3 * n.toNat) <
      {g : Fin (7 + 3 * n.toNat) → E.Fr | Accepts T b gens W.strategy (tapeOf g)}.ncard
  swap
  · refine (Set.ncard_le_ncard (t := (Bad : Set _) ∪
      {g : Fin (7 + 3 * n.toNat) → E.Fr | Accepts T b gens W.strategy (tapeOf g)}) ?_ (Set.toFinite _)).trans
      ((Set.ncard_union_le _ _).trans (Nat.add_le_add ?_ (not_lt.mp hmany)))
    · rintro g ⟨pk, sk, ek, dk, f', W', ct, hset, hW, hct, hacc, -⟩
      by_cases hg : g ∈ Bad
      · exact Or.inl hg
      · rw [hS g pk sk ek dk f' hg hset] at hW
        subst hW hct
        exact Or.inr ⟨pk, sk, ek, dk, f', hset, hacc⟩
    · rw [Set.ncard_coe_finset]
      exact hbad
  obtain ⟨m, r, hm, hall⟩ := C62_knowledge_error T b n hn hbm gens hG hH d hd W.strategy hmany
  let Rel : Finset (Fin (7 + 3 * n.toNat) → E.Fr) := Finset.univ.filter fun g =>
    (r - W.r ≠ 0 ∨ ∃ i < n.toNat, (m i : E.Fr) - W.m i ≠ 0) ∧
    ∃ pk sk ek dk f', setupForGroth16 T (tape E) 1 (tapeOf g) b gens = .ok ((pk, sk, ek, dk), f') ∧
      (∀ g ∈ pk.pk.vk.gamma_abc_g1.tail, g ≠ 0) ∧
      (∑ i ∈ Finset.range n.toNat, ((m i : E.Fr) - W.m i) • ek.Y.getD i 0) + (r - W.r) • ek.P_1 = 0
  have hRel : Rel.card ≤ E.fr.p ^ (6 + 3 * n.toNat) := by
    by_cases hne : r - W.r ≠ 0 ∨ ∃ i < n.toNat, (m i : E.Fr) - W.m i ≠ 0
    · exact Link.relation_count T b n hn hbm gens hG d hd (fun i => (m i : E.Fr) - W.m i) (r - W.r) hne Rel
        fun g hg => (Finset.mem_filter.mp hg).2.2
    · have : Rel = ∅ := Finset.filter_eq_empty_iff.mpr fun g _ h => hne h.1
      rw [this]
      simp
  refine (Set.ncard_le_ncard (t := ((Bad ∪ (Bad2 ∪ Rel) : Finset _) : Set _)) ?_ (Set.toFinite _)).trans ?_
  · rintro g ⟨pk, sk, ek, dk, f', W', ct, hset, hW, hct, hacc, hopen, hno⟩
    rw [Finset.mem_coe, Finset.mem_union, Finset.mem_union]
    by_cases hg : g ∈ Bad
    · exact Or.inl hg
    by_cases hg2 : g ∈ Bad2
    · exact Or.inr (Or.inl hg2)
    refine Or.inr (Or.inr (Finset.mem_filter.mpr ⟨Finset.mem_univ _, ?_⟩))
    rw [hS g pk sk ek dk f' hg hset] at hW
    subst hW
    have hct2 := hct.trans (hall _ _ _ _ _ _ _ _ hset)
    have hY : ek.Y.length = n.toNat := (Link.setup_lengths hn hset).2
    obtain ⟨g_i, st3, hgi, hkg⟩ := Nm.setup_keygen hset
    have htail := Link.gs_tail hgi
    have hndg := hnd g hg2 _ _ _ _ _ hset
    have hopen2 : OpensPsi ek ct.commitment (fun i => (m i : E.Fr)) r := by
      unfold OpensPsi
      rw [hct2]
      simp only [cipher, nsmul_fr (E := E)]
      rw [hY, (Link.setup_lengths hn hset).1]
    by_cases hne : r - W'.r ≠ 0 ∨ ∃ i < n.toNat, (m i : E.Fr) - W'.m i ≠ 0
    · exact ⟨hne, pk, sk, ek, dk, f', hset, hndg.1, Link.sub_open hY hopen2 hopen⟩
    · exfalso
      push Not at hne
      refine hno ?_
      have hgne : ∀ g ∈ g_i, g ≠ 0 := by rw [← htail]; exact hndg.1
      rw [htail] at hct2
      have hX := (Link.setup_lengths hn hset).1
      have hfc : fieldCipher ek (fun i => g_i.getD i 0) W'.m r = ct := by
        rw [hct2]
        unfold fieldCipher cipher
        rw [hX]
        have hmi : ∀ i < n.toNat, W'.m i = (m i : E.Fr) := fun i hi => (sub_eq_zero.mp (hne.2 i hi)).symm
        congr 1
        · refine tab_congr fun i hi => ?_
          rw [hmi i hi, nsmul_fr (E := E)]
        · refine congrArg (· + _) (Finset.sum_congr rfl fun i hi => ?_)
          rw [hmi i (Finset.mem_range.mp hi), nsmul_fr (E := E)]
      have hdec := Nm.decrypt_cipher hkg hn hb hgne hndg.2 m hm r chk
      rw [← hct2] at hdec
      have hr : ∀ x ∈ tab n.toNat fun i => UInt16.ofNat (m i), x.toNat < 2 ^ b.toNat := by
        intro x hx
        obtain ⟨i, hi, rfl⟩ := List.mem_map.mp hx
        have h1 := (hm i (List.mem_range.mp hi)).1
        exact lt_of_le_of_lt (by simp only [UInt16.toNat_ofNat']; exact Nat.mod_le _ _) h1
      have hcomp := C06_compose_positional E.fr chk (tab n.toNat fun i => UInt16.ofNat (m i)) b hb
        (by rw [length_tab]; exact Link.even_of_aligned hlen) hr
      have hD : ∃ M nu, ct.decrypt chk sk dk.prepare g_i b = .ok (M, nu) := by
        unfold Ciphertext.decrypt decrypt
        rw [hdec, Res.ok_bind]
        dsimp only
        rw [hcomp, Res.ok_bind]
        exact ⟨_, _, rfl⟩
      obtain ⟨M, nu, hD⟩ := hD
      refine ⟨M, nu, by unfold Ciphertext.decryptGivenGroth16Vk; rw [hgi, Res.ok_bind]; exact hD, ?_⟩
      intro G _ _ cg chk' key J r' hkey hJ
      exact C93_same_message _ _ _ b n gens g_i _ _ sk ek dk hkg hb hn hlen hgne hndg.2 W'.m r chk _ _
        (by rw [hfc]; exact hD) chk' cg key hkey J r' hJ
  · rw [Set.ncard_coe_finset]
    refine (Finset.card_union_le _ _).trans ((Nat.add_le_add_left (Finset.card_union_le _ _) _).trans ?_)
    refine Nat.add_le_add hbad ((Nat.add_le_add hbad2 hRel).trans ?_)
    refine le_trans (le_of_eq ?_) (Nat.mul_le_mul_right _ hsz)
    ring

omit hb hal hG hH in
/-- **C93** The honest adversary of `C93_adaptive`: for all chunks below `2^b` and every `r` there is a claim that is accepted
and opens the commitment in every run of the setup. -/
theorem C93_honest (m : ℕ → ℕ) (hm : ∀ i < n.toNat, m i < 2 ^ b.toNat) (r : E.Fr) :
    ∃ W : Claim E.Fr, (W.m = fun i => (m i : E.Fr)) ∧ W.r = r ∧
      ∀ (R : RngCore E) (fuel : ℕ) (st st' : R.σ) pk sk ek dk,
        setupForGroth16 T R fuel st b gens = .ok ((pk, sk, ek, dk), st') →
        Accepted gens pk ek (W.strategy.cipher (public1 gens pk ek))
          (W.strategy.proof (public1 gens pk ek) (public2 gens pk ek dk)) ∧
        OpensPsi ek (W.strategy.cipher (public1 gens pk ek)).commitment W.m W.r := by
  obtain ⟨S, hS⟩ := C61_honest_strategy T b n hn hbm gens d hd m hm r
  refine ⟨⟨S, fun i => (m i : E.Fr), r⟩, rfl, rfl, fun R fuel st st' pk sk ek dk hset => ?_⟩
  obtain ⟨h1, h2⟩ := hS R fuel st st' pk sk ek dk hset
  refine ⟨h2, ?_⟩
  obtain ⟨hX, hY⟩ := Link.setup_lengths hn hset
  unfold OpensPsi
  rw [h1, hY, ← hX]
  simp only [cipher, nsmul_fr (E := E)]

end

/-- The hypotheses of `C93_common_opening` and `C93_same_message` are met by the concrete 16-bit instance: the message 1234567
is encrypted and committed to with generators 2 and 5, and the common opening opens the commitment. -/
example : ∃ (ct : Ciphertext Fix.E) (r : Fix.E.Fr) (st' : _) (J : ChunkedCommitment Fix.E.G1) (c : ℕ → Fix.E.Fr) (nu : Fix.E.G1),
    encrypt (listRng Fix.E) Fix.st1 (show Fix.E.Fr from (1234567 : Fix.F)) Fix.ek Fix.gi 16 = .ok ((ct, r), st') ∧
    ChunkedCommitment.new Fix.E.fr true (show Fix.E.Fr from (1234567 : Fix.F)) (show Fix.E.Fr from (99 : Fix.F)) 16
      ⟨show Fix.E.G1 from (2 : Fix.F), show Fix.E.G1 from (5 : Fix.F)⟩ = .ok J ∧
    ct = fieldCipher Fix.ek (fun i => Fix.gi.getD i 0) c r ∧ OpensChunked J.key J.comm c (show Fix.E.Fr from (99 : Fix.F)) ∧
    ct.decrypt true Fix.sk Fix.dk.prepare Fix.gi 16 = .ok (show Fix.E.Fr from (1234567 : Fix.F), nu) := by
  have hlen := (decomp_len_eq_iff Fix.E.fr 16 4 (Or.inr (Or.inr rfl)) Fix.count).mpr Fix.aligned
  obtain ⟨ct, r, st2, he, hdec, -⟩ := C18_decrypt_encrypt (listRng Fix.E) Fix.st _ 16 Fix.gens Fix.gi Fix.D Fix.C Fix.sk Fix.ek
    Fix.dk Fix.keygen_ok (Or.inr (Or.inr rfl)) Fix.aligned Fix.gi_ne Fix.V2_ne (listRng Fix.E) Fix.st1
    (show Fix.E.Fr from (1234567 : Fix.F))
  obtain ⟨d, hd, h2, h3, h4⟩ := decompose_spec (K := Fix.E.fr) (show Fix.E.Fr from (1234567 : Fix.F))
    (b := 16) (Or.inr (Or.inr rfl))
  have hX : Fix.ek.X.length = 4 := by decide +kernel
  have hg : Fix.gi.length = 4 := by decide +kernel
  have hd4 : d.length = 4 := h2.trans hlen
  have he2 := encrypt_ok (listRng Fix.E) Fix.st1 _ Fix.ek Fix.gi 16 hd Fix.wf (by omega) (by omega) (by omega)
  rw [he2] at he
  simp only [Res.ok.injEq, Prod.mk.injEq] at he
  obtain ⟨⟨hct, hr⟩, hst⟩ := he
  refine ⟨ct, r, st2, _, fun i => (((nums d).getD i 0 : ℕ) : Fix.E.Fr), _, ?_, chunked_new_eq Fix.E.fr true _ _ 16 4 _
    (Or.inr (Or.inr rfl)) Fix.count hlen, ?_, ?_, hdec true⟩
  · rw [he2, hct, hr, hst]
  · rw [← hct, ← hr]
    unfold cipher fieldCipher
    simp only [nsmul_fr (E := Fix.E)]
  · refine (Link.opens_iff (E := Fix.E) _ _ _ _ _ _).mpr ?_
    have hl : (4 : UInt8).toNat = (nums d).length := by rw [Link.nums_length, hd4]; rfl
    rw [hl, Link.sum_positional, h4, ZMod.natCast_zmod_val]

/-- The generators of `C93_reused_blinding_links` can be 2, 5 and 3, 5. -/
example : (2 : Fix.F) ≠ 3 := by decide +kernel

/-- The setup of `C93_binding`, `C93_adaptive` and `C93_honest` is that of the concrete 8-bit instance. -/
example (A : Prover Fix.E (((ℕ → Fix.E.Fr) × Fix.E.Fr) × ((ℕ → Fix.E.Fr) × Fix.E.Fr))) :=
  C93_binding (E := Fix.E) goldFft 8 8 (Or.inr (Or.inl rfl)) Fix.count8 Fix.bits8 Fix.aligned8 Fix.gens Fix.gens_ne.1
    Fix.gens_ne.2 Fix.dom8 Fix.dom8_count A

end Verif
