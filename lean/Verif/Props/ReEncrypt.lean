/-
Properties C27 to C32 and C36: distributed re-encryption to a destination key.
-/
import Verif.Lemmas.ReEnc
import Verif.Props.Aggregate

namespace Verif
open Spec

variable {E : Engine}

/-! ### C36 -/

/-- **C36** `decrypt_to_chunks_after_re_encryption` on any vector, key and generators.  For `b < 32`:
the length error, or the least discrete logarithms within `min (2^b - 1) 65535`, or
`CouldNotFindDiscreteLog`; never an abort.  For `b ≥ 32` it aborts in checked builds and behaves as
with `b mod 32` in unchecked ones. -/
theorem C36_decrypt_after_cases (chk : Bool) (c_0 : E.G1) (c : List E.G1) (sk : SecretKey E)
    (g_i : List E.G1) (b : UInt8) :
    (g_i.length < c.length → decryptAfterReEncryption chk c_0 c sk g_i b
      = .err (.vectorShorterThanExpected c.length g_i.length)) ∧
    (c.length ≤ g_i.length → b.toNat < 32 →
      (∀ ds, decryptAfterReEncryption chk c_0 c sk g_i b = .ok ds ↔
        ds.length = c.length ∧ ∀ i < c.length,
          IsLeastLog (g_i.getD i 0) (c.getD i 0 - sk.rho • c_0) (searchBound b.toNat)
            ((nums ds).getD i 0)) ∧
      (∀ e, decryptAfterReEncryption chk c_0 c sk g_i b = .err e ↔
        e = .couldNotFindDiscreteLog ∧ ∃ i < c.length,
          NoLog (g_i.getD i 0) (c.getD i 0 - sk.rho • c_0) (searchBound b.toNat)) ∧
      decryptAfterReEncryption chk c_0 c sk g_i b ≠ .panic) ∧
    (c.length ≤ g_i.length → 32 ≤ b.toNat →
      decryptAfterReEncryption true c_0 c sk g_i b = .panic ∧
      decryptAfterReEncryption false c_0 c sk g_i b
        = decryptAfterReEncryption false c_0 c sk g_i (UInt8.ofNat (b.toNat % 32))) := by
  refine ⟨?_, ?_, ?_⟩
  · intro h
    unfold decryptAfterReEncryption
    exact if_pos h
  · intro hg hb
    rw [decryptAfter_eq chk c_0 c sk g_i b hb hg]
    obtain ⟨h1, h2, h3⟩ := mapRes_range_ok_or_err (n := c.length) (e := .couldNotFindDiscreteLog)
      (f := fun i => chunkSearch (UInt16.ofNat (2 ^ b.toNat - 1)) (g_i.getD i 0)
          (c.getD i 0 - sk.rho • c_0)) (by
        intro i _
        rcases chunkSearch_spec (UInt16.ofNat (2 ^ b.toNat - 1)) (g_i.getD i 0)
          (c.getD i 0 - sk.rho • c_0) with ⟨j, _, h⟩ | ⟨_, h⟩
        · exact .inl ⟨_, h⟩
        · exact .inr h)
    refine ⟨?_, ?_, h3⟩
    · intro ds
      rw [h1 ds]
      refine and_congr_right fun hl => ?_
      constructor
      · intro hall i hi
        obtain ⟨y, hy, hs⟩ := hall i hi
        have := (chunkSearch_ok_iff _ _ _ _).mp hs
        rw [maxVal_searchBound] at this
        have e : (nums ds).getD i 0 = y.toNat := by
          simp [nums, List.getD_eq_getElem?_getD, hy]
        rw [e]
        exact this
      · intro hall i hi
        refine ⟨ds[i]'(by omega), List.getElem?_eq_getElem (by omega),
          (chunkSearch_ok_iff _ _ _ _).mpr ?_⟩
        have := hall i hi
        have e : (nums ds).getD i 0 = (ds[i]'(by omega)).toNat := by
          simp [nums, List.getD_eq_getElem?_getD,
            List.getElem?_eq_getElem (show i < ds.length by omega)]
        rw [e] at this
        rw [maxVal_searchBound]
        exact this
    · intro e
      rw [h2 e]
      refine and_congr_right fun _ => exists_congr fun i => and_congr_right fun _ => ?_
      rw [chunkSearch_err_iff, maxVal_searchBound]
      exact ⟨fun h => h.2, fun h => ⟨rfl, h⟩⟩
  · intro hg hb
    have hx : mapRes (fun i => do
        let x ← idx c i
        return x + mulBigint c_0 (intoBigint (K := E.fr) (-sk.rho))) (List.range c.length)
        = Res.ok (tab c.length fun i => c.getD i 0 - sk.rho • c_0) := by
      apply mapRes_range_ok
      intro i hi
      rw [idx_ok 0 hi, intoBigint_smul, neg_smul, sub_eq_add_neg]
      rfl
    constructor
    · unfold decryptAfterReEncryption
      dsimp only
      rw [if_neg (by omega), hx]
      have : chunkMaxU32 true b = .panic := by
        unfold chunkMaxU32
        rw [if_neg (by omega), if_pos rfl]
      simp [this]
    · unfold decryptAfterReEncryption
      dsimp only
      have h2 : (UInt8.ofNat (b.toNat % 32)).toNat = b.toNat % 32 := by simp; omega
      have : chunkMaxU32 false b = chunkMaxU32 false (UInt8.ofNat (b.toNat % 32)) := by
        unfold chunkMaxU32
        rw [if_neg (by omega), if_neg (by simp), h2, if_pos (by omega)]
      rw [this]

/-- **C36** enlarging the chunk size parameter (within `1..=31`) never changes a successful
result. -/
theorem C36_larger_bound_same (chk : Bool) (c_0 : E.G1) (c : List E.G1) (sk : SecretKey E)
    (g_i : List E.G1) (b b' : UInt8) (hbb : b.toNat ≤ b'.toNat) (hb' : b'.toNat < 32)
    (ds : List UInt16) (h : decryptAfterReEncryption chk c_0 c sk g_i b = .ok ds) :
    decryptAfterReEncryption chk c_0 c sk g_i b' = .ok ds := by
  have hc := C36_decrypt_after_cases chk c_0 c sk g_i b
  have hc' := C36_decrypt_after_cases chk c_0 c sk g_i b'
  by_cases hg : c.length ≤ g_i.length
  · rw [(hc'.2.1 hg hb').1]
    obtain ⟨hl, hall⟩ := ((hc.2.1 hg (by omega)).1 ds).mp h
    refine ⟨hl, fun i hi => ?_⟩
    obtain ⟨h1, h2, h3⟩ := hall i hi
    refine ⟨le_trans h1 ?_, h2, h3⟩
    have : 2 ^ b.toNat ≤ 2 ^ b'.toNat := Nat.pow_le_pow_right (by norm_num) hbb
    unfold searchBound
    omega
  · rw [hc.1 (by omega)] at h; cases h

/-- **C36** no chunk above 65535 is ever recovered: if the true value is `k • g_i` with
`65535 < k` below the group order, the call fails for every chunk size. -/
theorem C36_above_65535_fails (chk : Bool) (c_0 : E.G1) (c : List E.G1) (sk : SecretKey E)
    (g_i : List E.G1) (b : UInt8) (i k : ℕ) (hi : i < c.length) (hg0 : g_i.getD i 0 ≠ 0)
    (hk : 65535 < k) (hkp : k < E.fr.p)
    (hval : c.getD i 0 - sk.rho • c_0 = k • g_i.getD i 0) :
    ∀ ds, decryptAfterReEncryption chk c_0 c sk g_i b ≠ .ok ds := by
  have key : ∀ b : UInt8, b.toNat < 32 → ∀ ds,
      decryptAfterReEncryption chk c_0 c sk g_i b ≠ .ok ds := by
    intro b hb ds h
    have hc := C36_decrypt_after_cases chk c_0 c sk g_i b
    by_cases hg : c.length ≤ g_i.length
    · obtain ⟨hl, hall⟩ := ((hc.2.1 hg hb).1 ds).mp h
      have h1 := hall i hi
      rw [hval] at h1
      have h2 := searchBound_lt b.toNat
      exact (noLog_nsmul (E := E) hg0 hkp (M := searchBound b.toNat) (by omega)) _ h1.1 h1.2.1
    · rw [hc.1 (by omega)] at h; cases h
  intro ds h
  rcases Nat.lt_or_ge b.toNat 32 with hb | hb
  · exact key b hb ds h
  · have hc := C36_decrypt_after_cases chk c_0 c sk g_i b
    by_cases hg : c.length ≤ g_i.length
    · cases chk
      · rw [(hc.2.2 hg hb).2] at h
        exact key _ (by simp; omega) ds h
      · rw [(hc.2.2 hg hb).1] at h; cases h
    · rw [hc.1 (by omega)] at h; cases h

/-- C36 on a small case: with generators 5 and 7 and secret -2, the pairs decrypt to `3, 0`; the value
of the third component is not reachable -/
example : decryptAfterReEncryption (E := Fix.E) true (1 : Fix.F) ([13, -2] : List Fix.F) ⟨(-2 : Fix.F)⟩
      ([5, 7] : List Fix.F) 4 = .ok [3, 0] ∧
    decryptAfterReEncryption (E := Fix.E) true (1 : Fix.F) ([13, -2, 4] : List Fix.F) ⟨(-2 : Fix.F)⟩
      ([5, 7, 5] : List Fix.F) 4 = .err .couldNotFindDiscreteLog ∧
    decryptAfterReEncryption (E := Fix.E) true (1 : Fix.F) ([13, -2] : List Fix.F) ⟨(-2 : Fix.F)⟩
      ([5, 7] : List Fix.F) 32 = .panic := by
  decide +kernel

/-- the hypotheses of C36_above_65535_fails are met by the value 70000 -/
example : ∀ ds, decryptAfterReEncryption (E := Fix.E) true (0 : Fix.F) ([350000] : List Fix.F) ⟨(-2 : Fix.F)⟩
    ([5] : List Fix.F) 20 ≠ .ok ds :=
  C36_above_65535_fails (E := Fix.E) true (0 : Fix.F) ([350000] : List Fix.F) ⟨(-2 : Fix.F)⟩ ([5] : List Fix.F) 20
    0 70000 (by decide) (by decide +kernel) (by decide) (by decide +kernel) (by
      have h : (350000 : Fix.F) - (-2 : Fix.F) • (0 : Fix.F) = 70000 • (5 : Fix.F) := by
        rw [smul_zero, sub_zero, nsmul_eq_mul]
        norm_num
      exact h)

/-! ### re-encryption of honest ciphertexts -/

theorem fkeygenDest_inv {R : RngCore E} {st st' : R.σ} {gens : EncryptionGens E}
    {skd : SecretKey E} {ekd : FEncryptionKeyDest E}
    (h : fkeygenDest R st gens = .ok ((skd, ekd), st')) : ekd.pk = skd.rho • gens.G := by
  unfold fkeygenDest at h
  rw [fr_eq R st] at h
  simp only [Res.ok.injEq, Prod.mk.injEq, intoBigint_smul] at h
  obtain ⟨⟨rfl, rfl⟩, -⟩ := h
  rfl

theorem dkg_inv {parties : List (Party E)} {b : UInt8} {gens : EncryptionGens E} {g_i : List E.G1}
    {D C : E.G1} {sks : List (SecretKeyST E)} {ek : EncryptionKey E}
    (h : dkg parties b gens g_i D C = .ok (sks, ek)) :
    ∃ (n : UInt8) (t : ℕ → E.Fr), n.toNat ≤ g_i.length ∧ sks ≠ [] ∧
      (∀ sk ∈ sks, sk.s.length = n.toNat) ∧
      ek = encKey n.toNat (fun i => (sks.map fun sk => sk.s.getD i 0).sum) t
        (fun i => g_i.getD i 0) D C gens.H := by
  obtain ⟨hne, n, hn, hg⟩ := dkg_ok_inv h
  rw [dkg_eq parties hne gens g_i D C hn hg] at h
  simp only [Res.ok.injEq, Prod.mk.injEq] at h
  obtain ⟨rfl, rfl⟩ := h
  refine ⟨n, sumT n.toNat parties, hg, by simpa using hne, ?_, ?_⟩
  · intro sk hsk
    obtain ⟨P, _, rfl⟩ := List.mem_map.mp hsk
    simp [partySK]
  · apply encKey_congr
    · intro i hi
      rw [List.map_map]
      simp only [sumS, Function.comp_def, partySK, getD_tab, if_pos hi]
    · intro i _; rfl
    · intro i _; rfl

/-- normal form of a (possibly incomplete) re-encryption of an honest ciphertext -/
theorem reEncrypt_cipher (n : UInt8) (t : ℕ → E.Fr) (g_i : List E.G1) (D C : E.G1)
    (gens : EncryptionGens E) (sks missing : List (SecretKeyST E)) (hs : ∀ sk ∈ sks, sk.s.length = n.toNat)
    (rp : List (SecretKeyST E × Party E)) (hrp : rp ≠ [])
    (hperm : (rp.map (·.1) ++ missing).Perm sks) (ekd : FEncryptionKeyDest E)
    (M : ℕ → ℕ) (r : E.Fr) (ct : Ciphertext E)
    (hct : ct = cipher (encKey n.toNat (fun i => (sks.map fun sk => sk.s.getD i 0).sum) t
        (fun i => g_i.getD i 0) D C gens.H) (fun i => g_i.getD i 0) M r) :
    reEncryptAll gens ct.X_r ct.enc_chunks ekd rp = .ok (rhoSum rp • gens.G ::
      tab n.toNat fun i => M i • g_i.getD i 0
        + (r * (missing.map fun sk => sk.s.getD i 0).sum) • D + rhoSum rp • ekd.pk) := by
  have hlen : ct.enc_chunks.length = n.toNat := by rw [hct]; simp [cipher, encKey]
  rw [reEncryptAll_eq gens _ _ ekd rp hrp]
  · rw [hlen]
    congr 2
    apply tab_congr
    intro i hi
    have hsum : (sks.map fun sk => sk.s.getD i 0).sum
        = sSum rp i + (missing.map fun sk => sk.s.getD i 0).sum := by
      rw [← (hperm.map fun sk : SecretKeyST E => sk.s.getD i 0).sum_eq, List.map_append,
        List.sum_append, List.map_map]
      rfl
    rw [hct]
    simp only [cipher, encKey, length_tab, getD_tab, if_pos hi, hsum, smul_smul]
    rw [mul_comm (sSum rp i) r, mul_add, add_smul]
    abel
  · intro P hP
    rw [hlen, hs P.1 (hperm.mem_iff.mp (by
      rw [List.mem_append]; left; exact List.mem_map_of_mem hP))]

/-- decryption of a vector whose values are known multiples of the generators -/
theorem decryptAfter_values (chk : Bool) (n : ℕ) (c_0 : E.G1) (c : List E.G1) (sk : SecretKey E)
    (g_i : List E.G1) (b : UInt8) (hb : b.toNat < 32) (hc : c.length = n) (hg : n ≤ g_i.length)
    (hgi : ∀ i < n, g_i.getD i 0 ≠ 0) (M : ℕ → ℕ) (hM : ∀ i < n, M i < E.fr.p)
    (hval : ∀ i < n, c.getD i 0 - sk.rho • c_0 = M i • g_i.getD i 0) :
    ((∀ i < n, M i ≤ searchBound b.toNat) →
      decryptAfterReEncryption chk c_0 c sk g_i b = .ok (tab n fun i => UInt16.ofNat (M i))) ∧
    (∀ i < n, searchBound b.toNat < M i →
      decryptAfterReEncryption chk c_0 c sk g_i b = .err .couldNotFindDiscreteLog) := by
  subst hc
  have hmain := (C36_decrypt_after_cases chk c_0 c sk g_i b).2.1 hg hb
  constructor
  · intro hbd
    rw [hmain.1]
    refine ⟨by simp, ?_⟩
    intro i hi
    have e : (nums (tab c.length fun i => UInt16.ofNat (M i))).getD i 0 = M i := by
      rw [nums, map_tab, getD_tab, if_pos hi]
      have := hbd i hi
      have := searchBound_lt b.toNat
      simp
      omega
    rw [e, hval i hi]
    exact isLeastLog_nsmul (E := E) (hgi i hi) (hM i hi) (hbd i hi)
  · intro i hi hbd
    rw [hmain.2.1]
    refine ⟨rfl, i, hi, ?_⟩
    rw [hval i hi]
    exact noLog_nsmul (E := E) (hgi i hi) (hM i hi) hbd

theorem getD_mem_ne {l : List E.G1} (h : ∀ g ∈ l, g ≠ 0) {i : ℕ} (hi : i < l.length) :
    l.getD i 0 ≠ 0 := by
  rw [List.getD_eq_getElem?_getD, List.getElem?_eq_getElem hi]
  exact h _ (List.getElem_mem _)

/-! ### C28, C27 -/

/-- **C28** End-to-end: `K ≥ 1` ciphertexts encrypted under a key generated by any number of
parties are aggregated, re-encrypted by all key holders (their shares combined in any order `rp`),
and decrypted by the destination: the result is the exact vector of chunk-wise sums when the sums
are within the search range, and `CouldNotFindDiscreteLog` when some sum is above it. -/
theorem C28_pipeline (parties : List (Party E)) (b : UInt8) (gens : EncryptionGens E)
    (g_i : List E.G1) (D C : E.G1) (sks : List (SecretKeyST E)) (ek : EncryptionKey E)
    (hdkg : dkg parties b gens g_i D C = .ok (sks, ek)) (hgi : ∀ g ∈ g_i, g ≠ 0)
    (Rd : RngCore E) (std std' : Rd.σ) (skd : SecretKey E) (ekd : FEncryptionKeyDest E)
    (hdest : fkeygenDest Rd std gens = .ok ((skd, ekd), std'))
    (encs : List (Party E × List UInt16)) (hne : encs ≠ []) (outs : List (List E.G1 × E.Fr))
    (henc : encryptMany encs ek g_i = .ok outs)
    (rp : List (SecretKeyST E × Party E)) (hrp : (rp.map (·.1)).Perm sks)
    (M : ℕ → ℕ) (hM : ∀ i < ek.X.length, M i = (encs.map fun e => (nums e.2).getD i 0).sum)
    (hord : ∀ i < ek.X.length, M i < E.fr.p) (chk : Bool) (b' : UInt8) (hb' : b'.toNat < 32) :
    ∃ ct g_r cs, aggregate (outs.map (·.1)) = .ok (flat ct) ∧
      reEncryptAll gens ct.X_r ct.enc_chunks ekd rp = .ok (g_r :: cs) ∧
      ((∀ i < ek.X.length, M i ≤ searchBound b'.toNat) →
        ∃ ds, decryptAfterReEncryption chk g_r cs skd g_i b' = .ok ds ∧
          ds.length = ek.X.length ∧ ∀ i < ek.X.length, (nums ds).getD i 0 = M i) ∧
      (∀ i < ek.X.length, searchBound b'.toNat < M i →
        decryptAfterReEncryption chk g_r cs skd g_i b' = .err .couldNotFindDiscreteLog) := by
  obtain ⟨n, t, hg, hsne, hs, rfl⟩ := dkg_inv hdkg
  have hpk := fkeygenDest_inv hdest
  have hXn : ∀ s t, (encKey n.toNat s t (fun i => g_i.getD i 0) D C gens.H).X.length = n.toNat := by
    intro s t; simp [encKey]
  simp only [hXn] at hM hord ⊢
  have hrne : rp ≠ [] := by
    rintro rfl
    exact hsne hrp.nil_eq.symm
  have hagg := C25_aggregate_is_encryption_of_sum encs hne _ g_i outs outs henc (List.Perm.refl _)
  refine ⟨_, _, _, hagg, reEncrypt_cipher n t g_i D C gens sks [] hs rp hrne (by simpa using hrp) ekd
    _ _ _ rfl, ?_⟩
  have hdv := decryptAfter_values chk n.toNat (rhoSum rp • gens.G)
    (tab n.toNat fun i => (encs.map fun e => (nums e.2).getD i 0).sum • g_i.getD i 0
        + ((outs.map (·.2)).sum * (([] : List (SecretKeyST E)).map fun sk => sk.s.getD i 0).sum) • D
        + rhoSum rp • ekd.pk) skd g_i b' hb' (by simp) hg
    (fun i hi => getD_mem_ne hgi (by omega)) M hord (by
      intro i hi
      rw [getD_tab, if_pos hi, hpk, hM i hi]
      simp only [List.map_nil, List.sum_nil, mul_zero, zero_smul, add_zero, smul_smul]
      rw [mul_comm skd.rho]
      abel)
  constructor
  · intro hle
    refine ⟨_, hdv.1 hle, by simp, ?_⟩
    intro i hi
    rw [nums, map_tab, getD_tab, if_pos hi]
    have h1 := hle i hi
    have h2 := searchBound_lt b'.toNat
    simp
    omega
  · exact hdv.2

/-- the hypotheses of C28 are met: two parties, two encryptors, sums `11, 22, 3300, 4` -/
example : ∃ (ct : Ciphertext Fix.E) (g_r : Fix.E.G1) (cs : List Fix.E.G1) (ds : List UInt16),
    reEncryptAll Fix.gens ct.X_r ct.enc_chunks Fix.ekd Fix.rp = .ok (g_r :: cs) ∧
    decryptAfterReEncryption true g_r cs Fix.skd Fix.gi 17 = .ok ds ∧
    ∀ i < Fix.dek.X.length, (nums ds).getD i 0 = [11, 22, 3300, 4].getD i 0 := by
  obtain ⟨ct, g_r, cs, -, h2, h3, -⟩ := C28_pipeline Fix.parties 16 Fix.gens Fix.gi Fix.D Fix.C _ Fix.dek
    Fix.dkg_ok Fix.gi_ne _ _ _ Fix.skd Fix.ekd Fix.dest_ok Fix.encs (List.cons_ne_nil _ _) _
    Fix.dencMany Fix.rp Fix.rp_perm (fun i => [11, 22, 3300, 4].getD i 0) (by decide +kernel)
    (by decide +kernel) true 17 (by decide)
  obtain ⟨ds, h4, -, h5⟩ := h3 (by
    have hs : searchBound (17 : UInt8).toNat = 65535 := by decide
    rw [hs]
    decide +kernel)
  exact ⟨ct, g_r, cs, ds, h2, h4, h5⟩

/-- **C27** a single ciphertext: all parties' shares, combined in any order, let the destination
recover exactly the encrypted chunks (`2^b' - 1` at least every chunk, `b' < 32`). -/
theorem C27_reencryption_delivers (parties : List (Party E)) (b : UInt8) (gens : EncryptionGens E)
    (g_i : List E.G1) (D C : E.G1) (sks : List (SecretKeyST E)) (ek : EncryptionKey E)
    (hdkg : dkg parties b gens g_i D C = .ok (sks, ek)) (hgi : ∀ g ∈ g_i, g ≠ 0)
    (Rd : RngCore E) (std std' : Rd.σ) (skd : SecretKey E) (ekd : FEncryptionKeyDest E)
    (hdest : fkeygenDest Rd std gens = .ok ((skd, ekd), std'))
    (R : RngCore E) (st st1 : R.σ) (chunks : List UInt16) (v : List E.G1) (r : E.Fr)
    (henc : encryptDecomposedMessage R st chunks ek g_i = .ok ((v, r), st1))
    (rp : List (SecretKeyST E × Party E)) (hrp : (rp.map (·.1)).Perm sks)
    (chk : Bool) (b' : UInt8) (hb' : b'.toNat < 32)
    (hch : ∀ x ∈ chunks, x.toNat ≤ 2 ^ b'.toNat - 1 ∧ x.toNat < E.fr.p) :
    ∃ ct g_r cs, v = flat ct ∧
      reEncryptAll gens ct.X_r ct.enc_chunks ekd rp = .ok (g_r :: cs) ∧
      decryptAfterReEncryption chk g_r cs skd g_i b' = .ok chunks := by
  obtain ⟨h1, h2, h3, h4, h5, -, -⟩ := encryptDecomposed_inv henc
  have hget : ∀ i < ek.X.length, ∃ x ∈ chunks, (nums chunks).getD i 0 = x.toNat := by
    intro i hi
    refine ⟨chunks[i]'(by omega), List.getElem_mem _, ?_⟩
    simp [nums, List.getD_eq_getElem?_getD,
        List.getElem?_eq_getElem (show i < chunks.length by omega)]
  obtain ⟨ct, g_r, cs, ha, hr, hd, -⟩ := C28_pipeline parties b gens g_i D C sks ek hdkg hgi Rd std
    std' skd ekd hdest [(⟨R, st⟩, chunks)] (by simp) [(v, r)]
    (by simp only [encryptMany, mapRes, henc]; rfl) rp hrp
    (fun i => (nums chunks).getD i 0) (fun i _ => by simp)
    (fun i hi => by obtain ⟨x, hx, e⟩ := hget i hi; simp only [e]; exact (hch x hx).2) chk b' hb'
  simp only [List.map_cons, List.map_nil, aggregate, foldRes, Res.ok.injEq] at ha
  refine ⟨ct, g_r, cs, ha, hr, ?_⟩
  obtain ⟨ds, hds, hlen, hval⟩ := hd (fun i hi => by
    obtain ⟨x, hx, e⟩ := hget i hi
    simp only [e]
    have h1 := (hch x hx).1
    have h2 := x.toNat_lt
    unfold searchBound
    omega)
  rw [hds]
  congr 1
  have e1 : nums ds = nums chunks := by
    apply List.ext_getElem?
    intro i
    by_cases hi : i < ek.X.length
    · have := hval i hi
      simp only [List.getD_eq_getElem?_getD] at this
      rw [List.getElem?_eq_getElem (by simp [nums]; omega),
        List.getElem?_eq_getElem (by simp [nums]; omega)] at this ⊢
      simpa using this
    · rw [List.getElem?_eq_none (by simp [nums]; omega), List.getElem?_eq_none (by simp [nums]; omega)]
  exact List.map_injective_iff.mpr (fun a b h => UInt16.toNat_inj.mp h) e1

/-- the hypotheses of C27 are met by the two-party run of `Fix`: the destination recovers
`1, 2, 300, 4` -/
example : ∃ ct g_r cs, flat Fix.dct1 = flat ct ∧
    reEncryptAll Fix.gens ct.X_r ct.enc_chunks Fix.ekd Fix.rp = .ok (g_r :: cs) ∧
    decryptAfterReEncryption true g_r cs Fix.skd Fix.gi 16 = .ok [1, 2, 300, 4] :=
  C27_reencryption_delivers Fix.parties 16 Fix.gens Fix.gi Fix.D Fix.C _ Fix.dek Fix.dkg_ok Fix.gi_ne
    _ _ _ Fix.skd Fix.ekd Fix.dest_ok _ _ _ Fix.m1 _ _ Fix.denc1 Fix.rp Fix.rp_perm true 16
    (by decide) (by decide +kernel)

/-! ### C29 -/

/-- **C29** If the shares of some parties (`missing`) are left out, the value the destination
recovers at chunk `i` is shifted by `r * (sum of the missing s_i) * X_0`; in particular if the
destination does obtain the original chunks, every shift was zero. -/
theorem C29_missing_share (parties : List (Party E)) (b : UInt8) (gens : EncryptionGens E)
    (g_i : List E.G1) (D C : E.G1) (sks : List (SecretKeyST E)) (ek : EncryptionKey E)
    (hdkg : dkg parties b gens g_i D C = .ok (sks, ek))
    (Rd : RngCore E) (std std' : Rd.σ) (skd : SecretKey E) (ekd : FEncryptionKeyDest E)
    (hdest : fkeygenDest Rd std gens = .ok ((skd, ekd), std'))
    (R : RngCore E) (st st1 : R.σ) (chunks : List UInt16) (v : List E.G1) (r : E.Fr)
    (henc : encryptDecomposedMessage R st chunks ek g_i = .ok ((v, r), st1))
    (rp : List (SecretKeyST E × Party E)) (hrne : rp ≠ []) (missing : List (SecretKeyST E))
    (hrp : (rp.map (·.1) ++ missing).Perm sks) :
    ∃ ct g_r cs, v = flat ct ∧ cs.length = chunks.length ∧
      reEncryptAll gens ct.X_r ct.enc_chunks ekd rp = .ok (g_r :: cs) ∧
      (∀ i < chunks.length, cs.getD i 0 - skd.rho • g_r = (nums chunks).getD i 0 • g_i.getD i 0
        + (r * (missing.map fun sk => sk.s.getD i 0).sum) • ek.X_0) ∧
      (∀ chk b', b'.toNat < 32 → decryptAfterReEncryption chk g_r cs skd g_i b' = .ok chunks →
        ∀ i < chunks.length, (r * (missing.map fun sk => sk.s.getD i 0).sum) • ek.X_0 = 0) := by
  obtain ⟨h1, h2, h3, h4, h5, -, -⟩ := encryptDecomposed_inv henc
  obtain ⟨n, t, hg, hsne, hs, rfl⟩ := dkg_inv hdkg
  have hpk := fkeygenDest_inv hdest
  have hXn : ∀ s t, (encKey n.toNat s t (fun i => g_i.getD i 0) D C gens.H).X.length = n.toNat := by
    intro s t; simp [encKey]
  rw [hXn] at h3 h4
  have hval : ∀ i < chunks.length, (tab n.toNat fun i => (nums chunks).getD i 0 • g_i.getD i 0
        + (r * (missing.map fun sk => sk.s.getD i 0).sum) • D + rhoSum rp • ekd.pk).getD i 0
        - skd.rho • rhoSum rp • gens.G = (nums chunks).getD i 0 • g_i.getD i 0
        + (r * (missing.map fun sk => sk.s.getD i 0).sum) • D := by
    intro i hi
    rw [getD_tab, if_pos (by omega), hpk, smul_smul, smul_smul, mul_comm skd.rho]
    abel
  refine ⟨_, _, _, h5, ?_, reEncrypt_cipher n t g_i D C gens sks missing hs rp hrne hrp ekd
    _ _ _ rfl, hval, ?_⟩
  · simp [h3]
  · intro chk b' hb' hd i hi
    have := (((C36_decrypt_after_cases chk (rhoSum rp • gens.G) _ skd g_i b').2.1
      (by simp; omega) hb').1 chunks).mp hd
    have h6 := (this.2 i (by simp; omega)).2.1
    rw [hval i hi] at h6
    show (r * (missing.map fun sk => sk.s.getD i 0).sum) • D = 0
    exact left_eq_add.mp h6

/-- the hypotheses of C29 are met with the first party missing; here the mask is not zero, so the
destination does not recover the chunks -/
example : ∃ ct g_r cs, flat Fix.dct1 = flat ct ∧
    reEncryptAll Fix.gens ct.X_r ct.enc_chunks Fix.ekd (Fix.rp.take 1) = .ok (g_r :: cs) ∧
    decryptAfterReEncryption true g_r cs Fix.skd Fix.gi 16 ≠ .ok Fix.m1 := by
  obtain ⟨ct, g_r, cs, h1, -, h2, -, h3⟩ := C29_missing_share Fix.parties 16 Fix.gens Fix.gi Fix.D Fix.C _
    Fix.dek Fix.dkg_ok _ _ _ Fix.skd Fix.ekd Fix.dest_ok _ _ _ Fix.m1 _ _ Fix.denc1 (Fix.rp.take 1)
    (List.cons_ne_nil _ _) [Fix.skA] (List.Perm.swap _ _ _)
  refine ⟨ct, g_r, cs, h1, h2, fun h => ?_⟩
  have := h3 true 16 (by decide) h 0 (by decide)
  revert this
  decide +kernel

/-! ### C30 -/

/-- **C30** A secret key other than the destination's never recovers the chunks: whatever it
returns differs from the encrypted chunk at every position, if the total re-encryption randomness
(visible as `g_r ≠ 0`) is nonzero. -/
theorem C30_wrong_key (parties : List (Party E)) (b : UInt8) (gens : EncryptionGens E)
    (g_i : List E.G1) (D C : E.G1) (sks : List (SecretKeyST E)) (ek : EncryptionKey E)
    (hdkg : dkg parties b gens g_i D C = .ok (sks, ek))
    (Rd : RngCore E) (std std' : Rd.σ) (skd : SecretKey E) (ekd : FEncryptionKeyDest E)
    (hdest : fkeygenDest Rd std gens = .ok ((skd, ekd), std'))
    (R : RngCore E) (st st1 : R.σ) (chunks : List UInt16) (v : List E.G1) (r : E.Fr)
    (henc : encryptDecomposedMessage R st chunks ek g_i = .ok ((v, r), st1))
    (rp : List (SecretKeyST E × Party E)) (hrp : (rp.map (·.1)).Perm sks)
    (sk' : SecretKey E) (hsk : sk'.rho ≠ skd.rho) :
    ∃ ct g_r cs, v = flat ct ∧
      reEncryptAll gens ct.X_r ct.enc_chunks ekd rp = .ok (g_r :: cs) ∧
      (g_r ≠ 0 → ∀ chk b' ds,
        decryptAfterReEncryption chk g_r cs sk' g_i b' = .ok ds →
        ∀ i < chunks.length, (nums ds).getD i 0 ≠ (nums chunks).getD i 0) := by
  obtain ⟨h1, h2, h3, h4, h5, -, -⟩ := encryptDecomposed_inv henc
  obtain ⟨n, t, hg, hsne, hs, rfl⟩ := dkg_inv hdkg
  have hpk := fkeygenDest_inv hdest
  have hrne : rp ≠ [] := by
    rintro rfl
    exact hsne hrp.nil_eq.symm
  have hXn : ∀ s t, (encKey n.toNat s t (fun i => g_i.getD i 0) D C gens.H).X.length = n.toNat := by
    intro s t; simp [encKey]
  rw [hXn] at h3 h4
  refine ⟨_, _, _, h5, reEncrypt_cipher n t g_i D C gens sks [] hs rp hrne (by simpa using hrp) ekd
    _ _ _ rfl, ?_⟩
  intro hgr chk b1 ds hd0 i hi heq
  -- from 32 bits on the call aborts or behaves as with the size modulo 32
  have red : ∀ c : List E.G1, c.length ≤ g_i.length → decryptAfterReEncryption chk (rhoSum rp • gens.G) c sk' g_i b1
      = .ok ds → ∃ b' : UInt8, b'.toNat < 32 ∧
        decryptAfterReEncryption chk (rhoSum rp • gens.G) c sk' g_i b' = .ok ds := by
    intro c hc hd
    by_cases hb : b1.toNat < 32
    · exact ⟨b1, hb, hd⟩
    · obtain ⟨p1, p2⟩ := (C36_decrypt_after_cases chk (rhoSum rp • gens.G) c sk' g_i b1).2.2 hc (by omega)
      cases chk with
      | true => rw [p1] at hd; cases hd
      | false =>
        rw [p2] at hd
        exact ⟨_, by rw [UInt8.toNat_ofNat']; omega, hd⟩
  obtain ⟨b', hb', hd⟩ := red _ (by simp; omega) hd0
  have := (((C36_decrypt_after_cases chk (rhoSum rp • gens.G) _ sk' g_i b').2.1
      (by simp; omega) hb').1 ds).mp hd
  have h6 := (this.2 i (by simp; omega)).2.1
  rw [heq, getD_tab, if_pos (by omega), hpk] at h6
  simp only [List.map_nil, List.sum_nil, mul_zero, zero_smul, add_zero] at h6
  have h7 : rhoSum rp • skd.rho • gens.G - sk'.rho • rhoSum rp • gens.G = 0 := by
    rw [add_sub_assoc] at h6
    exact left_eq_add.mp h6
  rw [smul_smul, mul_comm, ← smul_smul, ← sub_smul] at h7
  rcases smul_eq_zero.mp h7 with h | h
  · exact hsk (sub_eq_zero.mp h).symm
  · exact hgr h

/-- the hypotheses of C30 are met with the secret key 23 instead of 22 -/
example : ∃ ct g_r cs, flat Fix.dct1 = flat ct ∧
    reEncryptAll Fix.gens ct.X_r ct.enc_chunks Fix.ekd Fix.rp = .ok (g_r :: cs) ∧
    (g_r ≠ 0 → ∀ chk b' ds,
      decryptAfterReEncryption chk g_r cs ⟨(23 : Fix.F)⟩ Fix.gi b' = .ok ds →
      ∀ i < Fix.m1.length, (nums ds).getD i 0 ≠ (nums Fix.m1).getD i 0) :=
  C30_wrong_key Fix.parties 16 Fix.gens Fix.gi Fix.D Fix.C _ Fix.dek Fix.dkg_ok _ _ _ Fix.skd Fix.ekd
    Fix.dest_ok _ _ _ Fix.m1 _ _ Fix.denc1 Fix.rp Fix.rp_perm ⟨(23 : Fix.F)⟩ (by decide +kernel)

end Verif
