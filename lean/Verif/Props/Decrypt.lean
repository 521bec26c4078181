/-
Properties C17 to C24: decryption, pairing-power tables, prepared keys.
-/
import Verif.Lemmas.Dec
import Verif.Model.Groth16
import Verif.Instances
import Verif.Props.Encrypt

namespace Verif
open Spec

variable {E : Engine}

theorem flat_inj {ct ct' : Ciphertext E} (h : flat ct = flat ct') : ct = ct' := by
  unfold flat at h
  injection h with e1 e2
  have e3 := List.append_inj' e2 rfl
  ext1
  · exact e1
  · exact e3.1
  · exact List.cons.inj e3.2 |>.1

/-! ### C20 -/

/-- **C20** `decrypt_to_chunks` on any ciphertext, any key and any chunk size below 32: the shape
errors are returned exactly for the mismatching shapes; with right shapes the call never aborts,
it returns `ds` iff every `ds[i]` is the least discrete logarithm of the decrypted pairing value
within the search bound (`2^b - 1` for `1 ≤ b ≤ 16`, see `C20_bound`), and it returns
`CouldNotFindDiscreteLog` iff some position has no logarithm within the bound. -/
theorem C20_decrypt_cases (chk : Bool) (c_0 : E.G1) (c : List E.G1) (sk : SecretKey E)
    (dk : DecryptionKey E) (g_i : List E.G1) (b : UInt8) (hb : b.toNat < 32) :
    (dk.V_2.length ≠ dk.V_1.length → decryptToChunks chk c_0 c sk dk.prepare g_i b
      = .err (.malformedDecryptionKey dk.V_2.length dk.V_1.length)) ∧
    (dk.V_2.length = dk.V_1.length → c.length ≠ dk.V_1.length % 256 →
      decryptToChunks chk c_0 c sk dk.prepare g_i b
      = .err (.incompatibleDecryptionKey c.length (dk.V_1.length % 256))) ∧
    (dk.V_2.length = dk.V_1.length → c.length = dk.V_1.length % 256 → g_i.length < c.length →
      decryptToChunks chk c_0 c sk dk.prepare g_i b
      = .err (.vectorShorterThanExpected c.length g_i.length)) ∧
    (dk.V_2.length = dk.V_1.length → c.length = dk.V_1.length % 256 → c.length ≤ g_i.length →
      (∀ ds nu, decryptToChunks chk c_0 c sk dk.prepare g_i b = .ok (ds, nu) ↔
        nu = sk.rho • c_0 ∧ ds.length = c.length ∧
        ∀ i < c.length, IsLeastLog (chunkBase g_i dk i) (chunkValue c_0 c sk.rho dk i)
          (searchBound b.toNat) ((nums ds).getD i 0)) ∧
      (∀ e, decryptToChunks chk c_0 c sk dk.prepare g_i b = .err e ↔
        e = .couldNotFindDiscreteLog ∧ ∃ i < c.length,
          NoLog (chunkBase g_i dk i) (chunkValue c_0 c sk.rho dk i) (searchBound b.toNat)) ∧
      decryptToChunks chk c_0 c sk dk.prepare g_i b ≠ .panic) := by
  have hcnt : (UInt8.ofNat dk.V_1.length).toNat = dk.V_1.length % 256 := by simp
  refine ⟨?_, ?_, ?_, ?_⟩
  · intro h
    unfold decryptToChunks decryptToChunksGivenPairingPowers
    rw [dkChunks_prepare]
    unfold DecryptionKey.supportedChunksCount decKeyChunks
    rw [if_pos h]; rfl
  · intro hw h
    unfold decryptToChunks decryptToChunksGivenPairingPowers
    rw [dkChunks_prepare, decKeyChunks_ok dk hw]
    simp only [Res.ok_bind, hcnt]
    rw [if_pos h]
  · intro hw h hg
    unfold decryptToChunks decryptToChunksGivenPairingPowers
    rw [dkChunks_prepare, decKeyChunks_ok dk hw]
    simp only [Res.ok_bind, hcnt]
    rw [if_neg (by simpa using h), if_pos hg]
  · intro hw hc hg
    rw [decryptToChunks_eq chk c_0 c sk dk g_i b hb hw hc hg]
    obtain ⟨h1, h2, h3⟩ := mapRes_range_ok_or_err (n := c.length) (e := .couldNotFindDiscreteLog)
      (f := fun i => chunkSearch (UInt16.ofNat (2 ^ b.toNat - 1))
        (E.e (g_i.getD i 0) (dk.V_2.getD i 0)) (chunkValue c_0 c sk.rho dk i)) (by
        intro i _
        rcases chunkSearch_spec (UInt16.ofNat (2 ^ b.toNat - 1))
          (E.e (g_i.getD i 0) (dk.V_2.getD i 0)) (chunkValue c_0 c sk.rho dk i) with
          ⟨j, _, h⟩ | ⟨_, h⟩
        · exact .inl ⟨_, h⟩
        · exact .inr h)
    refine ⟨?_, ?_, ?_⟩
    · intro ds nu
      rw [Res.bind_eq_ok]
      constructor
      · rintro ⟨x, hx, h⟩
        simp only [Res.pure_eq, Res.ok.injEq, Prod.mk.injEq] at h
        obtain ⟨rfl, rfl⟩ := h
        obtain ⟨hl, hall⟩ := (h1 x).mp hx
        refine ⟨rfl, hl, ?_⟩
        intro i hi
        obtain ⟨y, hy, hs⟩ := hall i hi
        have := (chunkSearch_ok_iff _ _ _ _).mp hs
        rw [maxVal_searchBound] at this
        have e : (nums x).getD i 0 = y.toNat := by
          simp [nums, List.getD_eq_getElem?_getD, hy]
        rw [e]
        exact this
      · rintro ⟨rfl, hl, hall⟩
        refine ⟨ds, (h1 ds).mpr ⟨hl, ?_⟩, rfl⟩
        intro i hi
        refine ⟨ds[i]'(by omega), by simp [List.getElem?_eq_getElem (show i < ds.length by omega)],
          (chunkSearch_ok_iff _ _ _ _).mpr ?_⟩
        have := hall i hi
        have e : (nums ds).getD i 0 = (ds[i]'(by omega)).toNat := by
          simp [nums, List.getD_eq_getElem?_getD,
            List.getElem?_eq_getElem (show i < ds.length by omega)]
        rw [e] at this
        rw [maxVal_searchBound]
        exact this
    · intro e
      have key : (∃ i < c.length, chunkSearch (UInt16.ofNat (2 ^ b.toNat - 1))
          (E.e (g_i.getD i 0) (dk.V_2.getD i 0)) (chunkValue c_0 c sk.rho dk i)
            = .err .couldNotFindDiscreteLog) ↔
          ∃ i < c.length, NoLog (chunkBase g_i dk i) (chunkValue c_0 c sk.rho dk i)
            (searchBound b.toNat) := by
        refine exists_congr fun i => and_congr_right fun _ => ?_
        rw [chunkSearch_err_iff, maxVal_searchBound]
        exact ⟨fun h => h.2, fun h => ⟨rfl, h⟩⟩
      rw [← key, ← h2 e]
      cases hm : mapRes (fun i => chunkSearch (UInt16.ofNat (2 ^ b.toNat - 1))
        (E.e (g_i.getD i 0) (dk.V_2.getD i 0)) (chunkValue c_0 c sk.rho dk i))
          (List.range c.length) with
      | ok x => simp
      | err e' => simp
      | panic => exact absurd hm h3
    · cases hm : mapRes (fun i => chunkSearch (UInt16.ofNat (2 ^ b.toNat - 1))
        (E.e (g_i.getD i 0) (dk.V_2.getD i 0)) (chunkValue c_0 c sk.rho dk i))
          (List.range c.length) with
      | ok x => simp
      | err e' => simp
      | panic => exact absurd hm h3

/-- **C20** the search bound is `2^b - 1` for the chunk sizes `1..=16`. -/
theorem C20_bound (b : ℕ) (h1 : 1 ≤ b) (h2 : b ≤ 16) : searchBound b = 2 ^ b - 1 :=
  searchBound_eq h1 h2

/-- the shapes of the main case are met by a 2-chunk key with a 2-chunk ciphertext -/
example : ∀ dk, dk = decKey (E := Engine.scalar smallFr) 2 (3 : ZMod 101)
      (fun i => ((i + 2 : ℕ) : ZMod 101)) (fun i => ((i + 5 : ℕ) : ZMod 101)) (7 : ZMod 101) →
    dk.V_2.length = dk.V_1.length ∧ 2 = dk.V_1.length % 256 := by
  rintro _ rfl
  simp [decKey]

/-! ### C19 -/

/-- **C19** every successful decryption (any ciphertext, key, table, chunk size, build profile)
returns `nu = rho * c_0`. -/
theorem C19_nu (chk : Bool) (c_0 : E.G1) (c : List E.G1) (sk : SecretKey E)
    (dk : PreparedDecryptionKey E) (g_i : List E.G1) (b : UInt8)
    (powers : Option (List (List E.GT))) (ds : List UInt16) (nu : E.G1)
    (h : decryptToChunksGivenPairingPowers chk c_0 c sk dk g_i b powers = .ok (ds, nu)) :
    nu = sk.rho • c_0 ∧ ds.length = c.length := by
  unfold decryptToChunksGivenPairingPowers at h
  obtain ⟨cnt, _, h⟩ := Res.bind_eq_ok.mp h
  by_cases h1 : c.length ≠ cnt.toNat
  · rw [if_pos h1] at h; cases h
  · rw [if_neg h1] at h
    by_cases h2 : c.length > g_i.length
    · rw [if_pos h2] at h; cases h
    · rw [if_neg h2] at h
      obtain ⟨mx, _, h⟩ := Res.bind_eq_ok.mp h
      obtain ⟨chunks, hch, h⟩ := Res.bind_eq_ok.mp h
      simp only [Res.pure_eq, Res.ok.injEq, Prod.mk.injEq, intoBigint_smul, neg_smul,
        neg_neg] at h
      refine ⟨h.2.symm, ?_⟩
      rw [← h.1]
      exact (mapRes_range_eq_ok_iff.mp hch).1

/-- **C19** at message level, with or without a table. -/
theorem C19_nu_message (chk : Bool) (c_0 : E.G1) (c : List E.G1) (sk : SecretKey E)
    (dk : PreparedDecryptionKey E) (g_i : List E.G1) (b : UInt8) (powers : List (List E.GT))
    (m : E.Fr) (nu : E.G1) :
    (decrypt chk c_0 c sk dk g_i b = .ok (m, nu) → nu = sk.rho • c_0) ∧
    (decryptGivenPairingPowers chk c_0 c sk dk g_i b powers = .ok (m, nu) →
      nu = sk.rho • c_0) := by
  constructor
  · intro h
    unfold decrypt decryptToChunks at h
    obtain ⟨⟨ds, nu'⟩, h1, h⟩ := Res.bind_eq_ok.mp h
    obtain ⟨m', _, h⟩ := Res.bind_eq_ok.mp h
    simp only [Res.pure_eq, Res.ok.injEq, Prod.mk.injEq] at h
    rw [← h.2]
    exact (C19_nu chk c_0 c sk dk g_i b _ ds nu' h1).1
  · intro h
    unfold decryptGivenPairingPowers at h
    obtain ⟨⟨ds, nu'⟩, h1, h⟩ := Res.bind_eq_ok.mp h
    obtain ⟨m', _, h⟩ := Res.bind_eq_ok.mp h
    simp only [Res.pure_eq, Res.ok.injEq, Prod.mk.injEq] at h
    rw [← h.2]
    exact (C19_nu chk c_0 c sk dk g_i b _ ds nu' h1).1

/-- **C19** for keys from `keygen`, `nu` is publicly checkable against the decryption key:
`e(nu, H) = e(c_0, V_0)` holds for `nu = rho c_0`, and (for `H ≠ 0`) for no other value. -/
theorem C19_publicly_checkable (R : RngCore E) (st st' : R.σ) (b : UInt8)
    (gens : EncryptionGens E) (g_i : List E.G1) (D C : E.G1) (sk : SecretKey E)
    (ek : EncryptionKey E) (dk : DecryptionKey E)
    (hk : keygen R st b gens g_i D C = .ok ((sk, ek, dk), st')) (c_0 nu : E.G1) :
    E.e (sk.rho • c_0) gens.H = E.e c_0 dk.V_0 ∧
    (gens.H ≠ 0 → E.e nu gens.H = E.e c_0 dk.V_0 → nu = sk.rho • c_0) := by
  obtain ⟨n, hn, hg⟩ := keygen_ok_inv hk
  rw [keygen_eq R st gens g_i D C hn hg] at hk
  simp only [Res.ok.injEq, Prod.mk.injEq] at hk
  obtain ⟨⟨rfl, -, rfl⟩, -⟩ := hk
  have h1 : ∀ c : E.G1, E.e ((draw R st 0) • c) gens.H = E.e c ((draw R st 0) • gens.H) := by
    intro c; simp
  refine ⟨h1 c_0, ?_⟩
  intro hH h
  have h2 : E.e (nu - draw R st 0 • c_0) gens.H = 0 := by
    rw [map_sub, LinearMap.sub_apply, h, h1]
    exact sub_self _
  rcases E.nondeg _ _ h2 with h3 | h3
  · exact sub_eq_zero.mp h3
  · exact absurd h3 hH

/-- C19 for the key of `Fix`: a claimed `nu` that passes the public check is the right one -/
example (nu : Fix.E.G1) (h : Fix.E.e nu Fix.gens.H = Fix.E.e Fix.ct1.X_r Fix.dk.V_0) :
    nu = Fix.sk.rho • Fix.ct1.X_r :=
  (C19_publicly_checkable (listRng Fix.E) Fix.st _ 16 Fix.gens Fix.gi Fix.D Fix.C Fix.sk Fix.ek
    Fix.dk Fix.keygen_ok Fix.ct1.X_r nu).2 (by decide +kernel) h

/-! ### C17 -/

theorem nsmul_inj_lt {A : Type} [AddCommGroup A] [Module (ZMod E.fr.p) A] {g : A} (hg : g ≠ 0)
    {j k : ℕ} (hj : j < E.fr.p) (hk : k < E.fr.p) (h : j • g = k • g) : j = k := by
  rw [nsmul_fr (E := E), nsmul_fr (E := E)] at h
  have h2 : ((j : E.Fr) - (k : E.Fr)) • g = 0 := by rw [sub_smul, h, sub_self]
  rcases smul_eq_zero.mp h2 with h3 | h3
  · have h4 := sub_eq_zero.mp h3
    rw [ZMod.natCast_eq_natCast_iff', Nat.mod_eq_of_lt hj, Nat.mod_eq_of_lt hk] at h4
    exact h4
  · exact absurd h3 hg

theorem isLeastLog_nsmul {A : Type} [AddCommGroup A] [Module (ZMod E.fr.p) A] {g : A} (hg : g ≠ 0)
    {m M : ℕ} (hm : m < E.fr.p) (hM : m ≤ M) : IsLeastLog g (m • g) M m := by
  refine ⟨hM, rfl, ?_⟩
  intro j hj h
  exact absurd (nsmul_inj_lt (E := E) hg (by omega) hm h) (by omega)

theorem noLog_nsmul {A : Type} [AddCommGroup A] [Module (ZMod E.fr.p) A] {g : A} (hg : g ≠ 0)
    {m M : ℕ} (hm : m < E.fr.p) (hM : M < m) : NoLog g (m • g) M := by
  intro j hj h
  exact absurd (nsmul_inj_lt (E := E) hg (by omega) hm h) (by omega)

/-- the decrypted pairing value of an honest ciphertext is `m_i` times the base -/
theorem chunkValue_cipher (n : ℕ) (rho : E.Fr) (s t v : ℕ → E.Fr) (g_i : List E.G1) (D C : E.G1)
    (H : E.G2) (m : ℕ → ℕ) (r : E.Fr) (i : ℕ) (hi : i < n) :
    let ct := cipher (encKey n s t (fun i => g_i.getD i 0) D C H) (fun i => g_i.getD i 0) m r
    chunkValue ct.X_r ct.enc_chunks rho (decKey n rho s v H) i
      = m i • chunkBase g_i (decKey n rho s v H) i := by
  simp only [chunkValue, chunkBase, cipher, encKey, decKey, length_tab, getD_tab, if_pos hi]
  rw [nsmul_fr (E := E), nsmul_fr (E := E)]
  simp only [map_add, map_smul, LinearMap.add_apply, LinearMap.smul_apply, smul_smul, smul_add]
  have e : rho * v i * (r * s i) = rho * (s i * v i * r) := by ring
  rw [e, mul_comm (rho * v i)]
  abel

/-- Decryption of an honest ciphertext of integer chunks below the group order. -/
theorem decrypt_cipher (chk : Bool) (n : UInt8) (rho : E.Fr) (s t v : ℕ → E.Fr)
    (g_i : List E.G1) (D C : E.G1) (H : E.G2) (b : UInt8) (m : ℕ → ℕ) (r : E.Fr)
    (hb : b.toNat < 32) (hg : n.toNat ≤ g_i.length)
    (hbase : ∀ i < n.toNat, chunkBase g_i (decKey n.toNat rho s v H) i ≠ 0)
    (hm : ∀ i < n.toNat, m i < E.fr.p)
    (ct : Ciphertext E) (hct : ct = cipher (encKey n.toNat s t (fun i => g_i.getD i 0) D C H)
      (fun i => g_i.getD i 0) m r) :
    ((∀ i < n.toNat, m i ≤ searchBound b.toNat) →
      decryptToChunks chk ct.X_r ct.enc_chunks ⟨rho⟩ (decKey n.toNat rho s v H).prepare g_i b
        = .ok (tab n.toNat fun i => UInt16.ofNat (m i), (rho * r) • D)) ∧
    (∀ i < n.toNat, searchBound b.toNat < m i →
      decryptToChunks chk ct.X_r ct.enc_chunks ⟨rho⟩ (decKey n.toNat rho s v H).prepare g_i b
        = .err .couldNotFindDiscreteLog) := by
  have hlen : ct.enc_chunks.length = n.toNat := by rw [hct]; simp [cipher, encKey]
  have hval : ∀ i < n.toNat, chunkValue ct.X_r ct.enc_chunks rho (decKey n.toNat rho s v H) i
      = m i • chunkBase g_i (decKey n.toNat rho s v H) i := by
    intro i hi
    rw [hct]
    exact chunkValue_cipher n.toNat rho s t v g_i D C H m r i hi
  have hmod : n.toNat % 256 = n.toNat := Nat.mod_eq_of_lt n.toNat_lt
  have hmain := (C20_decrypt_cases chk ct.X_r ct.enc_chunks ⟨rho⟩ (decKey n.toNat rho s v H) g_i b
    hb).2.2.2 (by simp [decKey]) (by rw [hlen]; simp [decKey]) (by omega)
  constructor
  · intro hbd
    rw [hmain.1]
    refine ⟨?_, by rw [length_tab, hlen], ?_⟩
    · rw [hct]
      simp [cipher, encKey, smul_smul]
    · intro i hi
      rw [hlen] at hi
      have e : (nums (tab n.toNat fun i => UInt16.ofNat (m i))).getD i 0 = m i := by
        rw [nums, map_tab, getD_tab, if_pos hi]
        have := hbd i hi
        have := searchBound_lt b.toNat
        simp
        omega
      rw [e, hval i hi]
      exact isLeastLog_nsmul (E := E) (hbase i hi) (hm i hi) (hbd i hi)
  · intro i hi hbd
    rw [hmain.2.1]
    refine ⟨rfl, i, by omega, ?_⟩
    rw [hval i hi]
    exact noLog_nsmul (E := E) (hbase i hi) (hm i hi) hbd

theorem chunkBase_ne (n : ℕ) (rho : E.Fr) (s v : ℕ → E.Fr) (g_i : List E.G1) (H : E.G2)
    (hgi : ∀ i < n, g_i.getD i 0 ≠ 0)
    (hV : ∀ i < n, (decKey n rho s v H).V_2.getD i 0 ≠ 0) :
    ∀ i < n, chunkBase g_i (decKey n rho s v H) i ≠ 0 := by
  intro i hi h
  rcases E.nondeg _ _ h with h | h
  · exact hgi i hi h
  · exact hV i hi h

/-- **C17** With keys from `keygen` (any generator, any chunk size below 32) whose `V_2` components
and public generators are nonzero, decrypting an encryption of any chunk vector with entries at
most `2^b - 1` (and below the group order, which only matters for groups smaller than `2^16`)
returns that vector and `nu = rho r X_0`. -/
theorem C17_decrypt_encrypt_chunks (R : RngCore E) (st st' : R.σ) (b : UInt8)
    (gens : EncryptionGens E) (g_i : List E.G1) (D C : E.G1) (sk : SecretKey E)
    (ek : EncryptionKey E) (dk : DecryptionKey E)
    (hk : keygen R st b gens g_i D C = .ok ((sk, ek, dk), st')) (hb : b.toNat < 32)
    (hgi : ∀ g ∈ g_i, g ≠ 0) (hV : ∀ V ∈ dk.V_2, V ≠ 0)
    (R' : RngCore E) (st1 : R'.σ) (chunks : List UInt16) (hlen : chunks.length = ek.X.length)
    (hch : ∀ x ∈ chunks, x.toNat ≤ 2 ^ b.toNat - 1 ∧ x.toNat < E.fr.p) (chk : Bool) :
    ∃ ct r st2, encryptDecomposedMessage R' st1 chunks ek g_i = .ok ((flat ct, r), st2) ∧
      decryptToChunks chk ct.X_r ct.enc_chunks sk dk.prepare g_i b
        = .ok (chunks, (sk.rho * r) • ek.X_0) := by
  obtain ⟨n, hn, hg⟩ := keygen_ok_inv hk
  rw [keygen_eq R st gens g_i D C hn hg] at hk
  simp only [Res.ok.injEq, Prod.mk.injEq] at hk
  obtain ⟨⟨rfl, rfl, rfl⟩, -⟩ := hk
  have hXn : ∀ s t, (encKey n.toNat s t (fun i => g_i.getD i 0) D C gens.H).X.length = n.toNat := by
    intro s t; simp [encKey]
  have hn256 : n.toNat < 256 := n.toNat_lt
  rw [hXn] at hlen
  refine ⟨_, _, _, encryptDecomposed_ok R' st1 chunks _ g_i (encKey_wf _ _ _ _ _ _ _)
    (by rw [hXn]; exact hn256) (by rw [hXn]; exact hlen) (by rw [hXn]; exact hg), ?_⟩
  have hget : ∀ i < n.toNat, ∃ x ∈ chunks, (nums chunks).getD i 0 = x.toNat ∧
      chunks[i]? = some x := by
    intro i hi
    refine ⟨chunks[i]'(by omega), List.getElem_mem _, ?_, ?_⟩
    · simp [nums, List.getD_eq_getElem?_getD,
        List.getElem?_eq_getElem (show i < chunks.length by omega)]
    · exact List.getElem?_eq_getElem (by omega)
  have hd := (decrypt_cipher chk n (draw R st 0) (fun i => draw R st (1 + i))
    (fun i => draw R st (1 + n.toNat + i)) (fun i => draw R st (2 + 2 * n.toNat + i)) g_i D C gens.H
    b (fun i => (nums chunks).getD i 0) (draw R' st1 0) hb hg
    (chunkBase_ne _ _ _ _ _ _ (fun i hi => hgi _ (by
        rw [List.getD_eq_getElem?_getD, List.getElem?_eq_getElem (by omega)]
        exact List.getElem_mem _)) (fun i hi => hV _ (by
        rw [List.getD_eq_getElem?_getD, List.getElem?_eq_getElem (by simpa [decKey] using hi)]
        exact List.getElem_mem _)))
    (by
      intro i hi
      obtain ⟨x, hx, e, _⟩ := hget i hi
      simp only [e]
      exact (hch x hx).2) _ rfl).1 (by
      intro i hi
      obtain ⟨x, hx, e, _⟩ := hget i hi
      simp only [e]
      have h1 := (hch x hx).1
      have h2 := x.toNat_lt
      unfold searchBound
      omega)
  rw [hd]
  congr 2
  apply List.ext_getElem?
  intro i
  rw [getElem?_tab]
  by_cases hi : i < n.toNat
  · obtain ⟨x, hx, e, e2⟩ := hget i hi
    rw [if_pos hi, e, e2]
    simp
  · rw [if_neg hi, List.getElem?_eq_none (by omega)]

/-- the hypotheses of C17 are met by the key of `Fix` and the chunks `1, 2, 300, 4`; C19 then gives
`nu` -/
example : ∃ ct r st2, encryptDecomposedMessage (listRng Fix.E) Fix.st1 Fix.m1 Fix.ek Fix.gi
      = .ok ((flat ct, r), st2) ∧
    decryptToChunks true ct.X_r ct.enc_chunks Fix.sk Fix.dk.prepare Fix.gi 16
      = .ok (Fix.m1, (Fix.sk.rho * r) • Fix.ek.X_0) ∧
    (Fix.sk.rho * r) • Fix.ek.X_0 = Fix.sk.rho • ct.X_r := by
  obtain ⟨ct, r, st2, h1, h2⟩ := C17_decrypt_encrypt_chunks (listRng Fix.E) Fix.st _ 16 Fix.gens Fix.gi
    Fix.D Fix.C Fix.sk Fix.ek Fix.dk Fix.keygen_ok (by decide) Fix.gi_ne Fix.V2_ne (listRng Fix.E)
    Fix.st1 Fix.m1 (by decide +kernel) (by decide +kernel) true
  exact ⟨ct, r, st2, h1, h2, (C19_nu true _ _ _ _ _ _ _ _ _ h2).1⟩

/-- **C17** the nonzero conditions are needed: if a decryption-key position is degenerate
(`V_1[i] = V_2[i] = 0`, e.g. because the drawn `v_i` or `rho` is zero), every ciphertext decrypts
to 0 at that position. -/
theorem C17_degenerate (chk : Bool) (c_0 : E.G1) (c : List E.G1) (sk : SecretKey E)
    (dk : DecryptionKey E) (g_i : List E.G1) (b : UInt8) (hb : b.toNat < 32) (i : ℕ)
    (h1 : dk.V_1.getD i 0 = 0) (h2 : dk.V_2.getD i 0 = 0) (ds : List UInt16) (nu : E.G1)
    (hi : i < c.length) (h : decryptToChunks chk c_0 c sk dk.prepare g_i b = .ok (ds, nu)) :
    (nums ds).getD i 0 = 0 := by
  have hall := C20_decrypt_cases chk c_0 c sk dk g_i b hb
  by_cases hw : dk.V_2.length = dk.V_1.length
  · by_cases hc : c.length = dk.V_1.length % 256
    · by_cases hg : c.length ≤ g_i.length
      · have := (((hall.2.2.2 hw hc hg).1 ds nu).mp h).2.2 i hi
        by_contra hne
        refine this.2.2 0 (by omega) ?_
        simp only [chunkValue, h1, h2]
        simp
      · rw [hall.2.2.1 hw hc (by omega)] at h; cases h
    · rw [hall.2.1 hw hc] at h; cases h
  · rw [hall.1 hw] at h; cases h

/-- a key with `rho = 0` and one chunk meets the hypotheses of C17_degenerate: whatever was encrypted,
the decryption succeeds with chunk 0 -/
example : decryptToChunks (E := Fix.E) true (340 : Fix.F) ([685] : List Fix.F) ⟨(0 : Fix.F)⟩
    (⟨(0 : Fix.F), ([0] : List Fix.F), ([0] : List Fix.F)⟩ : DecryptionKey Fix.E).prepare
    ([5] : List Fix.F) 16 = .ok ([0], (0 : Fix.F)) := by
  unfold decryptToChunks
  decide +kernel

/-- keys with nonzero `V_2` exist on BLS12-381 with 16-bit chunks -/
example : ∃ sk ek dk st', keygen (E := Engine.scalar blsFr) (listRng (Engine.scalar blsFr))
      (List.replicate 60 (3 : blsFr.F), [], []) 16
      ⟨(1 : ZMod blsFr.p), (2 : ZMod blsFr.p)⟩ (List.replicate 16 (5 : ZMod blsFr.p))
      (7 : ZMod blsFr.p) (11 : ZMod blsFr.p) = .ok ((sk, ek, dk), st') ∧
      ∀ V ∈ dk.V_2, V ≠ 0 := by
  refine ⟨_, _, _, _, keygen_eq (E := Engine.scalar blsFr) (listRng (Engine.scalar blsFr))
      (List.replicate 60 (3 : blsFr.F), [], [])
      ⟨(1 : ZMod blsFr.p), (2 : ZMod blsFr.p)⟩ (List.replicate 16 (5 : ZMod blsFr.p))
      (7 : ZMod blsFr.p) (11 : ZMod blsFr.p) chunksCount_bls16
      (by rw [List.length_replicate]; decide), ?_⟩
  intro V hV
  simp only [decKey, tab, List.mem_map, List.mem_range] at hV
  obtain ⟨i, hi, rfl⟩ := hV
  have hi' : i < 16 := hi
  have hd : ∀ k < 60, draw (E := Engine.scalar blsFr) (listRng (Engine.scalar blsFr))
      (List.replicate 60 (3 : blsFr.F), [], []) k = (3 : blsFr.F) := by
    intro k hk
    rw [listRng_draw]
    rw [List.getD_eq_getElem?_getD, List.getElem?_replicate, if_pos hk]
    rfl
  rw [hd 0 (by norm_num), hd _ (by show 2 + 2 * 16 + i < 60; omega)]
  show ((3 : ZMod blsFr.p) * 3) * 2 ≠ 0
  decide +kernel

/-! ### C18 -/

theorem digit_le_positional {base : ℕ} (hb : 0 < base) (ds : List ℕ) (x : ℕ) (hx : x ∈ ds) :
    x ≤ positional base ds := by
  obtain ⟨i, hi, rfl⟩ := List.getElem_of_mem hx
  unfold positional
  calc ds[i] = ds.getD i 0 := by
        rw [List.getD_eq_getElem?_getD, List.getElem?_eq_getElem hi]; rfl
    _ ≤ ds.getD i 0 * base ^ (ds.length - 1 - i) := Nat.le_mul_of_pos_right _ (Nat.pow_pos hb)
    _ ≤ _ := Finset.single_le_sum (f := fun i => ds.getD i 0 * base ^ (ds.length - 1 - i))
        (fun _ _ => Nat.zero_le _) (Finset.mem_range.mpr hi)

/-- **C18** Message-level round trip: for keys from `keygen` with nonzero `V_2` and generators, a
supported chunk size and a field whose decomposition length matches the key (C05; BLS12-381 at all
sizes by `C05_bls12_381`), `decrypt(encrypt(m))` returns exactly `m` and `nu = rho r X_0`, for
every message and every randomness; also through the `_given_groth16_vk` variants. -/
theorem C18_decrypt_encrypt (R : RngCore E) (st st' : R.σ) (b : UInt8)
    (gens : EncryptionGens E) (g_i : List E.G1) (D C : E.G1) (sk : SecretKey E)
    (ek : EncryptionKey E) (dk : DecryptionKey E)
    (hk : keygen R st b gens g_i D C = .ok ((sk, ek, dk), st')) (hb : Supported b)
    (hfield : 64 * E.fr.limbs < E.fr.modBits + b.toNat ∧ chunksNeeded E.fr b.toNat ≤ 255)
    (hgi : ∀ g ∈ g_i, g ≠ 0) (hV : ∀ V ∈ dk.V_2, V ≠ 0)
    (R' : RngCore E) (st1 : R'.σ) (m : E.Fr) :
    ∃ ct r st2, encrypt R' st1 m ek g_i b = .ok ((ct, r), st2) ∧
      (∀ chk, ct.decrypt chk sk dk.prepare g_i b = .ok (m, (sk.rho * r) • ek.X_0)) ∧
      (∀ vk, vk.gamma_abc_g1.tail = g_i → vk.gamma_abc_g1 ≠ [] →
        encryptGivenSnarkVk R' st1 m ek vk b = .ok ((ct, r), st2) ∧
        ∀ chk, ct.decryptGivenGroth16Vk chk sk dk.prepare vk b
            = .ok (m, (sk.rho * r) • ek.X_0) ∧
          decryptGivenGroth16Vk chk ct.X_r ct.enc_chunks sk dk.prepare vk b
            = .ok (m, (sk.rho * r) • ek.X_0)) := by
  obtain ⟨d, hd, hlen, hbd, hpos⟩ := decompose_spec m hb
  have hfrom : FromSetup ek b gens g_i D C := .inl ⟨R, st, st', sk, dk, hk⟩
  have hb32 : b.toNat < 32 := by rcases hb with rfl | rfl | rfl <;> decide
  have hXn : d.length = ek.X.length := by
    obtain ⟨n, s, t, hn, hg, rfl⟩ := fromSetup_inv hfrom
    rw [hlen, (decomp_len_eq_iff E.fr b n hb hn).mpr hfield]
    simp [encKey]
  obtain ⟨ct0, r, st2, he, -⟩ := C17_decrypt_encrypt_chunks R st st' b gens g_i D C sk ek dk hk hb32
    hgi hV R' st1 d hXn (fun x hx => ⟨by have := hbd x hx; omega, by
      have h1 : x.toNat ≤ m.val := by
        rw [← hpos]
        exact digit_le_positional (Nat.two_pow_pos _) _ _ (List.mem_map_of_mem hx)
      exact lt_of_le_of_lt h1 (ZMod.val_lt m)⟩) true
  have hdec : ∀ chk, decryptToChunks chk ct0.X_r ct0.enc_chunks sk dk.prepare g_i b
      = .ok (d, (sk.rho * r) • ek.X_0) := by
    intro chk
    obtain ⟨ct1, r1, st3, he1, hd1⟩ := C17_decrypt_encrypt_chunks R st st' b gens g_i D C sk ek dk hk
      hb32 hgi hV R' st1 d hXn (fun x hx => ⟨by have := hbd x hx; omega, by
      have h1 : x.toNat ≤ m.val := by
        rw [← hpos]
        exact digit_le_positional (Nat.two_pow_pos _) _ _ (List.mem_map_of_mem hx)
      exact lt_of_le_of_lt h1 (ZMod.val_lt m)⟩) chk
    rw [he] at he1
    simp only [Res.ok.injEq, Prod.mk.injEq] at he1
    obtain ⟨⟨e1, rfl⟩, -⟩ := he1
    have : ct0 = ct1 := flat_inj e1
    rw [this]
    exact hd1
  obtain ⟨d', hd', -, hsplit⟩ := C14_encrypt_splits R' st1 m ek g_i b hb
  rw [hd] at hd'
  injection hd' with hd'
  subst hd'
  obtain ⟨ct, hflat, henc⟩ := hsplit _ _ _ he
  obtain rfl : ct0 = ct := flat_inj hflat
  have hcomp : ∀ chk, compose (K := E.fr) chk d b = .ok m := by
    obtain ⟨d', h1, h2⟩ := C01_decompose_compose_roundtrip E.fr m b hb
    rw [hd] at h1
    injection h1 with h1
    subst h1
    exact h2
  have hfull : ∀ chk, decrypt chk ct0.X_r ct0.enc_chunks sk dk.prepare g_i b
      = .ok (m, (sk.rho * r) • ek.X_0) := by
    intro chk
    unfold decrypt
    rw [hdec chk]
    simp only [Res.ok_bind]
    rw [hcomp chk]
    rfl
  refine ⟨ct0, r, st2, henc, hfull, ?_⟩
  intro vk hvk hne
  have hgs : getGsForEncryption vk = .ok g_i := by
    unfold getGsForEncryption
    cases hq : vk.gamma_abc_g1 with
    | nil => exact absurd hq hne
    | cons a l => rw [hq] at hvk; rw [← hvk]; rfl
  refine ⟨?_, fun chk => ⟨?_, ?_⟩⟩
  · unfold encryptGivenSnarkVk
    rw [hgs]
    exact henc
  · unfold Ciphertext.decryptGivenGroth16Vk
    rw [hgs]
    exact hfull chk
  · unfold decryptGivenGroth16Vk
    rw [hgs]
    exact hfull chk

/-- the hypotheses of C18 are met by the key of `Fix` over the Goldilocks field, for a message of 60
bits -/
example : ∃ ct r st2, encrypt (listRng Fix.E) Fix.st1 (1000000000000000000 : Fix.F) Fix.ek Fix.gi 16
      = .ok ((ct, r), st2) ∧
    ct.decrypt true Fix.sk Fix.dk.prepare Fix.gi 16
      = .ok ((1000000000000000000 : Fix.F), (Fix.sk.rho * r) • Fix.ek.X_0) := by
  obtain ⟨ct, r, st2, h1, h2, -⟩ := C18_decrypt_encrypt (listRng Fix.E) Fix.st _ 16 Fix.gens Fix.gi
    Fix.D Fix.C Fix.sk Fix.ek Fix.dk Fix.keygen_ok (Or.inr (Or.inr rfl)) Fix.aligned Fix.gi_ne
    Fix.V2_ne (listRng Fix.E) Fix.st1 (1000000000000000000 : Fix.F)
  exact ⟨ct, r, st2, h1, h2 true⟩

/-! ### C22 -/

theorem powersLoop_full {A : Type} [AddCommGroup A] (g : A) (k : ℕ) :
    powersLoop g g (k - 1) = tab (max 1 k) fun j => (j + 1) • g := by
  have h := powersLoop_eq g (k - 1) 0
  rw [zero_add, one_smul] at h
  rw [h]
  have e : k - 1 + 1 = max 1 k := by omega
  rw [e]
  apply tab_congr
  intro i _
  rw [Nat.zero_add]

theorem chunkMaxI32_ok_iff (chk : Bool) (b : UInt8) (k : ℕ) :
    chunkMaxI32 chk b = .ok k ↔
      (k = 2 ^ b.toNat - 1 ∧ b.toNat ≤ 30) ∨
      (chk = false ∧ 31 ≤ b.toNat ∧ k = 2 ^ (b.toNat % 32) - 1) := by
  unfold chunkMaxI32
  cases chk
  · rw [if_neg (by simp)]
    simp only [Res.ok.injEq]
    constructor
    · rintro rfl
      rcases Nat.lt_or_ge b.toNat 31 with h | h
      · left; rw [Nat.mod_eq_of_lt (show b.toNat < 32 by omega)]; exact ⟨rfl, by omega⟩
      · right; exact ⟨trivial, h, rfl⟩
    · rintro (⟨rfl, h⟩ | ⟨_, _, rfl⟩)
      · rw [Nat.mod_eq_of_lt (by omega)]
      · rfl
  · rw [if_pos rfl]
    by_cases h : b.toNat ≤ 30
    · rw [if_pos h]
      simp only [Res.ok.injEq]
      constructor
      · rintro rfl; exact .inl ⟨rfl, h⟩
      · rintro (⟨rfl, _⟩ | ⟨h', _⟩)
        · rfl
        · cases h'
    · rw [if_neg h]
      constructor
      · intro h'; cases h'
      · rintro (⟨_, h'⟩ | ⟨h', _⟩)
        · exact absurd h' h
        · cases h'

/-- a general table: row lengths and entries, for any prepared key -/
theorem pairingPowers_rows (chk : Bool) (dk : PreparedDecryptionKey E) (b : UInt8)
    (g_i : List E.G1) (pw : List (List E.GT)) (h : dk.pairingPowers chk b g_i = .ok pw) :
    dk.V_2.length = dk.V_1.length ∧ dk.V_1.length % 256 ≤ g_i.length ∧
    ∃ k, chunkMaxI32 chk b = .ok k ∧ pw.length = dk.V_1.length % 256 ∧
    ∀ i < dk.V_1.length % 256, ∃ g v, g_i[i]? = some g ∧ dk.V_2[i]? = some v ∧
      pw[i]? = some (tab (max 1 k) fun j => (j + 1) • E.pairP g v) := by
  unfold PreparedDecryptionKey.pairingPowers PreparedDecryptionKey.supportedChunksCount
    decKeyChunks at h
  obtain ⟨n, hn, h⟩ := Res.bind_eq_ok.mp h
  obtain ⟨k, hk, h⟩ := Res.bind_eq_ok.mp h
  by_cases hw : dk.V_2.length ≠ dk.V_1.length
  · rw [if_pos hw] at hn; cases hn
  rw [if_neg hw] at hn
  injection hn with hn
  have hcnt : n.toNat = dk.V_1.length % 256 := by rw [← hn]; simp
  rw [hcnt] at h
  obtain ⟨hl, hall⟩ := mapRes_range_eq_ok_iff.mp h
  have hrows : ∀ i < dk.V_1.length % 256, ∃ g v, g_i[i]? = some g ∧ dk.V_2[i]? = some v ∧
      pw[i]? = some (tab (max 1 k) fun j => (j + 1) • E.pairP g v) := by
    intro i hi
    obtain ⟨row, hrow, hb⟩ := hall i hi
    obtain ⟨g, hg, hb⟩ := Res.bind_eq_ok.mp hb
    obtain ⟨v, hv, hb⟩ := Res.bind_eq_ok.mp hb
    refine ⟨g, v, idx_eq_ok.mp hg, idx_eq_ok.mp hv, ?_⟩
    simp only [Res.pure_eq, Res.ok.injEq] at hb
    rw [hrow, ← hb, powersLoop_full]
  refine ⟨not_not.mp hw, ?_, k, hk, hl, hrows⟩
  by_contra hlt
  obtain ⟨g, v, hg, -⟩ := hrows g_i.length (by omega)
  rw [List.getElem?_eq_none le_rfl] at hg
  cases hg

/-- **C22** content of `pairing_powers` for every key, generator vector and chunk size up to 30:
one row per chunk, row `i` holding `max 1 (2^b - 1)` entries, entry `j` being `j+1` times
`e(g_i, V_2[i])` in the plain pairing; malformed keys give the error, too few generators abort. -/
theorem C22_pairing_powers (chk : Bool) (dk : DecryptionKey E) (b : UInt8) (g_i : List E.G1) :
    (dk.V_2.length ≠ dk.V_1.length → dk.pairingPowers chk b g_i
      = .err (.malformedDecryptionKey dk.V_2.length dk.V_1.length)) ∧
    (dk.V_2.length = dk.V_1.length → b.toNat ≤ 30 → dk.V_1.length % 256 ≤ g_i.length →
      dk.pairingPowers chk b g_i = .ok (tab (dk.V_1.length % 256) fun i =>
        tab (max 1 (2 ^ b.toNat - 1)) fun j => (j + 1) • chunkBase g_i dk i)) ∧
    (dk.V_2.length = dk.V_1.length → b.toNat ≤ 30 → g_i.length < dk.V_1.length % 256 →
      dk.pairingPowers chk b g_i = .panic) ∧
    (dk.V_2.length = dk.V_1.length → 31 ≤ b.toNat → dk.pairingPowers true b g_i = .panic) := by
  have hlen1 : dk.prepare.V_1.length = dk.V_1.length := by simp [DecryptionKey.prepare]
  have hv2 : ∀ i < dk.V_2.length, idx dk.prepare.V_2 i = .ok (E.prep (dk.V_2.getD i 0)) := by
    intro i hi
    rw [idx_eq_ok]
    simp only [DecryptionKey.prepare, List.getElem?_map]
    rw [List.getElem?_eq_getElem hi]
    simp [List.getD_eq_getElem?_getD, List.getElem?_eq_getElem hi]
  have hcnt : (UInt8.ofNat dk.V_1.length).toNat = dk.V_1.length % 256 := by simp
  refine ⟨?_, ?_, ?_, ?_⟩
  · intro h
    unfold DecryptionKey.pairingPowers PreparedDecryptionKey.pairingPowers
    rw [dkChunks_prepare]
    unfold DecryptionKey.supportedChunksCount decKeyChunks
    rw [if_pos h]; rfl
  · intro hw hb hg
    unfold DecryptionKey.pairingPowers PreparedDecryptionKey.pairingPowers
    rw [dkChunks_prepare, decKeyChunks_ok dk hw, (chunkMaxI32_ok_iff chk b _).mpr (.inl ⟨rfl, hb⟩)]
    simp only [Res.ok_bind, hcnt]
    apply mapRes_range_ok
    intro i hi
    have : i < dk.V_1.length := lt_of_lt_of_le hi (Nat.mod_le _ _)
    rw [idx_ok 0 (show i < g_i.length by omega), hv2 i (by omega)]
    simp only [Res.ok_bind, Res.pure_eq, powersLoop_full, E.pairP_prep]
    rfl
  · intro hw hb hg
    unfold DecryptionKey.pairingPowers PreparedDecryptionKey.pairingPowers
    rw [dkChunks_prepare, decKeyChunks_ok dk hw, (chunkMaxI32_ok_iff chk b _).mpr (.inl ⟨rfl, hb⟩)]
    simp only [Res.ok_bind, hcnt]
    rw [mapRes_range_panic hg]
    · rw [idx_panic le_rfl]; rfl
    · intro j hj e
      have : j < dk.V_1.length := lt_of_lt_of_le hj (Nat.mod_le _ _)
      cases hgj : idx g_i j with
      | ok x => rw [hv2 j (by omega)]; simp
      | err e' => exact absurd hgj idx_ne_err
      | panic => simp
  · intro hw hb
    unfold DecryptionKey.pairingPowers PreparedDecryptionKey.pairingPowers
    rw [dkChunks_prepare, decKeyChunks_ok dk hw]
    have : chunkMaxI32 true b = .panic := by
      unfold chunkMaxI32
      rw [if_pos rfl, if_neg (by omega)]
    simp [this]

/-- C22 for the key of `Fix` and 4-bit chunks: four rows of fifteen powers -/
example : Fix.dk.pairingPowers true 4 Fix.gi = .ok (tab 4 fun i =>
    tab 15 fun j => (j + 1) • chunkBase Fix.gi Fix.dk i) :=
  (C22_pairing_powers true Fix.dk 4 Fix.gi).2.1 (by decide +kernel) (by decide) (by decide +kernel)

/-! ### C21 -/

/-- **C21** For every prepared decryption key, generator vector and chunk size `1..=31`: if
`pairing_powers` returned a table, decryption with that table gives the same `Result` (value, error
or abort) as decryption without a table, for every ciphertext and secret key, at chunk and message
level. -/
theorem C21_table_same_result (chk chk' : Bool) (dk : PreparedDecryptionKey E) (g_i : List E.G1)
    (b : UInt8) (hb1 : 1 ≤ b.toNat) (hb : b.toNat < 32) (pw : List (List E.GT))
    (hpw : dk.pairingPowers chk' b g_i = .ok pw) (c_0 : E.G1) (c : List E.G1)
    (sk : SecretKey E) :
    decryptToChunksGivenPairingPowers chk c_0 c sk dk g_i b (some pw)
      = decryptToChunks chk c_0 c sk dk g_i b ∧
    decryptGivenPairingPowers chk c_0 c sk dk g_i b pw = decrypt chk c_0 c sk dk g_i b := by
  have main : decryptToChunksGivenPairingPowers chk c_0 c sk dk g_i b (some pw)
      = decryptToChunks chk c_0 c sk dk g_i b := by
    obtain ⟨hw, hg, k, hk, hlen, hrows⟩ := pairingPowers_rows chk' dk b g_i pw hpw
    have hcnt : dk.supportedChunksCount = .ok (UInt8.ofNat dk.V_1.length) := by
      unfold PreparedDecryptionKey.supportedChunksCount decKeyChunks
      rw [if_neg (by simpa using hw)]
    have hcn : (UInt8.ofNat dk.V_1.length).toNat = dk.V_1.length % 256 := by simp
    have hkk : k = 2 ^ b.toNat - 1 := by
      rcases (chunkMaxI32_ok_iff chk' b k).mp hk with ⟨h, _⟩ | ⟨_, h1, h⟩
      · exact h
      · rw [h, Nat.mod_eq_of_lt hb]
    unfold decryptToChunks decryptToChunksGivenPairingPowers
    rw [hcnt, chunkMaxU32_eq chk hb]
    simp only [Res.ok_bind, hcn]
    by_cases hc : c.length = dk.V_1.length % 256
    · rw [if_neg (by simpa using hc), if_neg (show ¬ c.length > g_i.length by omega),
        if_neg (by simpa using hc), if_neg (show ¬ c.length > g_i.length by omega)]
      congr 1
      apply mapRes_congr
      intro i hi
      have hi' : i < c.length := List.mem_range.mp hi
      obtain ⟨g, v, hgi, hvi, hrow⟩ := hrows i (by omega)
      have hpne : pw.isEmpty = false := by
        cases pw with
        | nil => simp at hrow
        | cons => rfl
      rw [idx_ok 0 hi', idx_eq_ok.mpr hvi, idx_eq_ok.mpr hgi]
      simp only [Res.ok_bind, Option.getD_some, Option.getD_none, hpne, List.isEmpty_nil, if_true]
      congr 1
      funext v1
      congr 1
      funext p
      by_cases hp : p = 0
      · rw [if_pos hp, if_pos hp]
      · rw [if_neg hp, if_neg hp]
        simp only [Bool.false_eq_true, if_false]
        have h2 : 2 ^ 1 ≤ 2 ^ b.toNat := Nat.pow_le_pow_right (by norm_num) hb1
        have hmx := maxVal_searchBound (b := b.toNat)
        have hle : (UInt16.ofNat (2 ^ b.toNat - 1)).toNat ≤ max 1 k := by
          rw [hkk]
          have : (UInt16.ofNat (2 ^ b.toNat - 1)).toNat = (2 ^ b.toNat - 1) % 65536 := by simp
          rw [this]
          exact le_trans (Nat.mod_le _ _) (le_max_right _ _)
        have h1 : 1 ≤ (UInt16.ofNat (2 ^ b.toNat - 1)).toNat := by
          rcases Nat.lt_or_ge b.toNat 16 with h | h
          · rw [maxVal16 (by omega)]; omega
          · obtain ⟨q, hq⟩ := Nat.exists_eq_add_of_le h
            rw [hq, pow_add]
            have := Nat.two_pow_pos q
            simp
            omega
        exact table_search_eq pw i _ (E.pairP g v) p (max 1 k) hle h1 hp (by omega) hrow
    · rw [if_pos (by simpa using hc), if_pos (by simpa using hc)]
  refine ⟨main, ?_⟩
  unfold decryptGivenPairingPowers decrypt
  rw [main]

/-- **C21** tables exist for every well-formed key with enough generators (see also C22) -/
theorem C21_table_exists (chk : Bool) (dk : DecryptionKey E) (b : UInt8) (g_i : List E.G1)
    (hw : dk.V_2.length = dk.V_1.length) (hb : b.toNat ≤ 30) (hg : dk.V_1.length ≤ g_i.length) :
    ∃ pw, dk.prepare.pairingPowers chk b g_i = .ok pw :=
  ⟨_, (C22_pairing_powers chk dk b g_i).2.1 hw hb (le_trans (Nat.mod_le _ _) hg)⟩

/-- the hypotheses of C21 are met by the key of `Fix`, with a table from a build of the other kind -/
example (c_0 : Fix.E.G1) (c : List Fix.E.G1) :
    ∃ pw, Fix.dk.prepare.pairingPowers false 16 Fix.gi = .ok pw ∧
      decryptGivenPairingPowers true c_0 c Fix.sk Fix.dk.prepare Fix.gi 16 pw
        = decrypt true c_0 c Fix.sk Fix.dk.prepare Fix.gi 16 := by
  obtain ⟨pw, h⟩ := C21_table_exists false Fix.dk 16 Fix.gi (by decide +kernel) (by decide)
    (by decide +kernel)
  exact ⟨pw, h, (C21_table_same_result true false Fix.dk.prepare Fix.gi 16 (by decide) (by decide) pw h
    c_0 c Fix.sk).2⟩

/-- **C21** with chunk size 0 the two paths differ: for a one-chunk key, whenever the decrypted
pairing value is the nonzero base itself, decryption without table returns the chunk 1 while
decryption with the table from `pairing_powers` reports that no logarithm was found. -/
theorem C21_zero_size_differs (chk chk' : Bool) (dk : DecryptionKey E) (g_i : List E.G1)
    (h1 : dk.V_1.length = 1) (h2 : dk.V_2.length = 1) (hg : 1 ≤ g_i.length)
    (c_0 c_1 : E.G1) (sk : SecretKey E)
    (hne : chunkBase g_i dk 0 ≠ 0)
    (hval : chunkValue c_0 [c_1] sk.rho dk 0 = chunkBase g_i dk 0) :
    decryptToChunks chk c_0 [c_1] sk dk.prepare g_i 0 = .ok ([1], sk.rho • c_0) ∧
    ∃ pw, dk.pairingPowers chk' 0 g_i = .ok pw ∧
      decryptToChunksGivenPairingPowers chk c_0 [c_1] sk dk.prepare g_i 0 (some pw)
        = .err .couldNotFindDiscreteLog := by
  constructor
  · rw [((C20_decrypt_cases chk c_0 [c_1] sk dk g_i 0 (by decide)).2.2.2 (by omega)
      (by rw [h1]; rfl) (by simpa using hg)).1]
    refine ⟨rfl, rfl, ?_⟩
    intro i hi
    obtain rfl : i = 0 := by simpa using hi
    rw [hval]
    refine ⟨by decide, by simp [nums], ?_⟩
    intro j hj
    have : j = 0 := by simp [nums] at hj; exact hj
    subst this
    rw [zero_smul]
    exact fun h => hne h.symm
  · have hp := (C22_pairing_powers chk' dk 0 g_i).2.1 (by omega) (by decide) (by rw [h1]; exact hg)
    refine ⟨_, hp, ?_⟩
    rw [h1]
    unfold decryptToChunksGivenPairingPowers
    rw [dkChunks_prepare, decKeyChunks_ok dk (by omega)]
    have hcnt : (UInt8.ofNat dk.V_1.length).toNat = 1 := by rw [h1]; rfl
    rw [chunkMaxU32_eq chk (by decide)]
    simp only [Res.ok_bind, hcnt, intoBigint_smul]
    rw [if_neg (by simp), if_neg (show ¬ [c_1].length > g_i.length by simp only [List.length_singleton]; omega)]
    have hv2 : idx dk.prepare.V_2 0 = .ok (E.prep (dk.V_2.getD 0 0)) := by
      rw [idx_eq_ok]
      simp only [DecryptionKey.prepare, List.getElem?_map]
      rw [List.getElem?_eq_getElem (by omega)]
      simp [List.getD_eq_getElem?_getD, List.getElem?_eq_getElem (show 0 < dk.V_2.length by omega)]
    have hv1 : idx dk.prepare.V_1 0 = .ok (E.prep (dk.V_1.getD 0 0)) := by
      rw [idx_eq_ok]
      simp only [DecryptionKey.prepare, List.getElem?_map]
      rw [List.getElem?_eq_getElem (by omega)]
      simp [List.getD_eq_getElem?_getD, List.getElem?_eq_getElem (show 0 < dk.V_1.length by omega)]
    have hval' : E.e c_1 (dk.V_2.getD 0 0) + -(sk.rho • E.e c_0 (dk.V_1.getD 0 0))
        = chunkBase g_i dk 0 := by
      rw [← hval]
      simp [chunkValue, sub_eq_add_neg]
    have hc1 : idx [c_1] 0 = .ok c_1 := rfl
    simp only [List.length_cons, List.length_nil, Nat.zero_add, List.range_one, mapRes, hv2, hv1,
      hc1, Res.ok_bind, Engine.multiPairing, if_true,
      List.zipWith_cons_cons, List.zipWith_nil_left, List.sum_cons, List.sum_nil, add_zero,
      E.pairP_prep, map_neg, LinearMap.neg_apply, map_smul, LinearMap.smul_apply, neg_smul, hval',
      if_neg hne]
    simp [tab, solveDiscreteLogUsingPairingPowers, powersSearch]

/-- the hypotheses of C21_zero_size_differs are met -/
example : decryptToChunks true (17 : Fix.F) ([39] : List Fix.F) Fix.sk
    (⟨(9 : Fix.F), ([60] : List Fix.F), ([90] : List Fix.F)⟩ : DecryptionKey Fix.E).prepare
    ([5] : List Fix.F) 0 = .ok ([1], Fix.sk.rho • Fix.D) :=
  (C21_zero_size_differs true true
    (⟨(9 : Fix.F), ([60] : List Fix.F), ([90] : List Fix.F)⟩ : DecryptionKey Fix.E)
    ([5] : List Fix.F) rfl rfl (by decide) (17 : Fix.F) (39 : Fix.F) Fix.sk (by decide +kernel)
    (by decide +kernel)).1

/-- **C18** the message-level round trip also holds with the table returned by `pairing_powers`,
and through the `_given_groth16_vk_and_pairing_powers` variants. -/
theorem C18_decrypt_encrypt_with_table (R : RngCore E) (st st' : R.σ) (b : UInt8)
    (gens : EncryptionGens E) (g_i : List E.G1) (D C : E.G1) (sk : SecretKey E)
    (ek : EncryptionKey E) (dk : DecryptionKey E)
    (hk : keygen R st b gens g_i D C = .ok ((sk, ek, dk), st')) (hb : Supported b)
    (hfield : 64 * E.fr.limbs < E.fr.modBits + b.toNat ∧ chunksNeeded E.fr b.toNat ≤ 255)
    (hgi : ∀ g ∈ g_i, g ≠ 0) (hV : ∀ V ∈ dk.V_2, V ≠ 0)
    (R' : RngCore E) (st1 : R'.σ) (m : E.Fr) (chk chk' : Bool) :
    ∃ ct r st2 pw, encrypt R' st1 m ek g_i b = .ok ((ct, r), st2) ∧
      dk.pairingPowers chk' b g_i = .ok pw ∧
      ct.decryptGivenPairingPowers chk sk dk.prepare g_i b pw
        = .ok (m, (sk.rho * r) • ek.X_0) ∧
      (∀ vk, vk.gamma_abc_g1.tail = g_i → vk.gamma_abc_g1 ≠ [] →
        ct.decryptGivenGroth16VkAndPairingPowers chk sk dk.prepare vk b pw
            = .ok (m, (sk.rho * r) • ek.X_0) ∧
          decryptGivenGroth16VkAndPairingPowers chk ct.X_r ct.enc_chunks sk dk.prepare vk b pw
            = .ok (m, (sk.rho * r) • ek.X_0)) := by
  obtain ⟨ct, r, st2, he, hd, -⟩ := C18_decrypt_encrypt R st st' b gens g_i D C sk ek dk hk hb hfield
    hgi hV R' st1 m
  have hshape : dk.V_2.length = dk.V_1.length ∧ dk.V_1.length ≤ g_i.length := by
    obtain ⟨n, hn, hg⟩ := keygen_ok_inv hk
    rw [keygen_eq R st gens g_i D C hn hg] at hk
    simp only [Res.ok.injEq, Prod.mk.injEq] at hk
    obtain ⟨⟨-, -, rfl⟩, -⟩ := hk
    simp only [decKey, length_tab]
    exact ⟨trivial, hg⟩
  have hb32 : 1 ≤ b.toNat ∧ b.toNat ≤ 30 := by rcases hb with rfl | rfl | rfl <;> decide
  obtain ⟨pw, hpw⟩ := C21_table_exists chk' dk b g_i hshape.1 hb32.2 hshape.2
  have hres : decryptGivenPairingPowers chk ct.X_r ct.enc_chunks sk dk.prepare g_i b pw
      = .ok (m, (sk.rho * r) • ek.X_0) := by
    rw [(C21_table_same_result chk chk' dk.prepare g_i b hb32.1 (by omega) pw hpw ct.X_r
      ct.enc_chunks sk).2]
    exact hd chk
  refine ⟨ct, r, st2, pw, he, hpw, hres, ?_⟩
  intro vk hvk hne
  have hgs : getGsForEncryption vk = .ok g_i := by
    unfold getGsForEncryption
    cases hq : vk.gamma_abc_g1 with
    | nil => exact absurd hq hne
    | cons a l => rw [hq] at hvk; rw [← hvk]; rfl
  constructor
  · unfold Ciphertext.decryptGivenGroth16VkAndPairingPowers
    rw [hgs]
    exact hres
  · unfold decryptGivenGroth16VkAndPairingPowers
    rw [hgs]
    exact hres

example : ∃ ct r st2 pw, encrypt (listRng Fix.E) Fix.st1 (1000000000000000000 : Fix.F) Fix.ek Fix.gi 16
      = .ok ((ct, r), st2) ∧ Fix.dk.pairingPowers true 16 Fix.gi = .ok pw ∧
    ct.decryptGivenPairingPowers true Fix.sk Fix.dk.prepare Fix.gi 16 pw
      = .ok ((1000000000000000000 : Fix.F), (Fix.sk.rho * r) • Fix.ek.X_0) := by
  obtain ⟨ct, r, st2, pw, h1, h2, h3, -⟩ := C18_decrypt_encrypt_with_table (listRng Fix.E) Fix.st _ 16
    Fix.gens Fix.gi Fix.D Fix.C Fix.sk Fix.ek Fix.dk Fix.keygen_ok (Or.inr (Or.inr rfl)) Fix.aligned
    Fix.gi_ne Fix.V2_ne (listRng Fix.E) Fix.st1 (1000000000000000000 : Fix.F) true true
  exact ⟨ct, r, st2, pw, h1, h2, h3⟩

/-! ### C23 -/

section tables
variable {A : Type} [DecidableEq A]

theorem powersSearch_cases (powers : List (List A)) (i : ℕ) (row : List A) (p : A)
    (hrow : powers[i]? = some row) (k j0 : ℕ) (h0 : j0 ≤ row.length) :
    (∀ j, j0 ≤ j → j < j0 + k → row[j]? = some p →
      (∀ j', j0 ≤ j' → j' < j → row[j']? ≠ some p) →
      powersSearch powers i p j0 k = .ok (UInt16.ofNat (j + 1))) ∧
    ((∀ j, j0 ≤ j → j < j0 + k → row[j]? ≠ some p) → j0 + k ≤ row.length →
      powersSearch powers i p j0 k = .err .couldNotFindDiscreteLog) ∧
    ((∀ j, j0 ≤ j → j < row.length → row[j]? ≠ some p) → row.length < j0 + k →
      powersSearch powers i p j0 k = .panic) := by
  induction k generalizing j0 with
  | zero =>
    refine ⟨fun j h1 h2 => by omega, fun _ _ => rfl, fun _ h => by omega⟩
  | succ k ih =>
    have hidx : idx powers i = .ok row := idx_eq_ok.mpr hrow
    simp only [powersSearch, hidx, Res.ok_bind]
    rw [if_neg (by omega)]
    rcases Nat.lt_or_ge j0 row.length with hlt | hge
    · have hx : idx row j0 = .ok row[j0] := idx_eq_ok.mpr (List.getElem?_eq_getElem hlt)
      have hx' : row[j0]? = some row[j0] := List.getElem?_eq_getElem hlt
      rw [hx]
      simp only [Res.ok_bind]
      obtain ⟨i1, i2, i3⟩ := ih (j0 + 1) (by omega)
      by_cases hp : row[j0] = p
      · rw [if_pos hp]
        refine ⟨?_, ?_, ?_⟩
        · intro j h1 h2 h3 h4
          rcases Nat.eq_or_lt_of_le h1 with rfl | hj
          · rw [UInt16.ofNat_add]; rfl
          · exact absurd (hx'.trans (congrArg some hp)) (h4 j0 le_rfl hj)
        · intro h; exact absurd (hx'.trans (congrArg some hp)) (h j0 le_rfl (by omega))
        · intro h; exact absurd (hx'.trans (congrArg some hp)) (h j0 le_rfl hlt)
      · rw [if_neg hp]
        refine ⟨?_, ?_, ?_⟩
        · intro j h1 h2 h3 h4
          rcases Nat.eq_or_lt_of_le h1 with rfl | hj
          · rw [hx'] at h3; exact absurd (Option.some.inj h3) hp
          · exact i1 j hj (by omega) h3 (fun j' a b => h4 j' (by omega) b)
        · intro h h'
          exact i2 (fun j a b => h j (by omega) (by omega)) (by omega)
        · intro h h'
          exact i3 (fun j a b => h j (by omega) b) (by omega)
    · have hx : idx row j0 = .panic := idx_panic hge
      rw [hx]
      refine ⟨?_, ?_, ?_⟩
      · intro j h1 h2 h3 h4
        rw [List.getElem?_eq_none (by omega)] at h3; cases h3
      · intro h h'; omega
      · intro _ _; rfl

/-- **C23** complete case list of the table lookup, for every table (malformed ones included):
the first matching entry within the bound is returned; `CouldNotFindDiscreteLog` needs a row that
is long enough and has no match; a missing or too short row aborts (it never yields
`InvalidPairingPowers`); `InvalidPairingPowers` is returned only for indices beyond the number of
rows by at least one. -/
theorem C23_table_lookup_cases (i : ℕ) (maxVal : UInt16) (p : A) (powers : List (List A)) :
    (powers.length < i →
      solveDiscreteLogUsingPairingPowers i maxVal p powers = .err .invalidPairingPowers) ∧
    (powers.length = i → 1 ≤ maxVal.toNat →
      solveDiscreteLogUsingPairingPowers i maxVal p powers = .panic) ∧
    (∀ row, powers[i]? = some row →
      (∀ j < maxVal.toNat, row[j]? = some p → (∀ j' < j, row[j']? ≠ some p) →
        solveDiscreteLogUsingPairingPowers i maxVal p powers = .ok (UInt16.ofNat (j + 1))) ∧
      ((∀ j < maxVal.toNat, row[j]? ≠ some p) → maxVal.toNat ≤ row.length →
        solveDiscreteLogUsingPairingPowers i maxVal p powers = .err .couldNotFindDiscreteLog) ∧
      ((∀ j < row.length, row[j]? ≠ some p) → row.length < maxVal.toNat →
        solveDiscreteLogUsingPairingPowers i maxVal p powers = .panic)) := by
  unfold solveDiscreteLogUsingPairingPowers
  refine ⟨fun h => if_pos h, ?_, ?_⟩
  · intro h hM
    rw [if_neg (by omega)]
    obtain ⟨k, hk⟩ := Nat.exists_eq_add_of_le hM
    rw [hk, Nat.add_comm, powersSearch, idx_panic (by omega)]
    rfl
  · intro row hrow
    have hi : i < powers.length := by
      by_contra h
      rw [List.getElem?_eq_none (by omega)] at hrow
      cases hrow
    rw [if_neg (by omega)]
    obtain ⟨h1, h2, h3⟩ := powersSearch_cases powers i row p hrow maxVal.toNat 0 (Nat.zero_le _)
    refine ⟨?_, ?_, ?_⟩
    · intro j hj hp hmin
      exact h1 j (Nat.zero_le _) (by omega) hp (fun j' _ h => hmin j' h)
    · intro h hl
      exact h2 (fun j _ hj => h j (by omega)) (by omega)
    · intro h hl
      exact h3 (fun j _ hj => h j hj) (by omega)

/-- the cases of C23 occur: a hit, an aborting short row, and the error for a missing table -/
example : solveDiscreteLogUsingPairingPowers 0 15 20 [[10, 20, 30]] = .ok 2 ∧
    solveDiscreteLogUsingPairingPowers 0 15 99 [[10, 20, 30]] = .panic ∧
    solveDiscreteLogUsingPairingPowers 0 3 99 [[10, 20, 30]] = .err .couldNotFindDiscreteLog ∧
    solveDiscreteLogUsingPairingPowers 1 15 20 [[10, 20, 30]] = .panic ∧
    solveDiscreteLogUsingPairingPowers 2 15 20 [[10, 20, 30]] = .err .invalidPairingPowers := by
  decide

/-- every lookup falls into one of the cases; in particular a successful one is a table hit -/
theorem table_lookup_inv (i : ℕ) (maxVal : UInt16) (p : A) (powers : List (List A)) (x : UInt16)
    (h : solveDiscreteLogUsingPairingPowers i maxVal p powers = .ok x) :
    ∃ row, powers[i]? = some row ∧ 1 ≤ x.toNat ∧ x.toNat ≤ maxVal.toNat ∧
      row[x.toNat - 1]? = some p := by
  obtain ⟨h1, h2, h3⟩ := C23_table_lookup_cases i maxVal p powers
  rcases Nat.lt_trichotomy powers.length i with hi | hi | hi
  · rw [h1 hi] at h; cases h
  · by_cases hM : 1 ≤ maxVal.toNat
    · rw [h2 hi hM] at h; cases h
    · unfold solveDiscreteLogUsingPairingPowers at h
      rw [if_neg (by omega), show maxVal.toNat = 0 by omega] at h
      cases h
  · have hrow : powers[i]? = some powers[i] := List.getElem?_eq_getElem hi
    obtain ⟨a1, a2, a3⟩ := h3 _ hrow
    by_cases hex : ∃ j, j < maxVal.toNat ∧ powers[i][j]? = some p
    · classical
      have hf := Nat.find_spec hex
      have hmin : ∀ j' < Nat.find hex, powers[i][j']? ≠ some p := by
        intro j' hj' he
        exact Nat.find_min hex hj' ⟨by omega, he⟩
      rw [a1 _ hf.1 hf.2 hmin] at h
      injection h with h
      have hlt := maxVal.toNat_lt
      have hx : x.toNat = Nat.find hex + 1 := by
        rw [← h]
        simp
        omega
      refine ⟨_, hrow, by omega, by omega, ?_⟩
      rw [hx]
      exact hf.2
    · push Not at hex
      rcases Nat.lt_or_ge powers[i].length maxVal.toNat with hl | hl
      · rw [a3 (fun j hj => hex j (by omega)) hl] at h; cases h
      · rw [a2 hex hl] at h; cases h

theorem table_lookup_invalid (i : ℕ) (maxVal : UInt16) (p : A) (powers : List (List A))
    (h : solveDiscreteLogUsingPairingPowers i maxVal p powers = .err .invalidPairingPowers) :
    powers.length < i := by
  obtain ⟨h1, h2, h3⟩ := C23_table_lookup_cases i maxVal p powers
  by_contra hlt
  rcases Nat.eq_or_lt_of_le (Nat.not_lt.mp hlt) with hi | hi
  · by_cases hM : 1 ≤ maxVal.toNat
    · rw [h2 hi.symm hM] at h; cases h
    · unfold solveDiscreteLogUsingPairingPowers at h
      rw [if_neg (by omega), show maxVal.toNat = 0 by omega] at h
      cases h
  · have hrow : powers[i]? = some powers[i] := List.getElem?_eq_getElem hi
    obtain ⟨a1, a2, a3⟩ := h3 _ hrow
    by_cases hex : ∃ j, j < maxVal.toNat ∧ powers[i][j]? = some p
    · classical
      have hf := Nat.find_spec hex
      have hmin : ∀ j' < Nat.find hex, powers[i][j']? ≠ some p := by
        intro j' hj' he
        exact Nat.find_min hex hj' ⟨by omega, he⟩
      rw [a1 _ hf.1 hf.2 hmin] at h
      cases h
    · push Not at hex
      rcases Nat.lt_or_ge powers[i].length maxVal.toNat with hl | hl
      · rw [a3 (fun j hj => hex j (by omega)) hl] at h; cases h
      · rw [a2 hex hl] at h; cases h

end tables

theorem decryptGiven_shape (chk : Bool) (c_0 : E.G1) (c : List E.G1) (sk : SecretKey E)
    (dk : DecryptionKey E) (g_i : List E.G1) (b : UInt8) (powers : Option (List (List E.GT))) :
    (dk.V_2.length = dk.V_1.length ∧ c.length = dk.V_1.length % 256 ∧ c.length ≤ g_i.length) ∨
    ∃ e, e ≠ .invalidPairingPowers ∧
      decryptToChunksGivenPairingPowers chk c_0 c sk dk.prepare g_i b powers = .err e := by
  have hcnt : (UInt8.ofNat dk.V_1.length).toNat = dk.V_1.length % 256 := by simp
  by_cases hw : dk.V_2.length = dk.V_1.length
  · by_cases hc : c.length = dk.V_1.length % 256
    · by_cases hg : c.length ≤ g_i.length
      · exact .inl ⟨hw, hc, hg⟩
      · right
        refine ⟨.vectorShorterThanExpected c.length g_i.length, by simp, ?_⟩
        unfold decryptToChunksGivenPairingPowers
        rw [dkChunks_prepare, decKeyChunks_ok dk hw]
        simp only [Res.ok_bind, hcnt]
        rw [if_neg (by simpa using hc), if_pos (by omega)]
    · right
      refine ⟨.incompatibleDecryptionKey c.length (dk.V_1.length % 256), by simp, ?_⟩
      unfold decryptToChunksGivenPairingPowers
      rw [dkChunks_prepare, decKeyChunks_ok dk hw]
      simp only [Res.ok_bind, hcnt]
      rw [if_pos hc]
  · right
    refine ⟨.malformedDecryptionKey dk.V_2.length dk.V_1.length, by simp, ?_⟩
    unfold decryptToChunksGivenPairingPowers
    rw [dkChunks_prepare]
    unfold DecryptionKey.supportedChunksCount decKeyChunks
    rw [if_pos hw]; rfl

/-- **C23** decryption with an arbitrary non-empty table: every returned chunk is zero for a zero
pairing value, or is backed by a table entry equal to the decrypted pairing value. -/
theorem C23_no_wrong_chunk (chk : Bool) (c_0 : E.G1) (c : List E.G1) (sk : SecretKey E)
    (dk : DecryptionKey E) (g_i : List E.G1) (b : UInt8) (hb : b.toNat < 32)
    (pw : List (List E.GT)) (hpw : pw ≠ []) (ds : List UInt16) (nu : E.G1)
    (h : decryptToChunksGivenPairingPowers chk c_0 c sk dk.prepare g_i b (some pw)
      = .ok (ds, nu)) :
    ∀ i < c.length, (chunkValue c_0 c sk.rho dk i = 0 ∧ (nums ds).getD i 0 = 0) ∨
      ∃ row, pw[i]? = some row ∧ 1 ≤ (nums ds).getD i 0 ∧
        (nums ds).getD i 0 ≤ searchBound b.toNat ∧
        row[(nums ds).getD i 0 - 1]? = some (chunkValue c_0 c sk.rho dk i) := by
  rcases decryptGiven_shape chk c_0 c sk dk g_i b (some pw) with ⟨hw, hc, hg⟩ | ⟨e, _, he⟩
  · rw [decryptGiven_eq chk c_0 c sk dk g_i b hb hw hc hg] at h
    obtain ⟨x, hx, h⟩ := Res.bind_eq_ok.mp h
    simp only [Res.pure_eq, Res.ok.injEq, Prod.mk.injEq] at h
    obtain ⟨rfl, -⟩ := h
    intro i hi
    obtain ⟨y, hy, hs⟩ := (mapRes_range_eq_ok_iff.mp hx).2 i hi
    have e : (nums x).getD i 0 = y.toNat := by
      simp [nums, List.getD_eq_getElem?_getD, hy]
    rw [e]
    by_cases hp : chunkValue c_0 c sk.rho dk i = 0
    · left
      rw [if_pos hp] at hs
      injection hs with hs
      exact ⟨hp, by rw [← hs]; rfl⟩
    · right
      have hpe : ((some pw).getD []).isEmpty = false := by
        cases pw with
        | nil => exact absurd rfl hpw
        | cons => rfl
      rw [if_neg hp, hpe] at hs
      obtain ⟨row, h1, h2, h3, h4⟩ := table_lookup_inv _ _ _ _ _ hs
      refine ⟨row, h1, h2, ?_, h4⟩
      rw [← maxVal_searchBound]
      exact le_trans h3 (le_max_left _ _)
  · rw [he] at h; cases h

/-- the hypotheses of C23_no_wrong_chunk are met: a hand-made table with one-element rows suffices for a
ciphertext whose chunk values it contains -/
example : decryptToChunksGivenPairingPowers true (0 : Fix.F) ([5, 0, 22, 0] : List Fix.F) ⟨(-2 : Fix.F)⟩
    Fix.dk.prepare Fix.gi 4 (some ([[450], [], [1188, 2376]] : List (List Fix.F)))
    = .ok ([1, 0, 2, 0], (0 : Fix.F)) := by
  decide +kernel

/-- **C23** `InvalidPairingPowers` can only be returned when the table has fewer rows than the
ciphertext has chunks and the chunk at the first missing row was skipped because its pairing value
is zero. -/
theorem C23_invalid_powers_only_after_skip (chk : Bool) (c_0 : E.G1) (c : List E.G1)
    (sk : SecretKey E) (dk : DecryptionKey E) (g_i : List E.G1) (b : UInt8) (hb : b.toNat < 32)
    (powers : Option (List (List E.GT)))
    (h : decryptToChunksGivenPairingPowers chk c_0 c sk dk.prepare g_i b powers
      = .err .invalidPairingPowers) :
    ∃ pw, powers = some pw ∧ pw.length + 1 < c.length ∧
      chunkValue c_0 c sk.rho dk pw.length = 0 := by
  rcases decryptGiven_shape chk c_0 c sk dk g_i b powers with ⟨hw, hc, hg⟩ | ⟨e, hne, he⟩
  · rw [decryptGiven_eq chk c_0 c sk dk g_i b hb hw hc hg] at h
    generalize hF : (fun i =>
        if chunkValue c_0 c sk.rho dk i = 0 then (Res.ok 0 : Res UInt16)
        else if (powers.getD []).isEmpty then solveDiscreteLog (UInt16.ofNat (2 ^ b.toNat - 1))
          (E.e (g_i.getD i 0) (dk.V_2.getD i 0)) (chunkValue c_0 c sk.rho dk i)
        else solveDiscreteLogUsingPairingPowers i (UInt16.ofNat (2 ^ b.toNat - 1))
          (chunkValue c_0 c sk.rho dk i) (powers.getD [])) = F at h
    have hm : mapRes F (List.range c.length) = .err .invalidPairingPowers := by
      cases hq : mapRes F (List.range c.length) with
      | ok x => rw [hq] at h; cases h
      | err e => rw [hq] at h; simpa using h
      | panic => rw [hq] at h; cases h
    obtain ⟨i, hi, hFi, hbefore⟩ := mapRes_range_err_inv hm
    rw [← hF] at hFi
    by_cases hp : chunkValue c_0 c sk.rho dk i = 0
    · simp only [if_pos hp] at hFi; cases hFi
    · simp only [if_neg hp] at hFi
      cases powers with
      | none =>
        exfalso
        simp only [Option.getD_none, List.isEmpty_nil, if_true] at hFi
        rcases solveDiscreteLog_spec (UInt16.ofNat (2 ^ b.toNat - 1))
          (E.e (g_i.getD i 0) (dk.V_2.getD i 0)) _ hp with ⟨_, _, hs⟩ | ⟨_, hs⟩
        · rw [hs] at hFi; cases hFi
        · rw [hs] at hFi; cases hFi
      | some pw =>
        refine ⟨pw, rfl, ?_⟩
        simp only [Option.getD_some] at hFi
        by_cases hpe : pw.isEmpty
        · exfalso
          rw [if_pos hpe] at hFi
          rcases solveDiscreteLog_spec (UInt16.ofNat (2 ^ b.toNat - 1))
            (E.e (g_i.getD i 0) (dk.V_2.getD i 0)) _ hp with ⟨_, _, hs⟩ | ⟨_, hs⟩
          · rw [hs] at hFi; cases hFi
          · rw [hs] at hFi; cases hFi
        · rw [if_neg hpe] at hFi
          have hlt := table_lookup_invalid _ _ _ _ hFi
          refine ⟨by omega, ?_⟩
          by_contra hne
          obtain ⟨x, hx⟩ := hbefore pw.length hlt
          rw [← hF] at hx
          simp only [if_neg hne, Option.getD_some, if_neg hpe] at hx
          obtain ⟨row, hrow, -⟩ := table_lookup_inv _ _ _ _ _ hx
          rw [List.getElem?_eq_none le_rfl] at hrow
          cases hrow
  · rw [he] at h
    injection h with h
    exact absurd h hne

/-- ... and so are those of C23_invalid_powers_only_after_skip, with a table of one row -/
example : decryptToChunksGivenPairingPowers true (0 : Fix.F) ([5, 0, 22, 0] : List Fix.F) ⟨(-2 : Fix.F)⟩
    Fix.dk.prepare Fix.gi 4 (some ([[450]] : List (List Fix.F)))
    = .err .invalidPairingPowers := by
  decide +kernel

/-- **C23** a too short (or missing) row aborts: if all earlier positions are found, position `i`
has a nonzero value that is not in its row and the row has fewer than `2^b - 1` entries (or
`i` is the first missing row), the call panics. -/
theorem C23_short_row_aborts (chk : Bool) (c_0 : E.G1) (c : List E.G1) (sk : SecretKey E)
    (dk : DecryptionKey E) (g_i : List E.G1) (b : UInt8) (hb1 : 1 ≤ b.toNat) (hb : b.toNat ≤ 16)
    (hw : dk.V_2.length = dk.V_1.length) (hc : c.length = dk.V_1.length % 256)
    (hg : c.length ≤ g_i.length) (pw : List (List E.GT)) (hpw : pw ≠ []) (i : ℕ)
    (hi : i < c.length) (hval : chunkValue c_0 c sk.rho dk i ≠ 0)
    (hbefore : ∀ j < i, chunkValue c_0 c sk.rho dk j = 0 ∨
      ∃ row k, pw[j]? = some row ∧ k < 2 ^ b.toNat - 1 ∧
        row[k]? = some (chunkValue c_0 c sk.rho dk j))
    (hshort : i = pw.length ∨ ∃ row, pw[i]? = some row ∧ row.length < 2 ^ b.toNat - 1 ∧
      ∀ k < row.length, row[k]? ≠ some (chunkValue c_0 c sk.rho dk i)) :
    decryptToChunksGivenPairingPowers chk c_0 c sk dk.prepare g_i b (some pw) = .panic := by
  have hpe : ((some pw).getD []).isEmpty = false := by
    cases pw with
    | nil => exact absurd rfl hpw
    | cons => rfl
  have hM := maxVal16 hb
  have h2 : 2 ^ 1 ≤ 2 ^ b.toNat := Nat.pow_le_pow_right (by norm_num) hb1
  rw [decryptGiven_eq chk c_0 c sk dk g_i b (by omega) hw hc hg]
  rw [mapRes_range_panic_first hi]
  · rfl
  · rw [if_neg hval, hpe]
    simp only [Bool.false_eq_true, if_false, Option.getD_some]
    obtain ⟨-, a2, a3⟩ := C23_table_lookup_cases i (UInt16.ofNat (2 ^ b.toNat - 1))
      (chunkValue c_0 c sk.rho dk i) pw
    rcases hshort with h | ⟨row, h, hl, hno⟩
    · exact a2 h.symm (by omega)
    · exact (a3 row h).2.2 hno (by omega)
  · intro j hj
    rcases hbefore j hj with h | ⟨row, k, h, hk, hr⟩
    · exact ⟨0, by rw [if_pos h]⟩
    · by_cases h0 : chunkValue c_0 c sk.rho dk j = 0
      · exact ⟨0, by rw [if_pos h0]⟩
      · rw [if_neg h0, hpe]
        simp only [Bool.false_eq_true, if_false, Option.getD_some]
        obtain ⟨a1, -, -⟩ := (C23_table_lookup_cases j (UInt16.ofNat (2 ^ b.toNat - 1))
          (chunkValue c_0 c sk.rho dk j) pw).2.2 row h
        classical
        have hex : ∃ k, row[k]? = some (chunkValue c_0 c sk.rho dk j) := ⟨k, hr⟩
        have hle : Nat.find hex ≤ k := Nat.find_min' hex hr
        exact ⟨_, a1 (Nat.find hex) (by omega) (Nat.find_spec hex)
          (fun j' hj' => Nat.find_min hex hj')⟩

/-- the hypotheses of C23_short_row_aborts are met: the third row does not contain the value -/
example : decryptToChunksGivenPairingPowers true (0 : Fix.F) ([5, 0, 22, 0] : List Fix.F) ⟨(-2 : Fix.F)⟩
    Fix.dk.prepare Fix.gi 4 (some ([[450], [], [1188]] : List (List Fix.F))) = .panic := by
  apply C23_short_row_aborts true (0 : Fix.F) ([5, 0, 22, 0] : List Fix.F) ⟨(-2 : Fix.F)⟩ Fix.dk Fix.gi 4
    (by decide) (by decide) (by decide +kernel) (by decide +kernel) (by decide +kernel)
    ([[450], [], [1188]] : List (List Fix.F)) (List.cons_ne_nil _ _) 2 (by decide) (by decide +kernel)
  · intro j hj
    have : j = 0 ∨ j = 1 := by omega
    rcases this with rfl | rfl
    · exact Or.inr ⟨([450] : List Fix.F), 0, rfl, by decide, by decide +kernel⟩
    · exact Or.inl (by decide +kernel)
  · exact Or.inr ⟨([1188] : List Fix.F), rfl, by decide, by decide +kernel⟩

/-! ### C24 -/

/-- **C24** prepared and unprepared keys agree: the counts, validation, commitment keys; and every
operation on a prepared form (commitment check, decryption, pairing powers) is determined by the
plain pairing of the unprepared data. -/
theorem C24_prepared_agrees (ek : EncryptionKey E) (dk : DecryptionKey E) (gens : EncryptionGens E) :
    ek.prepare.supportedChunksCount = ek.supportedChunksCount ∧
    ek.prepare.validate = ek.validate ∧
    ek.prepare.commitmentKey = ek.commitmentKey ∧
    dk.prepare.supportedChunksCount = dk.supportedChunksCount ∧
    dk.prepare.validate = dk.validate ∧
    (∀ chk b g_i, dk.prepare.pairingPowers chk b g_i = dk.pairingPowers chk b g_i) ∧
    (∀ chk b vk, dk.prepare.pairingPowersGivenGroth16Vk chk b vk
      = dk.pairingPowersGivenGroth16Vk chk b vk) ∧
    (WellFormed ek → ek.X.length < 256 → ∀ c_0 c psi,
      (verifyCiphertextCommitment c_0 c psi ek.prepare gens.prepare = .ok () ↔
        c.length = ek.X.length ∧ CommitmentEq ek gens.H c_0 c psi)) := by
  refine ⟨supportedChunks_prepare ek, ?_, rfl, dkChunks_prepare dk, ?_, fun _ _ _ => rfl,
    fun _ _ _ => rfl, ?_⟩
  · unfold PreparedEncryptionKey.validate EncryptionKey.validate
    rw [supportedChunks_prepare]
  · unfold PreparedDecryptionKey.validate DecryptionKey.validate
    rw [dkChunks_prepare]
  · intro hw hn c_0 c psi
    rw [verify_eq c_0 c psi ek gens hw hn]
    by_cases hc : c.length = ek.X.length
    · rw [if_neg (by simpa using hc)]
      by_cases hp : CommitmentEq ek gens.H c_0 c psi
      · exact ⟨fun _ => ⟨hc, hp⟩, fun _ => if_pos hp⟩
      · constructor
        · intro h
          have h' := (if_neg hp).symm.trans h
          cases h'
        · intro h; exact absurd h.2 hp
    · rw [if_pos hc]
      simp [hc]

/-- **C24** decryption through different prepared keys depends only on the pairing behaviour of
their elements: two prepared keys whose entries pair identically decrypt identically. -/
theorem C24_decrypt_by_pairing (chk : Bool) (c_0 : E.G1) (c : List E.G1) (sk : SecretKey E)
    (dk dk' : PreparedDecryptionKey E) (g_i : List E.G1) (b : UInt8)
    (powers : Option (List (List E.GT)))
    (h1 : dk.V_1.length = dk'.V_1.length) (h2 : dk.V_2.length = dk'.V_2.length)
    (e1 : ∀ (i : ℕ) x y, dk.V_1[i]? = some x → dk'.V_1[i]? = some y → ∀ a, E.pairP a x = E.pairP a y)
    (e2 : ∀ (i : ℕ) x y, dk.V_2[i]? = some x → dk'.V_2[i]? = some y → ∀ a, E.pairP a x = E.pairP a y) :
    decryptToChunksGivenPairingPowers chk c_0 c sk dk g_i b powers
      = decryptToChunksGivenPairingPowers chk c_0 c sk dk' g_i b powers := by
  unfold decryptToChunksGivenPairingPowers PreparedDecryptionKey.supportedChunksCount
  rw [h1, h2]
  dsimp only
  congr 1
  funext cnt
  congr 1
  congr 1
  congr 1
  funext mx
  congr 1
  apply mapRes_congr
  intro i _
  congr 1
  funext ci
  rcases Nat.lt_or_ge i dk.V_2.length with hi | hi
  · have hx : dk.V_2[i]? = some dk.V_2[i] := List.getElem?_eq_getElem hi
    have hy : dk'.V_2[i]? = some (dk'.V_2[i]'(by omega)) := List.getElem?_eq_getElem (by omega)
    rw [idx_eq_ok.mpr hx, idx_eq_ok.mpr hy]
    simp only [Res.ok_bind]
    rcases Nat.lt_or_ge i dk.V_1.length with hj | hj
    · have hx1 : dk.V_1[i]? = some dk.V_1[i] := List.getElem?_eq_getElem hj
      have hy1 : dk'.V_1[i]? = some (dk'.V_1[i]'(by omega)) := List.getElem?_eq_getElem (by omega)
      rw [idx_eq_ok.mpr hx1, idx_eq_ok.mpr hy1]
      simp only [Res.ok_bind, Engine.multiPairing, List.length_cons, List.length_nil,
        List.zipWith_cons_cons, List.zipWith_nil_left, List.sum_cons, List.sum_nil, add_zero,
        e1 i _ _ hx1 hy1, e2 i _ _ hx hy]
    · rw [idx_panic hj, idx_panic (show dk'.V_1.length ≤ i by omega)]
      rfl
  · rw [idx_panic hi, idx_panic (show dk'.V_2.length ≤ i by omega)]
    rfl

/-- The pairing of G1 elements with prepared elements depends only on how those pair. -/
theorem multiPairing_congr (as : List E.G1) (bs bs' : List E.G2P) (hl : bs.length = bs'.length)
    (h : ∀ (i : ℕ) x y, bs[i]? = some x → bs'[i]? = some y → ∀ a, E.pairP a x = E.pairP a y) :
    E.multiPairing as bs = E.multiPairing as bs' := by
  unfold Engine.multiPairing
  rw [hl]
  congr 2
  induction as generalizing bs bs' with
  | nil => simp
  | cons a as ih =>
    cases bs with
    | nil =>
      cases bs' with
      | nil => rfl
      | cons y ys => simp at hl
    | cons x xs =>
      cases bs' with
      | nil => simp at hl
      | cons y ys =>
        simp only [List.zipWith_cons_cons, List.sum_cons]
        rw [h 0 x y rfl rfl a, ih xs ys (by simpa using hl) (fun i u v hu hv => h (i + 1) u v hu hv)]

/-- **C24** the verdicts of `verify_commitment` and of batch verification depend on the prepared key and
generators only through lengths and pairings: two prepared keys (e.g. one stored, one prepared again) that
pair alike are interchangeable. -/
theorem C24_verify_by_pairing (ek ek' : PreparedEncryptionKey E) (gens gens' : PreparedEncryptionGens E)
    (h1 : ek.X.length = ek'.X.length) (h2 : ek.Y.length = ek'.Y.length) (h3 : ek.Z.length = ek'.Z.length)
    (eZ : ∀ (i : ℕ) x y, ek.Z[i]? = some x → ek'.Z[i]? = some y → ∀ a, E.pairP a x = E.pairP a y)
    (eH : ∀ a, E.pairP a gens.H = E.pairP a gens'.H) :
    (∀ c_0 c psi, verifyCiphertextCommitment c_0 c psi ek gens
      = verifyCiphertextCommitment c_0 c psi ek' gens') ∧
    (∀ cts r_powers, verifyCommitmentsInBatch cts r_powers ek gens
      = verifyCommitmentsInBatch cts r_powers ek' gens') ∧
    ∀ (pvk : PreparedVerifyingKey E) (proof : Proof E) (ct : Ciphertext E),
      ct.verifyCommitmentAndProof proof pvk ek gens = ct.verifyCommitmentAndProof proof pvk ek' gens' := by
  have hs : ek.supportedChunksCount = ek'.supportedChunksCount := by
    unfold PreparedEncryptionKey.supportedChunksCount
    rw [h1, h2, h3]
  -- the list of G2 elements
  have hg : (getG2ForCommitmentChecks ek gens = .panic ∧ getG2ForCommitmentChecks ek' gens' = .panic) ∨
      ∃ b b', getG2ForCommitmentChecks ek gens = .ok b ∧ getG2ForCommitmentChecks ek' gens' = .ok b' ∧
        ∀ as, E.multiPairing as b = E.multiPairing as b' := by
    unfold getG2ForCommitmentChecks
    rcases hz : ek.Z with _ | ⟨z, zs⟩
    · rcases hz' : ek'.Z with _ | ⟨z', zs'⟩
      · exact Or.inl ⟨rfl, rfl⟩
      · rw [hz, hz'] at h3; simp at h3
    · rcases hz' : ek'.Z with _ | ⟨z', zs'⟩
      · rw [hz, hz'] at h3; simp at h3
      · refine Or.inr ⟨[z] ++ zs ++ [gens.H], [z'] ++ zs' ++ [gens'.H], rfl, rfl, ?_⟩
        intro as
        have hl : zs.length = zs'.length := by rw [hz, hz'] at h3; simpa using h3
        refine multiPairing_congr as _ _ (by simp [hl]) ?_
        intro i x y hx hy
        have e1 : [z] ++ zs ++ [gens.H] = ek.Z ++ [gens.H] := by rw [hz]; rfl
        have e2 : [z'] ++ zs' ++ [gens'.H] = ek'.Z ++ [gens'.H] := by rw [hz']; rfl
        rw [e1] at hx
        rw [e2] at hy
        rcases Nat.lt_or_ge i ek.Z.length with hi | hi
        · rw [List.getElem?_append_left hi] at hx
          rw [List.getElem?_append_left (by omega)] at hy
          exact eZ i x y hx hy
        · rw [List.getElem?_append_right hi] at hx
          rw [List.getElem?_append_right (by omega), ← h3] at hy
          rcases Nat.eq_zero_or_pos (i - ek.Z.length) with h0 | h0
          · rw [h0] at hx hy
            cases hx
            cases hy
            exact eH
          · rw [List.getElem?_eq_none (by simp only [List.length_cons, List.length_nil]; omega)] at hx
            cases hx
  have hv : ∀ c_0 c psi, verifyCiphertextCommitment c_0 c psi ek gens
      = verifyCiphertextCommitment c_0 c psi ek' gens' := by
    intro c_0 c psi
    unfold verifyCiphertextCommitment
    rw [hs]
    rcases hg with ⟨g1, g2⟩ | ⟨b, b', g1, g2, g3⟩
    · rw [g1, g2]
    · rw [g1, g2]
      simp only [Res.ok_bind, g3]
  refine ⟨hv, ?_, ?_⟩
  · intro cts r_powers
    unfold verifyCommitmentsInBatch
    rw [hs]
    rcases hg with ⟨g1, g2⟩ | ⟨b, b', g1, g2, g3⟩
    · rw [g1, g2]
    · rw [g1, g2]
      simp only [Res.ok_bind, g3]
  · intro pvk proof ct
    unfold Ciphertext.verifyCommitmentAndProof Ciphertext.verifyCommitment
    rw [hv]

/-- an engine whose prepared points carry an irrelevant tag (like two different precomputations of the same
point) -/
abbrev taggedEngine : Engine :=
  letI : Fact smallFr.p.Prime := ⟨smallFr.prime⟩
  { fr := smallFr
    G1 := ZMod smallFr.p
    G2 := ZMod smallFr.p
    GT := ZMod smallFr.p
    G2P := ZMod smallFr.p × ℕ
    e := LinearMap.mul (ZMod smallFr.p) (ZMod smallFr.p)
    nondeg := fun a b h => by simpa using h
    prep := fun b => (b, 0)
    pairP := fun a b => a * b.1
    pairP_prep := fun a b => by simp }

/-- the hypotheses of `C24_verify_by_pairing` are met by two different prepared keys, with a valid and an
invalid ciphertext -/
example :
    letI ek (t : ℕ) : PreparedEncryptionKey taggedEngine :=
      { X_0 := (1 : ZMod 101), X := [(2 : ZMod 101)], Y := [(6 : ZMod 101)],
        Z := [((5 : ZMod 101), t), ((7 : ZMod 101), t + 1)], P_1 := (3 : ZMod 101), P_2 := (9 : ZMod 101) }
    letI gens (t : ℕ) : PreparedEncryptionGens taggedEngine := { G := (1 : ZMod 101), H := ((1 : ZMod 101), t) }
    ek 0 ≠ ek 8 ∧
    (∀ (i : ℕ) x y, (ek 0).Z[i]? = some x → (ek 8).Z[i]? = some y →
      ∀ a, taggedEngine.pairP a x = taggedEngine.pairP a y) ∧
    (∀ a, taggedEngine.pairP a (gens 0).H = taggedEngine.pairP a (gens 3).H) ∧
    verifyCiphertextCommitment (E := taggedEngine) (2 : ZMod 101) [(3 : ZMod 101)] (31 : ZMod 101) (ek 0) (gens 0)
      = .ok () ∧
    verifyCiphertextCommitment (E := taggedEngine) (2 : ZMod 101) [(3 : ZMod 101)] (31 : ZMod 101) (ek 8) (gens 3)
      = .ok () ∧
    verifyCiphertextCommitment (E := taggedEngine) (2 : ZMod 101) [(4 : ZMod 101)] (31 : ZMod 101) (ek 8) (gens 3)
      ≠ .ok () := by
  refine ⟨?_, ?_, fun a => rfl, by decide +kernel, by decide +kernel, by decide +kernel⟩
  · intro h
    have := congrArg PreparedEncryptionKey.Z h
    have h0 := congrArg (fun l => (l.head?.map Prod.snd)) this
    simp at h0
  · rintro (_ | _ | i) x y hx hy a
    · cases hx; cases hy; rfl
    · cases hx; cases hy; rfl
    · simp at hx

end Verif
