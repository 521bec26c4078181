/-
Property C124: what is left of secrets in freed memory.
-/
import Verif.SpecResidue
import Verif.Props.Aggregate
import Verif.Props.ReEncrypt
import Verif.Props.Leak
import Verif.Fixtures

namespace Verif
open Spec

variable {E : Engine}

namespace Rdu

theorem nums_get (chunks : List UInt16) {i : ℕ} (hi : i < chunks.length) :
    (nums chunks).getD i 0 = (chunks[i]).toNat := by
  simp [nums, List.getD_eq_getElem?_getD, List.getElem?_eq_getElem hi]

/-- whoever knows the `s_i` reads every honest ciphertext -/
theorem reads {n : ℕ} (s t : ℕ → E.Fr) {g_i : List E.G1} (D C : E.G1) (H : E.G2) (sl : List E.Fr)
    (hs : ∀ i < n, sl.getD i 0 = s i) (hgi : ∀ g ∈ g_i, g ≠ 0) (R : RngCore E) (st st1 : R.σ) (chunks : List UInt16)
    (ct : Ciphertext E) (r : E.Fr)
    (henc : encryptDecomposedMessage R st chunks (encKey n s t (fun i => g_i.getD i 0) D C H) g_i = .ok ((flat ct, r), st1))
    (chk : Bool) (b' : UInt8) (hb' : b'.toNat < 32) (hch : ∀ x ∈ chunks, x.toNat ≤ 2 ^ b'.toNat - 1 ∧ x.toNat < E.fr.p) :
    readWith chk sl ct g_i b' = .ok chunks := by
  obtain ⟨-, -, h1, h2, h3, -, -⟩ := encryptDecomposed_inv henc
  have hX : (encKey n s t (fun i => g_i.getD i 0) D C H).X.length = n := by simp [encKey]
  rw [hX] at h1 h2
  have hct := flat_inj h3
  subst hct
  have hd := (decryptAfter_values chk n (0 : E.G1)
      ((List.range (cipher (encKey n s t (fun i => g_i.getD i 0) D C H) (fun i => g_i.getD i 0)
        (fun i => (nums chunks).getD i 0) r).enc_chunks.length).map fun i =>
        (cipher (encKey n s t (fun i => g_i.getD i 0) D C H) (fun i => g_i.getD i 0)
        (fun i => (nums chunks).getD i 0) r).enc_chunks.getD i 0 - sl.getD i 0 • (cipher (encKey n s t (fun i => g_i.getD i 0) D C H)
        (fun i => g_i.getD i 0) (fun i => (nums chunks).getD i 0) r).X_r) ⟨0⟩ g_i b' hb'
      (by simp [cipher, encKey]) h2 (fun i hi => getD_mem_ne hgi (by omega))
      (fun i => (nums chunks).getD i 0) (fun i hi => by
        rw [nums_get chunks (by omega)]
        exact (hch _ (List.getElem_mem _)).2) (by
        intro i hi
        have e : (cipher (encKey n s t (fun i => g_i.getD i 0) D C H) (fun i => g_i.getD i 0)
          (fun i => (nums chunks).getD i 0) r).enc_chunks.length = n := by simp [cipher, encKey]
        rw [e, List.getD_eq_getElem?_getD, List.getElem?_map, List.getElem?_range hi]
        simp only [Option.map_some, Option.getD_some, smul_zero, sub_zero]
        rw [hs i hi]
        simp only [cipher, encKey, length_tab]
        rw [getD_tab, if_pos hi, getD_tab, if_pos hi, smul_comm (s i) r D]
        abel)).1 (by
        intro i hi
        rw [nums_get chunks (by omega)]
        have h1 := (hch _ (List.getElem_mem (show i < chunks.length by omega))).1
        have h2 := (chunks[i]).toNat_lt
        unfold searchBound
        omega)
  unfold readWith
  rw [hd]
  congr 1
  apply List.ext_getElem?
  intro i
  rw [getElem?_tab]
  by_cases hi : i < n
  · rw [if_pos hi, List.getElem?_eq_getElem (show i < chunks.length by omega), nums_get chunks (by omega)]
    simp
  · rw [if_neg hi, List.getElem?_eq_none (by omega)]

theorem map_bind {α β γ : Type} (g : β → γ) (x : Res α) (f : α → Res β) :
    g <$> (x >>= f) = x >>= fun a => g <$> f a := by
  cases x <;> rfl

theorem map_ite {α β : Type} (g : α → β) (p : Prop) [Decidable p] (x y : Res α) :
    g <$> (if p then x else y) = if p then g <$> x else g <$> y := by
  split <;> rfl

theorem keygenFreed_eq (reuse : Bool) (R : RngCore E) (st : R.σ) {b n8 : UInt8} (gens : EncryptionGens E)
    (g_i : List E.G1) (D C : E.G1) (hn : chunksCount E.fr b = .ok n8) (hg : n8.toNat ≤ g_i.length) :
    ∃ out st', keygenFreed reuse R st b gens g_i D C =
      .ok ((out, [.integers ((tab (n8.toNat + 1) fun i => draw R st (1 + n8.toNat + i)).map (intoBigint (K := E.fr))),
          .scalars (tab (n8.toNat + 1) fun i => draw R st (1 + n8.toNat + i)),
          .scalars (tab n8.toNat fun i => draw R st (2 + 2 * n8.toNat + i)),
          .scalars (List.zipWith (· * ·) (tab n8.toNat fun i => draw R st (1 + i))
            (tab n8.toNat fun i => draw R st (2 + 2 * n8.toNat + i)))] ++
          if reuse then [] else [.scalars (tab n8.toNat fun i => draw R st (1 + i))]), st') := by
  unfold keygenFreed
  rw [hn, fr_eq R st]
  simp only [Res.ok_bind]
  generalize n8.toNat = n at hg ⊢
  rw [if_neg (by omega)]
  simp only [frs_eq, after_after, multiplyFieldElems_eq, Res.ok_bind]
  have hY : mapRes (fun i => do
      let g ← idx g_i i
      let k ← idx ((tab (n + 1) fun i => draw R st (1 + n + i)).map (intoBigint (K := E.fr))) (i + 1)
      return mulBigint g k) (List.range n)
      = .ok (tab n (fun i => draw R st (1 + n + (i + 1)) • g_i.getD i 0)) := by
    apply mapRes_range_ok
    intro i hi
    rw [idx_ok 0 (show i < g_i.length by omega), map_tab, idx_tab, if_pos (by omega)]
    simp only [Res.ok_bind, Res.pure_eq]
    rw [intoBigint_smul]
  rw [show (tab (n + 1) (draw R (after R st (1 + n))))
      = tab (n + 1) fun i => draw R st (1 + n + i) from
      tab_congr fun i _ => draw_after R st _ i]
  rw [hY]
  simp only [Res.ok_bind]
  rw [idx_tab, if_pos (by omega)]
  simp only [Res.ok_bind]
  rw [show (tab n (draw R (after R st 1))) = tab n fun i => draw R st (1 + i) from
      tab_congr fun i _ => draw_after R st _ i]
  have hP : mapRes (fun j => do
      let x ← idx (tab n fun i => draw R st (1 + i)) j
      let y ← idx (tab (n + 1) fun i => draw R st (1 + n + i)) (j + 1)
      return x * y) (List.range n)
      = .ok (tab n (fun j => draw R st (1 + j) * draw R st (1 + n + (j + 1)))) := by
    apply mapRes_range_ok
    intro i hi
    rw [idx_tab, if_pos hi, idx_tab, if_pos (by omega)]
    rfl
  rw [hP]
  rw [show (tab n (draw R (after R st (1 + n + (n + 1)))))
      = tab n fun i => draw R st (2 + 2 * n + i) from
      tab_congr fun i _ => by rw [draw_after]; congr 1; omega]
  exact ⟨_, _, rfl⟩

theorem partialFreed_eq (R : RngCore E) (st : R.σ) {b n8 : UInt8} (gens : EncryptionGens E)
    (g_i : List E.G1) (D C : E.G1) (hn : chunksCount E.fr b = .ok n8) (hg : n8.toNat ≤ g_i.length) :
    ∃ out st', fkeygenPartialFreed R st b gens g_i D C = .ok ((out,
      [.integers ((tab (n8.toNat + 1) (partyT n8.toNat (⟨R, st⟩ : Party E))).map (intoBigint (K := E.fr)))]), st') := by
  unfold fkeygenPartialFreed
  rw [hn]
  simp only [Res.ok_bind]
  generalize n8.toNat = n at hg ⊢
  rw [if_neg (by omega)]
  simp only [frs_eq, after_after, multiplyFieldElems_eq, Res.ok_bind]
  rw [show (tab (n + 1) (draw R (after R st n)))
      = tab (n + 1) fun i => draw R st (n + i) from
      tab_congr fun i _ => draw_after R st _ i]
  have hY : mapRes (fun i => do
      let g ← idx g_i i
      let k ← idx ((tab (n + 1) fun i => draw R st (n + i)).map (intoBigint (K := E.fr))) (i + 1)
      return mulBigint g k) (List.range n)
      = .ok (tab n (fun i => draw R st (n + (i + 1)) • g_i.getD i 0)) := by
    apply mapRes_range_ok
    intro i hi
    rw [idx_ok 0 (show i < g_i.length by omega), map_tab, idx_tab, if_pos (by omega)]
    simp only [Res.ok_bind, Res.pure_eq]
    rw [intoBigint_smul]
  rw [hY]
  exact ⟨_, _, rfl⟩

theorem pushed_ok {A B : Type} (f : A → Res B) : ∀ (l : List A) (ys : List B), mapRes f l = .ok ys → pushed f l = ys
  | [], ys, h => by
    simp only [mapRes, Res.ok.injEq] at h
    exact h
  | a :: l, ys, h => by
    unfold mapRes at h
    obtain ⟨y, h1, h⟩ := Res.bind_eq_ok.mp h
    obtain ⟨zs, h2, h⟩ := Res.bind_eq_ok.mp h
    simp only [Res.pure_eq, Res.ok.injEq] at h
    subst h
    unfold pushed
    rw [h1]
    exact congrArg _ (pushed_ok f l zs h2)

theorem pushed_congr {A B : Type} {f g : A → Res B} : ∀ (l : List A), (∀ a ∈ l, f a = g a) → pushed f l = pushed g l
  | [], _ => rfl
  | a :: l, h => by
    unfold pushed
    rw [h a (by simp), pushed_congr l fun x hx => h x (by simp [hx])]

theorem pushed_spec {A B : Type} (f : A → Res B) : ∀ (l : List A), (pushed f l).length ≤ l.length ∧
    (∀ (i : ℕ) (h : i < (pushed f l).length), ∃ a, l[i]? = some a ∧ f a = .ok (pushed f l)[i]) ∧
    ∀ a, l[(pushed f l).length]? = some a → ∀ y, f a ≠ .ok y
  | [] => by
    refine ⟨by simp [pushed], fun i h => absurd h (by simp [pushed]), fun a h => by simp at h⟩
  | a :: l => by
    obtain ⟨h1, h2, h3⟩ := pushed_spec f l
    cases hf : f a with
    | ok b =>
      have e : pushed f (a :: l) = b :: pushed f l := by
        conv_lhs => unfold pushed
        rw [hf]
      rw [e]
      refine ⟨by simpa using h1, fun i h => ?_, fun x hx => ?_⟩
      · cases i with
        | zero => exact ⟨a, rfl, hf⟩
        | succ i => exact h2 i (by simpa using h)
      · exact h3 x (by simpa using hx)
    | err e' =>
      have e : pushed f (a :: l) = [] := by
        conv_lhs => unfold pushed
        rw [hf]
      rw [e]
      refine ⟨by simp, fun i h => absurd h (by simp), fun x hx y => ?_⟩
      simp only [List.length_nil, List.getElem?_cons_zero, Option.some.injEq] at hx
      rw [← hx, hf]
      exact fun h => by cases h
    | panic =>
      have e : pushed f (a :: l) = [] := by
        conv_lhs => unfold pushed
        rw [hf]
      rw [e]
      refine ⟨by simp, fun i h => absurd h (by simp), fun x hx y => ?_⟩
      simp only [List.length_nil, List.getElem?_cons_zero, Option.some.injEq] at hx
      rw [← hx, hf]
      exact fun h => by cases h

end Rdu
open Rdu

/-- **C124** the functions below are those of the crate with a record of the buffers they free: leaving out the record gives
back the crate's function. -/
theorem C124_same (R : RngCore E) (st : R.σ) (b : UInt8) (gens : EncryptionGens E) (g_i : List E.G1) (D C : E.G1) :
    ((fun x => (x.1.1, x.2)) <$> fkeygenPartialFreed R st b gens g_i D C = fkeygenPartial R st b gens g_i D C) ∧
    (∀ reuse, (fun x => (x.1.1, x.2)) <$> keygenFreed reuse R st b gens g_i D C = keygen R st b gens g_i D C) ∧
    (∀ m ek, (encryptFreed R st m ek g_i b).1 = encrypt R st m ek g_i b) ∧
    (∀ chunks ek, (encryptDecomposedMessageFreed R st chunks ek g_i).1 = encryptDecomposedMessage R st chunks ek g_i) ∧
    (∀ chk c_0 c sk dk, (decryptFreed chk c_0 c sk dk g_i b).1 = decrypt chk c_0 c sk dk g_i b) ∧
    ∀ chk c_0 c sk, (decryptAfterReEncryptionFreed chk c_0 c sk g_i b).1 = decryptAfterReEncryption chk c_0 c sk g_i b := by
  have hE : ∀ chunks ek, (encryptDecomposedMessageFreed R st chunks ek g_i).1 = encryptDecomposedMessage R st chunks ek g_i := by
    intro chunks ek
    unfold encryptDecomposedMessageFreed encryptDecomposedMessage
    cases ek.supportedChunksCount with
    | err e => rfl
    | panic => rfl
    | ok cnt =>
      simp only [Res.ok_bind]
      split
      · rfl
      · split
        · rfl
        · rfl
  refine ⟨?_, fun reuse => ?_, fun m ek => ?_, hE, fun chk c_0 c sk dk => ?_, fun chk c_0 c sk => ?_⟩
  · unfold fkeygenPartialFreed fkeygenPartial
    cases chunksCount E.fr b with
    | err e => rfl
    | panic => rfl
    | ok n8 =>
      simp only [Res.ok_bind]
      split
      · rfl
      · simp only [map_bind]
        rfl
  · unfold keygenFreed keygen
    cases chunksCount E.fr b with
    | err e => rfl
    | panic => rfl
    | ok n8 =>
      simp only [Res.ok_bind]
      split
      · rfl
      · simp only [map_bind]
        rfl
  · unfold encryptFreed encrypt
    cases decompose (K := E.fr) m b with
    | err e => rfl
    | panic => rfl
    | ok d =>
      simp only [Res.ok_bind]
      rw [← hE d ek]
  · unfold decryptFreed decrypt decryptToChunks decryptToChunksGivenPairingPowers
    cases dk.supportedChunksCount with
    | err e => rfl
    | panic => rfl
    | ok cnt =>
      simp only [Res.ok_bind]
      split
      · rfl
      · split
        · rfl
        · cases chunkMaxU32 chk b with
          | err e => rfl
          | panic => rfl
          | ok maxVal =>
            simp only [Res.ok_bind, Option.getD_none, List.isEmpty_nil, if_true, Res.pure_eq]
            generalize mapRes _ _ = x
            cases x <;> rfl
  · unfold decryptAfterReEncryptionFreed decryptAfterReEncryption
    dsimp only
    split
    · rfl
    · have e : mapRes (fun i => do
          let x ← idx c i
          return x + mulBigint c_0 (intoBigint (K := E.fr) (-sk.rho))) (List.range c.length)
          = .ok (c.map fun x => x + mulBigint c_0 (intoBigint (K := E.fr) (-sk.rho))) := by
        conv_rhs => rw [eq_tab (l := c) rfl 0, map_tab]
        apply mapRes_range_ok
        intro i hi
        rw [idx_ok 0 hi]
        rfl
      rw [e]
      simp only [Res.ok_bind]
      cases chunkMaxU32 chk b with
      | err e => rfl
      | panic => rfl
      | ok maxVal =>
        simp only [Res.ok_bind]
        split <;> rename_i h <;> exact h.symm

/-- the run of `keygenFreed` gives the keys of `keygen` -/
theorem Rdu.same_keys {reuse : Bool} {R : RngCore E} {st st' : R.σ} {b : UInt8} {gens : EncryptionGens E} {g_i : List E.G1}
    {D C : E.G1} {out freed} (h : keygenFreed reuse R st b gens g_i D C = .ok ((out, freed), st')) :
    keygen R st b gens g_i D C = .ok (out, st') := by
  rw [← (C124_same R st b gens g_i D C).2.1 reuse, h]
  rfl

/-- **C124** (key generation by one party) the buffers that `keygen` frees are enough to read every honest ciphertext under the
key, without the secret key (which is wiped when it is dropped) and without the decryption key — unless the buffer of the `s_i`
was reused and the decryption key does not work anyway (some `V_2` is zero). -/
theorem C124_keygen_memory (reuse : Bool) (R : RngCore E) (st st' : R.σ) (b : UInt8) (gens : EncryptionGens E)
    (g_i : List E.G1) (hgi : ∀ g ∈ g_i, g ≠ 0) (D C : E.G1) (sk : SecretKey E) (ek : EncryptionKey E) (dk : DecryptionKey E)
    (freed : List (Buffer E)) (hk : keygenFreed reuse R st b gens g_i D C = .ok (((sk, ek, dk), freed), st'))
    (hv : reuse = true → ∀ V ∈ dk.V_2, V ≠ 0) (R' : RngCore E) (st1 st1' : R'.σ) (chunks : List UInt16) (ct : Ciphertext E)
    (r : E.Fr) (henc : encryptDecomposedMessage R' st1 chunks ek g_i = .ok ((flat ct, r), st1'))
    (chk : Bool) (b' : UInt8) (hb' : b'.toNat < 32) (hch : ∀ x ∈ chunks, x.toNat ≤ 2 ^ b'.toNat - 1 ∧ x.toNat < E.fr.p) :
    readWith chk (masksLeft freed) ct g_i b' = .ok chunks := by
  have hk' := same_keys hk
  obtain ⟨n8, hn, hg⟩ := keygen_ok_inv hk'
  rw [keygen_eq R st gens g_i D C hn hg] at hk'
  simp only [Res.ok.injEq, Prod.mk.injEq] at hk'
  obtain ⟨⟨-, rfl, rfl⟩, -⟩ := hk'
  obtain ⟨out, st2, h2⟩ := keygenFreed_eq reuse R st gens g_i D C hn hg
  rw [hk] at h2
  simp only [Res.ok.injEq, Prod.mk.injEq] at h2
  obtain ⟨⟨-, rfl⟩, -⟩ := h2
  refine reads _ _ D C gens.H _ (fun i hi => ?_) hgi R' st1 st1' chunks ct r henc chk b' hb' hch
  cases reuse with
  | false =>
    show (tab n8.toNat fun i => draw R st (1 + i)).getD i 0 = _
    exact (getD_tab _ _ _ _).trans (if_pos hi)
  | true =>
    have hvi : draw R st (2 + 2 * n8.toNat + i) ≠ 0 := by
      intro h0
      refine hv rfl ((decKey n8.toNat (draw R st 0) (fun i => draw R st (1 + i))
          (fun i => draw R st (2 + 2 * n8.toNat + i)) gens.H).V_2.getD i 0) ?_ ?_
      · rw [List.getD_eq_getElem?_getD, List.getElem?_eq_getElem (by simpa [decKey] using hi)]
        exact List.getElem_mem _
      · simp only [decKey]
        rw [getD_tab, if_pos hi, h0]
        simp
    show (List.zipWith (· / ·) (List.zipWith (· * ·) (tab n8.toNat fun i => draw R st (1 + i))
            (tab n8.toNat fun i => draw R st (2 + 2 * n8.toNat + i)))
            (tab n8.toNat fun i => draw R st (2 + 2 * n8.toNat + i))).getD i 0 = _
    rw [zipWith_tab, zipWith_tab, getD_tab, if_pos hi, mul_div_assoc, div_self hvi, mul_one]

/-- **C124** (distributed key generation) once all parties have dropped their secret keys, the buffers freed are enough to read
every honest ciphertext. -/
theorem C124_parties_memory (parties : List (Party E)) (b : UInt8) (gens : EncryptionGens E)
    (g_i : List E.G1) (hgi : ∀ g ∈ g_i, g ≠ 0) (D C : E.G1) (sks : List (SecretKeyST E)) (ek : EncryptionKey E)
    (hdkg : dkg parties b gens g_i D C = .ok (sks, ek)) (R' : RngCore E) (st1 st1' : R'.σ) (chunks : List UInt16)
    (ct : Ciphertext E) (r : E.Fr) (henc : encryptDecomposedMessage R' st1 chunks ek g_i = .ok ((flat ct, r), st1'))
    (chk : Bool) (b' : UInt8) (hb' : b'.toNat < 32) (hch : ∀ x ∈ chunks, x.toNat ≤ 2 ^ b'.toNat - 1 ∧ x.toNat < E.fr.p) :
    readWith chk ((List.range chunks.length).map fun i => (sks.map fun sk => (partyMasksLeft sk.freed).getD i 0).sum) ct g_i b' =
      .ok chunks := by
  obtain ⟨hne, n8, hn, hg⟩ := dkg_ok_inv hdkg
  rw [dkg_eq parties hne gens g_i D C hn hg] at hdkg
  simp only [Res.ok.injEq, Prod.mk.injEq] at hdkg
  obtain ⟨rfl, rfl⟩ := hdkg
  have hl : chunks.length = n8.toNat := by
    have := (encryptDecomposed_inv henc).2.2.1
    simpa [encKey] using this
  refine reads _ _ D C gens.H _ (fun i hi => ?_) hgi R' st1 st1' chunks ct r henc chk b' hb' hch
  rw [List.getD_eq_getElem?_getD, List.getElem?_map, List.getElem?_range (by omega)]
  simp only [Option.map_some, Option.getD_some, List.map_map, Function.comp_def]
  unfold sumS
  congr 1
  apply List.map_congr_left
  intro P _
  show (tab n8.toNat (partyS P)).getD i 0 = _
  rw [getD_tab, if_pos hi]

/-- **C124** (before anything is dropped) what `FkeygenPartial` itself frees at the parties is enough to make "ciphertexts" with
whatever components that pass the commitment check. -/
theorem C124_forgery_memory (parties : List (Party E)) (b : UInt8) (gens : EncryptionGens E)
    (g_i : List E.G1) (D C : E.G1) (sks : List (SecretKeyST E)) (ek : EncryptionKey E)
    (hdkg : dkg parties b gens g_i D C = .ok (sks, ek)) (c_0 : E.G1) (c : List E.G1) (hc : c.length = ek.X.length) :
    (forgeWith (fun i => (parties.map fun P => (partyTrapdoorsLeft (Spec.freedBy P b gens g_i D C)).getD i 0).sum)
      c_0 c).verifyCommitment ek.prepare gens.prepare = .ok () := by
  obtain ⟨hne, n8, hn, hg⟩ := dkg_ok_inv hdkg
  rw [dkg_eq parties hne gens g_i D C hn hg] at hdkg
  simp only [Res.ok.injEq, Prod.mk.injEq] at hdkg
  obtain ⟨rfl, rfl⟩ := hdkg
  have hX : (encKey n8.toNat (sumS parties) (sumT n8.toNat parties) (fun i => g_i.getD i 0) D C gens.H).X.length = n8.toNat := by
    simp [encKey]
  have hX256 : n8.toNat < 256 := n8.toNat_lt
  have ht : ∀ i < n8.toNat + 1, (parties.map fun P => (partyTrapdoorsLeft (Spec.freedBy P b gens g_i D C)).getD i 0).sum =
      sumT n8.toNat parties i := by
    intro i hi
    unfold sumT
    congr 1
    apply List.map_congr_left
    intro P _
    obtain ⟨out, st', h⟩ := partialFreed_eq P.1 P.2 gens g_i D C hn hg
    unfold Spec.freedBy
    rw [h]
    simp only [partyTrapdoorsLeft, map_tab]
    rw [getD_tab, if_pos hi]
    exact ZMod.natCast_zmod_val _
  unfold Ciphertext.verifyCommitment forgeWith
  rw [verify_eq _ _ _ _ gens (encKey_wf _ _ _ _ _ _ _) (by rw [hX]; exact hX256), if_neg (by rw [not_not]; exact hc), if_pos]
  rw [hX] at hc
  simp only [encKey]
  rw [hc, getD_tab, if_pos (by omega), map_add, LinearMap.add_apply, map_smul, map_smul, LinearMap.smul_apply, ht 0 (by omega),
    map_sum, LinearMap.sum_apply]
  congr 1
  apply Finset.sum_congr rfl
  intro i hi
  have := Finset.mem_range.mp hi
  rw [getD_tab, if_pos (by omega), map_smul, map_smul, LinearMap.smul_apply, ht (i + 1) (by omega)]

/-- **C124** (encryption) however encryption ends — also if it fails —, a buffer that it frees spells out the message; if it
succeeds, one of them ends with the randomness. -/
theorem C124_encrypt_memory (R : RngCore E) (st : R.σ) (m : E.Fr) (ek : EncryptionKey E) (g_i : List E.G1) (b : UInt8) :
    (∃ bs, Buffer.bytes bs ∈ (encryptFreed R st m ek g_i b).2 ∧ fromBeBytesModOrder (K := E.fr) bs = m) ∧
    ∀ ct r st', encrypt R st m ek g_i b = .ok ((ct, r), st') →
      ∃ l, Buffer.integers l ∈ (encryptFreed R st m ek g_i b).2 ∧ l.getLast?.map (Nat.cast : ℕ → E.Fr) = some r := by
  constructor
  · refine ⟨toBytesBE E.fr.limbs (intoBigint (K := E.fr) m), ?_, ?_⟩
    · unfold encryptFreed
      split <;> simp
    · rw [fromBeBytesModOrder, bytesValue_eq, horner_toBytesBE]
      exact ZMod.natCast_zmod_val m
  · intro ct r st' h
    unfold encrypt at h
    obtain ⟨d, hd, h⟩ := Res.bind_eq_ok.mp h
    obtain ⟨⟨⟨v, r'⟩, st''⟩, he, h⟩ := Res.bind_eq_ok.mp h
    have hr : r' = r := by
      dsimp only at h
      obtain ⟨_, _, h⟩ := Res.bind_eq_ok.mp h
      obtain ⟨_, _, h⟩ := Res.bind_eq_ok.mp h
      simp only [Res.pure_eq, Res.ok.injEq, Prod.mk.injEq] at h
      exact h.1.2
    subst hr
    obtain ⟨hw, h256, hl, hg, -, hr, -⟩ := encryptDecomposed_inv he
    have hcnt : (UInt8.ofNat ek.X.length).toNat = ek.X.length := by
      simp; omega
    refine ⟨d.map (fun x => x.toNat) ++ [intoBigint (K := E.fr) (draw R st 0)], ?_, ?_⟩
    · unfold encryptFreed
      rw [hd]
      unfold encryptDecomposedMessageFreed
      rw [supportedChunks_eq ek hw]
      simp only [hcnt]
      rw [if_neg (by simpa using hl), if_neg (by omega)]
      simp [fr_eq R st]
    · rw [List.getLast?_append]
      simp only [List.getLast?_singleton, Option.some_or, Option.map_some, hr]
      exact congrArg some (ZMod.natCast_zmod_val _)

/-- **C124** (decryption) a successful decryption frees a buffer with the chunks of the message; one that fails because some
chunk is not found frees the chunks before it. -/
theorem C124_decrypt_memory (chk : Bool) (c_0 : E.G1) (c : List E.G1) (sk : SecretKey E) (dk : DecryptionKey E)
    (g_i : List E.G1) (b : UInt8) (hb : b.toNat < 32) (hw : dk.V_2.length = dk.V_1.length)
    (hc : c.length = dk.V_1.length % 256) (hg : c.length ≤ g_i.length) :
    ∃ l : List UInt16, (decryptFreed chk c_0 c sk dk.prepare g_i b).2 = [.chunks l] ∧ l.length ≤ c.length ∧
      (∀ i < l.length, IsLeastLog (chunkBase g_i dk i) (chunkValue c_0 c sk.rho dk i) (searchBound b.toNat) ((nums l).getD i 0)) ∧
      (l.length < c.length → NoLog (chunkBase g_i dk l.length) (chunkValue c_0 c sk.rho dk l.length) (searchBound b.toNat)) ∧
      ∀ m nu, decrypt chk c_0 c sk dk.prepare g_i b = .ok (m, nu) → compose (K := E.fr) chk l b = .ok m := by
  have hcnt : (UInt8.ofNat dk.V_1.length).toNat = dk.V_1.length % 256 := by simp
  have hle : c.length ≤ dk.V_1.length := by rw [hc]; exact Nat.mod_le _ _
  have hF : (decryptFreed chk c_0 c sk dk.prepare g_i b).2 =
      [.chunks (pushed (fun i => chunkSearch (UInt16.ofNat (2 ^ b.toNat - 1)) (chunkBase g_i dk i) (chunkValue c_0 c sk.rho dk i))
        (List.range c.length))] := by
    unfold decryptFreed
    rw [dkChunks_prepare, decKeyChunks_ok dk hw]
    simp only [hcnt, chunkMaxU32_eq chk hb]
    rw [if_neg (by simpa using hc), if_neg (by omega)]
    refine congrArg (fun l => [Buffer.chunks l]) ?_
    apply pushed_congr
    intro i hi
    have hi' : i < c.length := List.mem_range.mp hi
    rw [idx_ok 0 hi']
    have hv2 : idx dk.prepare.V_2 i = .ok (E.prep (dk.V_2.getD i 0)) := by
      rw [idx_eq_ok]
      simp only [DecryptionKey.prepare, List.getElem?_map]
      rw [List.getElem?_eq_getElem (by omega)]
      simp [List.getD_eq_getElem?_getD, List.getElem?_eq_getElem (show i < dk.V_2.length by omega)]
    have hv1 : idx dk.prepare.V_1 i = .ok (E.prep (dk.V_1.getD i 0)) := by
      rw [idx_eq_ok]
      simp only [DecryptionKey.prepare, List.getElem?_map]
      rw [List.getElem?_eq_getElem (by omega)]
      simp [List.getD_eq_getElem?_getD, List.getElem?_eq_getElem (show i < dk.V_1.length by omega)]
    rw [hv2, hv1]
    simp only [Res.ok_bind, Engine.multiPairing, List.length_cons, List.length_nil, if_true,
      List.zipWith_cons_cons, List.zipWith_nil_left, List.sum_cons, List.sum_nil, add_zero,
      E.pairP_prep, intoBigint_smul, neg_smul, map_neg, LinearMap.neg_apply, map_smul, LinearMap.smul_apply]
    rw [← sub_eq_add_neg]
    rw [idx_ok 0 (show i < g_i.length by omega)]
    rfl
  obtain ⟨h1, h2, h3⟩ := pushed_spec (fun i => chunkSearch (UInt16.ofNat (2 ^ b.toNat - 1)) (chunkBase g_i dk i)
    (chunkValue c_0 c sk.rho dk i)) (List.range c.length)
  refine ⟨_, hF, by simpa using h1, fun i hi => ?_, fun hlt => ?_, fun m nu h => ?_⟩
  · obtain ⟨a, ha, hs⟩ := h2 i hi
    rw [List.getElem?_range (by simp at h1; omega)] at ha
    cases ha
    have := (chunkSearch_ok_iff _ _ _ _).mp hs
    rw [maxVal_searchBound] at this
    rwa [nums_get _ hi]
  · have h4 := h3 _ (List.getElem?_range hlt)
    have h5 := chunkSearch_spec (UInt16.ofNat (2 ^ b.toNat - 1)) (chunkBase g_i dk
      (pushed (fun i => chunkSearch (UInt16.ofNat (2 ^ b.toNat - 1)) (chunkBase g_i dk i)
      (chunkValue c_0 c sk.rho dk i)) (List.range c.length)).length) (chunkValue c_0 c sk.rho dk
      (pushed (fun i => chunkSearch (UInt16.ofNat (2 ^ b.toNat - 1)) (chunkBase g_i dk i)
      (chunkValue c_0 c sk.rho dk i)) (List.range c.length)).length)
    rcases h5 with ⟨i, -, h5⟩ | ⟨h5, -⟩
    · exact absurd h5 (h4 _)
    · rwa [maxVal_searchBound] at h5
  · unfold decrypt at h
    rw [decryptToChunks_eq chk c_0 c sk dk g_i b hb hw hc hg] at h
    obtain ⟨⟨chunks, nu'⟩, h4, h⟩ := Res.bind_eq_ok.mp h
    obtain ⟨chunks', h5, h4⟩ := Res.bind_eq_ok.mp h4
    obtain ⟨m', h6, h⟩ := Res.bind_eq_ok.mp h
    simp only [Res.pure_eq, Res.ok.injEq, Prod.mk.injEq] at h h4
    have := pushed_ok _ _ _ h5
    rw [← h.1, ← h6, ← h4.1]
    exact congrArg (fun l => compose (K := E.fr) chk l b) this

/-- **C124** (decryption after re-encryption) however it ends, a buffer of points that it frees lets anybody do with this
ciphertext all that the owner of the destination key can: decrypting it with the key 0 and any bit size gives what the secret key
gives — so the message is there also if the decryption itself failed because the bit size was too small. -/
theorem C124_reencrypted_memory (chk : Bool) (c_0 : E.G1) (c : List E.G1) (sk : SecretKey E) (g_i : List E.G1) (b : UInt8)
    (hg : c.length ≤ g_i.length) :
    ∃ l, Buffer.points l ∈ (decryptAfterReEncryptionFreed chk c_0 c sk g_i b).2 ∧
      ∀ (chk' : Bool) (b' : UInt8), decryptAfterReEncryption chk' 0 l ⟨0⟩ g_i b' = decryptAfterReEncryption chk' c_0 c sk g_i b' := by
  refine ⟨c.map fun x => x + mulBigint c_0 (intoBigint (K := E.fr) (-sk.rho)), ?_, fun chk' b' => ?_⟩
  · unfold decryptAfterReEncryptionFreed
    dsimp only
    rw [if_neg (by omega)]
    split
    · simp
    · simp
    · split <;> simp
  · unfold decryptAfterReEncryption
    simp only [List.length_map]
    rw [if_neg (by omega), if_neg (by omega)]
    congr 1
    apply mapRes_congr
    intro i hi
    have hi' : i < c.length := List.mem_range.mp hi
    rw [idx_ok 0 hi', idx_ok 0 (show i < (c.map _).length by simpa using hi')]
    simp [List.getD_eq_getElem?_getD, List.getElem?_eq_getElem hi']
    simp [mulBigint]

/-- **C124** (decryption after re-encryption) if some chunk is not found, the chunks before it are freed, too. -/
theorem C124_reencrypted_chunks (chk : Bool) (c_0 : E.G1) (c : List E.G1) (sk : SecretKey E) (g_i : List E.G1) (b : UInt8)
    (hb : b.toNat < 32) (hg : c.length ≤ g_i.length) (e : SaverError)
    (h : decryptAfterReEncryption chk c_0 c sk g_i b = .err e) :
    ∃ l : List UInt16, Buffer.chunks l ∈ (decryptAfterReEncryptionFreed chk c_0 c sk g_i b).2 ∧ l.length < c.length ∧
      (∀ i < l.length, IsLeastLog (g_i.getD i 0) (c.getD i 0 - sk.rho • c_0) (searchBound b.toNat) ((nums l).getD i 0)) ∧
      NoLog (g_i.getD l.length 0) (c.getD l.length 0 - sk.rho • c_0) (searchBound b.toNat) := by
  have hp : pushed (fun i => do
        let p ← idx (c.map fun x => x + mulBigint c_0 (intoBigint (K := E.fr) (-sk.rho))) i
        if p = 0 then Res.ok 0
        else do
          let g ← idx g_i i
          solveDiscreteLog (UInt16.ofNat (2 ^ b.toNat - 1)) g p) (List.range c.length) =
      pushed (fun i => chunkSearch (UInt16.ofNat (2 ^ b.toNat - 1)) (g_i.getD i 0) (c.getD i 0 - sk.rho • c_0))
        (List.range c.length) := by
    apply pushed_congr
    intro i hi
    have hi' : i < c.length := List.mem_range.mp hi
    have e1 : idx (c.map fun x => x + mulBigint c_0 (intoBigint (K := E.fr) (-sk.rho))) i = .ok (c.getD i 0 - sk.rho • c_0) := by
      rw [idx_eq_ok]
      simp only [List.getElem?_map, List.getElem?_eq_getElem hi', Option.map_some, List.getD_eq_getElem?_getD, Option.getD_some,
        intoBigint_smul, neg_smul, sub_eq_add_neg]
    rw [e1]
    simp only [Res.ok_bind]
    rw [idx_ok 0 (show i < g_i.length by omega)]
    rfl
  obtain ⟨h1, h2, h3⟩ := pushed_spec (fun i => chunkSearch (UInt16.ofNat (2 ^ b.toNat - 1)) (g_i.getD i 0)
    (c.getD i 0 - sk.rho • c_0)) (List.range c.length)
  obtain ⟨-, k, hk, hno⟩ := (((C36_decrypt_after_cases chk c_0 c sk g_i b).2.1 hg hb).2.1 e).mp h
  have hl : ∀ i < (pushed (fun i => chunkSearch (UInt16.ofNat (2 ^ b.toNat - 1)) (g_i.getD i 0)
      (c.getD i 0 - sk.rho • c_0)) (List.range c.length)).length, IsLeastLog (g_i.getD i 0) (c.getD i 0 - sk.rho • c_0)
      (searchBound b.toNat) ((nums (pushed (fun i => chunkSearch (UInt16.ofNat (2 ^ b.toNat - 1)) (g_i.getD i 0)
      (c.getD i 0 - sk.rho • c_0)) (List.range c.length))).getD i 0) := by
    intro i hi
    obtain ⟨a, ha, hs⟩ := h2 i hi
    rw [List.getElem?_range (by rw [List.length_range] at h1; omega)] at ha
    cases ha
    have := (chunkSearch_ok_iff _ _ _ _).mp hs
    rw [maxVal_searchBound] at this
    rwa [nums_get _ hi]
  have hlt : (pushed (fun i => chunkSearch (UInt16.ofNat (2 ^ b.toNat - 1)) (g_i.getD i 0)
      (c.getD i 0 - sk.rho • c_0)) (List.range c.length)).length < c.length := by
    by_contra hge
    exact IsLeastLog.not_noLog (hl k (by omega)) hno
  refine ⟨_, ?_, hlt, hl, ?_⟩
  · have hsame := (C124_same (⟨Unit, fun _ => (0, ()), fun _ => (0, ()), fun _ => (0, ())⟩ : RngCore E) () b ⟨0, 0⟩ g_i 0 0).2.2.2.2.2
      chk c_0 c sk
    rw [h] at hsame
    unfold decryptAfterReEncryptionFreed at hsame ⊢
    dsimp only at hsame ⊢
    rw [if_neg (by omega), chunkMaxU32_eq chk hb] at hsame ⊢
    dsimp only at hsame ⊢
    rw [hp]
    split at hsame
    · cases hsame
    · simp
    · simp
  · have h4 := h3 _ (List.getElem?_range hlt)
    rcases chunkSearch_spec (UInt16.ofNat (2 ^ b.toNat - 1)) (g_i.getD (pushed (fun i => chunkSearch (UInt16.ofNat (2 ^ b.toNat - 1))
      (g_i.getD i 0) (c.getD i 0 - sk.rho • c_0)) (List.range c.length)).length 0) (c.getD (pushed (fun i => chunkSearch
      (UInt16.ofNat (2 ^ b.toNat - 1)) (g_i.getD i 0) (c.getD i 0 - sk.rho • c_0)) (List.range c.length)).length 0 - sk.rho • c_0)
      with ⟨i, -, h5⟩ | ⟨h5, -⟩
    · exact absurd h5 (h4 _)
    · rwa [maxVal_searchBound] at h5

/-! ### concrete cases -/

/-- Non-vacuity: after the key generation of the fixture, reading the ciphertext of the chunks 1, 2, 300, 4 from freed memory,
whether or not the buffer of the `s_i` was reused. -/
example (reuse : Bool) : ∃ freed, keygenFreed reuse (listRng Fix.E) Fix.st 16 Fix.gens Fix.gi Fix.D Fix.C =
      .ok (((Fix.sk, Fix.ek, Fix.dk), freed), ([], [], [])) ∧
    readWith true (masksLeft freed) Fix.ct1 Fix.gi 9 = .ok [1, 2, 300, 4] := by
  obtain ⟨out, st', h⟩ := keygenFreed_eq reuse (listRng Fix.E) Fix.st Fix.gens Fix.gi Fix.D Fix.C Fix.count (by decide +kernel)
  have h2 := same_keys h
  rw [Fix.keygen_ok] at h2
  simp only [Res.ok.injEq, Prod.mk.injEq] at h2
  obtain ⟨rfl, rfl⟩ := h2
  exact ⟨_, h, C124_keygen_memory reuse _ _ _ 16 Fix.gens Fix.gi Fix.gi_ne Fix.D Fix.C _ _ _ _ h (fun _ => Fix.V2_ne) _ Fix.st1 _
    Fix.m1 Fix.ct1 _ Fix.enc1 true 9 (by decide) (by decide +kernel)⟩

/-- Non-vacuity: the same for the two-party key of the fixture, and a "ciphertext" of arbitrary components that verifies. -/
example : readWith true ((List.range Fix.m1.length).map fun i =>
      ([Fix.skA, Fix.skB].map fun sk => (partyMasksLeft sk.freed).getD i 0).sum) Fix.dct1 Fix.gi 9 = .ok Fix.m1 ∧
    (forgeWith (fun i => (Fix.parties.map fun P => (partyTrapdoorsLeft
      (Spec.freedBy P 16 Fix.gens Fix.gi Fix.D Fix.C)).getD i 0).sum) Fix.C [Fix.D, 0, Fix.C, Fix.D]).verifyCommitment
      Fix.dek.prepare Fix.gens.prepare = .ok () :=
  ⟨C124_parties_memory Fix.parties 16 Fix.gens Fix.gi Fix.gi_ne Fix.D Fix.C _ _ Fix.dkg_ok _ Fix.st1 _ Fix.m1 Fix.dct1 _ Fix.denc1
    true 9 (by decide) (by decide +kernel),
   C124_forgery_memory Fix.parties 16 Fix.gens Fix.gi Fix.D Fix.C _ _ Fix.dkg_ok _ _ (by decide +kernel)⟩

/-- Non-vacuity: decrypting the ciphertext of the chunks 1, 2, 300, 4 with the bit size 2 frees two chunks. -/
example : ∃ l : List UInt16, (decryptFreed true Fix.ct1.X_r Fix.ct1.enc_chunks Fix.sk Fix.dk.prepare Fix.gi 2).2 = [.chunks l] ∧
    l.length = 2 := by
  obtain ⟨l, h1, h2, h3, h4, -⟩ := C124_decrypt_memory true Fix.ct1.X_r Fix.ct1.enc_chunks Fix.sk Fix.dk Fix.gi 2 (by decide)
    (by decide +kernel) (by decide +kernel) (by decide +kernel)
  have e : searchBound (2 : UInt8).toNat = 3 := by decide
  have e4 : Fix.ct1.enc_chunks.length = 4 := by decide +kernel
  rw [e] at h3 h4
  have k0 : ∀ i < 2, ∃ j ≤ 3, j • chunkBase Fix.gi Fix.dk i = chunkValue Fix.ct1.X_r Fix.ct1.enc_chunks Fix.sk.rho Fix.dk i := by
    decide +kernel
  have k2 : ∀ j ≤ 3, j • chunkBase Fix.gi Fix.dk 2 ≠ chunkValue Fix.ct1.X_r Fix.ct1.enc_chunks Fix.sk.rho Fix.dk 2 := by
    decide +kernel
  refine ⟨l, h1, ?_⟩
  rcases Nat.lt_trichotomy l.length 2 with h | h | h
  · obtain ⟨j, hj, hh⟩ := k0 _ h
    exact absurd hh (h4 (by omega) j hj)
  · exact h
  · exact absurd (h3 2 h).2.1 (k2 _ (h3 2 h).1)

/-- Non-vacuity: a re-encrypted ciphertext with components `m_i g_i + rho C` of the chunks 1, 2, 300, 4: decrypting it with the
bit size 2 fails, and the points it frees give all chunks. -/
example : let c := tab 4 fun i => ([1, 2, 300, 4].getD i 0 : ℕ) • Fix.gi.getD i 0 + Fix.sk.rho • Fix.C
    (decryptAfterReEncryptionFreed true Fix.C c Fix.sk Fix.gi 2).1 = .err .couldNotFindDiscreteLog ∧
    ∃ l, Buffer.points l ∈ (decryptAfterReEncryptionFreed true Fix.C c Fix.sk Fix.gi 2).2 ∧
      decryptAfterReEncryption true 0 l ⟨0⟩ Fix.gi 9 = .ok [1, 2, 300, 4] := by
  intro c
  obtain ⟨l, h1, h2⟩ := C124_reencrypted_memory true Fix.C c Fix.sk Fix.gi 2 (by decide +kernel)
  have v := fun b hb => decryptAfter_values true 4 Fix.C c Fix.sk Fix.gi b hb (length_tab _ _) (by decide +kernel)
    (fun i hi => getD_mem_ne Fix.gi_ne (lt_of_lt_of_le hi (by decide +kernel))) (fun i => [1, 2, 300, 4].getD i 0)
    (by decide +kernel) (fun i hi => by
      dsimp only [c]
      rw [getD_tab, if_pos hi, add_sub_cancel_right])
  have hf := (v 2 (by decide)).2 2 (by decide) (by decide)
  have _ := C124_reencrypted_chunks true Fix.C c Fix.sk Fix.gi 2 (by decide) (by decide +kernel) _ hf
  refine ⟨((C124_same (listRng Fix.E) Fix.st 2 Fix.gens Fix.gi Fix.D Fix.C).2.2.2.2.2 true Fix.C c Fix.sk).trans hf, l, h1, ?_⟩
  rw [h2, (v 9 (by decide)).1 (by decide)]
  decide +kernel

end Verif
