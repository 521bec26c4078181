/-
Property C98: what a coalition's ciphertext says to its destination.
-/
import Verif.SpecDelivery
import Verif.Props.BlsCoalition
import Verif.Props.Generic

namespace Verif
open Spec Agm

section
variable {E : Engine}

/-- **C98** Under a distributed key every ciphertext of the SAVER form of chunks below `2^b` (whoever made it, with whatever
randomness) says these chunks: re-encrypted by all parties, in any order and with any randomness, to any destination, it is
decrypted there to exactly these chunks. -/
theorem C98_says (parties : List (Party E)) (b : UInt8) (hb : Supported b) (gens : EncryptionGens E) (g_i : List E.G1)
    (D C : E.G1) (sks : List (SecretKeyST E)) (ek : EncryptionKey E)
    (hdkg : dkg parties b gens g_i D C = .ok (sks, ek)) (hgi : ∀ g ∈ g_i, g ≠ 0) (chunks : List UInt16)
    (hlen : chunks.length = ek.X.length) (hch : ∀ x ∈ chunks, x.toNat < 2 ^ b.toNat ∧ x.toNat < E.fr.p) (r : E.Fr) :
    Says b gens g_i sks (cipher ek (fun i => g_i.getD i 0) (fun i => (nums chunks).getD i 0) r) chunks := by
  intro Rd std std' skd ekd hdest rp hrp chk
  obtain ⟨n, s, t, hn, hgn, hek⟩ := fromSetup_inv (Or.inr ⟨parties, sks, hdkg⟩ : FromSetup ek b gens g_i D C)
  have hX : ek.X.length = n.toNat := by rw [hek]; simp [encKey]
  have henc := encryptDecomposed_ok (tape E) (fun _ => r) chunks ek g_i (by rw [hek]; exact encKey_wf _ _ _ _ _ _ _)
    (by rw [hX]; exact n.toNat_lt) hlen (by omega)
  obtain ⟨ct, g_r, cs, h1, h2, h3⟩ := C27_reencryption_delivers parties b gens g_i D C sks ek hdkg hgi Rd std std' skd
    ekd hdest (tape E) (fun _ => r) _ chunks _ _ henc rp hrp chk b (by rcases hb with rfl | rfl | rfl <;> decide)
    (fun x hx => ⟨by have := (hch x hx).1; omega, (hch x hx).2⟩)
  rw [draw_tape] at h1
  rw [flat_inj h1]
  exact ⟨g_r, cs, h2, h3⟩

/-- **C98** Re-randomised ciphertexts of a message say that message. -/
theorem C98_says_rerandomised (parties : List (Party E)) (b : UInt8) (hb : Supported b)
    (hal : 64 * E.fr.limbs < E.fr.modBits + b.toNat ∧ chunksNeeded E.fr b.toNat ≤ 255) (gens : EncryptionGens E)
    (g_i : List E.G1) (D C : E.G1) (sks : List (SecretKeyST E)) (ek : EncryptionKey E)
    (hdkg : dkg parties b gens g_i D C = .ok (sks, ek)) (hgi : ∀ g ∈ g_i, g ≠ 0) (R : RngCore E) (st st' : R.σ)
    (m : E.Fr) (ct : Ciphertext E) (r : E.Fr) (henc : encrypt R st m ek g_i b = .ok ((ct, r), st')) (u : E.Fr) :
    ∃ ds, decompose (K := E.fr) m b = .ok ds ∧ Says b gens g_i sks (rerandomise ek u ct) ds := by
  obtain ⟨n, s, t, hn, hgn, hek⟩ := fromSetup_inv (Or.inr ⟨parties, sks, hdkg⟩ : FromSetup ek b gens g_i D C)
  have hX : ek.X.length = n.toNat := by rw [hek]; simp [encKey]
  obtain ⟨ds, hds, hdl, hdb, hdv⟩ := decompose_spec m hb
  have hl2 := (decomp_len_eq_iff E.fr b n hb hn).mpr hal
  have h := encrypt_ok R st m ek g_i b hds (by rw [hek]; exact encKey_wf _ _ _ _ _ _ _)
    (by rw [hX]; exact n.toNat_lt) (by omega) (by omega)
  rw [henc] at h
  simp only [Res.ok.injEq, Prod.mk.injEq] at h
  obtain ⟨⟨rfl, rfl⟩, -⟩ := h
  refine ⟨ds, hds, ?_⟩
  rw [(C77_fresh ek _ _ _ u).1]
  refine C98_says parties b hb gens g_i D C sks ek hdkg hgi ds (by omega) (fun x hx => ⟨hdb x hx, ?_⟩) _
  have h1 := digit_le_positional (base := 2 ^ b.toNat) (Nat.pow_pos (by omega)) (nums ds) x.toNat
    (List.mem_map.mpr ⟨x, hx, rfl⟩)
  rw [hdv] at h1
  exact lt_of_le_of_lt h1 (ZMod.val_lt m)

section
variable (T : FftCfg E.Fr) (b n : UInt8) (hb : Supported b) (hn : chunksCount E.fr b = .ok n)
    (hbm : b.toNat ≤ E.fr.modBits)
    (hal : 64 * E.fr.limbs < E.fr.modBits + b.toNat ∧ chunksNeeded E.fr b.toNat ≤ 255)
    (gens : EncryptionGens E) (hG : gens.G ≠ 0) (hH : gens.H ≠ 0) (d : EvalDomain E.Fr)
    (hd : T.newDomain (n.toNat * constraintsPerValue E.fr.modBits b.toNat + (n.toNat + 1)) = some d)
    (others1 others2 : List (Party E))

namespace Dlv

theorem mem_tab {α : Type} {n : ℕ} {f : ℕ → α} {x : α} : x ∈ tab n f ↔ ∃ i < n, f i = x := by
  simp [tab]

include hn hbm hG hd in
/-- on all but few draws, the bases are not zero -/
theorem bases (K : ℕ) (hK : 5 ≤ K) : ∃ B : Finset (Fin K → E.Fr), B.card ≤ n.toNat * E.fr.p ^ (K - 1) ∧
    ∀ x, x ∉ B → ∀ pk keys shares ek,
      setupForDkg T (tape E) 1 (tapeOf x) b gens (team others1 others2 (tapeOf x)) = .ok (pk, keys, shares, ek) →
      ∃ c0 g_i sks f', BitsizeCheckCircuit.new (K := E.fr) b none none true = .ok c0 ∧
        generateSrs T (tape E) 1 (tapeOf x) c0.generateConstraints gens = .ok (pk, f') ∧
        getGsForEncryption pk.pk.vk = .ok g_i ∧
        dkg (team others1 others2 (tapeOf x)) b gens g_i pk.pk.delta_g1 pk.gamma_g1 = .ok (sks, ek) ∧
        ∀ g ∈ g_i, g ≠ 0 := by
  classical
  obtain ⟨c0, cs, hc0, hcs, hI, hC, -⟩ := setup_shape (E := E) hn hbm
  refine ⟨Finset.univ.filter fun g => tapeOf g 1 ∈
    badBetas n.toNat (constraintsPerValue E.fr.modBits b.toNat) E.fr.modBits d.omega (tapeOf g 4), ?_, ?_⟩
  · refine Cca.count_fiber (⟨1, by omega⟩ : Fin K) n.toNat _
      (fun g => badBetas n.toNat (constraintsPerValue E.fr.modBits b.toNat) E.fr.modBits d.omega (g ⟨4, by omega⟩))
      (fun g => ?_) (fun g hg => ?_)
    · exact (Finset.card_image_le).trans (by simp)
    · have := (Finset.mem_filter.mp hg).2
      unfold tapeOf at this
      rw [dif_pos (by omega), dif_pos (by omega)] at this
      rw [Function.update_of_ne (by simp)]
      exact this
  · intro x hx pk keys shares ek hset
    unfold setupForDkg at hset
    rw [hc0, Res.ok_bind] at hset
    obtain ⟨⟨pk1, f'⟩, hsrs, hset⟩ := Res.bind_eq_ok.mp hset
    dsimp only at hset
    obtain ⟨g_i, hg, hset⟩ := Res.bind_eq_ok.mp hset
    obtain ⟨⟨k1, s1, e1⟩, hk1, hset⟩ := Res.bind_eq_ok.mp hset
    simp only [Res.pure_eq, Res.ok.injEq, Prod.mk.injEq] at hset
    obtain ⟨rfl, rfl, rfl, rfl⟩ := hset
    obtain ⟨sks, hdkg⟩ := (C66_transcript_is_dkg _ b gens g_i _ _ _).mp ⟨_, _, hk1⟩
    refine ⟨c0, g_i, sks, f', hc0, hsrs, hg, hdkg, fun y hy h0 => ?_⟩
    obtain ⟨cs', d', hcs', hd', h1, -, -⟩ := setup_tape_good hsrs
    rw [hcs] at hcs'
    cases hcs'
    rw [hC, hI, hd] at hd'
    cases hd'
    have ht : draw (tape E) (tapeOf x) (4 + 0) ^ d.size ≠ 1 := by
      rw [draw_tape]
      exact fun hc => h1 (sub_eq_zero.mpr hc)
    have hz := (C55_zero_generators T (tape E) 1 (tapeOf x) _ b n hn c0 hc0 gens _ hsrs _ rfl d hd 0 ht (by omega)).1
    have hgt : g_i = pk1.pk.vk.gamma_abc_g1.tail := by
      unfold getGsForEncryption at hg
      cases h : pk1.pk.vk.gamma_abc_g1 with
      | nil => rw [h] at hg; cases hg
      | cons a l => rw [h] at hg; cases hg; rfl
    rw [hgt] at hy
    rcases hz.mp ⟨y, hy, h0⟩ with h | h
    · exact hG h.2
    · rw [draw_tape, draw_tape] at h
      exact hx (Finset.mem_filter.mpr ⟨Finset.mem_univ _, h⟩)

include hb hn in
/-- what the SAVER encryption of chunks says -/
theorem told_encrypts {f : ℕ → E.Fr} {pk : ProvingKey E} {ek : EncryptionKey E} {g_i : List E.G1} {sks}
    (hg : getGsForEncryption pk.pk.vk = .ok g_i)
    (hdkg : dkg (team others1 others2 f) b gens g_i pk.pk.delta_g1 pk.gamma_g1 = .ok (sks, ek))
    (hgi : ∀ g ∈ g_i, g ≠ 0) {m : ℕ → ℕ} (hm : ∀ i < n.toNat, m i < 2 ^ b.toNat ∧ m i < E.fr.p) {r : E.Fr}
    {ct : Ciphertext E} (h : Encrypts pk ek m r ct) :
    Told b gens others1 others2 f pk ek ct (tab n.toNat fun i => UInt16.ofNat (m i)) := by
  refine ⟨g_i, sks, hg, hdkg, ?_⟩
  obtain ⟨n1, s, t, hn1, -, hek⟩ := fromSetup_inv (Or.inr ⟨_, sks, hdkg⟩ :
    FromSetup ek b gens g_i pk.pk.delta_g1 pk.gamma_g1)
  rw [hn] at hn1
  cases hn1
  have hX : ek.X.length = n.toNat := by rw [hek]; simp [encKey]
  have hb16 : 2 ^ b.toNat ≤ 2 ^ 16 := by rcases hb with rfl | rfl | rfl <;> decide
  have hto : ∀ i < n.toNat, (UInt16.ofNat (m i)).toNat = m i := fun i hi =>
    UInt16.toNat_ofNat_of_lt' (lt_of_lt_of_le (hm i hi).1 hb16)
  have hgt : g_i = pk.pk.vk.gamma_abc_g1.tail := by
    unfold getGsForEncryption at hg
    cases h : pk.pk.vk.gamma_abc_g1 with
    | nil => rw [h] at hg; cases hg
    | cons a l => rw [h] at hg; cases hg; rfl
  have h1 := C98_says (team others1 others2 f) b hb gens g_i _ _ sks ek hdkg hgi
    (tab n.toNat fun i => UInt16.ofNat (m i)) (by rw [length_tab, hX]) (fun x hx => by
      obtain ⟨i, hi, rfl⟩ := Dlv.mem_tab.mp hx
      rw [hto i hi]
      exact hm i hi) r
  rw [h, ← hgt, Nm.cipher_congr ek _ m (fun i => (nums (tab n.toNat fun i => UInt16.ofNat (m i))).getD i 0) r]
  · exact h1
  · intro i hi
    rw [hX] at hi
    unfold nums
    rw [map_tab, getD_tab, if_pos hi, hto i hi]

include hb hal in
/-- what a re-randomised ciphertext of an honest user says -/
theorem told_rerandomised {f f' f1 f2 : ℕ → E.Fr} {pk : ProvingKey E} {ek : EncryptionKey E} {g_i : List E.G1} {sks}
    {c0 : BitsizeCheckCircuit E.fr} (hc0 : BitsizeCheckCircuit.new (K := E.fr) b none none true = .ok c0)
    (hsrs : generateSrs T (tape E) 1 f c0.generateConstraints gens = .ok (pk, f'))
    (hg : getGsForEncryption pk.pk.vk = .ok g_i)
    (hdkg : dkg (team others1 others2 f) b gens g_i pk.pk.delta_g1 pk.gamma_g1 = .ok (sks, ek))
    (hgi : ∀ g ∈ g_i, g ≠ 0) {chk : Bool} {ms : List E.Fr} {l : List (Ciphertext E × Proof E)}
    (hl : encryptAll T chk (tape E) ek pk b ms f1 = .ok (l, f2)) {j : ℕ} {u : E.Fr} {ct : Ciphertext E}
    (h : Rerandomises ek l j u ct) :
    ∃ m ds, ms[j]? = some m ∧ decompose (K := E.fr) m b = .ok ds ∧ Told b gens others1 others2 f pk ek ct ds := by
  obtain ⟨ct0, proof0, hj, rfl⟩ := h
  obtain ⟨m, st3, r, h1, h2, -⟩ := (Nm.encryptAll_facts T (tape E) 1 f f' b hb hal c0 gens pk hc0 hsrs g_i hg ek
    (Or.inr ⟨_, sks, hdkg⟩) chk (tape E) ms f1 f2 l hl).2 j (ct0, proof0) hj
  obtain ⟨ds, h3, h4⟩ := C98_says_rerandomised (team others1 others2 f) b hb hal gens g_i _ _ sks ek hdkg hgi (tape E)
    st3 _ m ct0 r h2 u
  exact ⟨m, ds, h1, h3, g_i, sks, hg, hdkg, h4⟩

/-- counting: outside a small set, one event implies the other -/
theorem outside {K B0 N : ℕ} {S S' : Set (Fin K → E.Fr)} (B : Finset (Fin K → E.Fr)) (hB : B.card ≤ N)
    (hS : S.ncard ≤ B0) (h : ∀ x ∈ S', x ∉ B → x ∈ S) : S'.ncard ≤ B0 + N := by
  classical
  have h1 : S' ⊆ S ∪ (B : Set (Fin K → E.Fr)) := fun x hx => by
    by_cases hb : x ∈ B
    · exact Or.inr hb
    · exact Or.inl (h x hx hb)
  refine (Set.ncard_le_ncard h1 (Set.toFinite _)).trans ((Set.ncard_union_le _ _).trans ?_)
  rw [Set.ncard_coe_finset]
  exact Nat.add_le_add hS hB

end Dlv

include hb hn hbm hal hG hH hd in
/-- **C98** Non-malleability in terms of what the destination reads.  The key is generated by any number of parties, all but
one of which the adversary controls; it sees everything published and the ciphertexts and proofs of the honest users, asks
up to `Q` questions, and outputs a ciphertext and a proof.  If for some honest messages it is accepted on more than a
`(Q + 1) (3 size + 6) / p` fraction of the draws, then: either there are chunks below `2^b` such that, whatever the honest
messages, the re-encryption of its ciphertext is read as these chunks by every destination; or there is a user such that,
whatever the honest messages, it is read as the message of this user: in both cases on all but a
`(Q (3 size + 6) + n) / p` fraction of the draws. -/
theorem C98_plaintext (chk : Bool) (ms0 : List E.Fr) (A : Prover E (Strategy E.Fr))
    (hmany : (A.questions + 1) * (3 * d.size + 6) * E.fr.p ^ (5 + 2 * n.toNat + 3 * ms0.length) <
      {g : Fin (6 + 2 * n.toNat + 3 * ms0.length) → E.Fr | NmDkgOutcome T chk b gens others1 others2 ms0 A (tapeOf g)
        (fun pk ek _ ct proof => Accepted gens pk ek ct proof)}.ncard) :
    (∃ chunks : List UInt16, chunks.length = n.toNat ∧ (∀ x ∈ chunks, x.toNat < 2 ^ b.toNat) ∧
      ∀ (chk' : Bool) (ms : List E.Fr), ms.length = ms0.length →
        {g : Fin (6 + 2 * n.toNat + 3 * ms0.length) → E.Fr | NmDkgOutcome T chk' b gens others1 others2 ms A (tapeOf g)
          (fun pk ek _ ct _ => ¬ Told b gens others1 others2 (tapeOf g) pk ek ct chunks)}.ncard ≤
        (A.questions * (3 * d.size + 6) + n.toNat) * E.fr.p ^ (5 + 2 * n.toNat + 3 * ms0.length)) ∨
    ∃ j : ℕ, j < ms0.length ∧
      ∀ (chk' : Bool) (ms : List E.Fr), ms.length = ms0.length →
        {g : Fin (6 + 2 * n.toNat + 3 * ms0.length) → E.Fr | NmDkgOutcome T chk' b gens others1 others2 ms A (tapeOf g)
          (fun pk ek _ ct _ => ¬ ∃ m ds, ms[j]? = some m ∧ decompose (K := E.fr) m b = .ok ds ∧
            Told b gens others1 others2 (tapeOf g) pk ek ct ds)}.ncard ≤
        (A.questions * (3 * d.size + 6) + n.toNat) * E.fr.p ^ (5 + 2 * n.toNat + 3 * ms0.length) := by
  obtain ⟨B, hB, hout⟩ := Dlv.bases T b n hn hbm gens hG d hd others1 others2
    (6 + 2 * n.toNat + 3 * ms0.length) (by omega)
  rw [show 6 + 2 * n.toNat + 3 * ms0.length - 1 = 5 + 2 * n.toNat + 3 * ms0.length by omega] at hB
  rcases C90_adaptive_non_malleable T b n hb hn hbm hal gens hG hH d hd others1 others2 chk ms0 A hmany with
    ⟨m, r, hm, h⟩ | ⟨j, u, hj, h⟩
  · refine .inl ⟨tab n.toNat fun i => UInt16.ofNat (m i), length_tab _ _, ?_, fun chk' ms hms => ?_⟩
    · intro x hx
      obtain ⟨i, hi, rfl⟩ := Dlv.mem_tab.mp hx
      have hb16 : 2 ^ b.toNat ≤ 2 ^ 16 := by rcases hb with rfl | rfl | rfl <;> decide
      rw [UInt16.toNat_ofNat_of_lt' (lt_of_lt_of_le (hm i hi).1 hb16)]
      exact (hm i hi).1
    · rw [Nat.add_mul]
      refine Dlv.outside B hB (h chk' ms hms) ?_
      rintro x ⟨pk, keys, shares, ek, l, f', hset, hl, hP⟩ hx
      obtain ⟨c0, g_i, sks, f1, hc0, hsrs, hg, hdkg, hgi⟩ := hout x hx pk keys shares ek hset
      exact ⟨pk, keys, shares, ek, l, f', hset, hl, fun he =>
        hP (Dlv.told_encrypts b n hb hn gens others1 others2 hg hdkg hgi hm he)⟩
  · refine .inr ⟨j, hj, fun chk' ms hms => ?_⟩
    rw [Nat.add_mul]
    refine Dlv.outside B hB (h chk' ms hms) ?_
    rintro x ⟨pk, keys, shares, ek, l, f', hset, hl, hP⟩ hx
    obtain ⟨c0, g_i, sks, f1, hc0, hsrs, hg, hdkg, hgi⟩ := hout x hx pk keys shares ek hset
    exact ⟨pk, keys, shares, ek, l, f', hset, hl, fun he =>
      hP (Dlv.told_rerandomised T b hb hal gens others1 others2 hc0 hsrs hg hdkg hgi hl he)⟩

include hb hn hbm hal hG hH hd in
/-- **C98** For every such adversary, whatever its success probability: there are chunks below `2^b`, or there is a user, such
that whatever the honest messages are, on at most a `((Q + 1) (3 size + 6) + n) / p` fraction of the draws is its ciphertext
accepted and not read as these chunks, or not as the message of this user, by every destination. -/
theorem C98_plaintext_bound (chk : Bool) (q : ℕ) (A : Prover E (Strategy E.Fr)) :
    (∃ chunks : List UInt16, chunks.length = n.toNat ∧ (∀ x ∈ chunks, x.toNat < 2 ^ b.toNat) ∧
      ∀ ms : List E.Fr, ms.length = q →
        {g : Fin (6 + 2 * n.toNat + 3 * q) → E.Fr | NmDkgOutcome T chk b gens others1 others2 ms A (tapeOf g)
          (fun pk ek _ ct proof => Accepted gens pk ek ct proof ∧
            ¬ Told b gens others1 others2 (tapeOf g) pk ek ct chunks)}.ncard ≤
        ((A.questions + 1) * (3 * d.size + 6) + n.toNat) * E.fr.p ^ (5 + 2 * n.toNat + 3 * q)) ∨
    ∃ j : ℕ, j < q ∧
      ∀ ms : List E.Fr, ms.length = q →
        {g : Fin (6 + 2 * n.toNat + 3 * q) → E.Fr | NmDkgOutcome T chk b gens others1 others2 ms A (tapeOf g)
          (fun pk ek _ ct proof => Accepted gens pk ek ct proof ∧
            ¬ ∃ m ds, ms[j]? = some m ∧ decompose (K := E.fr) m b = .ok ds ∧
              Told b gens others1 others2 (tapeOf g) pk ek ct ds)}.ncard ≤
        ((A.questions + 1) * (3 * d.size + 6) + n.toNat) * E.fr.p ^ (5 + 2 * n.toNat + 3 * q) := by
  obtain ⟨B, hB, hout⟩ := Dlv.bases T b n hn hbm gens hG d hd others1 others2
    (6 + 2 * n.toNat + 3 * q) (by omega)
  rw [show 6 + 2 * n.toNat + 3 * q - 1 = 5 + 2 * n.toNat + 3 * q by omega] at hB
  rcases C90_adaptive_bound T b n hb hn hbm hal gens hG hH d hd others1 others2 chk q A with
    ⟨m, r, hm, h⟩ | ⟨j, u, hj, h⟩
  · refine .inl ⟨tab n.toNat fun i => UInt16.ofNat (m i), length_tab _ _, ?_, fun ms hms => ?_⟩
    · intro x hx
      obtain ⟨i, hi, rfl⟩ := Dlv.mem_tab.mp hx
      have hb16 : 2 ^ b.toNat ≤ 2 ^ 16 := by rcases hb with rfl | rfl | rfl <;> decide
      rw [UInt16.toNat_ofNat_of_lt' (lt_of_lt_of_le (hm i hi).1 hb16)]
      exact (hm i hi).1
    · rw [Nat.add_mul]
      refine Dlv.outside B hB (h ms hms) ?_
      rintro x ⟨pk, keys, shares, ek, l, f', hset, hl, hacc, hP⟩ hx
      obtain ⟨c0, g_i, sks, f1, hc0, hsrs, hg, hdkg, hgi⟩ := hout x hx pk keys shares ek hset
      exact ⟨pk, keys, shares, ek, l, f', hset, hl, hacc, fun he =>
        hP (Dlv.told_encrypts b n hb hn gens others1 others2 hg hdkg hgi hm he)⟩
  · refine .inr ⟨j, hj, fun ms hms => ?_⟩
    rw [Nat.add_mul]
    refine Dlv.outside B hB (h ms hms) ?_
    rintro x ⟨pk, keys, shares, ek, l, f', hset, hl, hacc, hP⟩ hx
    obtain ⟨c0, g_i, sks, f1, hc0, hsrs, hg, hdkg, hgi⟩ := hout x hx pk keys shares ek hset
    exact ⟨pk, keys, shares, ek, l, f', hset, hl, hacc, fun he =>
      hP (Dlv.told_rerandomised T b hb hal gens others1 others2 hc0 hsrs hg hdkg hgi hl he)⟩

end

/-- **C98** On BLS12-381 this fraction is at most `Q + 1` in `2^238`. -/
theorem C98_bls (T : FftCfg E.Fr) (hE : OnBls E T) (b n : UInt8) (hb : Supported b) (hn : chunksCount E.fr b = .ok n)
    (gens : EncryptionGens E) (hG : gens.G ≠ 0) (hH : gens.H ≠ 0) (others1 others2 : List (Party E)) (chk : Bool) (q : ℕ)
    (A : Prover E (Strategy E.Fr)) :
    (∃ chunks : List UInt16, chunks.length = n.toNat ∧ (∀ x ∈ chunks, x.toNat < 2 ^ b.toNat) ∧
      ∀ ms : List E.Fr, ms.length = q →
        2 ^ 238 * {g : Fin (6 + 2 * n.toNat + 3 * q) → E.Fr | NmDkgOutcome T chk b gens others1 others2 ms A (tapeOf g)
          (fun pk ek _ ct proof => Accepted gens pk ek ct proof ∧
            ¬ Told b gens others1 others2 (tapeOf g) pk ek ct chunks)}.ncard ≤
        (A.questions + 1) * E.fr.p ^ (6 + 2 * n.toNat + 3 * q)) ∨
    ∃ j : ℕ, j < q ∧
      ∀ ms : List E.Fr, ms.length = q →
        2 ^ 238 * {g : Fin (6 + 2 * n.toNat + 3 * q) → E.Fr | NmDkgOutcome T chk b gens others1 others2 ms A (tapeOf g)
          (fun pk ek _ ct proof => Accepted gens pk ek ct proof ∧
            ¬ ∃ m ds, ms[j]? = some m ∧ decompose (K := E.fr) m b = .ok ds ∧
              Told b gens others1 others2 (tapeOf g) pk ek ct ds)}.ncard ≤
        (A.questions + 1) * E.fr.p ^ (6 + 2 * n.toNat + 3 * q) := by
  obtain ⟨n', d, hn', hd, -, hn64, hs, hs'⟩ := hE.small hb
  obtain rfl : n' = n := by rw [hn] at hn'; cases hn'; rfl
  have h17 : 2 ^ 238 * (3 * 2 ^ 15 + 6 + 64) ≤ blsR := by decide +kernel
  have hp : E.fr.p = blsR := hE.prime
  have hc : 2 ^ 238 * (3 * d.size + 6 + n'.toNat) ≤ E.fr.p :=
    le_trans (Nat.mul_le_mul_left _ (by omega)) (h17.trans (le_of_eq hp.symm))
  have e : 6 + 2 * n'.toNat + 3 * q = (5 + 2 * n'.toNat + 3 * q) + 1 := by omega
  have hle : ((A.questions + 1) * (3 * d.size + 6) + n'.toNat) * E.fr.p ^ (5 + 2 * n'.toNat + 3 * q) ≤
      (A.questions + 1) * (3 * d.size + 6 + n'.toNat) * E.fr.p ^ (5 + 2 * n'.toNat + 3 * q) := by
    refine Nat.mul_le_mul_right _ ?_
    rw [Nat.mul_add (A.questions + 1) (3 * d.size + 6) n'.toNat]
    exact Nat.add_le_add_left (Nat.le_mul_of_pos_left _ (by omega)) _
  rcases C98_plaintext_bound T b n' hb hn (hE.bits hb) (hE.aligned hb) gens hG hH d hd others1 others2 chk q A with
    ⟨chunks, h1, h2, h⟩ | ⟨j, hj, h⟩
  · refine .inl ⟨chunks, h1, h2, fun ms hms => ?_⟩
    exact (OnBls.scaleMany hc ((h ms hms).trans hle)).trans (le_of_eq (by rw [e]))
  · refine .inr ⟨j, hj, fun ms hms => ?_⟩
    exact (OnBls.scaleMany hc ((h ms hms).trans hle)).trans (le_of_eq (by rw [e]))

end

/-- Every adversary meets the hypotheses of `C98_bls`: 8-bit chunks on the model's own BLS12-381 domains, two parties of
the adversary, one user.  (The hypothesis of `C98_plaintext` is that of `C90_adaptive_non_malleable`, met by the instance
shown beside that theorem.) -/
example (o1 o2 : Party (Engine.scalar blsFr)) (A : Prover (Engine.scalar blsFr) (Strategy (Engine.scalar blsFr).Fr)) :=
  C98_bls (E := Engine.scalar blsFr) blsFft C95_instance 8 32 (.inr (.inl rfl)) chunksCount_bls8
    ⟨(1 : ZMod blsFr.p), (2 : ZMod blsFr.p)⟩ (by decide +kernel) (by decide +kernel) [o1] [o2] true 1 A

end Verif
