/-
Property C80: a re-encrypted ciphertext can be forwarded, any number of times.
-/
import Verif.Props.ShareForgery

namespace Verif
open Spec

variable {E : Engine}

namespace Spec

/-- A destination passes a ciphertext it could decrypt on to the next destination: it makes a re-encryption share with
its own secret scalar in place of every `s_i` (no `t` is needed) and adds it to the ciphertext. -/
def forward (gens : EncryptionGens E) (sk : SecretKey E) (P : Party E) (next : FEncryptionKeyDest E)
    (ct : List E.G1) : Res (List E.G1) :=
  match ct with
  | [] => .panic
  | c_0 :: c => reEncryptAll gens c_0 c next [(⟨List.replicate c.length sk.rho, []⟩, P)]

/-- A chain of destinations. -/
def forwardChain (gens : EncryptionGens E) :
    SecretKey E → List (Party E × SecretKey E × FEncryptionKeyDest E) → List E.G1 → Res (List E.G1)
  | _, [], ct => .ok ct
  | sk, (P, sk', ekd') :: hops, ct => do
    let ct' ← forward gens sk P ekd' ct
    forwardChain gens sk' hops ct'

/-- the secret key of the last destination of the chain -/
def lastKey (sk : SecretKey E) (hops : List (Party E × SecretKey E × FEncryptionKeyDest E)) : SecretKey E :=
  (hops.map (·.2.1)).getLastD sk

end Spec

namespace Forward

theorem step (gens : EncryptionGens E) (sk : SecretKey E) (P : Party E) (next : FEncryptionKeyDest E) (c_0 : E.G1)
    (c : List E.G1) :
    forward gens sk P next (c_0 :: c) = .ok (draw P.1 P.2 0 • gens.G ::
      tab c.length fun i => c.getD i 0 - sk.rho • c_0 + draw P.1 P.2 0 • next.pk) := by
  unfold forward
  dsimp only
  rw [reEncryptAll_eq gens c_0 c next _ (by simp) (by simp)]
  simp only [rhoSum, sSum, List.map_cons, List.map_nil, List.sum_cons, List.sum_nil, add_zero]
  congr 2
  refine tab_congr fun i hi => ?_
  rw [List.getD_replicate _ hi]
  abel

end Forward

/-- **C80** Forwarding does not change what is decrypted: for every ciphertext vector (honest or not), every chain of
destinations with keys from `Fkeygen_dest`, whatever randomness each of them draws: forwarding never fails, keeps the
number of chunks, and the last destination's decryption of the forwarded ciphertext gives exactly the result (chunks or
error) that the first destination's decryption of the original gives. -/
theorem C80_forwarding (gens : EncryptionGens E) (sk : SecretKey E)
    (hops : List (Party E × SecretKey E × FEncryptionKeyDest E))
    (hkeys : ∀ h ∈ hops, ∃ (R : RngCore E) (st st' : R.σ), fkeygenDest R st gens = .ok ((h.2.1, h.2.2), st'))
    (c_0 : E.G1) (c : List E.G1) :
    ∃ c_0' c', forwardChain gens sk hops (c_0 :: c) = .ok (c_0' :: c') ∧ c'.length = c.length ∧
      (∀ i < c.length, c'.getD i 0 - (lastKey sk hops).rho • c_0' = c.getD i 0 - sk.rho • c_0) ∧
      ∀ (chk : Bool) (g_i : List E.G1) (b : UInt8), b.toNat < 32 →
        decryptAfterReEncryption chk c_0' c' (lastKey sk hops) g_i b =
          decryptAfterReEncryption chk c_0 c sk g_i b := by
  suffices h : ∃ c_0' c', forwardChain gens sk hops (c_0 :: c) = .ok (c_0' :: c') ∧ c'.length = c.length ∧
      (∀ i < c.length, c'.getD i 0 - (lastKey sk hops).rho • c_0' = c.getD i 0 - sk.rho • c_0) by
    obtain ⟨c_0', c', h1, h2, h3⟩ := h
    refine ⟨c_0', c', h1, h2, h3, fun chk g_i b hb => ?_⟩
    by_cases hg : c.length ≤ g_i.length
    · rw [decryptAfter_eq chk c_0' c' _ g_i b hb (by omega), decryptAfter_eq chk c_0 c _ g_i b hb hg, h2]
      refine mapRes_congr fun i hi => ?_
      rw [h3 i (List.mem_range.mp hi)]
    · rw [(C36_decrypt_after_cases chk c_0' c' _ g_i b).1 (by omega),
        (C36_decrypt_after_cases chk c_0 c sk g_i b).1 (by omega), h2]
  induction hops generalizing sk c_0 c with
  | nil => exact ⟨c_0, c, rfl, rfl, fun i _ => rfl⟩
  | cons h hops ih =>
    obtain ⟨P, sk', ekd'⟩ := h
    obtain ⟨R, st, st', hd⟩ := hkeys _ (by simp : (P, sk', ekd') ∈ (P, sk', ekd') :: hops)
    have hpk := fkeygenDest_inv hd
    obtain ⟨c_0', c', h1, h2, h3⟩ := ih sk' (fun h hh => hkeys h (by simp [hh])) (draw P.1 P.2 0 • gens.G)
      (tab c.length fun i => c.getD i 0 - sk.rho • c_0 + draw P.1 P.2 0 • ekd'.pk)
    rw [length_tab] at h2 h3
    refine ⟨c_0', c', ?_, h2, fun i hi => ?_⟩
    · unfold forwardChain
      rw [Forward.step, Res.ok_bind]
      exact h1
    · have hl : lastKey sk ((P, sk', ekd') :: hops) = lastKey sk' hops := by
        simp only [lastKey, List.map_cons, List.getLastD_cons]
      rw [hl, h3 i hi, getD_tab, if_pos hi]
      dsimp only at hpk
      rw [hpk]
      module

/-- **C80** End to end: chunks encrypted under a distributed key and re-encrypted by all key holders to a first
destination reach, through any chain of destinations, the last one unchanged. -/
theorem C80_pipeline (parties : List (Party E)) (b : UInt8) (gens : EncryptionGens E)
    (g_i : List E.G1) (D C : E.G1) (sks : List (SecretKeyST E)) (ek : EncryptionKey E)
    (hdkg : dkg parties b gens g_i D C = .ok (sks, ek)) (hgi : ∀ g ∈ g_i, g ≠ 0)
    (Rd : RngCore E) (std std' : Rd.σ) (skd : SecretKey E) (ekd : FEncryptionKeyDest E)
    (hdest : fkeygenDest Rd std gens = .ok ((skd, ekd), std'))
    (R : RngCore E) (st st1 : R.σ) (chunks : List UInt16) (v : List E.G1) (r : E.Fr)
    (henc : encryptDecomposedMessage R st chunks ek g_i = .ok ((v, r), st1))
    (rp : List (SecretKeyST E × Party E)) (hrp : (rp.map (·.1)).Perm sks)
    (hops : List (Party E × SecretKey E × FEncryptionKeyDest E))
    (hkeys : ∀ h ∈ hops, ∃ (R : RngCore E) (st st' : R.σ), fkeygenDest R st gens = .ok ((h.2.1, h.2.2), st'))
    (chk : Bool) (b' : UInt8) (hb' : b'.toNat < 32)
    (hch : ∀ x ∈ chunks, x.toNat ≤ 2 ^ b'.toNat - 1 ∧ x.toNat < E.fr.p) :
    ∃ ct re g_r cs, v = flat ct ∧ reEncryptAll gens ct.X_r ct.enc_chunks ekd rp = .ok re ∧
      forwardChain gens skd hops re = .ok (g_r :: cs) ∧
      decryptAfterReEncryption chk g_r cs (lastKey skd hops) g_i b' = .ok chunks := by
  obtain ⟨ct, g_r, cs, h1, h2, h3⟩ := C27_reencryption_delivers parties b gens g_i D C sks ek hdkg hgi Rd std std' skd
    ekd hdest R st st1 chunks v r henc rp hrp chk b' hb' hch
  obtain ⟨g_r', cs', h4, -, -, h5⟩ := C80_forwarding gens skd hops hkeys g_r cs
  exact ⟨ct, _, g_r', cs', h1, h2, h4, (h5 chk g_i b' hb').trans h3⟩

/-- the hypotheses are met: two forwardings, to keys made by `Fkeygen_dest` -/
example : ∃ ct re g_r cs, flat Fix.dct1 = flat ct ∧
    reEncryptAll Fix.gens ct.X_r ct.enc_chunks Fix.ekd Fix.rp = .ok re ∧
    forwardChain Fix.gens Fix.skd
      [(⟨listRng Fix.E, Fix.st2⟩, Fix.skd, Fix.ekd), (⟨listRng Fix.E, Fix.st1⟩, ⟨(20 : Fix.F)⟩, ⟨(40 : Fix.F)⟩)] re =
        .ok (g_r :: cs) ∧
    decryptAfterReEncryption true g_r cs ⟨(20 : Fix.F)⟩ Fix.gi 16 = .ok Fix.m1 := by
  have h20 : fkeygenDest (listRng Fix.E) Fix.st1 Fix.gens =
      .ok ((⟨(20 : Fix.F)⟩, ⟨(40 : Fix.F)⟩), ([], [], [])) := by
    have h : (mulBigint Fix.gens.G (intoBigint (K := Fix.E.fr) (20 : Fix.F)) : Fix.E.G1) =
        (⟨(40 : Fix.F)⟩ : FEncryptionKeyDest Fix.E).pk := by
      decide +kernel
    show Res.ok ((_, (⟨mulBigint Fix.gens.G (intoBigint (K := Fix.E.fr) (20 : Fix.F))⟩ :
      FEncryptionKeyDest Fix.E)), (([], [], []) : (listRng Fix.E).σ)) = _
    rw [h]
    rfl
  refine C80_pipeline Fix.parties 16 Fix.gens Fix.gi Fix.D Fix.C _ Fix.dek Fix.dkg_ok
    Fix.gi_ne _ _ _ Fix.skd Fix.ekd Fix.dest_ok _ _ _ Fix.m1 _ _ Fix.denc1 Fix.rp Fix.rp_perm _ ?_ true 16
    (by decide) (by decide +kernel)
  intro h hh
  rcases List.mem_cons.mp hh with rfl | hh
  · exact ⟨_, _, _, Fix.dest_ok⟩
  · rw [List.mem_singleton.mp hh]
    exact ⟨_, _, _, h20⟩

end Verif
