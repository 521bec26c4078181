/-
Concrete cases meeting the hypotheses of the theorems about the SRS, the proofs and the setup (C45 - C60) that are not
already applied in an `example` beside them: the run `fix_run` with 16-bit chunks over the Goldilocks field.
-/
import Verif.Props.Generic
import Verif.Props.Verified
import Verif.Props.Setup
import Verif.Props.Sound
import Verif.Props.Parallel
import Verif.Props.Window
import Verif.Props.Nested
import Verif.Props.Forward
import Verif.Props.Forge
import Verif.Props.ShareForgery
import Verif.Props.Aggregate
import Verif.Props.Error
import Verif.Props.Abort
import Verif.Props.Fresh

namespace Verif
namespace Ex
open Spec
noncomputable section

/-- `C45_reduces_to_groth16`: setup, keys and an arbitrary message and proof -/
example : ∃ (pk : ProvingKey Fix.E) (ek : EncryptionKey Fix.E) (g_i : List Fix.E.G1), ∀ (m : ℕ → ℕ) (r : Fix.E.Fr)
    (proof : Proof Fix.E), Groth16Eq pk.pk.vk proof (tab ek.X.length fun i => ((m i : ℕ) : Fix.E.Fr)) →
      verifyProof (prepareVerifyingKey pk.pk.vk) { proof with c := proof.c + r • ek.P_2 }
        (cipher ek (fun i => g_i.getD i 0) m r) = .ok () := by
  obtain ⟨c0, pk, sk, ek, dk, g_i, st1, st2, hc0, hsrs, hg, hkg, hk, -⟩ := fix_run
  exact ⟨pk, ek, g_i, fun m r proof => (C45_reduces_to_groth16 goldFft (listRng Fix.E) 1 Fix.stFull st1 _ Fix.gens pk hsrs
    g_i hg ek 16 hk m r proof).1⟩

/-- `C46_chunk_level` and `C45_api`: an honest ciphertext of four chunks, its proof, and the Groth16 proof inside it -/
example : ∃ (pk : ProvingKey Fix.E) (ek : EncryptionKey Fix.E) (ct : Ciphertext Fix.E) (proof proof0 : Proof Fix.E),
    verifyProof (prepareVerifyingKey pk.pk.vk) proof ct = .ok () ∧ proof0.a = proof.a ∧
    Groth16Eq pk.pk.vk proof0 (Fix.m1.map fun c => ((c.toNat : ℕ) : Fix.E.Fr)) ∧
    ∀ ct', componentSum ct ≠ componentSum ct' →
      verifyProof (prepareVerifyingKey pk.pk.vk) proof ct' = .err .pairingCheckFailed := by
  obtain ⟨c0, pk, sk, ek, dk, g_i, st1, st2, hc0, hsrs, hg, hkg, hk, -⟩ := fix_run
  obtain ⟨n, s, t, hn, hgn, hek⟩ := fromSetup_inv hk
  rw [Fix.count] at hn
  cases hn
  have hX : ek.X.length = 4 := by rw [hek]; simp [encKey, Fix.four]
  have hw : WellFormed ek := by rw [hek]; exact encKey_wf _ _ _ _ _ _ _
  rw [Fix.four] at hgn
  have henc := encryptDecomposed_ok (listRng Fix.E) Fix.st1 Fix.m1 ek g_i hw
    (by omega) (by rw [hX]; rfl) (by omega)
  obtain ⟨c, hc⟩ : ∃ c, BitsizeCheckCircuit.new (K := Fix.E.fr) 16 none
      (some (Fix.m1.map fun c => ((c.toNat : ℕ) : Fix.E.Fr))) true = .ok c := by
    unfold BitsizeCheckCircuit.new
    exact ⟨_, rfl⟩
  obtain ⟨ct, proof, st4, hv, hpr, hver⟩ := C46_chunk_level goldFft (listRng Fix.E) 1 Fix.stFull st1 16 c0 Fix.gens pk hc0
    hsrs g_i hg ek hk (listRng Fix.E) Fix.st1 _ Fix.m1 _ _ henc (by decide) none c hc true (listRng Fix.E) Fix.st2
  have hct : cipher ek (fun i => g_i.getD i 0) (fun i => (nums Fix.m1).getD i 0) (draw (listRng Fix.E) Fix.st1 0) = ct :=
    flat_inj hv
  rw [hct] at henc
  unfold Ciphertext.verifyCommitmentAndProof at hver
  obtain ⟨-, -, hver⟩ := Res.bind_eq_ok.mp hver
  obtain ⟨proof0, ha, -, -, h1, h2⟩ := C45_api goldFft (listRng Fix.E) 1 Fix.stFull st1 _ Fix.gens pk hsrs g_i hg ek 16 hk
    (listRng Fix.E) Fix.st1 _ Fix.m1 ct _ henc true _ (listRng Fix.E) Fix.st2 _ proof hpr
  refine ⟨pk, ek, ct, proof, proof0, hver, ha, ?_, fun ct' hne => ?_⟩
  · by_contra hc
    have := h2 hc
    rw [hver] at this
    cases this
  · refine C48_no_transfer pk.pk.vk ?_ proof ct ct' hver hne
    obtain ⟨sk', ek', dk', st2', -, -, -, -, -, -, ⟨gamma, delta, hg0, hd0, -, -, -, hgam⟩, -⟩ :=
      (C49_setup_consistent goldFft (listRng Fix.E) 1 Fix.stFull 16 4 Fix.count Fix.gens c0 hc0).1 pk st1 hsrs
    rw [hgam]
    exact smul_ne_zero hg0 (by exact (by decide +kernel : (3 : Fix.F) ≠ 0))

example := C49_srs_cases goldFft (listRng Fix.E) 1 Fix.stFull 16 (by decide)
  (by rw [show Fix.E.fr.modBits = 64 from goldFr_modBits]; decide) Fix.gens

/-- `C54_pipeline`, `C55_generators`, `C55_decryption_key` on that run -/
example : ∃ (pk : ProvingKey Fix.E) (sk : SecretKey Fix.E) (ek : EncryptionKey Fix.E) (dk : DecryptionKey Fix.E),
    ∀ m : Fix.E.Fr, ∃ ct r proof nu st2,
      encryptWithProof goldFft true (listRng Fix.E) Fix.st1 m ek pk 16 = .ok ((ct, r, proof), st2) ∧
      ct.decryptGivenGroth16Vk true sk dk.prepare pk.pk.vk 16 = .ok (m, nu) := by
  obtain ⟨c0, pk, sk, ek, dk, g_i, st1, st2, hc0, hsrs, hg, hkg, hk, hset⟩ := fix_run
  have hgen := C55_generators goldFft (listRng Fix.E) 1 Fix.stFull st1 16 4 Fix.count c0 hc0 Fix.gens pk hsrs
  have hdk := C55_decryption_key (listRng Fix.E) st1 st2 16 4 Fix.count Fix.gens g_i pk.pk.delta_g1 pk.gamma_g1 sk ek dk hkg
  have hnz : ∀ g ∈ pk.pk.vk.gamma_abc_g1.tail, g ≠ 0 := by
    have hz := (C55_zero_generators (E := Fix.E) goldFft (listRng Fix.E) 1 Fix.stFull st1 16 4 Fix.count c0 hc0 Fix.gens
      pk hsrs 113 Fix.rows_eq.symm Fix.dom (by rw [Fix.four']; exact Fix.dom_ok) 0
      (Fix.tau_ok' _ _ Fix.draw4 Fix.dom_size) (by intro j hj; omega)).1
    intro g ht h0
    rcases hz.mp ⟨g, ht, h0⟩ with h | h
    · exact absurd h.2 (by decide +kernel : (2 : Fix.F) ≠ 0)
    · rw [show Fix.E.fr.modBits = 64 from goldFr_modBits] at h
      exact Fix.beta_ok h
  have hV : ∀ V ∈ dk.V_2, V ≠ 0 := by
    obtain ⟨c0', N, hc0', hN, -, hcase⟩ := C49_srs_cases goldFft (listRng Fix.E) 1 Fix.stFull 16 (by decide)
      (by rw [show Fix.E.fr.modBits = 64 from goldFr_modBits]; decide) Fix.gens
    rw [hc0] at hc0'
    cases hc0'
    have hnum : numValues c0 = 4 := by
      obtain ⟨-, a2, -, a4, -⟩ := new_ok hc0
      have := a4 rfl
      rw [Fix.count] at this
      unfold numValues
      rw [a2, ← Res.ok.inj this]
      exact Fix.four
    have hdom : goldFft.newDomain N = some Fix.dom := by
      rw [hN, hnum, Fix.rows_eq]
      exact Fix.dom_ok
    obtain ⟨pk', hpk⟩ := (hcase Fix.dom hdom 0 (by norm_num)
      (sub_ne_zero.mpr (Fix.tau_ok' _ _ Fix.draw4 Fix.dom_size)) (by intro j hj; omega)).2
      (by exact (by decide +kernel : (3 : Fix.F) ≠ 0)) (by exact (by decide +kernel : (4 : Fix.F) ≠ 0))
    rw [hsrs] at hpk
    cases hpk
    refine hdk.mpr (.inr ⟨by exact (by decide +kernel : (3 : Fix.F) ≠ 0), by exact (by decide +kernel : (3 : Fix.F) ≠ 0), ?_⟩)
    intro i hi
    rw [Fix.four'] at hi ⊢
    interval_cases i
    · exact (by decide +kernel : (10 : Fix.F) ≠ 0)
    · exact (by decide +kernel : (11 : Fix.F) ≠ 0)
    · exact (by decide +kernel : (12 : Fix.F) ≠ 0)
    · exact (by decide +kernel : (13 : Fix.F) ≠ 0)
  refine ⟨pk, sk, ek, dk, fun m => ?_⟩
  obtain ⟨ct, r, proof, nu, st3, h1, -, h2, -⟩ := C54_pipeline (E := Fix.E) goldFft (listRng Fix.E) 1 Fix.stFull st2 16
    (Or.inr (Or.inr rfl))
    Fix.aligned Fix.gens pk sk ek dk hset hnz hV true (listRng Fix.E) Fix.st1 m
  exact ⟨ct, r, proof, nu, st3, h1, h2⟩

/-! ### C69, C73, C78 - C82, C85 -/

/-- the schedule of two threads that finishes the second half first -/
example : ([some 11, some 12] : List (Option ℕ)) = [1, 2].map (fun x => some (x + 10)) ∧ [1, 0].Perm (List.range 2) :=
  C69_every_schedule (fun x : ℕ => x + 10) [1, 2] ⟨[], [some 11, some 12], [1, 0]⟩ (by
    refine .head (PoolStep.split (pre := []) (post := []) (mid := 1) (by decide) (by decide)) ?_
    refine .head (PoolStep.item (pre := [(0, 1)]) (post := []) (x := 2) (by decide) rfl) ?_
    refine .head (PoolStep.item (pre := []) (post := [(2, 2)]) (x := 1) (by decide) rfl) ?_
    refine .head (PoolStep.retire (pre := []) (post := [(2, 2)])) ?_
    exact .head (PoolStep.retire (pre := []) (post := [])) .refl) rfl

example (m' : ℕ → ℕ) (r' : Fix.E.Fr) (psi : Fix.E.G1) (hm' : ∀ i < Fix.ek.X.length, m' i < 2 ^ 16) :=
  C73_forgery_is_no_encryption Fix.ek (fun i => Fix.gi.getD i 0) (fun i => i + 1) (20 : Fix.F)
    (by exact (by decide +kernel : (17 : Fix.F) ≠ 0)) 0 1 (by decide +kernel) (by decide)
    (by exact (by decide +kernel : (5 : Fix.F) ≠ 0)) (65536 : Fix.F) 16 (by
      intro x hx h
      have h1 : (x : Fix.F) = ((65537 : ℕ) : Fix.F) := by
        rw [show (x : Fix.F) = ((0 + 1 : ℕ) : Fix.F) + (65536 : Fix.F) from h]
        decide +kernel
      rw [ZMod.natCast_eq_natCast_iff', Nat.mod_eq_of_lt (lt_trans hx (by decide +kernel)),
        Nat.mod_eq_of_lt (by decide +kernel)] at h1
      omega) psi m' r' hm'

example (t : ℕ → Fix.E.Fr) := C73_last_party_forges 16 4 Fix.count Fix.gens
  (by exact (by decide +kernel : (3 : Fix.F) ≠ 0)) Fix.gi (by decide +kernel) Fix.D Fix.C t

/-- two partial keys, combined first, then with a third -/
example : ∃ kk, combineEKs (E := Fix.E) Fix.C [⟨(17 : Fix.F), ([1] : List Fix.F), ([3] : List Fix.F), ([5, 6] : List Fix.F), (8 : Fix.F)⟩,
      ⟨(17 : Fix.F), ([9] : List Fix.F), ([4] : List Fix.F), ([2, 7] : List Fix.F), (1 : Fix.F)⟩,
      ⟨(17 : Fix.F), ([2] : List Fix.F), ([5] : List Fix.F), ([4, 8] : List Fix.F), (3 : Fix.F)⟩]
      = .ok kk :=
  ⟨_, C78_nested (E := Fix.E) Fix.C [⟨(17 : Fix.F), ([1] : List Fix.F), ([3] : List Fix.F), ([5, 6] : List Fix.F), (8 : Fix.F)⟩]
    [⟨(17 : Fix.F), ([9] : List Fix.F), ([4] : List Fix.F), ([2, 7] : List Fix.F), (1 : Fix.F)⟩,
      ⟨(17 : Fix.F), ([2] : List Fix.F), ([5] : List Fix.F), ([4, 8] : List Fix.F), (3 : Fix.F)⟩] [] _ _ rfl rfl⟩

example : ∃ shares, makeShares Fix.gens Fix.dct1.X_r Fix.dct1.enc_chunks Fix.ekd Fix.rp = .ok shares ∧
    ∃ h : 1 < shares.length, ∃ g_r cs, applyShares Fix.dct1.enc_chunks (shares.set 1 (shiftShare Fix.gi (fun _ => (1 : Fix.F))
      shares[1])) = .ok (g_r :: cs) := by
  obtain ⟨shares, hs⟩ : ∃ shares, makeShares Fix.gens Fix.dct1.X_r Fix.dct1.enc_chunks Fix.ekd Fix.rp = .ok shares :=
    ⟨_, rfl⟩
  have hl : 1 < shares.length := by rw [(ShareF.makeShares_length hs).1]; decide
  obtain ⟨g_r, cs, -, h⟩ := C79_shifted_share Fix.gens Fix.dct1.X_r Fix.dct1.enc_chunks Fix.ekd Fix.rp shares hs 1 hl
    Fix.gi (fun _ => (1 : Fix.F))
  exact ⟨shares, hs, hl, g_r, _, h⟩

example := C80_forwarding Fix.gens Fix.skd [(⟨listRng Fix.E, Fix.st2⟩, Fix.skd, Fix.ekd)] (by
    intro h hh
    rw [List.mem_singleton.mp hh]
    exact ⟨_, _, _, Fix.dest_ok⟩) Fix.dct1.X_r Fix.dct1.enc_chunks

example := C82_roundtrip (arkField blsFr) (arkField_roundtrip blsFr) (arkField_local blsFr)

theorem fits5 : FitsTable (WindowTable.new smallFr 5 (3 : ZMod smallFr.p)) := by
  refine ⟨?_, ?_, ?_, ?_, ?_⟩
  all_goals simp [WindowTable.new, mulWindowSize, smallFr_modBits, Fits, windowTable]

example := C82_reloaded (K := smallFr) (arkField smallFr) (arkField_roundtrip smallFr) 5 3 fits5 [1, 2]

example := C85_unchecked_aggregate (E := Fix.E) ([1, 2, 3] : List Fix.F) [([4, 5, 6] : List Fix.F)] [([1] : List Fix.F)]
  ([7, 8] : List Fix.F) (by
    intro v hv
    rw [List.mem_singleton.mp hv]
    rfl) (by decide)

example (proof : Proof Fix.E) (ct : Ciphertext Fix.E) : ∃ (c0 : BitsizeCheckCircuit Fix.E.fr),
    {g : Fin 5 → Fix.E.Fr | ∃ pk f', generateSrs goldFft (tape Fix.E) 1 (tapeOf g) c0.generateConstraints Fix.gens
        = .ok (pk, f') ∧ verifyProof (prepareVerifyingKey pk.pk.vk) proof ct = .ok ()}.ncard
      ≤ (Fix.dom8.size + 1) * Fix.E.fr.p ^ 4 := by
  obtain ⟨c0, pk, ek, g_i, st1, -, hc0, -⟩ := Fix.run8
  obtain ⟨a1, a2, a3, a4, -⟩ := new_ok hc0
  have hnum : numValues c0 = 8 := by
    have := a4 rfl
    rw [Fix.count8] at this
    unfold numValues
    rw [a2, ← Res.ok.inj this]
    exact Fix.eight
  obtain ⟨cs, hcs, h1, h2, h3⟩ := (C44_shape c0 true).1 (.inl rfl) (by rw [a1]; exact Fix.bits8)
  refine ⟨c0, C86_fresh_srs_rejects (E := Fix.E) goldFft _ cs hcs ?_ Fix.dom8 ?_ Fix.gens Fix.gens_ne.1 Fix.gens_ne.2 5
    (le_refl _) proof ct⟩
  · rw [h1, a3]
    exact Nat.succ_pos _
  · rw [h1, h2, a3, a1, hnum, Fix.rows8_eq]
    exact Fix.dom8_ok

example := C86_neutral_accepted (listRng Fix.E) Fix.st _ 16 4 Fix.count Fix.gens Fix.gens_ne.2 Fix.gi Fix.D Fix.C Fix.sk
  Fix.ek Fix.dk Fix.keygen_ok

end
end Ex
end Verif
