/-
Specification of C95: what "on BLS12-381" means, and what it means that a setup delivers.
-/
import Verif.SpecCandidates
import Verif.Instances

namespace Verif
namespace Spec
variable {E : Engine}

/-- The scalar field is that of BLS12-381 (255-bit prime in four 64-bit limbs), nothing else is known of the groups and
the pairing; and the evaluation domains are the radix-2 domains of that field: for every size up to `2^32` the least
power of two that is not smaller. -/
structure OnBls (E : Engine) (T : FftCfg E.Fr) : Prop where
  field : E.fr = blsFr
  radix2 : ∀ N, 1 ≤ N → N ≤ 2 ^ 32 → ∃ d k, T.newDomain N = some d ∧ d.size = 2 ^ k ∧ N ≤ d.size ∧ d.size < 2 * N

/-- Setup (with at most `F` candidates for the evaluation point) succeeds on the tape `f`, and with the resulting keys
every message, under every randomness of the encryptor and in both build modes, is encrypted with proof, passes
`verify_commitment_and_proof` and is decrypted to itself. -/
def Delivers (T : FftCfg E.Fr) (F : ℕ) (b : UInt8) (gens : EncryptionGens E) (f : ℕ → E.Fr) : Prop :=
  ∃ pk sk ek dk f', setupForGroth16 T (tape E) F f b gens = .ok ((pk, sk, ek, dk), f') ∧
    ∀ (chk : Bool) (R : RngCore E) (st : R.σ) (m : E.Fr), ∃ ct r proof nu st',
      encryptWithProof T chk R st m ek pk b = .ok ((ct, r, proof), st') ∧
      ct.verifyCommitmentAndProof proof (prepareVerifyingKey pk.pk.vk) ek.prepare gens.prepare = .ok () ∧
      ct.decryptGivenGroth16Vk chk sk dk.prepare pk.pk.vk b = .ok (m, nu)

/-- On the tape `f` the SRS (for `n` chunks of `b` bits) is generated, and the whole workflow of verified aggregation
works with it, whatever anybody's randomness is: any number of parties obtain a joint key; any destination obtains a
key; any encryptors (at most `2^b + 1`) of chunk vectors of the right size obtain ciphertexts, can prove them, and the
proofs and commitments are accepted; the aggregate is accepted by the commitment check; all parties, in any order,
re-encrypt it for the destination; and the destination decrypts exactly the sums, with chunk size `2 b`. -/
def Aggregates (T : FftCfg E.Fr) (F : ℕ) (b n : UInt8) (gens : EncryptionGens E) (f : ℕ → E.Fr) : Prop :=
  ∃ c0 pk f' g_i, BitsizeCheckCircuit.new (K := E.fr) b (some n) none true = .ok c0 ∧
    generateSrs T (tape E) F f c0.generateConstraints gens = .ok (pk, f') ∧
    getGsForEncryption pk.pk.vk = .ok g_i ∧
    ∀ parties : List (Party E), parties ≠ [] → ∃ sks ek,
      dkg parties b gens g_i pk.pk.delta_g1 pk.gamma_g1 = .ok (sks, ek) ∧ sks.length = parties.length ∧
      ∀ (Rd : RngCore E) (std : Rd.σ), ∃ skd ekd std', fkeygenDest Rd std gens = .ok ((skd, ekd), std') ∧
      ∀ encs : List (Party E × List UInt16), encs ≠ [] → encs.length ≤ 2 ^ b.toNat + 1 →
        (∀ e ∈ encs, e.2.length = n.toNat ∧ ∀ c ∈ e.2, c.toNat < 2 ^ b.toNat) →
      ∀ rp : List (SecretKeyST E × Party E), (rp.map (·.1)).Perm sks → ∀ chk : Bool, ∃ outs ct g_r cs ds,
        encryptMany encs ek g_i = .ok outs ∧
        (∀ e o, (e, o) ∈ encs.zip outs → ∀ (R : RngCore E) (st : R.σ) (c : BitsizeCheckCircuit E.fr),
          BitsizeCheckCircuit.new (K := E.fr) b (some n) (some (e.2.map fun c => ((c.toNat : ℕ) : E.Fr))) true = .ok c →
          ∃ ct_e proof st', o.1 = flat ct_e ∧ createProof T chk R st c.generateConstraints o.2 pk ek = .ok (proof, st') ∧
            ct_e.verifyCommitmentAndProof proof (prepareVerifyingKey pk.pk.vk) ek.prepare gens.prepare = .ok ()) ∧
        aggregate (outs.map (·.1)) = .ok (flat ct) ∧
        ct.verifyCommitment ek.prepare gens.prepare = .ok () ∧
        reEncryptAll gens ct.X_r ct.enc_chunks ekd rp = .ok (g_r :: cs) ∧
        decryptAfterReEncryption chk g_r cs skd g_i (b * 2) = .ok ds ∧
        ds.length = n.toNat ∧ ∀ i < n.toNat, (nums ds).getD i 0 = (encs.map fun e => (nums e.2).getD i 0).sum

end Spec
end Verif
