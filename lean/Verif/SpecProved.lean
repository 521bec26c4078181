/-
Specification of C114: a poll in which users prove what their ballots contain.
-/
import Verif.SpecAggregate
import Verif.SpecPoll
import Verif.Model.ProvedPoll

namespace Verif
variable {E : Engine}

namespace Spec

/-- What has been put on the board: honest user `j` only ever puts its own submission there, the `j`-th of `l`; what the
others put there is unreadable, or reads as one of the honest submissions `l` or of those of the adversary, `subs`. -/
def Plays (C : Codecs E) (bad : ℕ → Prop) (l subs : List (Ciphertext E × Proof E)) (S : Poll) : Prop :=
  ∀ p ∈ S.posted, (¬ bad p.1 → ∃ s, l[p.1]? = some s ∧ p.2 = (arkSubmission C).ser s) ∧
    (bad p.1 → ∀ s rest, (arkSubmission C).de p.2 = some (s, rest) → s ∈ l ++ subs)

/-- Every poll held under this key, among any number of users, whoever of them is dishonest, for any destination, and whatever
happens in it, in whatever order and with whatever crashes: if the destination gets anything, it gets the chunk-wise sums of
the `values` of one accepted submission for each user published as counted; for honest users that is their own. -/
def PollTold (C : Codecs E) (T : FftCfg E.Fr) (chk : Bool) (b : UInt8) (n : ℕ) (gens : EncryptionGens E)
    (parties : List (Party E)) (pk : ProvingKey E) (ek : EncryptionKey E) (l subs : List (Ciphertext E × Proof E))
    (values : List (List UInt16)) : Prop :=
  ∃ g_i sks, getGsForEncryption pk.pk.vk = .ok g_i ∧
    dkg parties b gens g_i pk.pk.delta_g1 pk.gamma_g1 = .ok (sks, ek) ∧
    ∀ (Rd : RngCore E) (std std' : Rd.σ) (skd : SecretKey E) (ekd : FEncryptionKeyDest E),
      fkeygenDest Rd std gens = .ok ((skd, ekd), std') →
    ∀ (users : ℕ) (bad : ℕ → Prop) (S : Poll), users < 2 ^ 64 →
      ProvedRuns { codecs := C, users := users, ek := ek, g_i := g_i, gens := gens, ekd := ekd, sks := sks,
                   pk := pk, fft := T, chk := chk, bits := b } bad Poll.init S → Plays C bad l subs S →
    ∀ (chk' : Bool) (b' : UInt8) (res : Res (List UInt16)), b'.toNat ≤ 16 → users * (2 ^ b.toNat - 1) < 2 ^ b'.toNat →
      users * (2 ^ b.toNat - 1) < E.fr.p →
      S.outcome { codecs := C, users := users, ek := ek, g_i := g_i, gens := gens, ekd := ekd, sks := sks } chk' skd b' =
        some res →
      ∃ cnt : List (ℕ × ℕ), (cnt.map (·.1)).Nodup ∧
        S.counted { codecs := C, users := users, ek := ek, g_i := g_i, gens := gens, ekd := ekd, sks := sks } =
          some (cnt.map (·.1)) ∧
        (∀ p ∈ cnt, (¬ bad p.1 → p.2 = p.1) ∧ ∃ ct proof bs rest, (l ++ subs)[p.2]? = some (ct, proof) ∧
          Accepted gens pk ek ct proof ∧ (p.1, bs) ∈ S.posted ∧ (arkSubmission C).de bs = some ((ct, proof), rest)) ∧
        ∃ ds, res = .ok ds ∧ ds.length = n ∧
          ∀ i < n, (nums ds).getD i 0 = (cnt.map fun p => (nums (values.getD p.2 [])).getD i 0).sum

/-- The honest submissions are accepted, and every poll delivers the sums of the contributions: the honest users contribute
their messages, the adversary `c`. -/
def HonestPoll (C : Codecs E) (T : FftCfg E.Fr) (chk : Bool) (b : UInt8) (n : ℕ) (gens : EncryptionGens E)
    (parties : List (Party E)) (ms : List E.Fr) (k : ℕ) (c : ℕ → Contribution) (pk : ProvingKey E) (ek : EncryptionKey E)
    (l subs : List (Ciphertext E × Proof E)) : Prop :=
  (∀ p ∈ l, Accepted gens pk ek p.1 p.2) ∧ ∃ honest : List (List UInt16),
    List.Forall₂ (fun m ds => decompose (K := E.fr) m b = .ok ds) ms honest ∧
    PollTold C T chk b n gens parties pk ek l subs (honest ++ tab k fun i => (c i).value honest)

end Spec
end Verif
