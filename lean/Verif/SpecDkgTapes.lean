/-
Specification of C99: the games of C75, C90, C94 and C98 with a parameter generation that draws any number of candidates
for the evaluation point, and with separate random tapes: `fs` is that of `generate_srs`, `h` that of the honest side.
On a single tape and with one candidate they are those of `SpecAdaptive`, `SpecNmDkg` and `SpecReGame`.
-/
import Verif.SpecReGame
import Verif.SpecDelivery

namespace Verif
variable {E : Engine}

namespace Spec

/-- the parties: the honest one draws from the tape `h` -/
abbrev crew (others1 others2 : List (Party E)) (h : ℕ → E.Fr) : List (Party E) := others1 ++ ⟨tape E, h⟩ :: others2

/-- as `DkgOutcome` -/
def DkgOutcomeF (F : ℕ) (T : FftCfg E.Fr) (b : UInt8) (gens : EncryptionGens E) (others1 others2 : List (Party E))
    (A : Prover E (Strategy E.Fr)) (fs h : ℕ → E.Fr)
    (P : ProvingKey E → EncryptionKey E → Ciphertext E → Proof E → Prop) : Prop :=
  ∃ pk keys shares ek,
    setupForDkg T (tape E) F fs b gens (crew others1 others2 h) = .ok (pk, keys, shares, ek) ∧
    P pk ek (A.cipher (dkgPublic1 gens pk keys shares ek) (dkgPublic2 gens pk keys ek))
      (A.proof (dkgPublic1 gens pk keys shares ek) (dkgPublic2 gens pk keys ek))

/-- as `NmDkgOutcome`: the first `2 n + 1` scalars of `h` are those of the honest party, the others those of the users -/
def NmDkgOutcomeF (F : ℕ) (T : FftCfg E.Fr) (chk : Bool) (b : UInt8) (gens : EncryptionGens E)
    (others1 others2 : List (Party E)) (ms : List E.Fr) (A : Prover E (Strategy E.Fr)) (fs h : ℕ → E.Fr)
    (P : ProvingKey E → EncryptionKey E → List (Ciphertext E × Proof E) → Ciphertext E → Proof E → Prop) : Prop :=
  ∃ pk keys shares ek l h',
    setupForDkg T (tape E) F fs b gens (crew others1 others2 h) = .ok (pk, keys, shares, ek) ∧
    encryptAll T chk (tape E) ek pk b ms (fun i => h (1 + 2 * ek.X.length + i)) = .ok (l, h') ∧
    P pk ek l (A.cipher (dkgView1 gens pk keys shares ek l) (dkgView2 gens pk keys ek l))
      (A.proof (dkgView1 gens pk keys shares ek l) (dkgView2 gens pk keys ek l))

/-- as `Told`: under the key made by the parties, `ct` says `chunks` to every destination -/
def ToldF (b : UInt8) (gens : EncryptionGens E) (others1 others2 : List (Party E)) (h : ℕ → E.Fr) (pk : ProvingKey E)
    (ek : EncryptionKey E) (ct : Ciphertext E) (chunks : List UInt16) : Prop :=
  ∃ g_i sks, getGsForEncryption pk.pk.vk = .ok g_i ∧
    dkg (crew others1 others2 h) b gens g_i pk.pk.delta_g1 pk.gamma_g1 = .ok (sks, ek) ∧ Says b gens g_i sks ct chunks

/-- as `experimentRe` -/
noncomputable def experimentReF (F : ℕ) (pol : Policy) (side : Bool) (T : FftCfg E.Fr) (chk : Bool) (b : UInt8)
    (gens : EncryptionGens E) (others1 others2 : List (Party E)) (R : RngCore E) (st : R.σ) (A : ReAdversary E)
    (fs h : ℕ → E.Fr) : Bool :=
  match setupForDkg T (tape E) F fs b gens (crew others1 others2 h) with
  | .ok (pk, keys, shares, ek) =>
    match partySecret b gens pk h with
    | .ok sk => playRe pol side T chk b gens pk keys shares ek sk R A [] (fun i => h (1 + 2 * ek.X.length + i)) [] [] st
    | _ => false
  | _ => false

/-- as `DkgRangeOutcome` -/
def DkgRangeOutcomeF (F : ℕ) (T : FftCfg E.Fr) (b : UInt8) (gens : EncryptionGens E) (parties : List (Party E))
    (A : Prover E (RangeChoice E.Fr)) (fs : ℕ → E.Fr) (P : (ℕ → E.Fr) → Prop) : Prop :=
  ∃ pk keys shares ek C,
    setupForDkg T (tape E) F fs b gens parties = .ok (pk, keys, shares, ek) ∧
    C = A.choice (dkgPublic1 gens pk keys shares ek) (dkgPublic2 gens pk keys ek) ∧
    verifyProof (prepareVerifyingKey pk.pk.vk)
      ⟨comb C.a (dkgPublic1 gens pk keys shares ek), comb C.b (dkgPublic2 gens pk keys ek),
        comb C.c (dkgPublic1 gens pk keys shares ek)⟩
      (fieldCipher ek (fun i => pk.pk.vk.gamma_abc_g1.tail.getD i 0) C.m C.r) = .ok () ∧
    P C.m

/-- The number of choices of `L` draws of `generate_srs` and `M` draws of the honest side for which `Q` holds. -/
noncomputable def draws (E : Engine) (L M : ℕ) (Q : (ℕ → E.Fr) → (ℕ → E.Fr) → Prop) : ℕ :=
  {x : (Fin L → E.Fr) × (Fin M → E.Fr) | Q (tapeOf x.1) (tapeOf x.2)}.ncard

end Spec
end Verif
