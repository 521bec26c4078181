/-
Specification of C92: the games of C74, C88 and C91 with a setup that draws any number of candidates for the
evaluation point.  With `F = 1` they are those of `SpecAdaptive`, `SpecCca` and `SpecCcaNu`.
-/
import Verif.SpecCcaNu

namespace Verif
variable {E : Engine}

namespace Spec

/-- as `Outcome`, with at most `F` candidates -/
def OutcomeF (F : ℕ) (T : FftCfg E.Fr) (b : UInt8) (gens : EncryptionGens E) (A : Prover E (Strategy E.Fr))
    (f : ℕ → E.Fr) (P : ProvingKey E → EncryptionKey E → Ciphertext E → Proof E → Prop) : Prop :=
  ∃ pk sk ek dk f', setupForGroth16 T (tape E) F f b gens = .ok ((pk, sk, ek, dk), f') ∧
    P pk ek (A.cipher (public1 gens pk ek) (public2 gens pk ek dk))
      (A.proof (public1 gens pk ek) (public2 gens pk ek dk))

/-- as `experimentCca`, with at most `F` candidates -/
def experimentCcaF (F : ℕ) (pol : Policy) (side : Bool) (T : FftCfg E.Fr) (chk : Bool) (b : UInt8)
    (gens : EncryptionGens E) (A : CcaAdversary E) (f : ℕ → E.Fr) : Bool :=
  match setupForGroth16 T (tape E) F f b gens with
  | .ok ((pk, sk, ek, dk), f') => playCca pol side T chk b gens pk sk ek dk A [] f' []
  | _ => false

/-- as `rightGuessesCca`, with at most `F` candidates -/
def rightGuessesCcaF (F : ℕ) (pol : Policy) (K : ℕ) (side : Bool) (T : FftCfg E.Fr) (chk : Bool) (b : UInt8)
    (gens : EncryptionGens E) (A : CcaAdversary E) : ℕ :=
  (Finset.univ.filter fun x : Fin K → E.Fr => experimentCcaF F pol side T chk b gens A (tapeOf x) = true).card

/-- as `experimentNu`, with at most `F` candidates -/
def experimentNuF (F : ℕ) (keepNu side : Bool) (T : FftCfg E.Fr) (chk : Bool) (b : UInt8) (gens : EncryptionGens E)
    (A : CcaAdversary E) (f : ℕ → E.Fr) : Bool :=
  match setupForGroth16 T (tape E) F f b gens with
  | .ok ((pk, sk, ek, dk), f') => playNu keepNu side T chk b gens pk sk ek dk A [] f' [] []
  | _ => false

/-- as `rightGuessesNu`, with at most `F` candidates -/
def rightGuessesNuF (F : ℕ) (keepNu : Bool) (K : ℕ) (side : Bool) (T : FftCfg E.Fr) (chk : Bool) (b : UInt8)
    (gens : EncryptionGens E) (A : CcaAdversary E) : ℕ :=
  (Finset.univ.filter fun x : Fin K → E.Fr => experimentNuF F keepNu side T chk b gens A (tapeOf x) = true).card

end Spec
end Verif
