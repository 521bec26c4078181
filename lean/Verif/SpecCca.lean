/-
Specification of C88: the left-or-right game in which the adversary may also submit ciphertexts with proofs to the
holder of the secret key, who decrypts those that `verify_commitment_and_proof` accepts.
-/
import Verif.SpecNmAdapt

namespace Verif
variable {E : Engine}

namespace Spec

/-- What the holder of the secret key answers. -/
inductive Reply (F : Type) where
  | rejected
  | failed
  | withheld
  | message (m : F)

/-- How careful the holder of the secret key is: does it run `verify_commitment_and_proof` before it decrypts, and
does it keep back the messages that the adversary has handed over itself? -/
structure Policy where
  verify : Bool
  withhold : Bool

/-- The holder of the secret key verifies the ciphertext and its proof, decrypts, and tells the message, unless it is
one of the messages `M`. -/
def openVerified (pol : Policy) (chk : Bool) (b : UInt8) (gens : EncryptionGens E) (pk : ProvingKey E) (sk : SecretKey E)
    (ek : EncryptionKey E) (dk : DecryptionKey E) (M : List E.Fr) (ct : Ciphertext E) (proof : Proof E) :
    Reply E.Fr :=
  match (if pol.verify then
      ct.verifyCommitmentAndProof proof (prepareVerifyingKey pk.pk.vk) ek.prepare gens.prepare else .ok ()) with
  | .ok () =>
    match ct.decryptGivenGroth16Vk chk sk dk.prepare pk.pk.vk b with
    | .ok (m, _) => if pol.withhold ∧ m ∈ M then .withheld else .message m
    | _ => .failed
  | _ => .rejected

/-- An adaptive generic-group adversary of the left-or-right game: it asks questions about the group elements it has
seen so far; it hands over two messages and receives the encryption of one of them with its proof; it submits a
ciphertext and a proof made from what it has seen so far; in the end it guesses. -/
inductive CcaAdversary (E : Engine) where
  | guess (right : Bool)
  | ask (q : Question E) (yes no : CcaAdversary E)
  | challenge (left right : E.Fr) (next : CcaAdversary E)
  | submit (S : Strategy E.Fr) (next : Reply E.Fr → CcaAdversary E)

/-- it asks at most `Q` questions and submits at most `D` ciphertexts, and receives at most `C` encryptions -/
def CcaAdversary.AtMost : CcaAdversary E → (Q D C : ℕ) → Prop
  | .guess _, _, _, _ => True
  | .ask _ yes no, Q, D, C => 1 ≤ Q ∧ yes.AtMost (Q - 1) D C ∧ no.AtMost (Q - 1) D C
  | .challenge _ _ next, Q, D, C => 1 ≤ C ∧ next.AtMost Q D (C - 1)
  | .submit _ next, Q, D, C => 1 ≤ D ∧ ∀ r, (next r).AtMost Q (D - 1) C

/-- every leaf is the guess "right" -/
def CcaAdversary.AlwaysRight : CcaAdversary E → Prop
  | .guess b => b = true
  | .ask _ yes no => yes.AlwaysRight ∧ no.AlwaysRight
  | .challenge _ _ next => next.AlwaysRight
  | .submit _ next => ∀ r, (next r).AlwaysRight

/-- The game after the setup: `side` says which messages are encrypted, `M` are the messages handed over so far, `f`
is the rest of the random tape, `l` are the ciphertexts and proofs received so far. -/
def playCca (pol : Policy) (side : Bool) (T : FftCfg E.Fr) (chk : Bool) (b : UInt8) (gens : EncryptionGens E) (pk : ProvingKey E)
    (sk : SecretKey E) (ek : EncryptionKey E) (dk : DecryptionKey E) :
    CcaAdversary E → List E.Fr → (ℕ → E.Fr) → List (Ciphertext E × Proof E) → Bool
  | .guess a, _, _, _ => a
  | .ask q yes no, M, f, l =>
    if q.Yes (view1 gens pk ek l) (view2 gens pk ek dk l) then playCca pol side T chk b gens pk sk ek dk yes M f l
    else playCca pol side T chk b gens pk sk ek dk no M f l
  | .challenge m0 m1 next, M, f, l =>
    match encryptWithProof T chk (tape E) f (if side then m1 else m0) ek pk b with
    | .ok ((ct, _, proof), f') =>
      playCca pol side T chk b gens pk sk ek dk next (m0 :: m1 :: M) f' (l ++ [(ct, proof)])
    | _ => false
  | .submit S next, M, f, l =>
    playCca pol side T chk b gens pk sk ek dk (next (openVerified pol chk b gens pk sk ek dk M
      (S.cipher (view1 gens pk ek l)) (S.proof (view1 gens pk ek l) (view2 gens pk ek dk l)))) M f l

/-- The whole game on one random tape: `setup_for_groth16` (which must succeed at the first candidate for the evaluation
point), then the game. -/
def experimentCca (pol : Policy) (side : Bool) (T : FftCfg E.Fr) (chk : Bool) (b : UInt8) (gens : EncryptionGens E)
    (A : CcaAdversary E) (f : ℕ → E.Fr) : Bool :=
  match setupForGroth16 T (tape E) 1 f b gens with
  | .ok ((pk, sk, ek, dk), f') => playCca pol side T chk b gens pk sk ek dk A [] f' []
  | _ => false

/-- On how many of the `p^K` choices of `K` random draws does the adversary guess "right"? -/
def rightGuessesCca (pol : Policy) (K : ℕ) (side : Bool) (T : FftCfg E.Fr) (chk : Bool) (b : UInt8) (gens : EncryptionGens E)
    (A : CcaAdversary E) : ℕ :=
  (Finset.univ.filter fun x : Fin K → E.Fr => experimentCca pol side T chk b gens A (tapeOf x) = true).card

end Spec
end Verif
