/-
Specification of C91: the game of C88 in which the holder of the secret key hands out everything that decryption
returns, the message and the element `nu` that proves the decryption correct.
-/
import Verif.SpecCca

namespace Verif
variable {E : Engine}

namespace Spec

/-- The holder of the secret key verifies the ciphertext and its proof, decrypts, and hands out the message and `nu`,
unless the message is one of the messages `M`; in this case it says so, and `keepNu` tells whether it keeps back `nu`,
too. -/
def openWithNu (keepNu chk : Bool) (b : UInt8) (gens : EncryptionGens E) (pk : ProvingKey E) (sk : SecretKey E)
    (ek : EncryptionKey E) (dk : DecryptionKey E) (M : List E.Fr) (ct : Ciphertext E) (proof : Proof E) :
    Reply E.Fr × List E.G1 :=
  match ct.verifyCommitmentAndProof proof (prepareVerifyingKey pk.pk.vk) ek.prepare gens.prepare with
  | .ok () =>
    match ct.decryptGivenGroth16Vk chk sk dk.prepare pk.pk.vk b with
    | .ok (m, nu) => if m ∈ M then (.withheld, if keepNu then [] else [nu]) else (.message m, [nu])
    | _ => (.failed, [])
  | _ => (.rejected, [])

/-- The game after the setup, as `playCca`; `nus` are the elements `nu` handed out so far.  The adversary may use them
in its questions and for the ciphertexts and proofs it submits, like all other group elements it has seen. -/
def playNu (keepNu side : Bool) (T : FftCfg E.Fr) (chk : Bool) (b : UInt8) (gens : EncryptionGens E)
    (pk : ProvingKey E) (sk : SecretKey E) (ek : EncryptionKey E) (dk : DecryptionKey E) :
    CcaAdversary E → List E.Fr → (ℕ → E.Fr) → List (Ciphertext E × Proof E) → List E.G1 → Bool
  | .guess a, _, _, _, _ => a
  | .ask q yes no, M, f, l, nus =>
    if q.Yes (view1 gens pk ek l ++ nus) (view2 gens pk ek dk l) then
      playNu keepNu side T chk b gens pk sk ek dk yes M f l nus
    else playNu keepNu side T chk b gens pk sk ek dk no M f l nus
  | .challenge m0 m1 next, M, f, l, nus =>
    match encryptWithProof T chk (tape E) f (if side then m1 else m0) ek pk b with
    | .ok ((ct, _, proof), f') =>
      playNu keepNu side T chk b gens pk sk ek dk next (m0 :: m1 :: M) f' (l ++ [(ct, proof)]) nus
    | _ => false
  | .submit S next, M, f, l, nus =>
    let rep := openWithNu keepNu chk b gens pk sk ek dk M (S.cipher (view1 gens pk ek l ++ nus))
      (S.proof (view1 gens pk ek l ++ nus) (view2 gens pk ek dk l))
    playNu keepNu side T chk b gens pk sk ek dk (next rep.1) M f l (nus ++ rep.2)

/-- The whole game on one random tape. -/
def experimentNu (keepNu side : Bool) (T : FftCfg E.Fr) (chk : Bool) (b : UInt8) (gens : EncryptionGens E)
    (A : CcaAdversary E) (f : ℕ → E.Fr) : Bool :=
  match setupForGroth16 T (tape E) 1 f b gens with
  | .ok ((pk, sk, ek, dk), f') => playNu keepNu side T chk b gens pk sk ek dk A [] f' [] []
  | _ => false

/-- On how many of the `p^K` choices of `K` random draws does the adversary guess "right"? -/
def rightGuessesNu (keepNu : Bool) (K : ℕ) (side : Bool) (T : FftCfg E.Fr) (chk : Bool) (b : UInt8)
    (gens : EncryptionGens E) (A : CcaAdversary E) : ℕ :=
  (Finset.univ.filter fun x : Fin K → E.Fr => experimentNu keepNu side T chk b gens A (tapeOf x) = true).card

end Spec
end Verif
