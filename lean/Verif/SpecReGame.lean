/-
Specification of C94: the left-or-right game under a distributed key in which the adversary controls all parties but one
and asks the honest party for its shares of re-encryptions.
-/
import Verif.SpecNmDkg
import Verif.SpecCca

namespace Verif
variable {E : Engine}

namespace Spec

/-- What the honest party answers to a request. -/
inductive ReReply where
  | rejected
  | withheld
  | failed
  | share

/-- The ciphertext is a possible output of `encrypt` for the message `m`. -/
def OutputOf (b : UInt8) (pk : ProvingKey E) (ek : EncryptionKey E) (m : E.Fr) (ct : Ciphertext E) : Prop :=
  ∃ g_i f r f', getGsForEncryption pk.pk.vk = .ok g_i ∧ encrypt (tape E) f m ek g_i b = .ok ((ct, r), f')

open Classical in
/-- The honest party, with secret key `sk`, is asked to help re-encrypting `ct` for the destination key `dest`.  It runs
`verify_commitment_and_proof` (if `pol.verify`), refuses ciphertexts that carry one of the messages `M` (if `pol.withhold`),
and otherwise hands out the share computed by `re_encrypt_share`. -/
noncomputable def helpReEncrypt (pol : Policy) (b : UInt8) (gens : EncryptionGens E) (pk : ProvingKey E) (ek : EncryptionKey E)
    (sk : SecretKeyST E) (R : RngCore E) (st : R.σ) (M : List E.Fr) (ct : Ciphertext E) (proof : Proof E)
    (dest : FEncryptionKeyDest E) : ReReply × List E.G1 × R.σ :=
  if pol.verify ∧ ct.verifyCommitmentAndProof proof (prepareVerifyingKey pk.pk.vk) ek.prepare gens.prepare ≠ .ok () then
    (.rejected, [], st)
  else if pol.withhold ∧ ∃ m ∈ M, OutputOf b pk ek m ct then (.withheld, [], st)
  else match reEncryptShare R st gens ct.X_r ct.enc_chunks dest sk with
    | .ok ((w, g_r), st) => (.share, w ++ [g_r], st)
    | _ => (.failed, [], st)

/-- An adaptive generic-group adversary of the game: it asks questions about the group elements it has seen so far; it
hands over two messages and receives the encryption of one of them with its proof; it submits a ciphertext, a proof and
a destination key made from what it has seen so far; in the end it guesses. -/
inductive ReAdversary (E : Engine) where
  | guess (right : Bool)
  | ask (q : Question E) (yes no : ReAdversary E)
  | challenge (left right : E.Fr) (next : ReAdversary E)
  | request (S : Strategy E.Fr) (dest : ℕ → E.Fr) (next : ReReply → ReAdversary E)

/-- it asks at most `Q` questions and makes at most `D` requests, and receives at most `C` encryptions -/
def ReAdversary.AtMost : ReAdversary E → (Q D C : ℕ) → Prop
  | .guess _, _, _, _ => True
  | .ask _ yes no, Q, D, C => 1 ≤ Q ∧ yes.AtMost (Q - 1) D C ∧ no.AtMost (Q - 1) D C
  | .challenge _ _ next, Q, D, C => 1 ≤ C ∧ next.AtMost Q D (C - 1)
  | .request _ _ next, Q, D, C => 1 ≤ D ∧ ∀ r, (next r).AtMost Q (D - 1) C

/-- every leaf is the guess "right" -/
def ReAdversary.AlwaysRight : ReAdversary E → Prop
  | .guess a => a = true
  | .ask _ yes no => yes.AlwaysRight ∧ no.AlwaysRight
  | .challenge _ _ next => next.AlwaysRight
  | .request _ _ next => ∀ r, (next r).AlwaysRight

/-- The game after key generation: `side` says which messages are encrypted, `sk` is the honest party's secret key, `R` its
random number generator for re-encryptions.  `M` are the messages handed over so far, `f` is the rest of the random tape of
the encryptions, `l` are the ciphertexts and proofs received so far, `ws` the elements of all shares handed out so far, and
`st` is the state of `R`. -/
noncomputable def playRe (pol : Policy) (side : Bool) (T : FftCfg E.Fr) (chk : Bool) (b : UInt8) (gens : EncryptionGens E)
    (pk : ProvingKey E) (keys : List (FEncryptionKeyPartial E)) (shares : List (P1share E)) (ek : EncryptionKey E)
    (sk : SecretKeyST E) (R : RngCore E) :
    ReAdversary E → List E.Fr → (ℕ → E.Fr) → List (Ciphertext E × Proof E) → List E.G1 → R.σ → Bool
  | .guess a, _, _, _, _, _ => a
  | .ask q yes no, M, f, l, ws, st =>
    if q.Yes (dkgView1 gens pk keys shares ek l ++ ws) (dkgView2 gens pk keys ek l) then
      playRe pol side T chk b gens pk keys shares ek sk R yes M f l ws st
    else playRe pol side T chk b gens pk keys shares ek sk R no M f l ws st
  | .challenge m0 m1 next, M, f, l, ws, st =>
    match encryptWithProof T chk (tape E) f (if side then m1 else m0) ek pk b with
    | .ok ((ct, _, proof), f') =>
      playRe pol side T chk b gens pk keys shares ek sk R next (m0 :: m1 :: M) f' (l ++ [(ct, proof)]) ws st
    | _ => false
  | .request S dest next, M, f, l, ws, st =>
    let V1 := dkgView1 gens pk keys shares ek l ++ ws
    let rep := helpReEncrypt pol b gens pk ek sk R st M (S.cipher V1) (S.proof V1 (dkgView2 gens pk keys ek l))
      ⟨comb dest V1⟩
    playRe pol side T chk b gens pk keys shares ek sk R (next rep.1) M f l (ws ++ rep.2.1) rep.2.2

/-- The secret key that `FkeygenPartial` returns to a party with the tape `f`. -/
def partySecret (b : UInt8) (gens : EncryptionGens E) (pk : ProvingKey E) (f : ℕ → E.Fr) : Res (SecretKeyST E) := do
  let g_i ← getGsForEncryption pk.pk.vk
  let ((sk, _), _) ← fkeygenPartial (tape E) f b gens g_i pk.pk.delta_g1 pk.gamma_g1
  return sk

/-- The whole game on one random tape: the first five scalars are those of `generate_srs`, the next `2 n + 1` those of the
honest party, the others those of the encryptions.  The other parties are arbitrary machines in arbitrary states. -/
noncomputable def experimentRe (pol : Policy) (side : Bool) (T : FftCfg E.Fr) (chk : Bool) (b : UInt8) (gens : EncryptionGens E)
    (others1 others2 : List (Party E)) (R : RngCore E) (st : R.σ) (A : ReAdversary E) (f : ℕ → E.Fr) : Bool :=
  match setupForDkg T (tape E) 1 f b gens (others1 ++ ⟨tape E, fun i => f (5 + i)⟩ :: others2) with
  | .ok (pk, keys, shares, ek) =>
    match partySecret b gens pk fun i => f (5 + i) with
    | .ok sk =>
      playRe pol side T chk b gens pk keys shares ek sk R A [] (fun i => f (6 + 2 * ek.X.length + i)) [] [] st
    | _ => false
  | _ => false

/-- On how many of the `p^K` choices of `K` random draws does the adversary guess "right"? -/
noncomputable def rightGuessesRe (pol : Policy) (K : ℕ) (side : Bool) (T : FftCfg E.Fr) (chk : Bool) (b : UInt8)
    (gens : EncryptionGens E) (others1 others2 : List (Party E)) (R : RngCore E) (st : R.σ) (A : ReAdversary E) : ℕ :=
  (Finset.univ.filter fun x : Fin K → E.Fr =>
    experimentRe pol side T chk b gens others1 others2 R st A (tapeOf x) = true).card

end Spec
end Verif
