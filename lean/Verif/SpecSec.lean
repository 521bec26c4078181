/-
Specification of the secrecy games, used by C64 onwards: a generic-group adversary, what it is shown, and
the left-or-right encryption experiment.
-/
import Verif.SpecAgm
import Mathlib.Data.Fintype.BigOperators
import Mathlib.Data.ZMod.Defs

namespace Verif
variable {E : Engine}

namespace Spec

/-- A question of a generic-group adversary about the group elements it holds: does a linear combination of
elements of the first group, or of the second group, vanish; does a combination of pairings of all elements of
the first group with all elements of the second group, plus a constant, vanish? -/
inductive Question (E : Engine) where
  | first (k : ℕ → E.Fr)
  | second (k : ℕ → E.Fr)
  | target (k : ℕ → ℕ → E.Fr) (T : E.GT)

/-- the answer, for the elements `view1` of the first and `view2` of the second group -/
def Question.Yes (view1 : List E.G1) (view2 : List E.G2) : Question E → Prop
  | .first k => comb k view1 = 0
  | .second k => comb k view2 = 0
  | .target k T => (∑ i ∈ Finset.range view1.length, ∑ j ∈ Finset.range view2.length,
      k i j • E.e (view1.getD i 0) (view2.getD j 0)) + T = 0

instance (view1 : List E.G1) (view2 : List E.G2) (q : Question E) : Decidable (q.Yes view1 view2) := by
  cases q <;> unfold Question.Yes <;> infer_instance

/-- An adaptive adversary of a left-or-right game: it asks questions about the group elements it holds, it
hands over two messages and receives the encryption of one of them, and in the end it guesses. -/
inductive Adversary (E : Engine) (Msg : Type) where
  | guess (right : Bool)
  | ask (q : Question E) (yes no : Adversary E Msg)
  | challenge (left right : Msg) (next : Adversary E Msg)

variable {Msg : Type}

/-- the largest number of questions it asks -/
def Adversary.questions : Adversary E Msg → ℕ
  | .guess _ => 0
  | .ask _ yes no => 1 + max yes.questions no.questions
  | .challenge _ _ next => next.questions

/-- the largest number of encryptions it receives -/
def Adversary.challenges : Adversary E Msg → ℕ
  | .guess _ => 0
  | .ask _ yes no => max yes.challenges no.challenges
  | .challenge _ _ next => 1 + next.challenges

/-- every pair of messages it hands over is related by `P` (e.g. has the same length) -/
def Adversary.Fair (P : Msg → Msg → Prop) : Adversary E Msg → Prop
  | .guess _ => True
  | .ask _ yes no => yes.Fair P ∧ no.Fair P
  | .challenge left right next => P left right ∧ next.Fair P

/-- every leaf of the adversary is the guess "right" -/
def Adversary.AlwaysRight : Adversary E Msg → Prop
  | .guess b => b = true
  | .ask _ yes no => yes.AlwaysRight ∧ no.AlwaysRight
  | .challenge _ _ next => next.AlwaysRight

/-- The game, after key generation: `right` says which message is encrypted, `f` is the rest of the random
tape, `view1` and `view2` are the group elements the adversary has been given so far. -/
def play (right : Bool) (ek : EncryptionKey E) (g_i : List E.G1) (view2 : List E.G2) :
    Adversary E (List UInt16) → (ℕ → E.Fr) → List E.G1 → Bool
  | .guess b, _, _ => b
  | .ask q yes no, f, view1 =>
    if q.Yes view1 view2 then play right ek g_i view2 yes f view1 else play right ek g_i view2 no f view1
  | .challenge m0 m1 next, f, view1 =>
    match encryptDecomposedMessage (tape E) f (if right then m1 else m0) ek g_i with
    | .ok ((ct, _), f') => play right ek g_i view2 next f' (view1 ++ ct)
    | _ => false

/-- The elements of the two groups in an encryption key and a decryption key. -/
def keyElems1 (ek : EncryptionKey E) : List E.G1 := [ek.X_0, ek.P_1, ek.P_2] ++ (ek.X ++ ek.Y)

def keyElems2 (ek : EncryptionKey E) (dk : DecryptionKey E) : List E.G2 :=
  ek.Z ++ ([dk.V_0] ++ (dk.V_1 ++ dk.V_2))

/-- The left-or-right experiment with random tape `f`: generate keys, give the adversary the encryption key,
the decryption key and arbitrary further public points `pub1`, `pub2`, and let it play. -/
def experiment (right : Bool) (b : UInt8) (gens : EncryptionGens E) (g_i : List E.G1) (D C : E.G1)
    (pub1 : List E.G1) (pub2 : List E.G2) (A : Adversary E (List UInt16)) (f : ℕ → E.Fr) : Bool :=
  match keygen (tape E) f b gens g_i D C with
  | .ok ((_, ek, dk), f') => play right ek g_i (pub2 ++ keyElems2 ek dk) A f' (pub1 ++ keyElems1 ek)
  | _ => false

/-- On how many of the `p^K` choices of `K` random draws does the adversary guess "right"? -/
def rightGuesses (K : ℕ) (right : Bool) (b : UInt8) (gens : EncryptionGens E) (g_i : List E.G1) (D C : E.G1)
    (pub1 : List E.G1) (pub2 : List E.G2) (A : Adversary E (List UInt16)) : ℕ :=
  (Finset.univ.filter fun x : Fin K → E.Fr =>
    experiment right b gens g_i D C pub1 pub2 A (tapeOf x) = true).card

/-! ### The same with proofs -/

/-- The game in which `encrypt_with_proof` is used: messages are field elements, the adversary also receives
the proof. -/
def playWithProof (right : Bool) (T : FftCfg E.Fr) (chk : Bool) (b : UInt8) (pk : ProvingKey E)
    (ek : EncryptionKey E) : Adversary E E.Fr → (ℕ → E.Fr) → List E.G1 → List E.G2 → Bool
  | .guess b, _, _, _ => b
  | .ask q yes no, f, view1, view2 =>
    if q.Yes view1 view2 then playWithProof right T chk b pk ek yes f view1 view2
    else playWithProof right T chk b pk ek no f view1 view2
  | .challenge m0 m1 next, f, view1, view2 =>
    match encryptWithProof T chk (tape E) f (if right then m1 else m0) ek pk b with
    | .ok ((ct, _, proof), f') =>
      playWithProof right T chk b pk ek next f'
        (view1 ++ ([ct.X_r] ++ ct.enc_chunks ++ [ct.commitment, proof.a, proof.c])) (view2 ++ [proof.b])
    | _ => false

/-- the experiment: keys for the parameters in `pk`, then the game -/
def experimentWithProof (right : Bool) (T : FftCfg E.Fr) (chk : Bool) (b : UInt8) (gens : EncryptionGens E)
    (pk : ProvingKey E) (pub1 : List E.G1) (pub2 : List E.G2) (A : Adversary E E.Fr) (f : ℕ → E.Fr) : Bool :=
  match getGsForEncryption pk.pk.vk with
  | .ok g_i =>
    match keygen (tape E) f b gens g_i pk.pk.delta_g1 pk.gamma_g1 with
    | .ok ((_, ek, dk), f') =>
      playWithProof right T chk b pk ek A f' (pub1 ++ keyElems1 ek) (pub2 ++ keyElems2 ek dk)
    | _ => false
  | _ => false

/-- On how many of the `p^K` choices of `K` random draws does the adversary guess "right"? -/
def rightGuessesWithProof (K : ℕ) (right : Bool) (T : FftCfg E.Fr) (chk : Bool) (b : UInt8)
    (gens : EncryptionGens E) (pk : ProvingKey E) (pub1 : List E.G1) (pub2 : List E.G2)
    (A : Adversary E E.Fr) : ℕ :=
  (Finset.univ.filter fun x : Fin K → E.Fr =>
    experimentWithProof right T chk b gens pk pub1 pub2 A (tapeOf x) = true).card

/-! ### Distributed key generation with one honest party -/

/-- the elements of the first group in a partial key -/
def partialElems1 (k : FEncryptionKeyPartial E) : List E.G1 := [k.X_0, k.P_2] ++ (k.X ++ k.Y)

/-- The left-or-right experiment for distributed key generation: one party draws its secrets from the tape `f`,
all others (`others1` before and `others2` after it in the order of combination) are arbitrary machines in
arbitrary states, so that their secrets are constants the adversary may know.  The adversary is given all
messages of the key generation and the final key; encryption uses the rest of the tape. -/
def experimentDkg (right : Bool) (b : UInt8) (gens : EncryptionGens E) (g_i : List E.G1) (D C : E.G1)
    (others1 others2 : List (Party E)) (pub1 : List E.G1) (pub2 : List E.G2) (A : Adversary E (List UInt16))
    (f : ℕ → E.Fr) : Bool :=
  match dkgTranscript (others1 ++ ⟨tape E, f⟩ :: others2) b gens g_i D C,
      fkeygenPartial (tape E) f b gens g_i D C with
  | .ok (keys, shares, ek), .ok (_, f') =>
    play right ek g_i (pub2 ++ (keys.map (·.Z)).flatten ++ ek.Z) A f'
      (pub1 ++ (keys.map partialElems1).flatten ++ shares.map (·.P_1) ++ keyElems1 ek)
  | _, _ => false

/-- On how many of the `p^K` choices of `K` random draws does the adversary guess "right"? -/
def rightGuessesDkg (K : ℕ) (right : Bool) (b : UInt8) (gens : EncryptionGens E) (g_i : List E.G1) (D C : E.G1)
    (others1 others2 : List (Party E)) (pub1 : List E.G1) (pub2 : List E.G2) (A : Adversary E (List UInt16)) : ℕ :=
  (Finset.univ.filter fun x : Fin K → E.Fr =>
    experimentDkg right b gens g_i D C others1 others2 pub1 pub2 A (tapeOf x) = true).card

/-- The same with `encrypt_with_proof`, the keys being made for the parameters in `pk`. -/
def experimentDkgWithProof (right : Bool) (T : FftCfg E.Fr) (chk : Bool) (b : UInt8) (gens : EncryptionGens E)
    (pk : ProvingKey E) (others1 others2 : List (Party E)) (pub1 : List E.G1) (pub2 : List E.G2)
    (A : Adversary E E.Fr) (f : ℕ → E.Fr) : Bool :=
  match getGsForEncryption pk.pk.vk with
  | .ok g_i =>
    match dkgTranscript (others1 ++ ⟨tape E, f⟩ :: others2) b gens g_i pk.pk.delta_g1 pk.gamma_g1,
        fkeygenPartial (tape E) f b gens g_i pk.pk.delta_g1 pk.gamma_g1 with
    | .ok (keys, shares, ek), .ok (_, f') =>
      playWithProof right T chk b pk ek A f'
        (pub1 ++ (keys.map partialElems1).flatten ++ shares.map (·.P_1) ++ keyElems1 ek)
        (pub2 ++ (keys.map (·.Z)).flatten ++ ek.Z)
    | _, _ => false
  | _ => false

def rightGuessesDkgWithProof (K : ℕ) (right : Bool) (T : FftCfg E.Fr) (chk : Bool) (b : UInt8)
    (gens : EncryptionGens E) (pk : ProvingKey E) (others1 others2 : List (Party E)) (pub1 : List E.G1)
    (pub2 : List E.G2) (A : Adversary E E.Fr) : ℕ :=
  (Finset.univ.filter fun x : Fin K → E.Fr =>
    experimentDkgWithProof right T chk b gens pk others1 others2 pub1 pub2 A (tapeOf x) = true).card

end Spec
end Verif
