/-
Specification of C101: what the honest party reveals when it helps to re-encrypt sums of ciphertexts.
-/
import Verif.SpecReGame
import Verif.SpecDkgTapes

namespace Verif
variable {E : Engine}

namespace Spec

/-- The public outcome of key generation: generators, parameters, the parties' messages of both rounds and the joint key. -/
structure Board (E : Engine) where
  gens : EncryptionGens E
  pk : ProvingKey E
  keys : List (FEncryptionKeyPartial E)
  parts : List (P1share E)
  ek : EncryptionKey E

/-- One course of events: the rest of the random tape of the encryptions, the ciphertexts and proofs of the honest users
so far, the elements of the shares handed out by the honest party so far, and the state of its random number generator. -/
structure World (E : Engine) (σ : Type) where
  rest : ℕ → E.Fr
  users : List (Ciphertext E × Proof E)
  shares : List E.G1
  rng : σ

/-- all elements of the first group that the adversary sees -/
def Board.view1 {σ : Type} (B : Board E) (w : World E σ) : List E.G1 :=
  dkgView1 B.gens B.pk B.keys B.parts B.ek w.users ++ w.shares

/-- all elements of the second group that the adversary sees -/
def Board.view2 {σ : Type} (B : Board E) (w : World E σ) : List E.G2 := dkgView2 B.gens B.pk B.keys B.ek w.users

/-- An entry of a selection: the ciphertext of an honest user, or a ciphertext and proof made by the adversary. -/
inductive Pick (E : Engine) where
  | user (j : ℕ)
  | own (S : Strategy E.Fr)

open Classical in
/-- The ciphertext that is counted.  Those of the adversary must pass `verify_commitment_and_proof`. -/
noncomputable def Pick.ballot {σ : Type} (B : Board E) (w : World E σ) : Pick E → Option (Ciphertext E)
  | .user j => (w.users[j]?).map (·.1)
  | .own S =>
    if Accepted B.gens B.pk B.ek (S.cipher (B.view1 w)) (S.proof (B.view1 w) (B.view2 w)) then some (S.cipher (B.view1 w))
    else none

/-- The selected ciphertexts that are counted, added up with `add_cts`. -/
noncomputable def Board.sum {σ : Type} (B : Board E) (w : World E σ) (sel : List (Pick E)) : Res (List E.G1) :=
  aggregate ((sel.filterMap (·.ballot B w)).map flat)

/-- The two sums are encryptions of the same numbers, chunk by chunk. -/
def SameTally (B : Board E) (v v' : List E.G1) : Prop :=
  ∃ ct ct' m r r', v = flat ct ∧ v' = flat ct' ∧ Encrypts B.pk B.ek m r ct ∧ Encrypts B.pk B.ek m r' ct'

/-- The honest party, with secret key `sk` and random number generator `R`, hands out its share of the re-encryption of the
vector `v` for the destination key `dest`. -/
def World.help (B : Board E) (sk : SecretKeyST E) (R : RngCore E) (w : World E R.σ) (v : List E.G1) (dest : E.G1) :
    World E R.σ :=
  match reEncryptShare R w.rng B.gens (v.getD 0 0) ((v.drop 1).take B.ek.X.length) ⟨dest⟩ sk with
  | .ok ((elems, g_r), st) => { w with shares := w.shares ++ (elems ++ [g_r]), rng := st }
  | _ => w

/-- What the adversary is told when it has asked for a tally: which of the selected ciphertexts are counted, and whether
the honest party has handed out its share. -/
structure TallyReply where
  counted : List Bool
  given : Bool

/-- An adaptive generic-group adversary of the game: it asks questions about the group elements it has seen so far; it names
two messages, one of which an honest user encrypts, and receives the ciphertext with its proof; it selects ciphertexts, some
of them its own, made from what it has seen so far, and a destination key, and asks the honest party for its share of the
re-encryption of their sum; in the end it guesses. -/
inductive TallyAdversary (E : Engine) where
  | guess (right : Bool)
  | ask (q : Question E) (yes no : TallyAdversary E)
  | vote (left right : E.Fr) (next : TallyAdversary E)
  | tally (sel : List (Pick E)) (dest : ℕ → E.Fr) (next : TallyReply → TallyAdversary E)

/-- it asks at most `Q` questions, its selections have at most `D` entries in total, and at most `C` honest users encrypt -/
def TallyAdversary.AtMost : TallyAdversary E → (Q D C : ℕ) → Prop
  | .guess _, _, _, _ => True
  | .ask _ yes no, Q, D, C => 1 ≤ Q ∧ yes.AtMost (Q - 1) D C ∧ no.AtMost (Q - 1) D C
  | .vote _ _ next, Q, D, C => 1 ≤ C ∧ next.AtMost Q D (C - 1)
  | .tally sel _ next, Q, D, C => sel.length ≤ D ∧ ∀ r, (next r).AtMost Q (D - sel.length) C

/-- every leaf is the guess "right" -/
def TallyAdversary.AlwaysRight : TallyAdversary E → Prop
  | .guess a => a = true
  | .ask _ yes no => yes.AlwaysRight ∧ no.AlwaysRight
  | .vote _ _ next => next.AlwaysRight
  | .tally _ _ next => ∀ r, (next r).AlwaysRight

open Classical in
/-- The request for a tally, in the two courses of events.  The honest party hands out its share if the sum exists and, if
`careful`, only if it would be the same in both. -/
noncomputable def tallyStep (careful : Bool) (B : Board E) (sk : SecretKeyST E) (R : RngCore E) (sel : List (Pick E))
    (dest : ℕ → E.Fr) (left right : World E R.σ) : Bool × World E R.σ × World E R.σ :=
  match B.sum left sel, B.sum right sel with
  | .ok v, .ok v' =>
    if careful ∧ ¬ SameTally B v v' then (false, left, right)
    else (true, left.help B sk R v (comb dest (B.view1 left)), right.help B sk R v' (comb dest (B.view1 right)))
  | _, _ => (false, left, right)

/-- The game after key generation.  Two courses of events, on the same random tape, are followed: in the left one the honest
users encrypt the left messages, in the right one the right ones.  The adversary sees the one that `side` says. -/
noncomputable def playTally (careful side : Bool) (T : FftCfg E.Fr) (chk : Bool) (b : UInt8) (B : Board E)
    (sk : SecretKeyST E) (R : RngCore E) : TallyAdversary E → World E R.σ → World E R.σ → Bool
  | .guess a, _, _ => a
  | .ask q yes no, left, right =>
    if q.Yes (B.view1 (if side then right else left)) (B.view2 (if side then right else left)) then
      playTally careful side T chk b B sk R yes left right
    else playTally careful side T chk b B sk R no left right
  | .vote m0 m1 next, left, right =>
    match encryptWithProof T chk (tape E) left.rest m0 B.ek B.pk b,
        encryptWithProof T chk (tape E) right.rest m1 B.ek B.pk b with
    | .ok ((ct, _, proof), f), .ok ((ct', _, proof'), f') =>
      playTally careful side T chk b B sk R next { left with users := left.users ++ [(ct, proof)], rest := f }
        { right with users := right.users ++ [(ct', proof')], rest := f' }
    | _, _ => false
  | .tally sel dest next, left, right =>
    let res := tallyStep careful B sk R sel dest left right
    playTally careful side T chk b B sk R
      (next ⟨sel.map fun p => (p.ballot B (if side then right else left)).isSome, res.1⟩) res.2.1 res.2.2

/-- The whole game on one random tape: the first five scalars are those of `generate_srs`, the next `2 n + 1` those of the
honest party, the others those of the honest users.  The other parties are arbitrary machines in arbitrary states. -/
noncomputable def experimentTally (careful side : Bool) (T : FftCfg E.Fr) (chk : Bool) (b : UInt8)
    (gens : EncryptionGens E) (others1 others2 : List (Party E)) (R : RngCore E) (st : R.σ) (A : TallyAdversary E)
    (f : ℕ → E.Fr) : Bool :=
  match setupForDkg T (tape E) 1 f b gens (others1 ++ ⟨tape E, fun i => f (5 + i)⟩ :: others2) with
  | .ok (pk, keys, parts, ek) =>
    match partySecret b gens pk fun i => f (5 + i) with
    | .ok sk =>
      let start : World E R.σ := ⟨fun i => f (6 + 2 * ek.X.length + i), [], [], st⟩
      playTally careful side T chk b ⟨gens, pk, keys, parts, ek⟩ sk R A start start
    | _ => false
  | _ => false

/-- On how many of the `p^K` choices of `K` random draws does the adversary guess "right"? -/
noncomputable def rightGuessesTally (careful : Bool) (K : ℕ) (side : Bool) (T : FftCfg E.Fr) (chk : Bool) (b : UInt8)
    (gens : EncryptionGens E) (others1 others2 : List (Party E)) (R : RngCore E) (st : R.σ) (A : TallyAdversary E) : ℕ :=
  (Finset.univ.filter fun x : Fin K → E.Fr =>
    experimentTally careful side T chk b gens others1 others2 R st A (tapeOf x) = true).card

/-- The same game when `generate_srs` may draw up to `F` candidates for its evaluation point, from a tape `fs` of its own; the
honest party and the honest users draw from `h`. -/
noncomputable def experimentTallyF (F : ℕ) (careful side : Bool) (T : FftCfg E.Fr) (chk : Bool) (b : UInt8)
    (gens : EncryptionGens E) (others1 others2 : List (Party E)) (R : RngCore E) (st : R.σ) (A : TallyAdversary E)
    (fs h : ℕ → E.Fr) : Bool :=
  match setupForDkg T (tape E) F fs b gens (crew others1 others2 h) with
  | .ok (pk, keys, parts, ek) =>
    match partySecret b gens pk h with
    | .ok sk =>
      let start : World E R.σ := ⟨fun i => h (1 + 2 * ek.X.length + i), [], [], st⟩
      playTally careful side T chk b ⟨gens, pk, keys, parts, ek⟩ sk R A start start
    | _ => false
  | _ => false

/-- The honest users encrypt one message of each pair, in this order; then the adversary goes on with `A`. -/
def votes : List (E.Fr × E.Fr) → TallyAdversary E → TallyAdversary E
  | [], A => A
  | (left, right) :: P, A => .vote left right (votes P A)

/-- Votes, one request for a tally (to the destination key zero), one question, and the answer is the guess. -/
def pollster (P : List (E.Fr × E.Fr)) (sel : List (Pick E)) (q : Question E) : TallyAdversary E :=
  votes P (.tally sel (fun _ => 0) fun _ => .ask q (.guess true) (.guess false))

/-- the sum of the `i`-th chunks of the messages of the listed users, when the users' chunks are `chunks` -/
def chunkSum (chunks : List (List UInt16)) (users : List ℕ) (i : ℕ) : ℕ :=
  (users.map fun j => (nums (chunks.getD j [])).getD i 0).sum

end Spec
end Verif
