/-
The functions that search for discrete logarithms, and the decryption functions that use them, with a count of the work the
search does.  These are copies of definitions in `Model/Encryption` with a counter; that they compute the same is proved
(C111).
-/
import Verif.Model.Encryption

namespace Verif
variable {E : Engine}

/-- A result and how often the body of a search loop was run until then.
For the loops at src/encryption.rs:516-522,535-541,554-562. -/
abbrev Counted (α : Type) := Res α × ℕ

/-- No search. For the code around the loops of src/encryption.rs:507-562. -/
def Counted.free {α : Type} (x : Res α) : Counted α := (x, 0)

/-- One after the other; a failure or an abort ends it (`?`, panics).
For the sequencing in src/encryption.rs:282-350,473-504. -/
def Counted.andThen {α β : Type} (x : Counted α) (f : α → Counted β) : Counted β :=
  match x with
  | (.ok a, k) => ((f a).1, k + (f a).2)
  | (.err e, k) => (.err e, k)
  | (.panic, k) => (.panic, k)

/-- A loop whose body may fail, as `mapRes`. For the loops at src/encryption.rs:322-348,492-502. -/
def mapCounted {α β : Type} (f : α → Counted β) : List α → Counted (List β)
  | [] => .free (.ok [])
  | a :: as => (f a).andThen fun b => (mapCounted f as).andThen fun bs => .free (.ok (b :: bs))

/-- The loop of src/encryption.rs:516-522 and 535-541; one group addition and one comparison each time. -/
def dlogLoopC {A : Type} [AddCommGroup A] [DecidableEq A] (g p : A) : A → ℕ → ℕ → Counted UInt16
  | _, _, 0 => .free (.err .couldNotFindDiscreteLog)
  | cur, j, k + 1 =>
    if cur + g = p then (.ok (UInt16.ofNat j), 1)
    else ((dlogLoopC g p (cur + g) (j + 1) k).1, 1 + (dlogLoopC g p (cur + g) (j + 1) k).2)

/-- `solve_discrete_log`, `solve_discrete_log_for_g`, src/encryption.rs:507-542. -/
def solveDiscreteLogC {A : Type} [AddCommGroup A] [DecidableEq A] (maxVal : UInt16) (g p : A) : Counted UInt16 :=
  if p = g then .free (.ok 1) else dlogLoopC g p g 2 (maxVal.toNat - 1)

/-- The loop of src/encryption.rs:554-562; one comparison with an entry of the table each time. -/
def powersSearchC {A : Type} [DecidableEq A] (powers : List (List A)) (i : ℕ) (p : A) : ℕ → ℕ → Counted UInt16
  | _, 0 => .free (.err .couldNotFindDiscreteLog)
  | j0, k + 1 => Counted.andThen (idx powers i, 1) fun row =>
    if row.length < j0 then .free (.err .invalidPairingPowers)
    else (Counted.free (idx row j0)).andThen fun x =>
      if x = p then .free (.ok (UInt16.ofNat j0 + 1)) else powersSearchC powers i p (j0 + 1) k

/-- `solve_discrete_log_using_pairing_powers`, src/encryption.rs:545-564. -/
def solveDiscreteLogUsingPairingPowersC {A : Type} [DecidableEq A] (i : ℕ) (maxVal : UInt16) (p : A)
    (powers : List (List A)) : Counted UInt16 :=
  if powers.length < i then .free (.err .invalidPairingPowers) else powersSearchC powers i p 0 maxVal.toNat

/-- `Encryption::decrypt_to_chunks_given_pairing_powers`, src/encryption.rs:296-350. -/
def decryptToChunksGivenPairingPowersC (chk : Bool) (c_0 : E.G1) (c : List E.G1) (sk : SecretKey E)
    (dk : PreparedDecryptionKey E) (g_i : List E.G1) (b : UInt8) (powers : Option (List (List E.GT))) :
    Counted (List UInt16 × E.G1) :=
  let n := c.length
  (Counted.free dk.supportedChunksCount).andThen fun cnt =>
  if n ≠ cnt.toNat then .free (.err (.incompatibleDecryptionKey n cnt.toNat))
  else if n > g_i.length then .free (.err (.vectorShorterThanExpected n g_i.length))
  else
    let c_0_rho := mulBigint c_0 (intoBigint (K := E.fr) (-sk.rho))
    (Counted.free (chunkMaxU32 chk b)).andThen fun maxVal =>
    let pw := powers.getD []
    (mapCounted (fun i =>
      (Counted.free (idx c i)).andThen fun ci =>
      (Counted.free (idx dk.V_2 i)).andThen fun v2 =>
      (Counted.free (idx dk.V_1 i)).andThen fun v1 =>
      (Counted.free (E.multiPairing [ci, c_0_rho] [v2, v1])).andThen fun p =>
      if p = 0 then .free (.ok 0)
      else if pw.isEmpty then
        (Counted.free (idx g_i i)).andThen fun g => solveDiscreteLogC (UInt16.ofNat maxVal) (E.pairP g v2) p
      else solveDiscreteLogUsingPairingPowersC i (UInt16.ofNat maxVal) p pw) (List.range n)).andThen fun chunks =>
    .free (.ok (chunks, -c_0_rho))

/-- `Encryption::decrypt_to_chunks_after_re_encryption`, src/encryption.rs:473-504. -/
def decryptAfterReEncryptionC (chk : Bool) (c_0 : E.G1) (c : List E.G1) (sk : SecretKey E) (g_i : List E.G1) (b : UInt8) :
    Counted (List UInt16) :=
  let n := c.length
  if n > g_i.length then .free (.err (.vectorShorterThanExpected n g_i.length))
  else
    let c_0_rho := mulBigint c_0 (intoBigint (K := E.fr) (-sk.rho))
    (Counted.free (mapRes (fun i => do
      let x ← idx c i
      return x + c_0_rho) (List.range n))).andThen fun gi_mi =>
    (Counted.free (chunkMaxU32 chk b)).andThen fun maxVal =>
    mapCounted (fun i =>
      (Counted.free (idx gi_mi i)).andThen fun p =>
      if p = 0 then .free (.ok 0)
      else (Counted.free (idx g_i i)).andThen fun g => solveDiscreteLogC (UInt16.ofNat maxVal) g p) (List.range n)

end Verif
