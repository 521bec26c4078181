/-
Specification of C98: what a ciphertext under a distributed key says to its destination.
-/
import Verif.SpecNmDkg

namespace Verif
variable {E : Engine}

namespace Spec

/-- Whoever the destination is, whatever the order and the randomness of the parties that hold the secret keys `sks`, and in
both build modes: the parties re-encrypt `ct` for the destination, and the destination decrypts it to `chunks`. -/
def Says (b : UInt8) (gens : EncryptionGens E) (g_i : List E.G1) (sks : List (SecretKeyST E)) (ct : Ciphertext E)
    (chunks : List UInt16) : Prop :=
  ∀ (Rd : RngCore E) (std std' : Rd.σ) (skd : SecretKey E) (ekd : FEncryptionKeyDest E),
    fkeygenDest Rd std gens = .ok ((skd, ekd), std') →
    ∀ rp : List (SecretKeyST E × Party E), (rp.map (·.1)).Perm sks → ∀ chk : Bool,
      ∃ g_r cs, reEncryptAll gens ct.X_r ct.enc_chunks ekd rp = .ok (g_r :: cs) ∧
        decryptAfterReEncryption chk g_r cs skd g_i b = .ok chunks

/-- the parties of the game: the honest one draws from the tape `f`, from position 5 on -/
abbrev team (others1 others2 : List (Party E)) (f : ℕ → E.Fr) : List (Party E) :=
  others1 ++ ⟨tape E, fun i => f (5 + i)⟩ :: others2

/-- under the key made by the parties of the game, `ct` says `chunks` to every destination -/
def Told (b : UInt8) (gens : EncryptionGens E) (others1 others2 : List (Party E)) (f : ℕ → E.Fr) (pk : ProvingKey E)
    (ek : EncryptionKey E) (ct : Ciphertext E) (chunks : List UInt16) : Prop :=
  ∃ g_i sks, getGsForEncryption pk.pk.vk = .ok g_i ∧
    dkg (team others1 others2 f) b gens g_i pk.pk.delta_g1 pk.gamma_g1 = .ok (sks, ek) ∧ Says b gens g_i sks ct chunks

end Spec
end Verif
