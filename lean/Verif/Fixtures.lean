/-
A concrete run of the system over the Goldilocks field with 16-bit chunks (4 chunks), used in the
`example`s beside the property theorems to show that their hypotheses can be met: keys from
`keygen`, keys from the two-party protocol, ciphertexts of two encryptors, a destination key.
-/
import Verif.Instances
import Verif.Lemmas.Enc
import Verif.Lemmas.ReEnc

namespace Verif
noncomputable section
namespace Fix
open Spec

/-- scalar engine over the 64-bit Goldilocks field -/
abbrev E : Engine := Engine.scalar goldFr

theorem count : chunksCount E.fr 16 = .ok 4 := by
  show chunksCount goldFr 16 = .ok 4
  simp [chunksCount, goldFr_modBits]

theorem aligned : 64 * E.fr.limbs < E.fr.modBits + (16 : UInt8).toNat ∧
    chunksNeeded E.fr (16 : UInt8).toNat ≤ 255 := by
  have h : E.fr.modBits = 64 := goldFr_modBits
  unfold chunksNeeded
  rw [h]
  exact ⟨by decide +kernel, by decide +kernel⟩

abbrev F := ZMod goldR

def gens : EncryptionGens E := ⟨(2 : F), (3 : F)⟩
def gi : List E.G1 := ([5, 7, 11, 13] : List F)
def D : E.G1 := (17 : F)
def C : E.G1 := (19 : F)

/-- `rho = 3`, `s = 2, 4, 6, 8`, `t = 1, 3, 5, 7, 9`, `v = 10, 11, 12, 13` -/
def st : (listRng E).σ := (([3, 2, 4, 6, 8, 1, 3, 5, 7, 9, 10, 11, 12, 13] : List F), [], [])
/-- the encryptors' random scalars are 20 and 21, the destination's secret is 22 -/
def st1 : (listRng E).σ := (([20] : List F), [], [])
def st2 : (listRng E).σ := (([21] : List F), [], [])
def st3 : (listRng E).σ := (([22] : List F), [], [])

def sk : SecretKey E := ⟨(3 : F)⟩
def ek : EncryptionKey E where
  X_0 := (17 : F)
  X := ([34, 68, 102, 136] : List F)
  Y := ([15, 35, 77, 117] : List F)
  Z := ([3, 9, 15, 21, 27] : List F)
  P_1 := ((1 + (2 * 3 + 4 * 5 + 6 * 7 + 8 * 9)) * 17 : F)
  P_2 := ((1 + 20) * 19 : F)
def dk : DecryptionKey E where
  V_0 := (9 : F)
  V_1 := ([60, 132, 216, 312] : List F)
  V_2 := ([90, 99, 108, 117] : List F)

theorem four : (4 : UInt8).toNat = 4 := by decide

theorem keygen_ok : keygen (listRng E) st 16 gens gi D C = .ok ((sk, ek, dk), ([], [], [])) := by
  rw [keygen_eq (listRng E) st gens gi D C count (by decide +kernel)]
  rw [four]
  have h1 : encKey (E := E) 4 (fun i => draw (listRng E) st (1 + i))
      (fun i => draw (listRng E) st (1 + 4 + i)) (fun i => gi.getD i 0) D C gens.H = ek := by
    apply EncryptionKey.ext <;> decide +kernel
  have h2 : decKey (E := E) 4 (draw (listRng E) st 0) (fun i => draw (listRng E) st (1 + i))
      (fun i => draw (listRng E) st (2 + 2 * 4 + i)) gens.H = dk := by
    unfold decKey dk
    congr 1
  rw [h1, h2]
  rfl

theorem fromSetup : FromSetup ek 16 gens gi D C :=
  Or.inl ⟨listRng E, st, ([], [], []), sk, dk, keygen_ok⟩

theorem wf : WellFormed ek := ⟨by decide +kernel, by decide +kernel⟩

theorem ne_of_all {l : List F} (h : l.all (fun g => decide (g ≠ 0)) = true) : ∀ g ∈ l, g ≠ 0 :=
  fun g hg => of_decide_eq_true (List.all_eq_true.mp h g hg)

theorem gi_ne : ∀ g ∈ gi, g ≠ 0 := ne_of_all (l := gi) (by decide +kernel)
theorem V2_ne : ∀ V ∈ dk.V_2, V ≠ 0 := ne_of_all (l := dk.V_2) (by decide +kernel)

/-- the chunk vectors of two messages -/
def m1 : List UInt16 := [1, 2, 300, 4]
def m2 : List UInt16 := [10, 20, 3000, 0]

/-- ciphertext of `m1` under `ek` with `r = 20` -/
def ct1 : Ciphertext E where
  X_r := (340 : F)
  enc_chunks := ([685, 1374, 5340, 2772] : List F)
  commitment := ((15 + 70 + 77 * 300 + 117 * 4 + 20 * (141 * 17)) : F)

/-- another commitment value -/
def psiBad : E.G1 := (71594 : F)

theorem enc1 : encryptDecomposedMessage (listRng E) st1 m1 ek gi
    = .ok ((flat ct1, (20 : F)), ([], [], [])) := by
  rw [encryptDecomposed_ok (listRng E) st1 m1 ek gi wf (by decide +kernel) (by decide +kernel)
    (by decide +kernel)]
  have h : cipher ek (fun i => gi.getD i 0) (fun i => (nums m1).getD i 0)
      (draw (listRng E) st1 0) = ct1 := by
    apply Ciphertext.ext <;> decide +kernel
  rw [h]
  rfl

/-- two encryptors with their own random number generators -/
def encs : List (Party E × List UInt16) := [(⟨listRng E, st1⟩, m1), (⟨listRng E, st2⟩, m2)]

/-- what they publish: `[X_r, c_1, .., c_4, psi]` and the randomness they used -/
def outs : List (List E.G1 × E.Fr) :=
  [(([340, 685, 1374, 5340, 2772, 71593] : List F), (20 : F)),
   (([357, 764, 1568, 35142, 2856, 282187] : List F), (21 : F))]

theorem encMany : encryptMany encs ek gi = .ok outs := by
  unfold encryptMany encs
  simp only [mapRes]
  rw [encryptDecomposed_ok (listRng E) st1 m1 ek gi wf (by decide +kernel) (by decide +kernel)
    (by decide +kernel), encryptDecomposed_ok (listRng E) st2 m2 ek gi wf (by decide +kernel)
    (by decide +kernel) (by decide +kernel)]
  simp only [Res.ok_bind, Res.pure_eq]
  refine congrArg Res.ok ?_
  decide +kernel

/-- two encryptors with whole messages -/
def msgs : List (Party E × E.Fr) :=
  [(⟨listRng E, st1⟩, (65541 : F)), (⟨listRng E, st2⟩, (7 : F))]
def total : E.Fr := (65548 : F)
theorem msgs_sum : (msgs.map (·.2)).sum = total := by decide +kernel

/-! ### two-party key generation and a destination key -/

/-- first party: `s = 2, 4, 6, 8`, `t = 1, 3, 5, 7, 9`; second: `s = 1, 1, 2, 3`, `t = 2, 7, 1, 8, 2` -/
def parties : List (Party E) :=
  [⟨listRng E, (([2, 4, 6, 8, 1, 3, 5, 7, 9] : List F), [], [])⟩,
   ⟨listRng E, (([1, 1, 2, 3, 2, 7, 1, 8, 2] : List F), [], [])⟩]

def skA : SecretKeyST E := ⟨([2, 4, 6, 8] : List F), ([1, 3, 5, 7, 9] : List F)⟩
def skB : SecretKeyST E := ⟨([1, 1, 2, 3] : List F), ([2, 7, 1, 8, 2] : List F)⟩

def dek : EncryptionKey E where
  X_0 := (17 : F)
  X := ([51, 85, 136, 187] : List F)
  Y := ([50, 42, 165, 143] : List F)
  Z := ([9, 30, 18, 45, 33] : List F)
  P_1 := ((3 + (3 * 10 + 5 * 6 + 8 * 15 + 11 * 11)) * 17 : F)
  P_2 := ((1 + 27) * 19 : F)

theorem dkg_ok : dkg parties 16 gens gi D C = .ok ([skA, skB], dek) := by
  rw [dkg_eq parties (by simp [parties]) gens gi D C count (by decide +kernel)]
  rw [four]
  have h1 : encKey (E := E) 4 (sumS parties) (sumT 4 parties) (fun i => gi.getD i 0) D C gens.H
      = dek := by
    apply EncryptionKey.ext <;> decide +kernel
  rw [h1]
  rfl

theorem dwf : WellFormed dek := ⟨by decide +kernel, by decide +kernel⟩

def skd : SecretKey E := ⟨(22 : F)⟩
def ekd : FEncryptionKeyDest E := ⟨(44 : F)⟩

theorem dest_ok : fkeygenDest (listRng E) st3 gens = .ok ((skd, ekd), ([], [], [])) := by
  have h : (mulBigint gens.G (intoBigint (K := E.fr) (22 : F)) : E.G1) = ekd.pk := by
    decide +kernel
  show Res.ok ((skd, (⟨mulBigint gens.G (intoBigint (K := E.fr) (22 : F))⟩ :
    FEncryptionKeyDest E)), (([], [], []) : (listRng E).σ)) = _
  rw [h]

/-- ciphertext of `m1` under `dek` with `r = 20` -/
def dct1 : Ciphertext E where
  X_r := (340 : F)
  enc_chunks := ([1025, 1714, 6020, 3792] : List F)
  commitment := (153566 : F)

theorem denc1 : encryptDecomposedMessage (listRng E) st1 m1 dek gi
    = .ok ((flat dct1, (20 : F)), ([], [], [])) := by
  rw [encryptDecomposed_ok (listRng E) st1 m1 dek gi dwf (by decide +kernel) (by decide +kernel)
    (by decide +kernel)]
  have h : cipher dek (fun i => gi.getD i 0) (fun i => (nums m1).getD i 0)
      (draw (listRng E) st1 0) = dct1 := by
    apply Ciphertext.ext <;> decide +kernel
  rw [h]
  rfl

theorem dencMany : encryptMany encs dek gi = .ok
    [(([340, 1025, 1714, 6020, 3792, 153566] : List F), (20 : F)),
     (([357, 1121, 1925, 35856, 3927, 604868] : List F), (21 : F))] := by
  unfold encryptMany encs
  simp only [mapRes]
  rw [encryptDecomposed_ok (listRng E) st1 m1 dek gi dwf (by decide +kernel) (by decide +kernel)
    (by decide +kernel), encryptDecomposed_ok (listRng E) st2 m2 dek gi dwf (by decide +kernel)
    (by decide +kernel) (by decide +kernel)]
  simp only [Res.ok_bind, Res.pure_eq]
  refine congrArg Res.ok ?_
  decide +kernel

/-- the parties in the re-encryption, in another order, with their RNGs -/
def rp : List (SecretKeyST E × Party E) :=
  [(skB, ⟨listRng E, (([30] : List F), [], [])⟩), (skA, ⟨listRng E, (([31] : List F), [], [])⟩)]

theorem rp_perm : (rp.map (·.1)).Perm [skA, skB] := List.Perm.swap _ _ _

end Fix
end
end Verif
