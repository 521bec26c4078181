/-
Normal forms of the key generation functions.
-/
import Verif.Lemmas.Window
import Verif.Model.Protocol

namespace Verif
open Spec

section rng
variable {E : Engine} (R : RngCore E)

theorem after_zero (st : R.σ) : after R st 0 = st := rfl

theorem after_after (st : R.σ) (a b : ℕ) : after R (after R st a) b = after R st (a + b) := by
  unfold after
  rw [← Function.iterate_add_apply, Nat.add_comm]

theorem draw_after (st : R.σ) (a b : ℕ) : draw R (after R st a) b = draw R st (a + b) := by
  unfold draw
  rw [after_after]

theorem fr_eq (st : R.σ) : R.fr st = (draw R st 0, after R st 1) := rfl

theorem frs_eq (n : ℕ) (st : R.σ) : R.frs n st = (tab n (draw R st), after R st n) := by
  induction n generalizing st with
  | zero => rfl
  | succ n ih =>
    simp only [RngCore.frs, fr_eq R st, ih, after_after]
    rw [tab_succ, Nat.add_comm 1 n]
    congr 2

end rng

variable {E : Engine}

theorem intoBigint_smul {G : Type} [AddCommGroup G] [Module (ZMod E.fr.p) G] (g : G) (x : E.Fr) :
    mulBigint g (intoBigint (K := E.fr) x) = x • g :=
  mulBigint_intoBigint g x

theorem idx_of_lt {α : Type} {v : List α} {i : ℕ} (d : α) (h : i < v.length) :
    idx v i = .ok (v.getD i d) := idx_ok d h

theorem encKeyChunks_ok (n : ℕ) : encKeyChunks n n (n + 1) = .ok (UInt8.ofNat n) := by
  simp [encKeyChunks]

theorem keygen_eq (R : RngCore E) (st : R.σ) {b n8 : UInt8} (gens : EncryptionGens E)
    (g_i : List E.G1) (D C : E.G1) (hn : chunksCount E.fr b = .ok n8)
    (hg : n8.toNat ≤ g_i.length) :
    keygen R st b gens g_i D C =
      .ok ((⟨draw R st 0⟩,
        encKey n8.toNat (fun i => draw R st (1 + i)) (fun i => draw R st (1 + n8.toNat + i))
          (fun i => g_i.getD i 0) D C gens.H,
        decKey n8.toNat (draw R st 0) (fun i => draw R st (1 + i))
          (fun i => draw R st (2 + 2 * n8.toNat + i)) gens.H),
        after R st (2 + 3 * n8.toNat)) := by
  unfold keygen
  rw [hn, fr_eq R st]
  simp only [Res.ok_bind]
  generalize n8.toNat = n at hg ⊢
  rw [if_neg (by omega)]
  simp only [frs_eq, after_after, multiplyFieldElems_eq, Res.ok_bind]
  have hY : mapRes (fun i => do
      let g ← idx g_i i
      let k ← idx ((tab (n + 1) fun i => draw R st (1 + n + i)).map (intoBigint (K := E.fr))) (i + 1)
      return mulBigint g k) (List.range n)
      = .ok (tab n (fun i => draw R st (1 + n + (i + 1)) • g_i.getD i 0)) := by
    apply mapRes_range_ok
    intro i hi
    rw [idx_ok 0 (show i < g_i.length by omega), map_tab, idx_tab, if_pos (by omega)]
    simp only [Res.ok_bind, Res.pure_eq]
    rw [intoBigint_smul]
  rw [show (tab (n + 1) (draw R (after R st (1 + n))))
      = tab (n + 1) fun i => draw R st (1 + n + i) from
      tab_congr fun i _ => draw_after R st _ i]
  rw [hY]
  simp only [Res.ok_bind]
  rw [idx_tab, if_pos (by omega)]
  simp only [Res.ok_bind]
  rw [show (tab n (draw R (after R st 1))) = tab n fun i => draw R st (1 + i) from
      tab_congr fun i _ => draw_after R st _ i]
  have hP : mapRes (fun j => do
      let x ← idx (tab n fun i => draw R st (1 + i)) j
      let y ← idx (tab (n + 1) fun i => draw R st (1 + n + i)) (j + 1)
      return x * y) (List.range n)
      = .ok (tab n (fun j => draw R st (1 + j) * draw R st (1 + n + (j + 1)))) := by
    apply mapRes_range_ok
    intro i hi
    rw [idx_tab, if_pos hi, idx_tab, if_pos (by omega)]
    rfl
  rw [hP]
  simp only [Res.ok_bind, Res.pure_eq, intoBigint_smul, map_tab, sum_tab]
  rw [show (tab n (draw R (after R st (1 + n + (n + 1)))))
      = tab n fun i => draw R st (2 + 2 * n + i) from
      tab_congr fun i _ => by rw [draw_after]; congr 1; omega]
  simp only [zipWith_tab, map_tab, smul_smul]
  congr 3
  · simp only [decKey, Prod.mk.injEq, DecryptionKey.mk.injEq]
    refine ⟨rfl, trivial, ?_, ?_⟩
    · first | rfl | trivial
    · apply tab_congr
      intro i _
      rw [mul_comm, draw_after]
      congr 3
      omega
  · omega

theorem fkeygenPartial_eq (R : RngCore E) (st : R.σ) {b n8 : UInt8} (gens : EncryptionGens E)
    (g_i : List E.G1) (D C : E.G1) (hn : chunksCount E.fr b = .ok n8)
    (hg : n8.toNat ≤ g_i.length) :
    fkeygenPartial R st b gens g_i D C =
      .ok ((⟨tab n8.toNat (fun i => draw R st i),
            tab (n8.toNat + 1) (fun i => draw R st (n8.toNat + i))⟩,
        partialKey n8.toNat (fun i => draw R st i) (fun i => draw R st (n8.toNat + i))
          (fun i => g_i.getD i 0) D C gens.H),
        after R st (1 + 2 * n8.toNat)) := by
  unfold fkeygenPartial
  rw [hn]
  simp only [Res.ok_bind]
  generalize n8.toNat = n at hg ⊢
  rw [if_neg (by omega)]
  simp only [frs_eq, after_after, multiplyFieldElems_eq, Res.ok_bind]
  rw [show (tab (n + 1) (draw R (after R st n)))
      = tab (n + 1) fun i => draw R st (n + i) from
      tab_congr fun i _ => draw_after R st _ i]
  have hY : mapRes (fun i => do
      let g ← idx g_i i
      let k ← idx ((tab (n + 1) fun i => draw R st (n + i)).map (intoBigint (K := E.fr))) (i + 1)
      return mulBigint g k) (List.range n)
      = .ok (tab n (fun i => draw R st (n + (i + 1)) • g_i.getD i 0)) := by
    apply mapRes_range_ok
    intro i hi
    rw [idx_ok 0 (show i < g_i.length by omega), map_tab, idx_tab, if_pos (by omega)]
    simp only [Res.ok_bind, Res.pure_eq]
    rw [intoBigint_smul]
  rw [hY]
  simp only [Res.ok_bind, Res.pure_eq, intoBigint_smul, map_tab, sum_tab]
  have e : n + (n + 1) = 1 + 2 * n := by omega
  rw [e]
  rfl

end Verif
