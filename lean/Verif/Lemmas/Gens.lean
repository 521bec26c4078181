/-
Helper lemmas: the chunk generators contained in the SRS of the bit-size circuit.
-/
import Verif.Lemmas.Circuit
import Verif.Lemmas.Groth16

namespace Verif

section
variable {F : Type} [Field F]

/-- `matrixAt` as a function of the constraint list -/
def wmat (L : List (R1C F)) (u : ℕ → F) (sel : R1C F → LC F) (v : Var) : F :=
  ∑ j ∈ Finset.range L.length, u j * ((L.map sel).getD j []).coeff v

theorem wmat_append (L₁ L₂ : List (R1C F)) (u : ℕ → F) (sel : R1C F → LC F) (v : Var) :
    wmat (L₁ ++ L₂) u sel v = wmat L₁ u sel v + wmat L₂ (fun j => u (L₁.length + j)) sel v := by
  unfold wmat
  rw [List.length_append, Finset.sum_range_add]
  congr 1
  · refine Finset.sum_congr rfl fun j hj => ?_
    have := Finset.mem_range.mp hj
    rw [List.map_append, List.getD_append _ _ _ _ (by simpa using this)]
  · refine Finset.sum_congr rfl fun j hj => ?_
    rw [List.map_append, List.getD_append_right _ _ _ _ (by simp)]
    simp

theorem wmat_zero (L : List (R1C F)) (u : ℕ → F) (sel : R1C F → LC F) (v : Var)
    (h : ∀ r ∈ L, (sel r).coeff v = 0) : wmat L u sel v = 0 := by
  unfold wmat
  refine Finset.sum_eq_zero fun j hj => ?_
  have hj := Finset.mem_range.mp hj
  have : (L.map sel).getD j [] = sel L[j] := by
    simp [List.getD_eq_getElem?_getD, List.getElem?_eq_getElem hj]
  rw [this, h _ (List.getElem_mem hj), mul_zero]

theorem packBits_coeff (coeff : F) (w0 n k : ℕ) : LC.coeff (packBits coeff w0 n) (.inst k) = 0 := by
  induction n generalizing coeff w0 with
  | zero => simp [packBits, LC.coeff]
  | succ n ih =>
    have := ih (coeff + coeff) (w0 + 1)
    simp only [LC.coeff, packBits, List.map_cons, List.sum_cons, reduceCtorEq, if_false, zero_add]
      at this ⊢
    exact this

theorem orCs_coeff (a : Var) (ha : ∀ k, a ≠ .inst k) (w f n k : ℕ) (r : R1C F)
    (hr : r ∈ orCs a w f n) :
    r.a.coeff (.inst (k + 1)) = 0 ∧ r.b.coeff (.inst (k + 1)) = 0 ∧ r.c.coeff (.inst (k + 1)) = 0 := by
  induction n generalizing a w f with
  | zero => simp [orCs] at hr
  | succ n ih =>
    rcases List.mem_cons.mp hr with rfl | hr
    · simp [orC, LC.coeff, ha]
    · exact ih (.wit f) (by simp) _ _ hr

theorem orLast_ne (a : Var) (ha : ∀ k, a ≠ .inst k) (f n k : ℕ) : orLast a f n ≠ .inst k := by
  cases n with
  | zero => exact ha k
  | succ n => simp [orLast]

/-- constraints of a block other than the packing constraint do not mention value variables -/
theorem block_tail_coeff (n b w0 k : ℕ) (r : R1C F)
    (hr : r ∈ (if n ≤ b then [] else
      orCs (.wit (w0 + b)) (w0 + b + 1) (w0 + n) (n - b - 1) ++
        [falseC (orLast (.wit (w0 + b)) (w0 + n) (n - b - 1))])) :
    r.a.coeff (.inst (k + 1)) = 0 ∧ r.b.coeff (.inst (k + 1)) = 0 ∧ r.c.coeff (.inst (k + 1)) = 0 := by
  split at hr
  · simp at hr
  · rcases List.mem_append.mp hr with hr | hr
    · exact orCs_coeff _ (by simp) _ _ _ _ _ hr
    · rw [List.mem_singleton.mp hr]
      simp [falseC, LC.coeff, orLast_ne]

theorem block_head_coeff (n w0 k : ℕ) (r : R1C F)
    (hr : r ∈ tab n (fun i => (boolC (.wit (w0 + i)) : R1C F))) :
    r.a.coeff (.inst (k + 1)) = 0 ∧ r.b.coeff (.inst (k + 1)) = 0 ∧ r.c.coeff (.inst (k + 1)) = 0 := by
  obtain ⟨i, -, rfl⟩ := List.mem_map.mp hr
  simp [boolC, LC.coeff]

theorem block_wmat (n b : ℕ) (v : Var) (w0 k : ℕ) (u : ℕ → F) :
    wmat (block n b v w0) u R1C.a (.inst (k + 1)) = 0 ∧
    wmat (block n b v w0) u R1C.b (.inst (k + 1)) = 0 ∧
    wmat (block n b v w0) u R1C.c (.inst (k + 1)) = if v = .inst (k + 1) then -u n else 0 := by
  unfold block
  refine ⟨?_, ?_, ?_⟩
  · rw [wmat_append, wmat_append,
      wmat_zero _ _ _ _ (fun r hr => (block_head_coeff n w0 k r hr).1),
      wmat_zero _ _ _ _ (fun r hr => (block_tail_coeff n b w0 k r hr).1)]
    simp [wmat, LC.coeff]
  · rw [wmat_append, wmat_append,
      wmat_zero _ _ _ _ (fun r hr => (block_head_coeff n w0 k r hr).2.1),
      wmat_zero _ _ _ _ (fun r hr => (block_tail_coeff n b w0 k r hr).2.1)]
    simp [wmat, LC.coeff]
  · rw [wmat_append, wmat_append,
      wmat_zero _ _ _ _ (fun r hr => (block_head_coeff n w0 k r hr).2.2),
      wmat_zero _ _ _ _ (fun r hr => (block_tail_coeff n b w0 k r hr).2.2)]
    have h := packBits_coeff (1 : F) w0 n (k + 1)
    unfold LC.coeff at h
    simp only [wmat, List.length_cons, List.length_nil, zero_add, Finset.sum_range_one, LC.coeff,
      List.map_cons, List.map_nil, List.getD_cons_zero, List.map_append, List.sum_append, h,
      List.sum_cons, List.sum_nil, add_zero, length_tab]
    split <;> simp

end

section
variable {K : FieldCfg}

theorem blocks_wmat (n b : ℕ) (vs : List Var) (w0 k : ℕ) (u : ℕ → K.F) :
    wmat (blocks (K := K) n b vs w0) u R1C.a (.inst (k + 1)) = 0 ∧
    wmat (blocks (K := K) n b vs w0) u R1C.b (.inst (k + 1)) = 0 ∧
    wmat (blocks (K := K) n b vs w0) u R1C.c (.inst (k + 1)) =
      ∑ j ∈ Finset.range vs.length, if vs.getD j .one = .inst (k + 1) then
        -u (j * (if n ≤ b then n + 1 else 2 * n - b + 1) + n) else 0 := by
  induction vs generalizing w0 u with
  | nil => simp [blocks, wmat]
  | cons v vs ih =>
    obtain ⟨a1, a2, a3⟩ := block_wmat (F := K.F) n b v w0 k u
    obtain ⟨b1, b2, b3⟩ := ih (w0 + blockWits n b)
      (fun j => u ((block n b v w0 : List (R1C K.F)).length + j))
    refine ⟨?_, ?_, ?_⟩
    · rw [blocks, wmat_append, a1, b1, add_zero]
    · rw [blocks, wmat_append, a2, b2, add_zero]
    · rw [blocks, wmat_append, a3, b3, List.length_cons, Finset.sum_range_succ', add_comm]
      congr 1
      · refine Finset.sum_congr rfl fun j _ => ?_
        rw [length_block, List.getD_cons_succ]
        congr 3
        ring
      · simp

end

end Verif
