/-
Property C111: how much the search of decryption works, and what that discloses.
-/
import Verif.Model.Work
import Verif.Props.ReEncrypt

namespace Verif
open Spec

variable {E : Engine}

namespace Wrk

theorem andThen_fst {α β : Type} (x : Counted α) (f : α → Counted β) :
    (x.andThen f).1 = x.1 >>= fun a => (f a).1 := by
  obtain ⟨r, k⟩ := x
  cases r <;> rfl

theorem free_andThen_ok {α β : Type} (a : α) (f : α → Counted β) : (Counted.free (.ok a)).andThen f = f a := by
  simp [Counted.free, Counted.andThen]

theorem free_fst {α : Type} (x : Res α) : (Counted.free x).1 = x := rfl

theorem andThen_ok {α β : Type} {x : Counted α} {f : α → Counted β} {y : β} (h : (x.andThen f).1 = .ok y) :
    ∃ a, x.1 = .ok a ∧ (f a).1 = .ok y ∧ (x.andThen f).2 = x.2 + (f a).2 := by
  obtain ⟨r, k⟩ := x
  cases r with
  | ok a => exact ⟨a, rfl, h, rfl⟩
  | err e => cases h
  | panic => cases h

theorem andThen_le {α β : Type} {x : Counted α} {f : α → Counted β} {B : ℕ} (h : ∀ a, (f a).2 ≤ B) :
    (x.andThen f).2 ≤ x.2 + B := by
  obtain ⟨r, k⟩ := x
  cases r with
  | ok a => exact Nat.add_le_add_left (h a) k
  | err e => exact Nat.le_add_right k B
  | panic => exact Nat.le_add_right k B

theorem free_le {α β : Type} {x : Res α} {f : α → Counted β} {B : ℕ} (h : ∀ a, (f a).2 ≤ B) :
    ((Counted.free x).andThen f).2 ≤ B := by
  have := andThen_le (x := Counted.free x) h
  simpa [Counted.free] using this

theorem map_fst {α β : Type} (f : α → Counted β) (l : List α) : (mapCounted f l).1 = mapRes (fun a => (f a).1) l := by
  induction l with
  | nil => rfl
  | cons a l ih =>
    rw [mapCounted, mapRes, andThen_fst]
    congr 1
    funext b
    rw [andThen_fst, ih]
    rfl

/-- the work of a loop that succeeds -/
theorem map_ok {α β : Type} {f : α → Counted β} {cost : β → ℕ} {l : List α} {ys : List β}
    (hf : ∀ a ∈ l, ∀ y, (f a).1 = .ok y → (f a).2 = cost y) (h : (mapCounted f l).1 = .ok ys) :
    (mapCounted f l).2 = (ys.map cost).sum := by
  induction l generalizing ys with
  | nil => cases h; rfl
  | cons a l ih =>
    obtain ⟨y, h1, h2, h3⟩ := andThen_ok h
    obtain ⟨zs, h4, h5, h6⟩ := andThen_ok h2
    rw [mapCounted, h3, h6, hf a (by simp) y h1, ih (fun x hx => hf x (List.mem_cons_of_mem _ hx)) h4]
    cases h5
    simp [Counted.free]

theorem map_le {α β : Type} {f : α → Counted β} {B : ℕ} (l : List α) (hf : ∀ a, (f a).2 ≤ B) :
    (mapCounted f l).2 ≤ l.length * B := by
  induction l with
  | nil => simp [mapCounted, Counted.free]
  | cons a l ih =>
    rw [mapCounted, List.length_cons, Nat.add_mul, one_mul, add_comm]
    refine (andThen_le (B := l.length * B) fun b => ?_).trans (Nat.add_le_add_right (hf a) _)
    have := andThen_le (x := mapCounted f l) (f := fun bs => Counted.free (.ok (b :: bs))) (B := 0) (fun _ => le_rfl)
    omega

section
variable {A : Type} [AddCommGroup A] [DecidableEq A]

theorem dlogLoop_fst (g p cur : A) (j k : ℕ) : (dlogLoopC g p cur j k).1 = dlogLoop g p cur j k := by
  induction k generalizing cur j with
  | zero => rfl
  | succ k ih =>
    rw [dlogLoopC, dlogLoop]
    by_cases h : cur + g = p
    · rw [if_pos h, if_pos h]
    · rw [if_neg h, if_neg h]
      exact ih _ _

theorem dlogLoop_le (g p cur : A) (j k : ℕ) : (dlogLoopC g p cur j k).2 ≤ k := by
  induction k generalizing cur j with
  | zero => exact le_rfl
  | succ k ih =>
    rw [dlogLoopC]
    by_cases h : cur + g = p
    · rw [if_pos h]
      exact Nat.le_add_left 1 k
    · rw [if_neg h]
      have := ih (cur + g) (j + 1)
      dsimp only
      omega

theorem dlogLoop_err (g p cur : A) (j k : ℕ) (e : SaverError) (h : (dlogLoopC g p cur j k).1 = .err e) :
    (dlogLoopC g p cur j k).2 = k := by
  induction k generalizing cur j with
  | zero => rfl
  | succ k ih =>
    rw [dlogLoopC] at h ⊢
    by_cases hc : cur + g = p
    · rw [if_pos hc] at h
      cases h
    · rw [if_neg hc] at h ⊢
      have := ih (cur + g) (j + 1) h
      dsimp only
      omega

theorem dlogLoop_ok (g p cur : A) (j k : ℕ) (hj : j + k ≤ 65536) (d : UInt16) (h : (dlogLoopC g p cur j k).1 = .ok d) :
    d.toNat + 1 = j + (dlogLoopC g p cur j k).2 := by
  induction k generalizing cur j with
  | zero => cases h
  | succ k ih =>
    rw [dlogLoopC] at h ⊢
    by_cases hc : cur + g = p
    · rw [if_pos hc] at h ⊢
      cases h
      simp only [UInt16.toNat_ofNat']
      omega
    · rw [if_neg hc] at h ⊢
      have := ih (cur + g) (j + 1) (by omega) h
      dsimp only
      omega

theorem solve_fst (m : UInt16) (g p : A) : (solveDiscreteLogC m g p).1 = solveDiscreteLog m g p := by
  unfold solveDiscreteLogC solveDiscreteLog
  by_cases h : p = g
  · rw [if_pos h, if_pos h]
    rfl
  · rw [if_neg h, if_neg h, dlogLoop_fst]

theorem solve_le (m : UInt16) (g p : A) : (solveDiscreteLogC m g p).2 ≤ m.toNat - 1 := by
  unfold solveDiscreteLogC
  by_cases h : p = g
  · rw [if_pos h]
    exact Nat.zero_le _
  · rw [if_neg h]
    exact dlogLoop_le _ _ _ _ _

theorem solve_ok (m : UInt16) (g p : A) (d : UInt16) (h : (solveDiscreteLogC m g p).1 = .ok d) :
    (solveDiscreteLogC m g p).2 = d.toNat - 1 := by
  unfold solveDiscreteLogC at h ⊢
  by_cases hc : p = g
  · rw [if_pos hc] at h ⊢
    cases h
    rfl
  · rw [if_neg hc] at h ⊢
    have h1 := m.toNat_lt
    have := dlogLoop_ok g p g 2 (m.toNat - 1) (by omega) d h
    omega

theorem powers_fst (powers : List (List A)) (i : ℕ) (p : A) (j k : ℕ) :
    (powersSearchC powers i p j k).1 = powersSearch powers i p j k := by
  induction k generalizing j with
  | zero => rfl
  | succ k ih =>
    rw [powersSearchC, powersSearch, andThen_fst]
    congr 1
    funext row
    by_cases h : row.length < j
    · rw [if_pos h, if_pos h]
      rfl
    · rw [if_neg h, if_neg h, andThen_fst]
      congr 1
      funext x
      by_cases hx : x = p
      · rw [if_pos hx, if_pos hx]
        rfl
      · rw [if_neg hx, if_neg hx]
        exact ih _

theorem powers_le (powers : List (List A)) (i : ℕ) (p : A) (j k : ℕ) : (powersSearchC powers i p j k).2 ≤ k := by
  induction k generalizing j with
  | zero => exact le_rfl
  | succ k ih =>
    rw [powersSearchC]
    refine (andThen_le (B := k) fun row => ?_).trans (Nat.add_comm 1 k).le
    by_cases h : row.length < j
    · rw [if_pos h]
      exact Nat.zero_le _
    · rw [if_neg h]
      refine free_le fun x => ?_
      by_cases hx : x = p
      · rw [if_pos hx]
        exact Nat.zero_le _
      · rw [if_neg hx]
        exact ih _

theorem powers_ok (powers : List (List A)) (i : ℕ) (p : A) (j k : ℕ) (hj : j + k ≤ 65535) (d : UInt16)
    (h : (powersSearchC powers i p j k).1 = .ok d) : d.toNat = j + (powersSearchC powers i p j k).2 := by
  induction k generalizing j with
  | zero => cases h
  | succ k ih =>
    rw [powersSearchC] at h ⊢
    obtain ⟨row, h1, h2, h3⟩ := andThen_ok h
    rw [h3]
    by_cases hr : row.length < j
    · rw [if_pos hr] at h2
      cases h2
    · rw [if_neg hr] at h2 ⊢
      obtain ⟨x, h4, h5, h6⟩ := andThen_ok h2
      rw [h6]
      by_cases hx : x = p
      · rw [if_pos hx] at h5 ⊢
        cases h5
        simp only [UInt16.toNat_add, UInt16.toNat_ofNat', Counted.free]
        show (j % 2 ^ 16 + 1) % 2 ^ 16 = _
        omega
      · rw [if_neg hx] at h5 ⊢
        have := ih (j + 1) (by omega) h5
        simp only [Counted.free]
        omega

theorem table_fst (i : ℕ) (m : UInt16) (p : A) (powers : List (List A)) :
    (solveDiscreteLogUsingPairingPowersC i m p powers).1 = solveDiscreteLogUsingPairingPowers i m p powers := by
  unfold solveDiscreteLogUsingPairingPowersC solveDiscreteLogUsingPairingPowers
  by_cases h : powers.length < i
  · rw [if_pos h, if_pos h]
    rfl
  · rw [if_neg h, if_neg h, powers_fst]

theorem table_le (i : ℕ) (m : UInt16) (p : A) (powers : List (List A)) :
    (solveDiscreteLogUsingPairingPowersC i m p powers).2 ≤ m.toNat := by
  unfold solveDiscreteLogUsingPairingPowersC
  by_cases h : powers.length < i
  · rw [if_pos h]
    exact Nat.zero_le _
  · rw [if_neg h]
    exact powers_le _ _ _ _ _

theorem table_ok (i : ℕ) (m : UInt16) (p : A) (powers : List (List A)) (d : UInt16)
    (h : (solveDiscreteLogUsingPairingPowersC i m p powers).1 = .ok d) :
    (solveDiscreteLogUsingPairingPowersC i m p powers).2 = d.toNat := by
  unfold solveDiscreteLogUsingPairingPowersC at h ⊢
  by_cases hc : powers.length < i
  · rw [if_pos hc] at h
    cases h
  · rw [if_neg hc] at h ⊢
    have h1 := m.toNat_lt
    have := powers_ok powers i p 0 m.toNat (by omega) d h
    omega

end

end Wrk

/-! ### C111 -/

/-- **C111** the counting versions return what the functions return, on all inputs. -/
theorem C111_same_result (chk : Bool) (c_0 : E.G1) (c : List E.G1) (sk : SecretKey E) (dk : PreparedDecryptionKey E)
    (g_i : List E.G1) (b : UInt8) (powers : Option (List (List E.GT))) :
    (decryptToChunksGivenPairingPowersC chk c_0 c sk dk g_i b powers).1 =
      decryptToChunksGivenPairingPowers chk c_0 c sk dk g_i b powers ∧
    (decryptAfterReEncryptionC chk c_0 c sk g_i b).1 = decryptAfterReEncryption chk c_0 c sk g_i b := by
  constructor
  · unfold decryptToChunksGivenPairingPowersC decryptToChunksGivenPairingPowers
    dsimp only
    rw [Wrk.andThen_fst, Wrk.free_fst]
    congr 1
    funext cnt
    by_cases h1 : c.length ≠ cnt.toNat
    · rw [if_pos h1, if_pos h1]
      rfl
    rw [if_neg h1, if_neg h1]
    by_cases h2 : c.length > g_i.length
    · rw [if_pos h2, if_pos h2]
      rfl
    rw [if_neg h2, if_neg h2, Wrk.andThen_fst, Wrk.free_fst]
    congr 1
    funext maxVal
    rw [Wrk.andThen_fst, Wrk.map_fst]
    congr 1
    apply mapRes_congr
    intro i _
    simp only [Wrk.andThen_fst, Wrk.free_fst]
    congr 1; funext ci
    congr 1; funext v2
    congr 1; funext v1
    congr 1; funext p
    by_cases hp : p = 0
    · rw [if_pos hp, if_pos hp]
      rfl
    rw [if_neg hp, if_neg hp]
    by_cases hw : (powers.getD []).isEmpty
    · rw [if_pos hw, if_pos hw, Wrk.andThen_fst, Wrk.free_fst]
      congr 1
      funext g
      exact Wrk.solve_fst _ _ _
    · rw [if_neg hw, if_neg hw]
      exact Wrk.table_fst _ _ _ _
  · unfold decryptAfterReEncryptionC decryptAfterReEncryption
    dsimp only
    by_cases h1 : c.length > g_i.length
    · rw [if_pos h1, if_pos h1]
      rfl
    rw [if_neg h1, if_neg h1, Wrk.andThen_fst, Wrk.free_fst]
    congr 1
    funext gi_mi
    rw [Wrk.andThen_fst, Wrk.free_fst]
    congr 1
    funext maxVal
    rw [Wrk.map_fst]
    apply mapRes_congr
    intro i _
    simp only [Wrk.andThen_fst, Wrk.free_fst]
    congr 1; funext p
    by_cases hp : p = 0
    · rw [if_pos hp, if_pos hp]
      rfl
    rw [if_neg hp, if_neg hp, Wrk.andThen_fst, Wrk.free_fst]
    congr 1
    funext g
    exact Wrk.solve_fst _ _ _

/-- **C111** whatever the input: if decryption succeeds, the search has performed exactly `d - 1` group additions for each
chunk `d > 0` it returns, and none for chunks `0`; with a table of pairing powers exactly `d` comparisons with its entries. -/
theorem C111_exact_work (chk : Bool) (c_0 : E.G1) (c : List E.G1) (sk : SecretKey E) (dk : PreparedDecryptionKey E)
    (g_i : List E.G1) (b : UInt8) :
    (∀ ds nu, decryptToChunks chk c_0 c sk dk g_i b = .ok (ds, nu) →
      (decryptToChunksGivenPairingPowersC chk c_0 c sk dk g_i b none).2 = (ds.map fun d => d.toNat - 1).sum) ∧
    (∀ powers ds nu, powers ≠ [] → decryptToChunksGivenPairingPowers chk c_0 c sk dk g_i b (some powers) = .ok (ds, nu) →
      (decryptToChunksGivenPairingPowersC chk c_0 c sk dk g_i b (some powers)).2 = (ds.map fun d => d.toNat).sum) ∧
    (∀ ds, decryptAfterReEncryption chk c_0 c sk g_i b = .ok ds →
      (decryptAfterReEncryptionC chk c_0 c sk g_i b).2 = (ds.map fun d => d.toNat - 1).sum) := by
  have key : ∀ (powers : Option (List (List E.GT))) (cost : UInt16 → ℕ), cost 0 = 0 →
      ((powers.getD []).isEmpty → cost = fun d => d.toNat - 1) → (¬ (powers.getD []).isEmpty → cost = fun d => d.toNat) →
      ∀ ds nu, decryptToChunksGivenPairingPowers chk c_0 c sk dk g_i b powers = .ok (ds, nu) →
      (decryptToChunksGivenPairingPowersC chk c_0 c sk dk g_i b powers).2 = (ds.map cost).sum := by
    intro powers cost h0 hcost1 hcost2 ds nu h
    rw [← (C111_same_result chk c_0 c sk dk g_i b powers).1] at h
    unfold decryptToChunksGivenPairingPowersC at h ⊢
    dsimp only at h ⊢
    obtain ⟨cnt, -, h, e⟩ := Wrk.andThen_ok h
    rw [e]
    by_cases h1 : c.length ≠ cnt.toNat
    · rw [if_pos h1] at h; cases h
    rw [if_neg h1] at h ⊢
    by_cases h2 : c.length > g_i.length
    · rw [if_pos h2] at h; cases h
    rw [if_neg h2] at h ⊢
    obtain ⟨maxVal, -, h, e⟩ := Wrk.andThen_ok h
    rw [e]
    obtain ⟨chunks, h3, h, e⟩ := Wrk.andThen_ok h
    rw [e]
    cases h
    simp only [Counted.free, zero_add, add_zero]
    refine Wrk.map_ok (fun i _ y hy => ?_) h3
    obtain ⟨ci, -, hy, e⟩ := Wrk.andThen_ok hy
    erw [e]
    obtain ⟨v2, -, hy, e⟩ := Wrk.andThen_ok hy
    erw [e]
    obtain ⟨v1, -, hy, e⟩ := Wrk.andThen_ok hy
    erw [e]
    obtain ⟨p, -, hy, e⟩ := Wrk.andThen_ok hy
    erw [e]
    simp only [Counted.free, zero_add]
    by_cases hp : p = 0
    · rw [if_pos hp] at hy ⊢
      cases hy
      exact h0.symm
    rw [if_neg hp] at hy ⊢
    by_cases hw : (powers.getD []).isEmpty
    · rw [if_pos hw] at hy ⊢
      obtain ⟨g, -, hy, e⟩ := Wrk.andThen_ok hy
      erw [e]
      rw [hcost1 hw, Wrk.solve_ok _ _ _ _ hy]
      exact zero_add _
    · rw [if_neg hw] at hy ⊢
      rw [hcost2 hw, Wrk.table_ok _ _ _ _ _ hy]
  refine ⟨fun ds nu h => key none _ rfl (fun _ => rfl) (fun h => absurd rfl h) ds nu h, fun powers ds nu hne h =>
    key (some powers) _ rfl (fun h => ?_) (fun _ => rfl) ds nu h, fun ds h => ?_⟩
  · exact absurd (List.isEmpty_iff.mp h) hne
  · rw [← (C111_same_result chk c_0 c sk dk g_i b none).2] at h
    unfold decryptAfterReEncryptionC at h ⊢
    dsimp only at h ⊢
    by_cases h1 : c.length > g_i.length
    · rw [if_pos h1] at h; cases h
    rw [if_neg h1] at h ⊢
    obtain ⟨gi_mi, -, h, e⟩ := Wrk.andThen_ok h
    rw [e]
    obtain ⟨maxVal, -, h, e⟩ := Wrk.andThen_ok h
    rw [e]
    simp only [Counted.free, zero_add]
    refine Wrk.map_ok (fun i _ y hy => ?_) h
    obtain ⟨p, -, hy, e⟩ := Wrk.andThen_ok hy
    erw [e]
    by_cases hp : p = 0
    · rw [if_pos hp] at hy ⊢
      cases hy
      rfl
    rw [if_neg hp] at hy ⊢
    obtain ⟨g, -, hy, e⟩ := Wrk.andThen_ok hy
    erw [e]
    rw [Wrk.solve_ok _ _ _ _ hy]
    simp

/-- **C111** whatever the input, and whether decryption succeeds, fails or aborts: the work is at most the number of chunks
times the bound of the search, which depends on the chunk size only and never exceeds `2^16`. -/
theorem C111_bound (chk : Bool) (c_0 : E.G1) (c : List E.G1) (sk : SecretKey E) (dk : PreparedDecryptionKey E)
    (g_i : List E.G1) (b : UInt8) (powers : Option (List (List E.GT))) :
    (decryptToChunksGivenPairingPowersC chk c_0 c sk dk g_i b none).2 ≤ c.length * 65534 ∧
    (decryptToChunksGivenPairingPowersC chk c_0 c sk dk g_i b powers).2 ≤ c.length * 65535 ∧
    (decryptAfterReEncryptionC chk c_0 c sk g_i b).2 ≤ c.length * 65534 ∧
    (b.toNat < 32 →
      (decryptToChunksGivenPairingPowersC chk c_0 c sk dk g_i b none).2 ≤ c.length * (searchBound b.toNat - 1) ∧
      (decryptToChunksGivenPairingPowersC chk c_0 c sk dk g_i b powers).2 ≤ c.length * searchBound b.toNat ∧
      (decryptAfterReEncryptionC chk c_0 c sk g_i b).2 ≤ c.length * (searchBound b.toNat - 1)) := by
  have key : ∀ (powers : Option (List (List E.GT))) (B : ℕ),
      (∀ m, chunkMaxU32 chk b = .ok m → (UInt16.ofNat m).toNat - 1 ≤ B ∧
        (¬ (powers.getD []).isEmpty → (UInt16.ofNat m).toNat ≤ B)) →
      (decryptToChunksGivenPairingPowersC chk c_0 c sk dk g_i b powers).2 ≤ c.length * B := by
    intro powers B hB
    unfold decryptToChunksGivenPairingPowersC
    dsimp only
    refine Wrk.free_le fun cnt => ?_
    by_cases h1 : c.length ≠ cnt.toNat
    · rw [if_pos h1]; exact Nat.zero_le _
    rw [if_neg h1]
    by_cases h2 : c.length > g_i.length
    · rw [if_pos h2]; exact Nat.zero_le _
    rw [if_neg h2]
    cases hm : chunkMaxU32 chk b with
    | err e => exact Nat.zero_le _
    | panic => exact Nat.zero_le _
    | ok m =>
      rw [Wrk.free_andThen_ok]
      obtain ⟨hB1, hB2⟩ := hB m hm
      refine (Wrk.andThen_le (B := 0) fun _ => le_rfl).trans ?_
      rw [add_zero]
      refine (Wrk.map_le (B := B) _ fun i => ?_).trans (by rw [List.length_range])
      refine Wrk.free_le fun ci => Wrk.free_le fun v2 => Wrk.free_le fun v1 => Wrk.free_le fun p => ?_
      by_cases hp : p = 0
      · rw [if_pos hp]; exact Nat.zero_le _
      rw [if_neg hp]
      by_cases hw : (powers.getD []).isEmpty
      · rw [if_pos hw]
        exact Wrk.free_le fun g => (Wrk.solve_le _ _ _).trans hB1
      · rw [if_neg hw]
        exact (Wrk.table_le _ _ _ _).trans (hB2 hw)
  have key2 : ∀ B : ℕ, (∀ m, chunkMaxU32 chk b = .ok m → (UInt16.ofNat m).toNat - 1 ≤ B) →
      (decryptAfterReEncryptionC chk c_0 c sk g_i b).2 ≤ c.length * B := by
    intro B hB
    unfold decryptAfterReEncryptionC
    dsimp only
    by_cases h2 : c.length > g_i.length
    · rw [if_pos h2]; exact Nat.zero_le _
    rw [if_neg h2]
    refine Wrk.free_le fun gi_mi => ?_
    cases hm : chunkMaxU32 chk b with
    | err e => exact Nat.zero_le _
    | panic => exact Nat.zero_le _
    | ok m =>
      rw [Wrk.free_andThen_ok]
      refine (Wrk.map_le (B := B) _ fun i => ?_).trans (by rw [List.length_range])
      refine Wrk.free_le fun p => ?_
      by_cases hp : p = 0
      · rw [if_pos hp]; exact Nat.zero_le _
      rw [if_neg hp]
      exact Wrk.free_le fun g => (Wrk.solve_le _ _ _).trans (hB m hm)
  have hu : ∀ m, (UInt16.ofNat m).toNat < 65536 := fun m => (UInt16.ofNat m).toNat_lt
  have hs : ∀ m, b.toNat < 32 → chunkMaxU32 chk b = .ok m → (UInt16.ofNat m).toNat ≤ searchBound b.toNat := by
    intro m hb hm
    rw [chunkMaxU32_eq chk hb] at hm
    cases hm
    have h3 := hu (2 ^ b.toNat - 1)
    have h4 : (UInt16.ofNat (2 ^ b.toNat - 1)).toNat ≤ 2 ^ b.toNat - 1 := by
      rw [UInt16.toNat_ofNat']
      exact Nat.mod_le _ _
    unfold searchBound
    generalize (UInt16.ofNat (2 ^ b.toNat - 1)).toNat = x at *
    omega
  refine ⟨key none _ fun m _ => ⟨?_, fun h => absurd rfl h⟩, key powers _ fun m _ => ⟨?_, fun _ => ?_⟩, key2 _ fun m _ => ?_,
    fun hb => ⟨key none _ fun m hm => ⟨?_, fun h => absurd rfl h⟩, key powers _ fun m hm => ⟨?_, fun _ => ?_⟩,
      key2 _ fun m hm => ?_⟩⟩
  · have := hu m; omega
  · have := hu m; omega
  · have := hu m; omega
  · have := hu m; omega
  · have := hs m hb hm; omega
  · have := hs m hb hm; omega
  · have := hs m hb hm; omega
  · have := hs m hb hm; omega

/-- **C111** decrypting what an honest user has encrypted takes a number of group additions that is a function of the
message: how long decryption takes tells `Σ (chunk - 1)` over the chunks that are not zero. -/
theorem C111_work_discloses (R : RngCore E) (st st' : R.σ) (b : UInt8)
    (gens : EncryptionGens E) (g_i : List E.G1) (D C : E.G1) (sk : SecretKey E)
    (ek : EncryptionKey E) (dk : DecryptionKey E)
    (hk : keygen R st b gens g_i D C = .ok ((sk, ek, dk), st')) (hb : b.toNat < 32)
    (hgi : ∀ g ∈ g_i, g ≠ 0) (hV : ∀ V ∈ dk.V_2, V ≠ 0)
    (R' : RngCore E) (st1 : R'.σ) (chunks : List UInt16) (hlen : chunks.length = ek.X.length)
    (hch : ∀ x ∈ chunks, x.toNat ≤ 2 ^ b.toNat - 1 ∧ x.toNat < E.fr.p) (chk : Bool) :
    ∃ ct r st2, encryptDecomposedMessage R' st1 chunks ek g_i = .ok ((flat ct, r), st2) ∧
      (decryptToChunksGivenPairingPowersC chk ct.X_r ct.enc_chunks sk dk.prepare g_i b none).2
        = (chunks.map fun d => d.toNat - 1).sum := by
  obtain ⟨ct, r, st2, h1, h2⟩ := C17_decrypt_encrypt_chunks R st st' b gens g_i D C sk ek dk hk hb hgi hV R' st1 chunks hlen
    hch chk
  exact ⟨ct, r, st2, h1, (C111_exact_work chk _ _ sk dk.prepare g_i b).1 _ _ h2⟩

/-- **C111** the same for the destination of a re-encrypted ciphertext, whatever the randomness of all parties. -/
theorem C111_work_discloses_after_reencryption (parties : List (Party E)) (b : UInt8) (gens : EncryptionGens E)
    (g_i : List E.G1) (D C : E.G1) (sks : List (SecretKeyST E)) (ek : EncryptionKey E)
    (hdkg : dkg parties b gens g_i D C = .ok (sks, ek)) (hgi : ∀ g ∈ g_i, g ≠ 0)
    (Rd : RngCore E) (std std' : Rd.σ) (skd : SecretKey E) (ekd : FEncryptionKeyDest E)
    (hdest : fkeygenDest Rd std gens = .ok ((skd, ekd), std'))
    (R : RngCore E) (st st1 : R.σ) (chunks : List UInt16) (v : List E.G1) (r : E.Fr)
    (henc : encryptDecomposedMessage R st chunks ek g_i = .ok ((v, r), st1))
    (rp : List (SecretKeyST E × Party E)) (hrp : (rp.map (·.1)).Perm sks)
    (chk : Bool) (b' : UInt8) (hb' : b'.toNat < 32)
    (hch : ∀ x ∈ chunks, x.toNat ≤ 2 ^ b'.toNat - 1 ∧ x.toNat < E.fr.p) :
    ∃ ct g_r cs, v = flat ct ∧
      reEncryptAll gens ct.X_r ct.enc_chunks ekd rp = .ok (g_r :: cs) ∧
      (decryptAfterReEncryptionC chk g_r cs skd g_i b').2 = (chunks.map fun d => d.toNat - 1).sum := by
  obtain ⟨ct, g_r, cs, h1, h2, h3⟩ := C27_reencryption_delivers parties b gens g_i D C sks ek hdkg hgi Rd std std' skd ekd hdest
    R st st1 chunks v r henc rp hrp chk b' hb' hch
  exact ⟨ct, g_r, cs, h1, h2, (C111_exact_work chk _ _ skd (DecryptionKey.prepare ⟨0, [], []⟩) g_i b').2.2 _ h3⟩

/-- decrypting `1, 2, 300, 4` takes 303 group additions, decrypting `0, 1, 0, 0` none -/
example : ∃ ct ct' r r' st2 st2', encryptDecomposedMessage (listRng Fix.E) Fix.st1 Fix.m1 Fix.ek Fix.gi = .ok ((flat ct, r), st2) ∧
    (decryptToChunksGivenPairingPowersC true ct.X_r ct.enc_chunks Fix.sk Fix.dk.prepare Fix.gi 16 none).2 = 303 ∧
    encryptDecomposedMessage (listRng Fix.E) Fix.st1 [0, 1, 0, 0] Fix.ek Fix.gi = .ok ((flat ct', r'), st2') ∧
    (decryptToChunksGivenPairingPowersC true ct'.X_r ct'.enc_chunks Fix.sk Fix.dk.prepare Fix.gi 16 none).2 = 0 := by
  obtain ⟨ct, r, st2, h1, h2⟩ := C111_work_discloses (listRng Fix.E) Fix.st _ 16 Fix.gens Fix.gi
    Fix.D Fix.C Fix.sk Fix.ek Fix.dk Fix.keygen_ok (by decide) Fix.gi_ne Fix.V2_ne (listRng Fix.E)
    Fix.st1 Fix.m1 (by decide +kernel) (by decide +kernel) true
  obtain ⟨ct', r', st2', h3, h4⟩ := C111_work_discloses (listRng Fix.E) Fix.st _ 16 Fix.gens Fix.gi
    Fix.D Fix.C Fix.sk Fix.ek Fix.dk Fix.keygen_ok (by decide) Fix.gi_ne Fix.V2_ne (listRng Fix.E)
    Fix.st1 [0, 1, 0, 0] (by decide +kernel) (by decide +kernel) true
  exact ⟨ct, ct', r, r', st2, st2', h1, h2, h3, h4⟩

/-- so does the destination of the two-party run of `Fix` -/
example : ∃ ct g_r cs, flat Fix.dct1 = flat ct ∧
    reEncryptAll Fix.gens ct.X_r ct.enc_chunks Fix.ekd Fix.rp = .ok (g_r :: cs) ∧
    (decryptAfterReEncryptionC true g_r cs Fix.skd Fix.gi 16).2 = 303 :=
  C111_work_discloses_after_reencryption Fix.parties 16 Fix.gens Fix.gi Fix.D Fix.C _ Fix.dek Fix.dkg_ok Fix.gi_ne
    _ _ _ Fix.skd Fix.ekd Fix.dest_ok _ _ _ Fix.m1 _ _ Fix.denc1 Fix.rp Fix.rp_perm true 16
    (by decide) (by decide +kernel)

end Verif
