/-
Properties C42, C43, C44: the bit-size circuit.
-/
import Verif.Lemmas.Circuit
import Verif.Props.Chunking
import Verif.Instances

namespace Verif

variable {K : FieldCfg}

namespace Spec

/-- How many values the circuit allocates. -/
def numValues (c : BitsizeCheckCircuit K) : ℕ :=
  match c.values with
  | some vs => vs.length
  | none => c.num_values.toNat

/-- The value that an assignment (`x` of the instance variables, `w` of the witness variables) gives
to the `i`-th checked value: instance variable `i + 1` if values are public, witness `i` if not. -/
def checked (c : BitsizeCheckCircuit K) (x w : ℕ → K.F) (i : ℕ) : K.F :=
  if c.alloc_as_public then x (i + 1) else w i

/-- A recorded assignment as a function. -/
def assign {F : Type} [Zero F] (l : List F) : ℕ → F := fun i => l.getD i 0

/-- Number of constraints per value for a field of `bits` bits. -/
def constraintsPerValue (bits b : ℕ) : ℕ := if b < bits then 2 * bits - b + 1 else bits + 1

end Spec
open Spec

theorem genConstraints_ok (c : BitsizeCheckCircuit K) (setup : Bool)
    (h : setup = true ∨ c.values.isSome = true) (hb : c.required_bit_size.toNat ≤ K.modBits) :
    ∃ xs : List K.F, xs.length = numValues c ∧ (c.values.isSome = true → c.values = some xs) ∧
    c.generateConstraints (CS.new setup) = .ok
      { setup := setup
        numInst := if c.alloc_as_public then 1 + xs.length else 1
        numWit := (if c.alloc_as_public then 0 else xs.length) +
          xs.length * blockWits K.modBits c.required_bit_size.toNat
        inst := if c.alloc_as_public then [1] ++ recorded setup xs else [1]
        wit := (if c.alloc_as_public then [] else recorded setup xs) ++ recorded setup
          ((xs.flatMap fun x => blockVals K.modBits c.required_bit_size.toNat x.val).map ofBool)
        cons := blocks K.modBits c.required_bit_size.toNat
          (tab xs.length (valueVar c.alloc_as_public))
          (if c.alloc_as_public then 0 else xs.length) } := by
  cases hv : c.values with
  | some xs =>
    refine ⟨xs, by simp [numValues, hv], fun _ => rfl, ?_⟩
    apply generateConstraints_eq c setup xs _ hb
    cases setup
    · right; exact ⟨rfl, hv⟩
    · left; exact ⟨rfl, by simp [hv]⟩
  | none =>
    have hs : setup = true := by simpa [hv] using h
    subst hs
    refine ⟨List.replicate c.num_values.toNat 0, by simp [numValues, hv], by simp, ?_⟩
    apply generateConstraints_eq c true _ _ hb
    left; exact ⟨rfl, by simp [hv]⟩

theorem allocValues_none (pub : Bool) (n : ℕ) (cs : CS K.F) (hs : cs.setup = false) :
    allocValues pub cs (List.replicate (n + 1) none) = .err .assignmentMissing := by
  cases pub <;>
  simp [List.replicate_succ, allocValues, FpVar.newVariable, CS.newInput, CS.newWitness, hs]

theorem checkValues_panic (b : UInt8) (cs : CS K.F) (l : List (FpVar K.F)) (v : Var) (x : K.F)
    (hb : K.modBits < b.toNat) :
    checkValues b cs (⟨known cs.setup x, v⟩ :: l) = .panic := by
  simp [checkValues, checkValue_panic b cs v x hb]

theorem genConstraints_panic (c : BitsizeCheckCircuit K) (setup : Bool)
    (h : setup = true ∨ c.values.isSome = true) (hb : K.modBits < c.required_bit_size.toNat)
    (hk : 0 < numValues c) : c.generateConstraints (CS.new setup) = .panic := by
  obtain ⟨xs, hxs, hl⟩ : ∃ xs : List K.F, xs.length = numValues c ∧
      ((CS.new (F := K.F) setup).setup = true ∧ c.valueList.length = xs.length ∨
      (CS.new (F := K.F) setup).setup = false ∧ c.valueList = xs.map some) := by
    cases hv : c.values with
    | some xs =>
      refine ⟨xs, by simp [numValues, hv], ?_⟩
      cases setup
      · right; exact ⟨rfl, by simp [BitsizeCheckCircuit.valueList, hv]⟩
      · left; exact ⟨rfl, by simp [BitsizeCheckCircuit.valueList, hv]⟩
    | none =>
      have hs : setup = true := by simpa [hv] using h
      subst hs
      exact ⟨List.replicate c.num_values.toNat 0, by simp [numValues, hv],
        Or.inl ⟨rfl, by simp [BitsizeCheckCircuit.valueList, hv]⟩⟩
  cases xs with
  | nil => simp at hxs; omega
  | cons x xs =>
    unfold BitsizeCheckCircuit.generateConstraints
    rw [allocValues_eq c.alloc_as_public (CS.new setup) _ _ hl]
    simp only [Res.ok_bind, List.zipIdx_cons, List.map_cons]
    exact checkValues_panic (K := K) c.required_bit_size
      { setup := setup
        numInst := _
        numWit := _
        inst := _
        wit := _
        cons := [] } _ _ x hb

/-- **C44** shape of the constraint system.  In setup mode, or in proving mode with values present:
for `b ≤ bits` synthesis succeeds; instance variable 0 is the constant one and (for public
allocation) variables `1..k` are the values, in order; there are exactly
`k * constraintsPerValue bits b` constraints; for `b > bits` and at least one value it aborts.
In proving mode with values absent it returns `AssignmentMissing`. -/
theorem C44_shape (c : BitsizeCheckCircuit K) (setup : Bool) :
    ((setup = true ∨ c.values.isSome = true) → c.required_bit_size.toNat ≤ K.modBits →
      ∃ cs, c.generateConstraints (CS.new setup) = .ok cs ∧
        cs.numInst = (if c.alloc_as_public then numValues c + 1 else 1) ∧
        cs.cons.length =
          numValues c * constraintsPerValue K.modBits c.required_bit_size.toNat ∧
        (∀ vs, setup = false → c.values = some vs →
          (cs.inst = if c.alloc_as_public then 1 :: vs else [1]) ∧
          cs.inst.length = cs.numInst ∧ cs.wit.length = cs.numWit)) ∧
    ((setup = true ∨ c.values.isSome = true) → K.modBits < c.required_bit_size.toNat →
      0 < numValues c → c.generateConstraints (CS.new setup) = .panic) ∧
    (c.values = none → 0 < c.num_values.toNat →
      c.generateConstraints (CS.new false) = .err .assignmentMissing) ∧
    (numValues c = 0 → c.generateConstraints (CS.new setup) = .ok (CS.new setup)) := by
  refine ⟨?_, genConstraints_panic c setup, ?_, ?_⟩
  · intro h hb
    obtain ⟨xs, hxs, hsome, hrun⟩ := genConstraints_ok c setup h hb
    refine ⟨_, hrun, ?_, ?_, ?_⟩
    · rw [← hxs, Nat.add_comm]
    · rw [length_blocks, length_tab, hxs]
      congr 1
      unfold constraintsPerValue
      rcases Nat.lt_or_ge c.required_bit_size.toNat K.modBits with h | h
      · rw [if_pos h, if_neg (Nat.not_le.mpr h)]
      · rw [if_neg (Nat.not_lt.mpr h), if_pos h]
    · intro vs hs hv
      have hvx : vs = xs := by
        have := hsome (by simp [hv])
        rw [hv] at this
        exact Option.some.inj this
      subst hvx
      subst hs
      have hwl : (vs.flatMap fun x => blockVals K.modBits c.required_bit_size.toNat x.val).length
          = vs.length * blockWits K.modBits c.required_bit_size.toNat := by
        clear hrun hsome hv hxs h
        induction vs with
        | nil => simp
        | cons v vs ih =>
          rw [List.flatMap_cons, List.length_append, ih, length_blockVals, List.length_cons]
          ring
      cases c.alloc_as_public <;> simp [recorded, hwl, Nat.add_comm]
  · intro hv hn
    unfold BitsizeCheckCircuit.generateConstraints BitsizeCheckCircuit.valueList
    obtain ⟨m, hm⟩ : ∃ m, c.num_values.toNat = m + 1 := ⟨c.num_values.toNat - 1, by omega⟩
    rw [hv]
    simp only [hm]
    rw [allocValues_none _ _ _ rfl]
    rfl
  · intro hk
    have : c.valueList = [] := by
      unfold BitsizeCheckCircuit.valueList
      unfold numValues at hk
      cases hv : c.values with
      | some vs => simp [hv] at hk; simp [hk]
      | none => simp only [hv] at hk; simp [hk]
    unfold BitsizeCheckCircuit.generateConstraints
    rw [this]
    rfl

/-- **C44** the constraints depend only on the bit size, the number of values and the kind of
allocation, not on the values nor on the synthesis mode: a proving key made in setup mode fits every
proof synthesis with the same number of values. -/
theorem C44_value_independent (c c' : BitsizeCheckCircuit K) (setup setup' : Bool)
    (cs cs' : CS K.F) (hb : c.required_bit_size = c'.required_bit_size)
    (hp : c.alloc_as_public = c'.alloc_as_public) (hk : numValues c = numValues c')
    (h : c.generateConstraints (CS.new setup) = .ok cs)
    (h' : c'.generateConstraints (CS.new setup') = .ok cs') :
    cs.cons = cs'.cons ∧ cs.numInst = cs'.numInst ∧ cs.numWit = cs'.numWit := by
  rcases Nat.eq_zero_or_pos (numValues c) with h0 | hpos
  · rw [(C44_shape c setup).2.2.2 h0] at h
    rw [(C44_shape c' setup').2.2.2 (hk ▸ h0)] at h'
    cases h; cases h'
    exact ⟨rfl, rfl, rfl⟩
  · have key : ∀ (d : BitsizeCheckCircuit K) (su : Bool) (ds : CS K.F), 0 < numValues d →
        d.generateConstraints (CS.new su) = .ok ds →
        (su = true ∨ d.values.isSome = true) ∧ d.required_bit_size.toNat ≤ K.modBits := by
      intro d su ds hd hr
      have h1 : su = true ∨ d.values.isSome = true := by
        by_contra hc
        push Not at hc
        have hsu : su = false := by simpa using hc.1
        have hv : d.values = none := by simpa using hc.2
        have hn : 0 < d.num_values.toNat := by simpa [numValues, hv] using hd
        rw [hsu, (C44_shape d su).2.2.1 hv hn] at hr
        cases hr
      refine ⟨h1, ?_⟩
      by_contra hc
      rw [genConstraints_panic d su h1 (by omega) hd] at hr
      cases hr
    obtain ⟨k1, k2⟩ := key c setup cs hpos h
    obtain ⟨k1', k2'⟩ := key c' setup' cs' (hk ▸ hpos) h'
    obtain ⟨xs, hxs, _, hrun⟩ := genConstraints_ok c setup k1 k2
    obtain ⟨xs', hxs', _, hrun'⟩ := genConstraints_ok c' setup' k1' k2'
    rw [hrun] at h
    rw [hrun'] at h'
    cases h; cases h'
    simp only [hxs, hxs', hb, hp, hk, and_self]

/-- **C44** the documented constraint count (src/circuit.rs:43): 7920 for BLS12-381 with 16-bit
chunks and the default number of values. -/
theorem C44_bls_7920 (pub : Bool) :
    ∃ c cs, BitsizeCheckCircuit.new (K := blsFr) 16 none none pub = .ok c ∧
      c.generateConstraints (CS.new true) = .ok cs ∧ cs.cons.length = 7920 := by
  let c : BitsizeCheckCircuit blsFr := ⟨16, 16, none, pub⟩
  have hc : BitsizeCheckCircuit.new (K := blsFr) 16 none none pub = .ok c := by
    simp [BitsizeCheckCircuit.new, chunksCount, blsFr_modBits, c]
  have h16 : c.required_bit_size.toNat = 16 := rfl
  have hn : numValues c = 16 := rfl
  have hb : c.required_bit_size.toNat ≤ blsFr.modBits := by rw [blsFr_modBits, h16]; decide
  obtain ⟨cs, h, -, h3, -⟩ := (C44_shape c true).1 (Or.inl rfl) hb
  refine ⟨c, cs, hc, h, ?_⟩
  rw [h3, blsFr_modBits, h16, hn]
  decide

/-- **C42** soundness of the circuit: whenever synthesis (in any mode, for any values) succeeds,
every assignment whatsoever that satisfies the generated constraints gives every checked value a
canonical representative below `2^b`. -/
theorem C42_sound (c : BitsizeCheckCircuit K) (setup : Bool) (cs : CS K.F)
    (h : c.generateConstraints (CS.new setup) = .ok cs) (x w : ℕ → K.F)
    (hsat : Satisfies x w cs.cons) (i : ℕ) (hi : i < numValues c) :
    (checked c x w i).val < 2 ^ c.required_bit_size.toNat := by
  have hpos : 0 < numValues c := by omega
  have h1 : setup = true ∨ c.values.isSome = true := by
    by_contra hc
    push Not at hc
    have hsu : setup = false := by simpa using hc.1
    have hv : c.values = none := by simpa using hc.2
    have hn : 0 < c.num_values.toNat := by simpa [numValues, hv] using hpos
    rw [hsu, (C44_shape c setup).2.2.1 hv hn] at h
    cases h
  have h2 : c.required_bit_size.toNat ≤ K.modBits := by
    by_contra hc
    rw [genConstraints_panic c setup h1 (by omega) hpos] at h
    cases h
  obtain ⟨xs, hxs, _, hrun⟩ := genConstraints_ok c setup h1 h2
  rw [hrun] at h
  cases h
  obtain ⟨hx, hcons⟩ := hsat
  obtain ⟨N, hN, hv⟩ := blocks_sound x w hx _ _ h2 _ _ hcons (valueVar c.alloc_as_public i) (by
    simp only [tab, List.mem_map, List.mem_range]
    exact ⟨i, by omega, rfl⟩)
  have : checked c x w i = ((N : ℕ) : K.F) := by
    rw [← hv]
    unfold checked valueVar
    cases c.alloc_as_public <;> rfl
  rw [this, ZMod.val_natCast]
  exact lt_of_le_of_lt (Nat.mod_le _ _) hN

/-- **C43** completeness and exactness: in proving mode the witness the synthesizer computes by
itself satisfies all constraints iff every value is below `2^b` (as canonical integer); and if some
value is not, no witness at all satisfies them. -/
theorem C43_complete (c : BitsizeCheckCircuit K) (vs : List K.F) (hv : c.values = some vs)
    (hb : c.required_bit_size.toNat ≤ K.modBits) :
    ∃ cs, c.generateConstraints (CS.new false) = .ok cs ∧
      (Satisfies (assign cs.inst) (assign cs.wit) cs.cons ↔
        ∀ v ∈ vs, v.val < 2 ^ c.required_bit_size.toNat) ∧
      (∀ x w : ℕ → K.F, (∀ i < vs.length, checked c x w i = vs.getD i 0) →
        (∃ v ∈ vs, 2 ^ c.required_bit_size.toNat ≤ v.val) → ¬ Satisfies x w cs.cons) := by
  have hrun := generateConstraints_eq c false vs (Or.inr ⟨rfl, hv⟩) hb
  have hnum : numValues c = vs.length := by simp [numValues, hv]
  have hneg : ∀ x w : ℕ → K.F, (∀ i < vs.length, checked c x w i = vs.getD i 0) →
        Satisfies x w (blocks K.modBits c.required_bit_size.toNat
          (tab vs.length (valueVar c.alloc_as_public))
          (if c.alloc_as_public then 0 else vs.length)) →
        ∀ v ∈ vs, v.val < 2 ^ c.required_bit_size.toNat := by
    intro x w hx hs v hvm
    obtain ⟨i, hi, rfl⟩ := List.getElem_of_mem hvm
    have := C42_sound c false _ hrun x w hs i (by omega)
    rw [hx i hi, List.getD_eq_getElem?_getD, List.getElem?_eq_getElem hi] at this
    simpa using this
  refine ⟨_, hrun, ⟨?_, ?_⟩, ?_⟩
  · intro hs
    refine hneg _ _ ?_ hs
    intro i hi
    unfold checked assign
    cases c.alloc_as_public
    · simp only [Bool.false_eq_true, if_false, recorded]
      rw [List.getD_append _ _ _ _ hi]
    · simp [recorded]
  · intro hall
    have hx0 : assign (if c.alloc_as_public then [1] ++ recorded false vs else [(1 : K.F)]) 0 = 1 := by
      cases c.alloc_as_public <;> simp [assign]
    refine ⟨hx0, ?_⟩
    have hvars : tab vs.length (valueVar c.alloc_as_public) =
        (tab vs.length fun i => (valueVar c.alloc_as_public i, (vs.getD i 0).val)).map (·.1) := by
      simp
    have hvals : vs.flatMap (fun x => blockVals K.modBits c.required_bit_size.toNat x.val) =
        (tab vs.length fun i => (valueVar c.alloc_as_public i, (vs.getD i 0).val)).flatMap
          fun t => blockVals K.modBits c.required_bit_size.toNat t.2 := by
      conv_lhs => rw [eq_tab (l := vs) rfl 0]
      simp only [tab, List.flatMap_map]
    show ∀ r ∈ blocks _ _ (tab vs.length (valueVar c.alloc_as_public)) _, _
    rw [hvars]
    apply blocks_complete _ _ hx0
    · intro t ht
      simp only [tab, List.mem_map, List.mem_range] at ht
      obtain ⟨i, hi, rfl⟩ := ht
      have hm : vs.getD i 0 ∈ vs := by
        rw [List.getD_eq_getElem?_getD, List.getElem?_eq_getElem hi]
        simp
      refine ⟨hall _ hm, ?_, ?_⟩
      · exact lt_trans (ZMod.val_lt _) (Nat.size_le.mp (le_refl _))
      · rw [ZMod.natCast_zmod_val]
        unfold valueVar assign
        cases c.alloc_as_public
        · simp only [Bool.false_eq_true, if_false, recorded, Var.eval]
          rw [List.getD_append _ _ _ _ hi]
        · simp [recorded, Var.eval]
    · intro i hi
      simp only [length_tab] at hi
      have hl : i < (vs.flatMap fun x =>
          blockVals K.modBits c.required_bit_size.toNat x.val).length := by
        rw [hvals, List.length_flatMap]
        simp only [length_blockVals, List.map_const', List.sum_replicate, length_tab]
        simpa using hi
      rw [← hvals]
      generalize vs.flatMap (fun x => blockVals K.modBits c.required_bit_size.toNat x.val) = L
        at hl
      unfold assign
      have hmap : (L.map (ofBool (F := K.F))).getD i 0 = ofBool (L.getD i false) := by
        rw [List.getD_eq_getElem?_getD, List.getD_eq_getElem?_getD, List.getElem?_map,
          List.getElem?_eq_getElem hl]
        rfl
      cases c.alloc_as_public
      · simp only [Bool.false_eq_true, if_false, recorded]
        rw [List.getD_append_right _ _ _ _ (by omega), Nat.add_sub_cancel_left, hmap]
      · simp only [if_true, recorded, Bool.false_eq_true, if_false, List.nil_append, Nat.zero_add]
        exact hmap
  · rintro x w hx ⟨v, hvm, hge⟩ hs
    have := hneg x w hx hs v hvm
    omega

/-- Example for C42-C44: three 4-bit values over the BLS12-381 scalar field, synthesised in proving
mode; the hypotheses hold and the computed witness satisfies the constraints. -/
example : ∃ cs, (⟨4, 3, some [3, 15, 0], true⟩ : BitsizeCheckCircuit blsFr).generateConstraints
      (CS.new false) = .ok cs ∧ Satisfies (assign cs.inst) (assign cs.wit) cs.cons ∧
      cs.cons.length = 3 * 507 := by
  let c : BitsizeCheckCircuit blsFr := ⟨4, 3, some [3, 15, 0], true⟩
  have hb : c.required_bit_size.toNat ≤ blsFr.modBits := by rw [blsFr_modBits]; decide
  obtain ⟨cs, h, h1, -⟩ := C43_complete c [3, 15, 0] rfl hb
  refine ⟨cs, h, h1.mpr ?_, ?_⟩
  · intro v hv
    have h3 : (3 : blsFr.F).val = 3 := by decide +kernel
    have h15 : (15 : blsFr.F).val = 15 := by decide +kernel
    have h0 : (0 : blsFr.F).val = 0 := by decide +kernel
    simp only [List.mem_cons, List.not_mem_nil, or_false] at hv
    show v.val < 2 ^ 4
    rcases hv with rfl | rfl | rfl <;> omega
  · obtain ⟨cs2, h2, -, h3, -⟩ := (C44_shape c false).1 (Or.inr rfl) hb
    rw [h] at h2
    cases h2
    rw [h3, blsFr_modBits]
    rfl

end Verif
