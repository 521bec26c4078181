/-
Property C102: which randomness each operation uses, and what happens if it is used twice.
-/
import Verif.SpecRandomness
import Verif.Props.Leak
import Verif.Props.Setup
import Verif.Lemmas.SecProof
import Verif.Fixtures

namespace Verif
open Spec

variable {E : Engine}

/-! ### combinators -/

namespace Reads

/-- run `op`, then `f` on its result -/
def seq {α β : Type} (op : Randomised E α) (f : α → Randomised E β) : Randomised E β :=
  fun R st => op R st >>= fun x => f x.1 R x.2

/-- return a value -/
def ret {α : Type} (a : α) : Randomised E α := fun _ st => .ok (a, st)

/-- fail -/
def fail {α : Type} (e : SaverError) : Randomised E α := fun _ _ => .err e

/-- a step without randomness -/
def step {α β : Type} (x : Res α) (f : α → Randomised E β) : Randomised E β := fun R st => x >>= fun a => f a R st

/-- one draw -/
def one (E : Engine) : Randomised E E.Fr := fun R st => .ok (R.fr st)

/-- `n` draws -/
def many (E : Engine) (n : ℕ) : Randomised E (List E.Fr) := fun R st => .ok (R.frs n st)

theorem ok {α : Type} (a : α) : ReadsScalars 0 (ret (E := E) a) :=
  ⟨fun _ => .ok a, fun _ _ => rfl⟩

theorem err {α : Type} (k : ℕ) (e : SaverError) : ReadsScalars k (fail (E := E) (α := α) e) :=
  ⟨fun _ => .err e, fun _ _ => rfl⟩

theorem fr : ReadsScalars 1 (one E) :=
  ⟨fun x => .ok (x 0), fun _ _ => rfl⟩

theorem frs (n : ℕ) : ReadsScalars n (many E n) :=
  ⟨fun x => .ok (List.ofFn x), fun R st => by
    unfold many
    rw [frs_eq]
    simp only [Res.ok_bind]
    congr 2
    apply List.ext_getElem?
    intro i
    rw [getElem?_tab]
    by_cases hi : i < n
    · simp [hi]
    · simp [hi]⟩

theorem bind {α β : Type} {k l : ℕ} {op : Randomised E α} {f : α → Randomised E β} (h : ReadsScalars k op)
    (hf : ∀ a, ReadsScalars l (f a)) : ReadsScalars (k + l) (seq op f) := by
  obtain ⟨F, hF⟩ := h
  choose G hG using hf
  refine ⟨fun x => F (fun i => x ⟨i, by omega⟩) >>= fun a => G a (fun i => x ⟨k + i, by omega⟩), fun R st => ?_⟩
  unfold seq
  rw [hF]
  dsimp only
  generalize (F fun i => draw R st i) = u
  cases u with
  | ok a =>
    simp only [Res.ok_bind]
    rw [hG]
    simp only [draw_after, after_after]
  | err e => rfl
  | panic => rfl

theorem lift {α β : Type} {k : ℕ} (x : Res α) {f : α → Randomised E β} (hf : ∀ a, x = .ok a → ReadsScalars k (f a)) :
    ReadsScalars k (step x f) := by
  cases x with
  | ok a => exact hf a rfl
  | err e => exact err k e
  | panic => exact ⟨fun _ => .panic, fun _ _ => rfl⟩

theorem between {α : Type} {k : ℕ} {op : Randomised E α} (h : ReadsScalars k op) : ReadsBetween k k op := by
  obtain ⟨F, hF⟩ := h
  intro R st a st' hr
  rw [hF] at hr
  obtain ⟨u, h1, h2⟩ := Res.bind_eq_ok.mp hr
  simp only [Res.ok.injEq, Prod.mk.injEq] at h2
  obtain ⟨rfl, rfl⟩ := h2
  refine ⟨k, le_rfl, le_rfl, rfl, fun R' stR hd => ?_⟩
  rw [hF, show (fun i : Fin k => draw R' stR i) = (fun i : Fin k => draw R st i) from funext fun i => hd i i.2, h1]
  rfl

theorem bindB {α β : Type} {lo hi lo' hi' : ℕ} {op : Randomised E α} {f : α → Randomised E β}
    (h : ReadsBetween lo hi op) (hf : ∀ a, ReadsBetween lo' hi' (f a)) :
    ReadsBetween (lo + lo') (hi + hi') (seq op f) := by
  intro R st b st' hr
  obtain ⟨⟨a, st1⟩, h1, h2⟩ := Res.bind_eq_ok.mp hr
  obtain ⟨k, hk1, hk2, rfl, hk⟩ := h R st a st1 h1
  obtain ⟨l, hl1, hl2, rfl, hl⟩ := hf a R _ b st' h2
  refine ⟨k + l, by omega, by omega, by rw [after_after], fun R' stR hd => ?_⟩
  unfold seq
  rw [hk R' stR fun i hi => hd i (by omega)]
  simp only [Res.ok_bind]
  rw [hl R' (after R' stR k) fun i hi => by rw [draw_after, draw_after]; exact hd _ (by omega), after_after]

theorem liftB {α β : Type} {lo hi : ℕ} (x : Res α) {f : α → Randomised E β}
    (hf : ∀ a, x = .ok a → ReadsBetween lo hi (f a)) : ReadsBetween lo hi (step x f) := by
  cases x with
  | ok a => exact hf a rfl
  | err e => intro R st a st' h; cases h
  | panic => intro R st a st' h; cases h

theorem errB {α : Type} {lo hi : ℕ} (e : SaverError) :
    ReadsBetween lo hi (fail (E := E) (α := α) e) := by
  intro R st a st' h; cases h

end Reads

/-! ### the operations -/

open Reads in
/-- **C102** `Fkeygen_dest` reads one scalar. -/
theorem C102_fkeygenDest (gens : EncryptionGens E) :
    ReadsScalars 1 (fun R st => fkeygenDest R st gens) := by
  have e : (fun R st => fkeygenDest R st gens) = seq (one E) fun rho =>
    ret (α := SecretKey E × FEncryptionKeyDest E) (⟨rho⟩, ⟨mulBigint gens.G (intoBigint (K := E.fr) rho)⟩) := rfl
  rw [e]
  exact Reads.bind (k := 1) (l := 0) Reads.fr fun rho => Reads.ok _

open Reads in
/-- **C102** `FkeygenPartial` with `n` chunks reads `1 + 2 n` scalars. -/
theorem C102_fkeygenPartial (b n : UInt8) (hn : chunksCount E.fr b = .ok n) (gens : EncryptionGens E)
    (g_i : List E.G1) (D C : E.G1) :
    ReadsScalars (1 + 2 * n.toNat) (fun R st => fkeygenPartial R st b gens g_i D C) := by
  unfold fkeygenPartial
  simp only [hn, Res.ok_bind]
  generalize n.toNat = n
  by_cases hl : n > g_i.length
  · simp only [if_pos hl]
    exact Reads.err _ _
  · simp only [if_neg hl]
    rw [show 1 + 2 * n = n + (n + 1 + 0) by omega]
    exact Reads.bind (k := n) (l := n + 1 + 0) (f := fun s => seq (many E (n + 1)) fun t =>
      step (multiplyFieldElems (K := E.fr) D s) fun X =>
      step (mapRes (fun i => do
        let g ← idx g_i i
        let k ← idx (t.map intoBigint) (i + 1)
        return mulBigint g k) (List.range n)) fun Y =>
      step (multiplyFieldElems (K := E.fr) gens.H t) fun Z =>
      ret (α := SecretKeyST E × FEncryptionKeyPartial E) (⟨s, t⟩, ⟨D, X, Y, Z, mulBigint C (intoBigint (K := E.fr) s.sum)⟩)) (Reads.frs _) fun s =>
      Reads.bind (Reads.frs _) fun t => Reads.lift _ fun X _ => Reads.lift _ fun Y _ => Reads.lift _ fun Z _ =>
      Reads.ok _

open Reads in
/-- **C102** `keygen` with `n` chunks reads `2 + 3 n` scalars. -/
theorem C102_keygen (b n : UInt8) (hn : chunksCount E.fr b = .ok n) (gens : EncryptionGens E)
    (g_i : List E.G1) (D C : E.G1) :
    ReadsScalars (2 + 3 * n.toNat) (fun R st => keygen R st b gens g_i D C) := by
  unfold keygen
  simp only [hn, Res.ok_bind]
  generalize n.toNat = n
  by_cases hl : n > g_i.length
  · simp only [if_pos hl]
    exact Reads.err _ _
  · simp only [if_neg hl]
    rw [show 2 + 3 * n = 1 + (n + (n + 1 + (n + 0))) by omega]
    exact Reads.bind (k := 1) (l := n + (n + 1 + (n + 0))) (f := fun rho => seq (many E n) fun s => seq (many E (n + 1)) fun t => seq (many E n) fun v =>
      step (multiplyFieldElems (K := E.fr) D s) fun X =>
      step (mapRes (fun i => do
        let g ← idx g_i i
        let k ← idx (t.map intoBigint) (i + 1)
        return mulBigint g k) (List.range n)) fun Y =>
      step (multiplyFieldElems (K := E.fr) gens.H t) fun Z =>
      step (idx t 0) fun t0 =>
      step (mapRes (fun j => do
        let x ← idx s j
        let y ← idx t (j + 1)
        return x * y) (List.range n)) fun prods =>
      step (multiplyFieldElems (K := E.fr) (mulBigint gens.H (intoBigint (K := E.fr) rho)) v) fun V_2 =>
      step (multiplyFieldElems (K := E.fr) gens.H (List.zipWith (fun x1 x2 => x1 * x2) s v)) fun V_1 =>
      ret (α := SecretKey E × EncryptionKey E × DecryptionKey E) (⟨rho⟩, ⟨D, X, Y, Z, mulBigint D (intoBigint (K := E.fr) (t0 + prods.sum)),
          mulBigint C (intoBigint (K := E.fr) (1 + s.sum))⟩,
        ⟨mulBigint gens.H (intoBigint (K := E.fr) rho), V_1, V_2⟩)) Reads.fr fun rho =>
      Reads.bind (Reads.frs _) fun s => Reads.bind (Reads.frs _) fun t => Reads.bind (Reads.frs _) fun v =>
      Reads.lift _ fun X _ => Reads.lift _ fun Y _ => Reads.lift _ fun Z _ => Reads.lift _ fun t0 _ =>
      Reads.lift _ fun prods _ => Reads.lift _ fun V2 _ => Reads.lift _ fun V1 _ => Reads.ok _

open Reads in
/-- **C102** `encrypt_decomposed_message` reads one scalar. -/
theorem C102_encryptDecomposed (chunks : List UInt16) (ek : EncryptionKey E) (g_i : List E.G1) :
    ReadsScalars 1 (fun R st => encryptDecomposedMessage R st chunks ek g_i) := by
  unfold encryptDecomposedMessage
  refine Reads.lift _ fun cnt _ => ?_
  dsimp only
  by_cases h1 : chunks.length ≠ cnt.toNat
  · simp only [if_pos h1]
    exact Reads.err _ _
  · simp only [if_neg h1]
    by_cases h2 : chunks.length > g_i.length
    · simp only [if_pos h2]
      exact Reads.err _ _
    · simp only [if_neg h2]
      exact Reads.bind (k := 1) (l := 0) (f := fun r =>
        step (mapRes (fun i => do
          let x ← idx ek.X i
          let g ← idx g_i i
          let k ← idx (chunks.map fun m_i => m_i.toNat) i
          return mulBigint x (intoBigint (K := E.fr) r) + mulBigint g k) (List.range ek.X.length)) fun cs =>
        ret (α := List E.G1 × E.Fr) (mulBigint ek.X_0 (intoBigint (K := E.fr) r) :: (cs ++ [msmBigint ek.commitmentKey
          ((chunks.map fun m_i => m_i.toNat) ++ [intoBigint (K := E.fr) r])]), r))
        Reads.fr fun r => Reads.lift _ fun cs _ => Reads.ok _

open Reads in
/-- **C102** `encrypt` reads one scalar. -/
theorem C102_encrypt (m : E.Fr) (ek : EncryptionKey E) (g_i : List E.G1) (b : UInt8) :
    ReadsScalars 1 (fun R st => encrypt R st m ek g_i b) := by
  unfold encrypt
  refine Reads.lift _ fun d _ => ?_
  exact Reads.bind (l := 0) (f := fun a =>
    step (vecRemove a.1 0) fun x => step (vecRemove x.2 (x.2.length - 1)) fun y =>
    ret (α := Ciphertext E × E.Fr) (⟨x.1, y.2, y.1⟩, a.2)) (C102_encryptDecomposed d ek g_i)
    fun x => Reads.lift _ fun y _ => Reads.lift _ fun z _ => Reads.ok _

/-- **C102** `encrypt_given_snark_vk` reads one scalar. -/
theorem C102_encryptGivenSnarkVk (m : E.Fr) (ek : EncryptionKey E) (vk : VerifyingKey E) (b : UInt8) :
    ReadsScalars 1 (fun R st => encryptGivenSnarkVk R st m ek vk b) := by
  unfold encryptGivenSnarkVk
  exact Reads.lift _ fun g_i _ => C102_encrypt m ek g_i b

open Reads in
/-- **C102** `re_encrypt_share` reads one scalar. -/
theorem C102_reEncryptShare (gens : EncryptionGens E) (c_0 : E.G1) (c : List E.G1) (ekd : FEncryptionKeyDest E)
    (sk : SecretKeyST E) : ReadsScalars 1 (fun R st => reEncryptShare R st gens c_0 c ekd sk) :=
  Reads.bind (k := 1) (l := 0) (f := fun rho =>
    step (mapRes (fun i => do
      let s ← idx sk.s i
      return mulBigint c_0 (intoBigint (K := E.fr) (-s)) +
        mulBigint ekd.pk (intoBigint (K := E.fr) rho)) (List.range c.length)) fun w =>
    ret (w, mulBigint gens.G (intoBigint (K := E.fr) rho)))
    Reads.fr fun r => Reads.lift _ fun cs _ => Reads.ok _

open Reads in
/-- **C102** `create_proof` reads two scalars. -/
theorem C102_createProof (T : FftCfg E.Fr) (chk : Bool) (C : Synthesizer E.Fr) (r : E.Fr) (pk : ProvingKey E)
    (ek : EncryptionKey E) : ReadsScalars 2 (fun R st => createProof T chk R st C r pk ek) :=
  Reads.bind (k := 1) (l := 1 + 0) (f := fun t => seq (one E) fun s =>
    step (createProofWithReduction T chk C pk.pk t s) fun proof =>
    ret (α := Proof E) { proof with c := proof.c + mulBigint ek.P_2 (intoBigint (K := E.fr) r) })
    Reads.fr fun t => Reads.bind Reads.fr fun s => Reads.lift _ fun p _ => Reads.ok _

open Reads in
/-- **C102** `encrypt_with_proof` reads three scalars: first the encryption randomness, then those of the proof. -/
theorem C102_encryptWithProof (T : FftCfg E.Fr) (chk : Bool) (m : E.Fr) (ek : EncryptionKey E) (pk : ProvingKey E)
    (b : UInt8) : ReadsScalars 3 (fun R st => encryptWithProof T chk R st m ek pk b) := by
  unfold encryptWithProof
  refine Reads.lift _ fun g_i _ => ?_
  exact Reads.bind (k := 1) (l := 2 + 0) (f := fun x =>
    step (decompose (K := E.fr) m b) fun chunks =>
    step (BitsizeCheckCircuit.new (K := E.fr) b none (some (chunks.map fun c => ((c.toNat : ℕ) : E.Fr))) true) fun circuit =>
    seq (fun R st => createProof T chk R st circuit.generateConstraints x.2 pk ek) fun p =>
    ret (x.1, x.2, p)) (C102_encrypt m ek g_i b) fun x =>
    Reads.lift _ fun d _ => Reads.lift _ fun c _ => Reads.bind (C102_createProof T chk _ _ pk ek) fun p => Reads.ok _

theorem sampleOutside_succ (R : RngCore E) (d : EvalDomain E.Fr) (f : ℕ) (st : R.σ) :
    sampleOutside R d (f + 1) st = if d.vanishing (draw R st 0) = 0 then sampleOutside R d f (after R st 1)
      else .ok (draw R st 0, after R st 1) := rfl

theorem sampleOutside_reads (d : EvalDomain E.Fr) (fuel : ℕ) :
    ReadsBetween 1 fuel (fun (R : RngCore E) st => sampleOutside R d fuel st) := by
  induction fuel with
  | zero => intro R st a st' h; cases h
  | succ f ih =>
    intro R st a st' h
    dsimp only at h
    rw [sampleOutside_succ] at h
    by_cases hz : d.vanishing (draw R st 0) = 0
    · rw [if_pos hz] at h
      obtain ⟨k, h1, h2, rfl, h4⟩ := ih R _ a st' h
      refine ⟨1 + k, by omega, by omega, by rw [after_after], fun R' stR hd => ?_⟩
      dsimp only
      rw [sampleOutside_succ]
      rw [hd 0 (by omega), if_pos hz]
      have := h4 R' (after R' stR 1) fun i hi => by rw [draw_after, draw_after]; exact hd _ (by omega)
      dsimp only at this
      rw [this, after_after]
    · rw [if_neg hz] at h
      simp only [Res.ok.injEq, Prod.mk.injEq] at h
      obtain ⟨rfl, rfl⟩ := h
      refine ⟨1, le_rfl, by omega, rfl, fun R' stR hd => ?_⟩
      dsimp only
      rw [sampleOutside_succ]
      rw [hd 0 (by omega), if_neg hz]

open Reads in
/-- **C102** `generate_srs`, for any circuit: the four trapdoors and at least one candidate for the evaluation point. -/
theorem C102_generateSrs (T : FftCfg E.Fr) (fuel : ℕ) (C : Synthesizer E.Fr) (gens : EncryptionGens E) :
    ReadsBetween 5 (4 + fuel) (fun R st => generateSrs T R fuel st C gens) := by
  have hgen : ∀ alpha beta gamma delta : E.Fr, ReadsBetween (1 + 0) (fuel + 0) (fun R st =>
      generateParametersWithQap T R fuel st C alpha beta gamma delta gens.G gens.H) := by
    intro alpha beta gamma delta
    unfold generateParametersWithQap
    refine Reads.liftB _ fun cs _ => ?_
    cases T.newDomain (cs.cons.length + cs.numInst) with
    | none => exact Reads.errB _
    | some d =>
      by_cases hg : gamma = 0
      · simp only [if_pos hg]
        exact Reads.bindB (f := fun _ => fail .unexpectedIdentity) (sampleOutside_reads d fuel)
          fun t => Reads.errB _
      · simp only [if_neg hg]
        by_cases hd : delta = 0
        · simp only [if_pos hd]
          exact Reads.bindB (f := fun _ => fail .unexpectedIdentity) (sampleOutside_reads d fuel)
            fun t => Reads.errB _
        · simp only [if_neg hd]
          let mix : E.Fr → Var → E.Fr := fun t v =>
            beta * qapA cs (d.lagrange t) v + alpha * qapB cs (d.lagrange t) v + qapC cs (d.lagrange t) v
          exact Reads.bindB (f := fun t => ret (α := Groth16ProvingKey E)
            { vk := { alpha_g1 := alpha • gens.G
                      beta_g2 := beta • gens.H
                      gamma_g2 := gamma • gens.H
                      delta_g2 := delta • gens.H
                      gamma_abc_g1 := (List.range cs.numInst).map fun i => (mix t (.inst i) * gamma⁻¹) • gens.G }
              beta_g1 := beta • gens.G
              delta_g1 := delta • gens.G
              a_query := cs.vars.map fun v => qapA cs (d.lagrange t) v • gens.G
              b_g1_query := cs.vars.map fun v => qapB cs (d.lagrange t) v • gens.G
              b_g2_query := cs.vars.map fun v => qapB cs (d.lagrange t) v • gens.H
              h_query := (List.range (d.size - 1)).map fun i => (d.vanishing t * delta⁻¹ * t ^ i) • gens.G
              l_query := (List.range cs.numWit).map fun i => (mix t (.wit i) * delta⁻¹) • gens.G })
            (sampleOutside_reads d fuel) fun t => Reads.between (Reads.ok _)
  rw [show 5 = 1 + (1 + (1 + (1 + (1 + 0 + 0)))) by rfl,
    show 4 + fuel = 1 + (1 + (1 + (1 + (fuel + 0 + 0)))) by omega]
  exact Reads.bindB (f := fun alpha => seq (one E) fun beta => seq (one E) fun gamma => seq (one E) fun delta =>
    seq (fun R st => generateParametersWithQap T R fuel st C alpha beta gamma delta gens.G gens.H) fun pk =>
    ret (α := ProvingKey E) ⟨pk, mulBigint gens.G (intoBigint (K := E.fr) (-gamma))⟩)
    (Reads.between Reads.fr) fun alpha =>
    Reads.bindB (Reads.between Reads.fr) fun beta => Reads.bindB (Reads.between Reads.fr) fun gamma =>
    Reads.bindB (Reads.between Reads.fr) fun delta =>
    Reads.bindB (hgen alpha beta gamma delta) fun pk => Reads.between (Reads.ok _)

open Reads in
theorem setup_steps (T : FftCfg E.Fr) (fuel : ℕ) (b : UInt8) (gens : EncryptionGens E) :
    (fun R st => setupForGroth16 T R fuel st b gens) =
      step (BitsizeCheckCircuit.new (K := E.fr) b none none true) fun c =>
      seq (fun R st => generateSrs T R fuel st c.generateConstraints gens) fun pk =>
      step (getGsForEncryption pk.pk.vk) fun g_i =>
      seq (fun R st => keygen R st b gens g_i pk.pk.delta_g1 pk.gamma_g1) fun k =>
      ret (α := ProvingKey E × SecretKey E × EncryptionKey E × DecryptionKey E) (pk, k.1, k.2.1, k.2.2) := by
  funext R st
  unfold setupForGroth16 step
  congr 1

/-- **C102** `setup_for_groth16`: the draws of `generate_srs`, then those of `keygen`. -/
theorem C102_setupForGroth16 (T : FftCfg E.Fr) (fuel : ℕ) (b n : UInt8) (hn : chunksCount E.fr b = .ok n)
    (gens : EncryptionGens E) :
    ReadsBetween (5 + (2 + 3 * n.toNat)) (4 + fuel + (2 + 3 * n.toNat))
      (fun R st => setupForGroth16 T R fuel st b gens) := by
  have hk := fun g_i D C => Reads.between (C102_keygen b n hn gens g_i D C)
  generalize 2 + 3 * n.toNat = k at hk ⊢
  rw [setup_steps]
  refine Reads.liftB _ fun c _ => ?_
  refine Reads.bindB (C102_generateSrs T fuel _ gens) fun pk => ?_
  refine Reads.liftB _ fun g_i _ => ?_
  exact Reads.bindB (lo := k) (lo' := 0) (hi := k) (hi' := 0) (hk g_i _ _) fun x => Reads.between (Reads.ok _)

/-! ### reuse -/

/-- the search finds the chunks when every component is `m_i • g_i` -/
theorem search_chunks (chk : Bool) (c g_i : List E.G1) (b : UInt8) (hb : b.toNat < 32) (chunks : List UInt16)
    (hlen : c.length = chunks.length) (hg : chunks.length ≤ g_i.length) (hgi : ∀ g ∈ g_i, g ≠ 0)
    (hch : ∀ x ∈ chunks, x.toNat ≤ 2 ^ b.toNat - 1 ∧ x.toNat < E.fr.p)
    (hval : ∀ i < chunks.length, c.getD i 0 = (nums chunks).getD i 0 • g_i.getD i 0) :
    decryptAfterReEncryption chk 0 c ⟨0⟩ g_i b = .ok chunks := by
  have hget : ∀ i < chunks.length, ∃ x ∈ chunks, (nums chunks).getD i 0 = x.toNat := by
    intro i hi
    refine ⟨chunks[i], List.getElem_mem _, ?_⟩
    simp [nums, List.getD_eq_getElem?_getD, List.getElem?_eq_getElem hi]
  have hd := (decryptAfter_values chk chunks.length (0 : E.G1) c ⟨0⟩ g_i b hb hlen hg
    (fun i hi => getD_mem_ne hgi (by omega)) (fun i => (nums chunks).getD i 0) (fun i hi => by
      obtain ⟨x, hx, e⟩ := hget i hi; simp only [e]; exact (hch x hx).2) (by
      intro i hi
      rw [hval i hi, smul_zero, sub_zero])).1 (by
      intro i hi
      obtain ⟨x, hx, e⟩ := hget i hi
      simp only [e]
      have h1 := (hch x hx).1
      have h2 := x.toNat_lt
      unfold searchBound
      omega)
  rw [hd]
  congr 1
  apply List.ext_getElem?
  intro i
  rw [getElem?_tab]
  by_cases hi : i < chunks.length
  · rw [if_pos hi, List.getElem?_eq_getElem hi]
    simp [nums, List.getD_eq_getElem?_getD, List.getElem?_eq_getElem hi]
  · rw [if_neg hi, List.getElem?_eq_none (by omega)]

/-- **C102** (the returned randomness) Whoever learns the scalar that an encryption used, and returned, reads the
message without any key. -/
theorem C102_randomness_opens (R : RngCore E) (st st1 : R.σ) (chunks : List UInt16) (ek : EncryptionKey E)
    (g_i : List E.G1) (ct : Ciphertext E) (r : E.Fr)
    (h : encryptDecomposedMessage R st chunks ek g_i = .ok ((flat ct, r), st1)) (hgi : ∀ g ∈ g_i, g ≠ 0)
    (chk : Bool) (b : UInt8) (hb : b.toNat < 32)
    (hch : ∀ x ∈ chunks, x.toNat ≤ 2 ^ b.toNat - 1 ∧ x.toNat < E.fr.p) :
    r = draw R st 0 ∧
      decryptAfterReEncryption chk 0 (openedByRandomness ek ct.enc_chunks r) ⟨0⟩ g_i b = .ok chunks := by
  obtain ⟨h1, h2, h3, h4, h5, h6, -⟩ := encryptDecomposed_inv h
  obtain rfl := flat_inj h5
  refine ⟨h6, search_chunks chk _ g_i b hb chunks ?_ (by omega) hgi hch ?_⟩
  · simp [openedByRandomness, cipher, h3]
  · intro i hi
    unfold openedByRandomness
    change (tab (cipher ek _ _ r).enc_chunks.length _).getD i 0 = _
    rw [getD_tab, if_pos (by simp [cipher]; omega)]
    simp only [cipher]
    rw [getD_tab, if_pos (by omega), add_sub_cancel_left]

/-- **C102** (reused randomness) Two encryptions under the same key that used the same scalar.  Anybody can see it: the
first components are equal, and with `X_0 ≠ 0` only then.  The differences of the components are the differences of the
messages, and whoever knows one of the two messages reads the other one without any key. -/
theorem C102_reuse_opens (R R' : RngCore E) (st st1 : R.σ) (st' st1' : R'.σ) (m m' : List UInt16)
    (ek : EncryptionKey E) (g_i : List E.G1) (ct ct' : Ciphertext E) (r r' : E.Fr)
    (h : encryptDecomposedMessage R st m ek g_i = .ok ((flat ct, r), st1))
    (h' : encryptDecomposedMessage R' st' m' ek g_i = .ok ((flat ct', r'), st1'))
    (hX : ek.X_0 ≠ 0) (hgi : ∀ g ∈ g_i, g ≠ 0) (chk : Bool) (b : UInt8) (hb : b.toNat < 32)
    (hch : ∀ x ∈ m, x.toNat ≤ 2 ^ b.toNat - 1 ∧ x.toNat < E.fr.p) :
    (ct.X_r = ct'.X_r ↔ draw R st 0 = draw R' st' 0) ∧
    (ct.X_r = ct'.X_r →
      (∀ i < m.length, ct.enc_chunks.getD i 0 - ct'.enc_chunks.getD i 0 =
        (m.getD i 0).toNat • g_i.getD i 0 - (m'.getD i 0).toNat • g_i.getD i 0) ∧
      decryptAfterReEncryption chk 0 (openedByReuse ct.enc_chunks ct'.enc_chunks m' g_i) ⟨0⟩ g_i b = .ok m) := by
  obtain ⟨h1, h2, h3, h4, h5, h6, -⟩ := encryptDecomposed_inv h
  obtain ⟨-, -, h3', -, h5', h6', -⟩ := encryptDecomposed_inv h'
  obtain rfl := flat_inj h5
  obtain rfl := flat_inj h5'
  have hiff : (cipher ek (fun i => g_i.getD i 0) (fun i => (nums m).getD i 0) r).X_r =
      (cipher ek (fun i => g_i.getD i 0) (fun i => (nums m').getD i 0) r').X_r ↔ r = r' := by
    simp only [cipher]
    constructor
    · intro e
      by_contra hne
      have : (r - r') • ek.X_0 = 0 := by rw [sub_smul, e, sub_self]
      rcases smul_eq_zero.mp this with h0 | h0
      · exact hne (sub_eq_zero.mp h0)
      · exact hX h0
    · rintro rfl; rfl
  have hnum : ∀ (l : List UInt16) i, (nums l).getD i 0 = (l.getD i 0).toNat := by
    intro l i
    simp only [nums, List.getD_eq_getElem?_getD, List.getElem?_map]
    cases l[i]? <;> simp
  have hdiff : r = r' → ∀ i < m.length,
      (cipher ek (fun i => g_i.getD i 0) (fun i => (nums m).getD i 0) r).enc_chunks.getD i 0 -
      (cipher ek (fun i => g_i.getD i 0) (fun i => (nums m').getD i 0) r').enc_chunks.getD i 0 =
        (m.getD i 0).toNat • g_i.getD i 0 - (m'.getD i 0).toNat • g_i.getD i 0 := by
    rintro rfl i hi
    simp only [cipher]
    rw [getD_tab, if_pos (by omega), getD_tab, if_pos (by omega), add_sub_add_left_eq_sub, hnum, hnum]
  refine ⟨by rw [hiff, h6, h6'], fun e => ⟨hdiff (hiff.mp e), ?_⟩⟩
  refine search_chunks chk _ g_i b hb m ?_ (by omega) hgi hch ?_
  · simp [openedByReuse, cipher, h3]
  · intro i hi
    unfold openedByReuse
    change (tab (cipher ek _ _ r).enc_chunks.length _).getD i 0 = _
    rw [getD_tab, if_pos (by simp [cipher]; omega), hdiff (hiff.mp e) i hi, sub_add_cancel, hnum]

/-- **C102** (equal seeds) If all parties of a distributed key generation draw the same scalars, each of them alone reads
every message encrypted under the common key. -/
theorem C102_equal_seeds (parties : List (Party E)) (b : UInt8) (gens : EncryptionGens E) (g_i : List E.G1)
    (D C : E.G1) (sks : List (SecretKeyST E)) (ek : EncryptionKey E)
    (hdkg : dkg parties b gens g_i D C = .ok (sks, ek)) (hgi : ∀ g ∈ g_i, g ≠ 0)
    (hsame : ∀ P ∈ parties, ∀ Q ∈ parties, ∀ i, draw P.1 P.2 i = draw Q.1 Q.2 i)
    (R : RngCore E) (st st1 : R.σ) (chunks : List UInt16) (ct : Ciphertext E) (r : E.Fr)
    (henc : encryptDecomposedMessage R st chunks ek g_i = .ok ((flat ct, r), st1))
    (chk : Bool) (b' : UInt8) (hb' : b'.toNat < 32)
    (hch : ∀ x ∈ chunks, x.toNat ≤ 2 ^ b'.toNat - 1 ∧ x.toNat < E.fr.p)
    (sk : SecretKeyST E) (hsk : sk ∈ sks) :
    decryptAfterReEncryption chk 0 (openedAlone ct parties.length sk) ⟨0⟩ g_i b' = .ok chunks := by
  obtain ⟨hne, n, hn, hg⟩ := dkg_ok_inv hdkg
  rw [dkg_eq parties hne gens g_i D C hn hg] at hdkg
  simp only [Res.ok.injEq, Prod.mk.injEq] at hdkg
  obtain ⟨rfl, rfl⟩ := hdkg
  obtain ⟨P, hP, rfl⟩ := List.mem_map.mp hsk
  obtain ⟨h1, h2, h3, h4, h5, h6, -⟩ := encryptDecomposed_inv henc
  obtain rfl := flat_inj h5
  have hX : (encKey n.toNat (sumS parties) (sumT n.toNat parties) (fun i => g_i.getD i 0) D C gens.H).X.length
      = n.toNat := by simp [encKey]
  rw [hX] at h3 h4
  have hsum : ∀ i, sumS parties i = (parties.length : E.Fr) * partyS P i := by
    intro i
    unfold sumS
    rw [List.map_congr_left (f := fun Q => partyS Q i) (g := fun _ => partyS P i) (fun Q hQ => hsame Q hQ P hP i), List.map_const',
      List.sum_replicate, nsmul_eq_mul]
  refine search_chunks chk _ g_i b' hb' chunks ?_ (by omega) hgi hch ?_
  · simp [openedAlone, cipher, encKey, h3]
  · intro i hi
    unfold openedAlone
    change (tab (cipher _ _ _ r).enc_chunks.length _).getD i 0 = _
    rw [getD_tab, if_pos (by simp [cipher, encKey]; omega)]
    simp only [cipher]
    rw [getD_tab, if_pos (by omega)]
    simp only [encKey, partySK]
    rw [getD_tab, if_pos (by omega), getD_tab, if_pos (by omega), hsum, smul_smul, smul_smul, mul_comm r, add_sub_cancel_left]

/-! ### concrete cases -/

example := C102_keygen (E := Fix.E) 16 4 Fix.count Fix.gens Fix.gi Fix.D Fix.C
example := C102_fkeygenPartial (E := Fix.E) 16 4 Fix.count Fix.gens Fix.gi Fix.D Fix.C

example := C102_randomness_opens (listRng Fix.E) Fix.st1 _ Fix.m1 Fix.ek Fix.gi Fix.ct1 _ Fix.enc1 Fix.gi_ne true 16
  (by decide) (by decide +kernel)

/-- the messages `[1, 2, 300, 4]` and `[10, 20, 3000, 0]`, encrypted from the same state of the generator -/
example : ∃ ct2 : Ciphertext Fix.E, (∃ r st', encryptDecomposedMessage (listRng Fix.E) Fix.st1 Fix.m2 Fix.ek Fix.gi
      = .ok ((flat ct2, r), st')) ∧
    decryptAfterReEncryption true 0 (openedByReuse Fix.ct1.enc_chunks ct2.enc_chunks Fix.m2 Fix.gi) ⟨0⟩ Fix.gi 16
      = .ok Fix.m1 := by
  have h2 := encryptDecomposed_ok (listRng Fix.E) Fix.st1 Fix.m2 Fix.ek Fix.gi Fix.wf (by decide +kernel)
    (by decide +kernel) (by decide +kernel)
  refine ⟨_, ⟨_, _, h2⟩, ?_⟩
  have := C102_reuse_opens (listRng Fix.E) (listRng Fix.E) Fix.st1 _ Fix.st1 _ Fix.m1 Fix.m2 Fix.ek Fix.gi Fix.ct1 _ _ _
    Fix.enc1 h2 (by exact (by decide +kernel : (17 : Fix.F) ≠ 0)) Fix.gi_ne true 16 (by decide) (by decide +kernel)
  exact (this.2 (this.1.mpr rfl)).2

/-- three parties with the same seed: any one of them opens every ciphertext -/
example : ∃ sks ek, dkg (List.replicate 3 (⟨listRng Fix.E, Fix.st⟩ : Party Fix.E)) 16 Fix.gens Fix.gi Fix.D Fix.C
      = .ok (sks, ek) ∧ ∀ sk ∈ sks, ∃ ct r st', encryptDecomposedMessage (listRng Fix.E) Fix.st1 Fix.m1 ek Fix.gi
        = .ok ((flat ct, r), st') ∧
      decryptAfterReEncryption true 0 (openedAlone ct 3 sk) ⟨0⟩ Fix.gi 16 = .ok Fix.m1 := by
  have hd := dkg_eq (List.replicate 3 (⟨listRng Fix.E, Fix.st⟩ : Party Fix.E)) (by simp) Fix.gens Fix.gi Fix.D Fix.C
    Fix.count (by decide +kernel)
  obtain ⟨ek, hek⟩ : ∃ ek, ek = encKey (4 : UInt8).toNat (sumS (List.replicate 3 (⟨listRng Fix.E, Fix.st⟩ : Party Fix.E)))
      (sumT (4 : UInt8).toNat (List.replicate 3 (⟨listRng Fix.E, Fix.st⟩ : Party Fix.E))) (fun i => Fix.gi.getD i 0)
      Fix.D Fix.C Fix.gens.H := ⟨_, rfl⟩
  have hX : ek.X.length = 4 := by rw [hek]; simp [encKey]
  have hwf : WellFormed ek := by rw [hek]; exact encKey_wf _ _ _ _ _ _ _
  rw [← hek] at hd
  refine ⟨_, _, hd, fun sk hsk => ?_⟩
  have h2 := encryptDecomposed_ok (listRng Fix.E) Fix.st1 Fix.m1 ek Fix.gi hwf (by omega)
    (by rw [hX]; rfl) (by rw [show Fix.gi.length = 4 from rfl]; omega)
  exact ⟨_, _, _, h2, C102_equal_seeds _ 16 Fix.gens Fix.gi Fix.D Fix.C _ _ hd Fix.gi_ne (by
    intro P hP Q hQ i
    rw [List.eq_of_mem_replicate hP, List.eq_of_mem_replicate hQ]) (listRng Fix.E) Fix.st1 _ Fix.m1 _ _ h2 true 16
    (by decide) (by decide +kernel) sk hsk⟩

end Verif
