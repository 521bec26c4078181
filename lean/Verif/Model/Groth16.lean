/-
Model of src/saver_groth16.rs and of the SNARK functions of src/encryption.rs, together with the
parts of `ark-groth16` (0.4) they call: parameter generation, the libsnark R1CS-to-QAP reduction and
the prover.
-/
import Verif.Model.Circuit
import Verif.Model.Encryption
import Verif.Model.Fft

namespace Verif

section qap
variable {F : Type} [Field F]

/-- Coefficient of a variable in a linear combination (the matrix entry).
Used by `generate_parameters_with_qap`, called at src/saver_groth16.rs:60-69. -/
def LC.coeff (lc : LC F) (v : Var) : F := (lc.map fun t => if t.2 = v then t.1 else 0).sum

/-- `LibsnarkReduction::instance_map_with_evaluation` (`ark-groth16`), one of the three matrices
(`sel` selects it): `sum_j u_j * M_j[v]` for variable `v`.
Used by `generate_parameters_with_qap`, called at src/saver_groth16.rs:60-69. -/
def matrixAt (cs : CS F) (u : ℕ → F) (sel : R1C F → LC F) (v : Var) : F :=
  ∑ j ∈ Finset.range cs.cons.length, u j * ((cs.cons.map sel).getD j []).coeff v

/-- The vector `a` of the reduction: instance variable `i` additionally gets
`u[num_constraints + i]`. Used by `generate_parameters_with_qap`, called at src/saver_groth16.rs:60-69. -/
def qapA (cs : CS F) (u : ℕ → F) : Var → F
  | .inst i => u (cs.cons.length + i) + matrixAt cs u R1C.a (.inst i)
  | .wit i => matrixAt cs u R1C.a (.wit i)

/-- The vector `b` of the reduction. Used by `generate_parameters_with_qap`, called at src/saver_groth16.rs:60-69. -/
def qapB (cs : CS F) (u : ℕ → F) : Var → F := matrixAt cs u R1C.b

/-- The vector `c` of the reduction. Used by `generate_parameters_with_qap`, called at src/saver_groth16.rs:60-69. -/
def qapC (cs : CS F) (u : ℕ → F) : Var → F := matrixAt cs u R1C.c

/-- All variables in column order: instance variables, then witness variables.
Used by `generate_parameters_with_qap`, called at src/saver_groth16.rs:60-69. -/
def CS.vars (cs : CS F) : List Var :=
  (List.range cs.numInst).map Var.inst ++ (List.range cs.numWit).map Var.wit

/-- value lookup in a recorded assignment (out-of-range indices do not occur).
Used by `create_proof_with_reduction`, called at src/saver_groth16.rs:92. -/
def lookup (l : List F) : ℕ → F := fun i => l.getD i 0

/-- Values of the constraints' linear combinations on the recorded assignment, padded with zeros
(`evaluate_constraint` in `witness_map`, `ark-groth16`).
Used by `create_proof_with_reduction`, called at src/saver_groth16.rs:92. -/
def rowValue (cs : CS F) (sel : R1C F → LC F) (j : ℕ) : F :=
  ((cs.cons.map sel).getD j []).eval (lookup cs.inst) (lookup cs.wit)

/-- The vector `a` of `witness_map`: the constraint values, then the instance assignment, then
zeros. Used by `create_proof_with_reduction`, called at src/saver_groth16.rs:92. -/
def rowsA (cs : CS F) (j : ℕ) : F :=
  if j < cs.cons.length then rowValue cs R1C.a j
  else if j < cs.cons.length + cs.numInst then lookup cs.inst (j - cs.cons.length)
  else 0

/-- The vectors `b` and `c` of `witness_map`: the constraint values, then zeros.
Used by `create_proof_with_reduction`, called at src/saver_groth16.rs:92. -/
def rows (cs : CS F) (sel : R1C F → LC F) (j : ℕ) : F :=
  if j < cs.cons.length then rowValue cs sel j else 0

/-- `LibsnarkReduction::witness_map` (`ark-groth16`): coefficients of the quotient polynomial,
computed on the coset. Used by `create_proof_with_reduction`, called at src/saver_groth16.rs:92. -/
def witnessMap (gen : F) (d : EvalDomain F) (cs : CS F) : List F :=
  let a := d.cosetFft gen (d.ifft (rowsA cs))
  let b := d.cosetFft gen (d.ifft (rows cs R1C.b))
  let c := d.cosetFft gen (d.ifft (rows cs R1C.c))
  let zinv := (d.vanishing gen)⁻¹
  let ab : ℕ → F := fun i => (a i * b i - c i) * zinv
  (List.range d.size).map (d.cosetIfft gen ab)

/-- `ConstraintSystem::is_satisfied` on the recorded assignment.
Used by `create_proof_with_reduction`, called at src/saver_groth16.rs:92. -/
def CS.isSatisfied [DecidableEq F] (cs : CS F) : Bool :=
  cs.cons.all fun r => decide (r.a.eval (lookup cs.inst) (lookup cs.wit) *
    r.b.eval (lookup cs.inst) (lookup cs.wit) = r.c.eval (lookup cs.inst) (lookup cs.wit))

end qap

/-- `C: ConstraintSynthesizer<F>`: a circuit, as its `generate_constraints`.
src/saver_groth16.rs:47,87; implemented at src/circuit.rs:44-85. -/
abbrev Synthesizer (F : Type) := CS F → Res (CS F)

variable {E : Engine}

/-- `sample_element_outside_domain` (`ark-poly`): draws until the element is not in the domain.
Simplification: bounded by `fuel`; running out of it (non-termination) is reported as `panic`.
Used by `generate_parameters_with_qap`, called at src/saver_groth16.rs:60-69. -/
def sampleOutside (R : RngCore E) (d : EvalDomain E.Fr) : ℕ → R.σ → Res (E.Fr × R.σ)
  | 0, _ => .panic
  | fuel + 1, st =>
    let (t, st) := R.fr st
    if d.vanishing t = 0 then sampleOutside R d fuel st else .ok (t, st)

/-- `Groth16::generate_parameters_with_qap` (`ark-groth16`), called at src/saver_groth16.rs:60-69.
The fixed-base multi-scalar multiplications are written as scalar multiples. -/
def generateParametersWithQap (T : FftCfg E.Fr) (R : RngCore E) (fuel : ℕ) (st : R.σ)
    (C : Synthesizer E.Fr) (alpha beta gamma delta : E.Fr) (g1 : E.G1) (g2 : E.G2) :
    Res (Groth16ProvingKey E × R.σ) := do
  let cs ← C (CS.new true)
  match T.newDomain (cs.cons.length + cs.numInst) with
  | none => .err .synthesisOther
  | some d => do
    let (t, st) ← sampleOutside R d fuel st
    let u := d.lagrange t
    let zt := d.vanishing t
    if gamma = 0 then .err .unexpectedIdentity
    else if delta = 0 then .err .unexpectedIdentity
    else
      let mix : Var → E.Fr := fun v => beta * qapA cs u v + alpha * qapB cs u v + qapC cs u v
      let vk : VerifyingKey E :=
        { alpha_g1 := alpha • g1
          beta_g2 := beta • g2
          gamma_g2 := gamma • g2
          delta_g2 := delta • g2
          gamma_abc_g1 := (List.range cs.numInst).map fun i => (mix (.inst i) * gamma⁻¹) • g1 }
      .ok ({ vk := vk
             beta_g1 := beta • g1
             delta_g1 := delta • g1
             a_query := cs.vars.map fun v => qapA cs u v • g1
             b_g1_query := cs.vars.map fun v => qapB cs u v • g1
             b_g2_query := cs.vars.map fun v => qapB cs u v • g2
             h_query := (List.range (d.size - 1)).map fun i => (zt * delta⁻¹ * t ^ i) • g1
             l_query := (List.range cs.numWit).map fun i => (mix (.wit i) * delta⁻¹) • g1 }, st)

/-- `generate_srs`, src/saver_groth16.rs:47-75. -/
def generateSrs (T : FftCfg E.Fr) (R : RngCore E) (fuel : ℕ) (st : R.σ) (C : Synthesizer E.Fr)
    (gens : EncryptionGens E) : Res (ProvingKey E × R.σ) := do
  let (alpha, st) := R.fr st
  let (beta, st) := R.fr st
  let (gamma, st) := R.fr st
  let (delta, st) := R.fr st
  let neg_gamma_g1 := mulBigint gens.G (intoBigint (K := E.fr) (-gamma))
  let (pk, st) ← generateParametersWithQap T R fuel st C alpha beta gamma delta gens.G gens.H
  return ({ pk := pk, gamma_g1 := neg_gamma_g1 }, st)

/-- `Groth16::calculate_coeff` (`ark-groth16`); `query[0]` panics on an empty query.
Used by `create_proof_with_reduction`, called at src/saver_groth16.rs:92. -/
def calculateCoeff {G : Type} [AddCommGroup G] {K : FieldCfg} (initial : G) (query : List G)
    (vkParam : G) (assignment : List K.F) : Res G := do
  let el ← idx query 0
  return initial + el + msmBigint query.tail (assignment.map intoBigint) + vkParam

/-- `Groth16::create_proof_with_assignment` (`ark-groth16`).
Used by `create_proof_with_reduction`, called at src/saver_groth16.rs:92. -/
def createProofWithAssignment (pk : Groth16ProvingKey E) (r s : E.Fr) (h : List E.Fr)
    (input aux : List E.Fr) : Res (Proof E) := do
  let h_acc := msmBigint pk.h_query (h.map (intoBigint (K := E.fr)))
  let l_aux_acc := msmBigint pk.l_query (aux.map (intoBigint (K := E.fr)))
  let r_s_delta_g1 := (r * s) • pk.delta_g1
  let assignment := input ++ aux
  let g_a ← calculateCoeff (K := E.fr) (r • pk.delta_g1) pk.a_query pk.vk.alpha_g1 assignment
  let s_g_a := s • g_a
  let g1_b ← if r ≠ 0 then
      calculateCoeff (K := E.fr) (s • pk.delta_g1) pk.b_g1_query pk.beta_g1 assignment
    else Res.ok 0
  let g2_b ← calculateCoeff (K := E.fr) (s • pk.vk.delta_g2) pk.b_g2_query pk.vk.beta_g2 assignment
  let g_c := s_g_a + r • g1_b - r_s_delta_g1 + l_aux_acc + h_acc
  return { a := g_a, b := g2_b, c := g_c }

/-- `Groth16::create_proof_with_reduction` (`ark-groth16`), called at src/saver_groth16.rs:92.
The `debug_assert!` on satisfaction is active in checked builds. -/
def createProofWithReduction (T : FftCfg E.Fr) (chk : Bool) (C : Synthesizer E.Fr)
    (pk : Groth16ProvingKey E) (r s : E.Fr) : Res (Proof E) := do
  let cs ← C (CS.new false)
  if chk && !cs.isSatisfied then .panic
  else
    match T.newDomain (cs.cons.length + cs.numInst) with
    | none => .err .synthesisOther
    | some d => createProofWithAssignment pk r s (witnessMap T.gen d cs) cs.inst.tail cs.wit

/-- `create_proof`, src/saver_groth16.rs:78-100. -/
def createProof (T : FftCfg E.Fr) (chk : Bool) (R : RngCore E) (st : R.σ) (C : Synthesizer E.Fr)
    (r : E.Fr) (pk : ProvingKey E) (ek : EncryptionKey E) : Res (Proof E × R.σ) := do
  let (t, st) := R.fr st
  let (s, st) := R.fr st
  let proof ← createProofWithReduction T chk C pk.pk t s
  return ({ proof with c := proof.c + mulBigint ek.P_2 (intoBigint (K := E.fr) r) }, st)

/-- `calculate_d`, src/saver_groth16.rs:116-126. -/
def calculateD (pvk : PreparedVerifyingKey E) (ct : Ciphertext E) : Res E.G1 := do
  let d := ct.enc_chunks.foldl (· + ·) ct.X_r
  let g0 ← idx pvk.vk.gamma_abc_g1 0
  return d + g0

/-- `verify_qap_proof`, src/saver_groth16.rs:128-152.  `final_exponentiation` returns `None` only for
a zero Miller loop value, which does not exist for points of the groups. -/
def verifyQapProof (pvk : PreparedVerifyingKey E) (a : E.G1) (b : E.G2) (c d : E.G1) : Res Unit := do
  let qap ← E.multiPairing [a, c, d] [E.prep b, pvk.delta_g2_neg_pc, pvk.gamma_g2_neg_pc]
  if qap ≠ pvk.alpha_g1_beta_g2 then .err .pairingCheckFailed
  else return ()

/-- `verify_proof`, src/saver_groth16.rs:102-114. -/
def verifyProof (pvk : PreparedVerifyingKey E) (proof : Proof E) (ct : Ciphertext E) :
    Res Unit := do
  let d ← calculateD pvk ct
  verifyQapProof pvk proof.a proof.b proof.c d

/-- `Encryption::encrypt_with_proof`, src/encryption.rs:126-143. -/
def encryptWithProof (T : FftCfg E.Fr) (chk : Bool) (R : RngCore E) (st : R.σ) (m : E.Fr)
    (ek : EncryptionKey E) (pk : ProvingKey E) (b : UInt8) :
    Res ((Ciphertext E × E.Fr × Proof E) × R.σ) := do
  let g_i ← getGsForEncryption pk.pk.vk
  let ((ct, r), st) ← encrypt R st m ek g_i b
  let chunks ← decompose (K := E.fr) m b
  let circuit ← BitsizeCheckCircuit.new (K := E.fr) b none
    (some (chunks.map fun c => ((c.toNat : ℕ) : E.Fr))) true
  let (proof, st) ← createProof T chk R st circuit.generateConstraints r pk ek
  return ((ct, r, proof), st)

/-- `Ciphertext::verify_commitment_and_proof`, src/encryption.rs:628-637. -/
def Ciphertext.verifyCommitmentAndProof (ct : Ciphertext E) (proof : Proof E)
    (pvk : PreparedVerifyingKey E) (ek : PreparedEncryptionKey E)
    (gens : PreparedEncryptionGens E) : Res Unit := do
  ct.verifyCommitment ek gens
  verifyProof pvk proof ct

end Verif
