# Formal model of distributed-verifiable-encryption (dist-saver) in Lean 4

The plan of this document was committed before the proofs; it is kept current as the model grows.
Statements of the properties: `properties.jsonl`. Theorem names per property: `MANIFEST.json`
(generated by `tools/mkmanifest.py` from the names `Cxx_...` in `lean/Verif/Props`).
Mutation log: `seeded/LOG.jsonl`.

## 1. Trusted base

* Lean 4.33.0's kernel, and the elaborator's translation of the statements you read.
* Axioms: of the 469 theorems in the manifest, twelve (`C04_chunks_count_least`, `C04_chunks_count_zero`,
  `C23_table_lookup_cases`, `C42_gadget_lc`, `C42_gadget_or`, `C42_gadget_or_value`, `C42_gadget_enforce_false`,
  `C53_trailing_bytes`, `C69_every_schedule`, `C69_terminates`, `C69_collects_iff`, `C82_layout`) depend on `propext` and
  `Quot.sound` only; all others on `propext`, `Classical.choice` and `Quot.sound` (checked with `#print axioms`). No axioms
  of our own, no unproved goals, no compiled evaluation (`decide +kernel` is used on a few concrete fixtures; it is checked
  by the kernel).
* The model (`lean/Verif/Model`) is a faithful transcription of /repo: read side by side with the
  cited lines. This is the part a reader has to check.
* The external interface, stated as structures with laws (not axioms; instances are constructed in
  `Instances.lean`, `InstancesFft.lean`, so the laws are consistent, including for the actual
  BLS12-381 scalar field, proved prime by a Lucas certificate):
  * `FieldCfg`: a prime modulus and a number of 64-bit limbs holding it (`ark-ff` prime fields).
  * `Engine`: `E: Pairing`: three modules over the scalar field, a bilinear pairing with
    `e(a,b) = 0 → a = 0 ∨ b = 0`, and prepared G2 elements that pair like the originals
    (`ark-ec`). Not assumed: that the groups are one-dimensional (theorems that need it say so).
  * `RngCore`: an arbitrary state machine yielding scalars and points; theorems quantify over every
    machine and every state. Uniformity is not assumed; probabilistic statements (C12, C34, C39,
    C55, C58, C62–C67, C71, C72, C74–C77, C83, C84, C86–C88, C90–C101, C104–C106, C120) are counting or bijection statements about the draws.
  * `FftCfg`/`EvalDomain`: a primitive root of unity, size at least the request, coset offset outside the
    domain (`ark-poly`); FFTs are the discrete Fourier transforms they compute.
  * `Groth16` (0.4): parameter generation, libsnark QAP reduction, prover are transcribed from
    `ark-groth16` in `Model/Groth16.lean` (fixed-base MSMs as scalar multiples). Verification is the
    crate's own code.
  * `ark-relations`/`ark-r1cs-std`: constraint system, `FpVar::to_bits_le` and comparison with the modulus
    constant are transcribed in `Model/Circuit.lean` (linear combinations not compacted, no symbolic ones).
  * `ark-serialize`: integers, vectors and derived structs are modelled bytewise; encodings of curve points
    are external functions, assumed (as hypotheses `Faithful` of C52) to read back what they wrote.
    serde: self-describing maps of named fields / newtypes.
  * digest and `from_random_bytes` are arbitrary functions.

## 2. What is modelled

| Lean module (`lean/Verif/…`) | /repo source | content |
|---|---|---|
| `Model/Res` | `error.rs`, `lib.rs` | `Res α = ok / err SaverError / panic`; panicking indexing |
| `Model/Engine` | external | fields, groups, pairing, RNG, MSM |
| `Model/Utils` | `utils.rs` | `chunks_count`, `decompose`, `compose`, window tables, try-and-increment |
| `Model/Keygen` | `keygen.rs` | every key type and function |
| `Model/Encryption` | `encryption.rs` | every function (SNARK ones in `Model/Groth16`) |
| `Model/Commitment` | `commitment.rs` | every function |
| `Model/Circuit` | `circuit.rs` | the R1CS the synthesizer emits and its witness |
| `Model/Groth16Types`, `Model/Groth16`, `Model/Fft` | `saver_groth16.rs`, SNARK part of `encryption.rs` | SRS wrapper, proof shift, verification; `ark-groth16`/`ark-poly` parts they call |
| `Model/Setup` | `setup.rs` | generators (hashed, random), `setup_for_groth16` |
| `Model/Serde` | `serde_utils.rs`, derives on all types | canonical byte codecs, serde layer |
| `Model/Protocol` | `tests.rs`, README | N-party compositions of the above for any number of parties/ciphertexts |
| `Model/Delivered` | `keygen.rs`, `encryption.rs`, `tests.rs` | key generation and re-encryption when the messages each party receives are lost, repeated or out of date |
| `Model/Restart` | `keygen.rs`, `tests.rs`, derived encodings | distributed key generation by parties that crash and restart (transition system) |
| `Model/Poll` | `encryption.rs`, `tests.rs`, derived encodings | aggregation and re-encryption by users, an aggregator and key holders that crash (transition system) |
| `Model/OpenPoll` | `encryption.rs`, `tests.rs`, derived encodings | the same with users who publish any bytes (transition system) |
| `Model/ProvedPoll` | `encryption.rs`, derived encodings | the same with proofs that the aggregator checks (transition system) |
| `Model/Whole` | `keygen.rs`, `encryption.rs`, `tests.rs` | key generation with crashes and the poll together (transition system) |
| `Model/TestPrograms` | the `#[test]` functions | the tests of `keygen.rs`, `encryption.rs`, `commitment.rs`, `setup.rs`, `saver_groth16.rs`, `tests.rs` as programs |
| `Model/Macros` | `macros.rs` | `join!` with and without threads, `unnest_tuple!`, `multi_pairing!` |
| `Model/WholeProved` | `keygen.rs`, `encryption.rs`, `saver_groth16.rs` | the same for the poll with proofs (transition system) |
| `Model/Many` | `keygen.rs`, `encryption.rs`, `saver_groth16.rs` | one key and any number of polls under it, interleaved (transition system) |
| `Model/Pairings` | `encryption.rs`, `keygen.rs`, `saver_groth16.rs` | the functions that pair, with a count of the pairings (copies, proved equal, C122) |
| `Model/Loss` | `keygen.rs`, `tests.rs`, derived encodings | distributed key generation whose parties can lose their storage |
| `Model/Residue` | `keygen.rs`, `encryption.rs`, `utils.rs` | the functions that handle secrets, with a record of the heap buffers they free (proved equal otherwise, C124) |
| `Model/Work` | `encryption.rs` | the searches and decryption functions with a count of loop iterations (proved to agree with `Model/Encryption`) |
| `Model/Parallel` | `cfg_iter!`/`cfg_into_iter!` uses in `keygen.rs`, `encryption.rs` | rayon pool, small-step; the functions that use it |
| `Spec`, `SpecAgm`, `SpecSec`, `SpecDkg`, `SpecAdaptive`, `SpecNm`, `SpecNmAdapt`, `SpecNmDkg`, `SpecCca`, `SpecCcaNu`, `SpecCandidates`, `SpecLink`, `SpecReGame`, `SpecBls`, `SpecDelivery`, `SpecDkgTapes`, `SpecAggregate`, `SpecTally`, `SpecRandomness`, `SpecUntrusted`, `SpecDelivered`, `SpecPoll`, `SpecLive`, `SpecProved`, `SpecFlaky`, `SpecReplay`, `SpecResidue`, `SpecBounded` | – | small independent specification used in statements |
| `Instances`, `InstancesFft`, `Fixtures` | – | concrete engines (incl. BLS12-381 scalar field, toy fields) and data for the examples |
| `Lemmas/*` | – | proofs |
| `Props/*` | – | the property theorems and the examples that meet their hypotheses |

`Props`: Chunking C01–C04, C06; Keys C07–C13, C51; Encrypt C03, C05, C14–C16; Decrypt C17–C24; Aggregate
C25, C26; ReEncrypt C27–C30, C36; Leak C31, C32; Batch C33–C35; Commit C03, C37–C41; Circuit C42–C44; Gadgets C42, C49;
Groth16 C45–C48; Setup C49, C54; Hash C50; Serde C52, C53; SerdeExact C53; Generic C55; Verified C56–C58; Both C59;
Sound C60, C61; Error C62, C63; Secrecy C64; SecrecyProof C65;
SecrecyDkg C66, C67; Rogue C68; Parallel C69; Encoding C70;
SoundDkg C71; RangeDkg C72; Forge C73; Adaptive C74; AdaptiveDkg C75; AdaptiveRange C76; Rerandomise C77; Nested C78; ShareForgery C79; Forward C80; Malleable C81; Window C82; MalleableError C83; WrongKey C84; Abort C85; Fresh C86; AdaptiveMalleable C87; ChosenCiphertext, ChosenCiphertextNeeded C88; ReEncOracle C89; MalleableDkg C90; ChosenCiphertextNuNeeded C91; Candidates C92; Link C93; ReGameNeeded C94; Bls C95; BlsDkg C96; BlsCoalition C97; Delivery C98; DkgTapes C99; MaliciousAggregation C100; Tally, TallyNeeded, TallyTapes C101; Randomness C102; Untrusted C103; Oversized C104; Delivered C105; Redelivered C106; Restart C107; Poll C108; OpenPoll C109; Whole C110; Work C111; Shift C112; Liveness C113; ProvedPoll C114; ProvedLive C115; WholeProved C116; CopiedBallots C117; Macros C118; TestPrograms C119; Flaky C120; Many C121; Pairings C122; Loss C123; Residue C124; Bounded C125.

Conventions

* Scalars are `ZMod p`; `x.into_bigint()` is `x.val : ℕ`; `g.mul_bigint(k)` is the natural multiple `k • g`.
* `u8`/`u16` values are `UInt8`/`UInt16`; lengths and `usize` are `ℕ`.
* A panic (index out of bounds, division by zero, failed assertion, checked overflow) is `Res.panic`.
  Where overflow behaviour matters, `chk : Bool` says whether overflow checks/debug assertions are on.
* Unbounded loops (`try_and_incr`, `sample_element_outside_domain`) take a fuel argument. C50 quantifies
  it away (it relates the loop for all fuels to the infinite sequence of attempts). In the SRS the fuel
  counts candidates for the evaluation point; theorems hold for every fuel, running out is `panic`, and
  C62/C63 and the later counting theorems count only draws whose first candidate is outside the domain (all but a
  size/p share); C92 carries them over to any number of candidates and counts the unfinished runs exactly.

Not modelled: timing, what secrets leave on the stack, in registers and in the dependencies' buffers (freed heap buffers of the crate's own vectors are in `Model/Residue`), parallelism inside the `ark-*` dependencies (the crate's own parallel
maps are, in `Model/Parallel`, and C69 reduces them to the sequential maps used everywhere else), those macros of `macros.rs` that only abbreviate types or trait implementations, or refer to modules that the crate does not have (`pairs!`, `owned_pairs!`), the tests of the macros
(the other tests are in `Model/TestPrograms`, the protocol compositions in `Model/Protocol`), curve arithmetic (affine and projective identified; only the group laws), the Miller
loop / final exponentiation split, subgroup checks of point decoding, error payload strings.

## 3. Properties and how each is proved

All properties can be expressed in the model; none is `not_applicable`.

| id | model | proof |
|---|---|---|
| C01 | decompose/compose on bytes | bytes of `val` + Horner evaluation, induction on the byte list |
| C02 | decompose | positional value lemma; uniqueness of digits |
| C03 | decompose/compose/encrypt/commitment | case analysis on the size |
| C04 | chunks_count | `Nat` ceiling division; `u8` truncation |
| C05 | chunks_count + decompose + keygen + encrypt | arithmetic on bit lengths; primality certificate |
| C06 | compose | Horner; exact 4- and 8-bit branches; witness of a lost carry |
| C07 | keygen, FkeygenPartial, shape functions | length lemmas, closed form of the key |
| C08 | keygen | bilinearity |
| C09 | N-party run of the five functions | induction on parties, closed form of both keys |
| C10 | combine functions | permutation induction |
| C11 | combine functions | case analysis, induction |
| C12 | joint secret | translation is a bijection |
| C13 | combineEKs | explicit witness |
| C14 | encrypt | unfolding + list lemmas, complete case list |
| C15, C16 | verify_ciphertext_commitment | bilinearity; nondegeneracy |
| C17–C20 | decrypt | discrete-log loop invariant, order of a nonzero element is p |
| C21–C23 | pairing powers | loop invariants of both searches |
| C24 | prepared types | prepared pairing = pairing |
| C25, C26 | add_cts | linearity; induction over ciphertexts |
| C27–C30 | re-encryption | linearity; induction over parties |
| C31 | re-encryption | explicit key-less recovery function proved correct |
| C32 | share combination | commutativity/associativity, lengths |
| C33–C35 | batch verification | linearity; root counting of a polynomial with group coefficients |
| C36 | decrypt after re-encryption | arithmetic on the shift |
| C37–C41 | commitment | Horner, linearity, i32/u64 conversions |
| C42–C44 | R1CS | induction over generated constraints; invariant of the comparison gadget |
| C45–C48 | saver_groth16 | bilinearity; QAP identity (Lagrange interpolation, coset division) |
| C49 | setup | unfolding, complete case list |
| C50 | try-and-increment | loop invariant over fuel; prefix/suffix arguments on byte strings |
| C51 | window tables | digit decomposition |
| C52, C53 | codecs | round-trip combinators |
| C54, C55 | setup to decryption | composition of C46, C15, C18, C19; closed form of the generators through Lagrange coefficients |
| C56 | workflow of the integration test | composition of C09, C15, C25, C27, C46 |
| C57 | encrypt | cancellation, order of nonzero elements |
| C58 | create_proof | explicit simulator; bijection from prover draws to simulator point |
| C59 | verify_commitment_and_proof | composition of the two iff criteria |
| C60, C61 | generate_srs/setup + verifiers against algebraic adversaries | the accepted equation, multiplied out, is a polynomial identity in the trapdoors; coefficients compared degree by degree; then C42 |
| C62, C63 | the same, counting draws | Schwartz–Zippel on the same polynomial (own proof by induction on the number of variables) |
| C64–C67 | keygen or distributed key generation + encryption (+ proof) against generic-group distinguishers | every answer is a polynomial test in the draws; a test that is not identically zero is met on few draws (Schwartz–Zippel, degree ≤ 5); a test that is identically zero for one message history is so for the other (coefficient extraction via explicit substitutions); induction over the adversary tree |
| C68 | distributed key generation with a deviating last party | explicit strategy; closed form of the combined key |
| C69 | rayon pool (Model/Parallel) and the functions using it | small-step semantics; invariant: log and open ranges partition the indexes, logged slots are written; termination measure |
| C70 | derived canonical codecs | each reader inverted field by field |
| C73 | verify_commitment_and_proof under keys whose `t` are known | explicit forgery; explicit strategy of a last party; C16, C46, C47 |
| C74 | as C62, adversary = decision tree of zero tests (`SpecAdaptive.lean`) | every question is a polynomial in the draws, so it has the same answer on all draws or "no" on all but few (Schwartz–Zippel); on the usual path the coefficients are fixed: C62 |
| C75 | as C71, same adversary | the published transcript is a fixed linear image of a single setup's; same argument; C71 |
| C76 | as C63/C72, same adversary, which also chooses the chunks | same argument; C63, C72 |
| C77 | verify_commitment_and_proof, decrypt_to_chunks, reEncrypt on shifted inputs | explicit shift; C16, verifyProof_eq; bilinearity |
| C78 | combineEKs of its own outputs; two-level key generation | normal form of combineEKs; C46; shift of the accepted equation |
| C79 | re-encryption with a deviating contributor | explicit forged share; normal form of combineShares; C36 |
| C80 | chains of re-encryptions | induction on the chain |
| C81 | encrypt_with_proof by any number of users, adversary = linear combinations of everything published (`SpecNm.lean`) | discrete logarithms of everything seen are polynomials in the draws (`NmLink`); comparing the coefficients of the users' draws r_j, A_j, B_j in both verification equations gives that only one honest proof can be used, and with coefficient one (`Nm`) |
| C82 | derived CanonicalSerialize / serde code of WindowTable (`Model/Serde.lean`), multiply / multiply_many on arbitrary tables (`Model/Utils.lean`) | generic codec lemmas; the product of an arbitrary table is the sum of the entries selected by the base-2^w digits |
| C83 | as C81, counted over the draws of the setup and of all users | both verification equations times gamma delta are polynomials of degree at most 3 size + 6 in all draws (`NmCount`); Schwartz-Zippel, then C81 |
| C84 | decryption of any ciphertext, keygen and chunk-level encryption | a successful decryption gives a discrete logarithm per chunk; two chunks eliminate the wrong key and the randomness and leave one linear equation between s_0 and s_1 with small coefficients; Schwartz-Zippel and a union bound over the 4^(b+1) coefficients |
| C85 | every panicking operation (indexing, slicing, shifts, asserts, zip_eq) of the listed functions is explicit in the model | case analysis over all lengths, induction over loops |
| C86 | keygen, generate_srs, setup_for_groth16 on a tape of independent scalars; acceptance as equations in the draws (C16, C46) | a linear functional turns the group equation into a polynomial in the draws that is not zero; Schwartz-Zippel |
| C87 | setup_for_groth16 and the honest users' encrypt_with_proof on one tape; the adversary is a decision tree over the elements shown (SpecNmAdapt) | the answer to a question is the same on all but few draws because each element shown is a polynomial in the draws; along the generic path C81/C83 apply; Schwartz-Zippel and a union bound over the questions |
| C88 | the left-or-right game with a decryption service, as a tree of questions, challenges and submissions (SpecCca) | each question and each submission has the same outcome on all but few draws, whatever the honest messages (Nm.transfer + Adapt.dichotomy); what is accepted in all runs is an own encryption or a re-randomised copy (C81_plaintext), so its decryption is fixed or withheld; union bound along the path |
| C89 | re_encrypt_share and the distributed re-encryption, requests with a first component in the span of X_r and X_0 | explicit unmasking: c_i + a^-1 (cs_i - c'_i + u X_i) under the destination key is m_i g_i; then the values lemma of C36 |
| C90 | setupForDkg with arbitrary other parties, encryptAll, adaptive provers shown all messages of key generation and all honest ciphertexts and proofs | exact reduction to C87: the joint s and t are those of a single key on a shifted tape, all messages are fixed combinations of that key's public values, so questions and outputs can be pulled back; tapes are counted by an injection |
| C91 | the game of C88 with openWithNu: replies carry nu, which joins the adversary's view | every accepted ciphertext is an own message (then nu is a known multiple of rho X_0) or a re-randomisation (then it is withheld); questions about the view extended by rho X_0 still have an answer that does not depend on the messages, since rho X_0 can be simulated; the attack tests one chunk by a pairing equation |
| C92 | the loop of generate_srs with any limit, over arbitrary generators and over tapes | induction on the limit; the set of unlucky tapes is a product of root sets; results for different limits agree off the tapes whose first candidate is in the domain |
| C93 | openings of both commitments, as a proof of equality of openings would establish them; the proof of equality itself is not code of the repository | the commitment key consists of powers of the radix; a fixed relation between the Y_i and P_1 is linear in one secret t_i, so it holds on at most one in p of the draws; adaptive adversaries follow one strategy on all but a few draws |
| C94 | game over setupForDkg, fkeygenPartial, encryptWithProof, verifyCommitmentAndProof, reEncryptShare with adversaries that choose adaptively | accepted ciphertexts of the adversary are its own encryptions with known randomness or re-randomised copies (C81 carried over to joint keys); the share of an own encryption is a combination of public elements, so it is pulled back; questions have constant answers on all but a few draws |
| C95 | `Spec.OnBls` (the field is BLS12-381's, domains are radix 2; groups and pairing arbitrary), `Spec.Delivers` | Union of the exceptional sets of the setup and of degenerate keys (C88), then C54 on every remaining tape; for BLS12-381 the domain size is computed and the bounds of C92 are compared with the prime by kernel evaluation |
| C96 | `Spec.Aggregates`: the whole workflow after one SRS generation | exceptional draws: no SRS at the first candidate (root count) or a zero generator (C55, at most `n` values of beta per tau); C09 and C56 on all others |
| C97 | the games of C67, C75, C76, C90, C94 on `Spec.OnBls` | the bounds of these theorems with the domain sizes of C95 |
| C98 | `Spec.Says`, `Spec.Told` (what any destination reads after re-encryption by all parties), the game of C90 | C27 delivers ciphertexts of the SAVER form; C90 gives the form; C55 counts the draws with a zero base |
| C99 | the games of C75, C76, C90, C94, C98 with `F` candidates and separate tapes (`Spec.draws` counts) | if the first candidate is good only five scalars are read, so the counts agree up to the draws with a bad first candidate |
| C100 | `Spec.AggOutcome` (honest users and `k` submissions of one adversary), `HonestSums`, `BatchAccepted`, `Cancels` | union bound over the submissions with C90; sums of SAVER ciphertexts; C34 for each draw; negated re-randomisation as counterexample |
| C101 | `Spec.World`, `Board`, `TallyAdversary`, `tallyStep`, `playTally`: two courses of events on one tape | both courses are followed along the typical path; the difference of the two views is a fixed linear combination of the challenge terms in which the sums cancel; extraction (C90) for the adversary's ciphertexts; attacks by linear algebra on the handed-out share |
| C102 | which scalars each operation reads (SpecRandomness: ReadsScalars, ReadsBetween); what knowing, reusing or sharing them discloses | combinators for reading scalars, applied to the function bodies; the library's own search on the opened components |
| C103 | create_proof with an arbitrary proving key: acceptance all-or-nothing, uniform when accepted; the same with one element altered: acceptance reveals a bit | inversion of a successful run to affine form; linearity; witness layout; positional digits to bits |
| C104 | encrypt_decomposed_message, verify_commitment, create_proof (both builds) and verify_commitment_and_proof on oversized chunks | closed form of the prover on unsatisfied assignments; Schwartz-Zippel by roots of the defect polynomial |
| C105 | combineEKs, genP1share, combineP1share, keygenFinal on arbitrary deliveries; verify_commitment of encryptions under the result | closed forms; permutation invariance; linear equations in one scalar counted by fibres |
| C106 | dkg, encrypt_decomposed_message, re_encrypt_share, combine_re_encrypt_share, combine_ct_with_w, decrypt_to_chunks_after_re_encryption on arbitrary deliveries | closed forms; exact search cases; counting by injection into values times remaining coordinates |
| C107 | transition system over fkeygenPartial, combineEKs, genP1share, combineP1share, keygenFinal and the canonical encodings | inductive invariant over all histories; three-phase progress |
| C108 | transition system over encryptDecomposedMessage, addCts, reEncryptShare, combineShares, combineCtWithW, decryptAfterReEncryption and the canonical encodings | inductive invariant over all histories; three-phase progress |
| C109 | transition system of C108 with arbitrary bytes from dishonest users, and verifyCiphertextCommitment as the aggregator's check | inductive invariant over all histories; progress; counterexample for the check without the length |
| C110 | product of the transition systems of C107 and C109, the poll's key being read off the key holders' state | the key never changes; refinement to C107 and C109 |
| C111 | the search and decryption functions with a counter of loop iterations | induction on the loops; same results proved; C17 and C27 for the disclosure |
| C112 | the poll of C109; the ballot `[r X_0, r X_i + delta_i g_i, r P_1 + sum delta_i Y_i]` | C109, and that this ballot is a `cipher` for representatives modulo p |
| C113 | the transition systems of C107, C109, C110; infinite histories with stuttering; weak and strong fairness of actions given by their effects (SpecLive) | each action stays enabled until it is done and its effect is durable (C107, C109); leads-to chain over the phases; for the last theorem an explicit alternating history |
| C114 | the transition system of C109 with submissions of a ciphertext and a proof, read and checked by the aggregator (Model/ProvedPoll); the adversary of C100 (SpecProved) | refinement: every history is, with accepted submissions replaced by their ciphertexts and everything else by unreadable bytes, one of C109, and steps that are not by users can be pulled back; sums by the count of draws of C100 |
| C115 | infinite histories of the transition system of C114 (Model/ProvedPoll), fairness as in C113 (SpecLive) | the refinement of C114 preserves and reflects that an action is enabled, so fair histories are fair histories of C113 |
| C116 | the transition systems of C107 and C114 as one, the poll running with the key computable at the moment (Model/WholeProved) | a history splits into one of key generation and one of the poll under the key, which never changes once it can be computed; then C107, C113, C114 and the refinement of C114 |
| C117 | the poll with proofs of C114; a copy reads a submission, re-randomises both parts (C77) and encodes it again | the copy has the verdict of the original (C77) and the same content; an invariant relates honest submissions to votes; then C114 for the sums and for finishing the poll |
| C118 | the nested calls of rayon::join as a transition system on trees, unnest_tuple! arm by arm, the tuple expression (Model/Macros) | every step preserves the final outcome of the tree and the multiset of expressions run or still to be run, and decreases its size |
| C119 | the test functions as programs in the model, call by call (Model/TestPrograms) | the theorems about the functions they call (C07, C17, C21, C24, C27, C28, C46, C49) composed along each program; the negative part from C36 |
| C120 | the test programs of C119 with a generator whose scalars are the counted sequence (SpecFlaky) | C119 with the counts of failing setups and of zero generators (C55, C62, C92, C95), transported to that generator |
| C121 | one key and polls indexed by the natural numbers as one transition system (Model/Many); `HonestlyPosted`, `OnlyReplays` (SpecReplay) | projection to each poll, C116 for each, and one key for all; the ballots of one poll satisfy the verification of the other, since that reads only the key and the parameters; finitely many polls have begun at any time, so fair histories exist |
| C122 | copies of the functions that pair, with a counter (Model/Pairings), proved to compute the same | exact counts along the success path, bounds along all paths; batch: one product of pairings whose length is that of the first ciphertext |
| C123 | the transition system of C107 with losses of storage (Model/Loss) | invariant: behind every published partial key there is one randomness, and what is left of a party's secrets belongs to it; "repairing" the storage gives a state of C107; progress by constructing the rest of the run, blocking by an invariant; the careless run is a delivery of C105 |
| C124 | the functions with a record of the buffers they free (Model/Residue), each proved to be the crate's function once the record is left out | closed forms of the freed vectors under the randomness of the run; reading by the crate's own re-encryption decryption with X_r = 0 (decryptAfter_values); forging by the trapdoors t_i; message bytes by the conversion lemmas |
| C125 | Steps of the systems of C107 and C108 that change something and lose nothing, as a separate relation in `SpecBounded`; counted steps. | A measure (what each party still has to store, load, publish and share) that every such step decreases by exactly one, from every state satisfying the invariants of C107/C108; states without such a step are complete because otherwise one is exhibited. |
| C71, C72 | generate_srs + distributed key generation + verifiers against algebraic adversaries that know all secrets but one party's (C71) or all (C72) | everything published is in the span, with fixed coefficients, of what a single key generation publishes; translation of strategies; then C60–C63 |

Adversary model of C60–C63 (and C71, C72): the adversary outputs group elements that are linear combinations, with
coefficients fixed before the setup's draws, of all published elements of the same group (both SRS and
keys). C74–C76 remove the restriction that the coefficients are fixed beforehand: there the adversary first
asks questions about the published elements (zero tests, as in C64–C67) and chooses them depending on the answers.
This is the generic/algebraic idealisation; computational secrecy (semantic security under
an assumption such as DDH) is not claimed anywhere; C64–C67 claim it in the generic group model: the adversary
(`SpecSec.lean`) is a decision tree whose questions are zero tests of linear combinations of the elements it
holds, or of their pairings, with coefficients of its choice; it holds the encryption key, the decryption key,
the ciphertexts (and proofs), and any points fixed beforehand. In C66/C67 it holds instead the whole published
transcript of distributed key generation, and the secrets of all parties but one (semi-honest: these run the
protocol, with arbitrary generators; their secrets are fixed before the honest draws, so coefficients may depend on
them). C68 shows that for a coalition that deviates from the protocol the claim is false. C31 shows that for re-encrypted ciphertexts it is false.

Every theorem is accompanied, in the same file, by an `example` (or a companion theorem such as
`C16_hypotheses_honest`, `C61_honest_strategy`, `C62_honest_fraction`) that meets its hypotheses on concrete non-trivial data. Theorems that share their hypotheses with one of these, or whose concrete data only exist further down the import order, are applied to concrete data in `Verif/Examples`; the remaining theorems have no hypotheses.

## 4. Findings (behaviour of the code a user might not expect; each is a theorem)

1. `decompose` yields `64*limbs/b` chunks, keys have `chunks_count` ones. When the modulus leaves at least `b`
   leading zero bits, `encrypt` fails for every message with a fresh key (C05) and the chunked commitment silently
   drops its blinding or is even constant (C40). BLS12-381 and BN254 are not affected.
2. `chunks_count` truncates above 255 chunks and panics at `b = 0` (C04); encryption with 256 or more chunks aborts (C14).
3. Re-encryption reuses one mask for all chunks: the plaintext of a re-encrypted ciphertext is publicly
   recoverable up to a short candidate list (C31), contradicting the README.
4. `solve_discrete_log_using_pairing_powers` checks lengths off by one: short rows panic instead of returning
   `InvalidPairingPowers`, whose inner occurrence is unreachable (C23).
5. Chunk size 0 decrypts differently with and without table (C21).
6. `combineEKs` takes `X_0` from the first key, panics on empty or shorter keys, ignores extra elements (C11), and is open
   to rogue keys (C13): a last party that has seen the others' contributions ends with the full secret key, or
   strips the randomness from all commitments by its `P_1` share (C68).
7. `verify_proof` binds only `X_r + Σ c_i` (C47, C48); only together with the commitment check (C59) does acceptance
   imply a well-formed in-range encryption (C61, C62).
8. `verify_commitments_in_batch` panics on an empty batch (C35) and is unsound for constant multipliers (C34).
9. `compose` drops carries of out-of-range chunks; 4-bit checked builds abort instead (C06).
10. `decrypt_to_chunks_after_re_encryption` with `b ≥ 32` (the integration test passes twice the chunk size) aborts in checked builds and
    masks the shift otherwise (C36); for 4- and 8-bit chunks up to `2^b + 1` encryptors are exact (C56).
11. `commitment_key` computes its radix in `i32`: wrong at 31, aborts/masks from 32 (C41).
12. Degenerate secrets (`rho = 0` or `v_i = 0`) decrypt everything to zero (C17); exact exceptional draws in C55.
13. An out-of-range witness panics `create_proof` in debug builds only (C46).
14. The raw hash-to-group has collisions between inputs and attempts (C50); label-derived generators are separated.
15. serde decoding ignores trailing bytes and does not validate key shapes (C53).
16. There is no verify-decryption function in the crate; `nu` can be checked publicly by `e(nu, H) = e(X_r, V_0)` (C19).
17. `verify_commitment_and_proof` convinces nobody of anything said by those who know `t`: all key holders together, or one
    last contributor to key generation alone, make accepted ciphertexts that encrypt nothing in range (C73).
18. Ciphertexts and proofs can be re-randomised by anybody (C77): detecting replays by comparing them fails.
19. `combineEKs` adds `gamma_g` once per call, so it must be called exactly once on all partial keys: two-level combination gives keys whose honest proofs fail (C78).
20. A re-encryption share carries no proof: a single contributor can make the destination decrypt chunks of its choice (C79).
21. Deserialized window tables are not validated (`src/utils.rs`): a wrong entry silently gives wrong products for the scalars selecting it, a wrong shape panics in multiply / multiply_many (C82_unchecked, C82_malformed).
22. (C85) `add_cts`, `combine_re_encrypt_share`, `combine_ct_with_w` and `re_encrypt_share` abort the process when handed a vector shorter than expected, and silently drop surplus positions otherwise, instead of returning an error; the other functions taking untrusted input return errors (for keys below 256 positions).
23. re_encrypt_share never looks at the chunk components: parties cannot tell which ciphertext they help to re-encrypt, and one answered request about a X_r + u X_0 opens the ciphertext with first component X_r (C89).
24. decrypt returns nu together with the message; nu of a ciphertext reveals its message to everybody (one pairing equation per chunk and candidate value), also for every re-randomisation of it, so a holder of the secret key that refuses to tell a message must not publish nu either
25. The comment on ChunkedCommitment says to divide the chunked commitment and the commitment to the full message; with one key these are equal (C37), so the linkable value arises only between commitments with different G: see C93_reused_blinding_links.
26. re_encrypt_share neither verifies the ciphertext it helps with nor knows which ciphertexts it should refuse; C94 shows that a caller who verifies, and refuses what it must not open, stays safe, and that a caller who does only one of the two does not.
27. **Copies of ballots.** `verify_commitment_and_proof` accepts re-randomised copies of other users' ciphertexts (C81), so an election that tallies every accepted ciphertext lets an adversary find out how a chosen user voted by copying that user's ballot (C101_copies_break_secrecy). Duplicates must be weeded out up to re-randomisation (C94's policy), or ballots bound to the voter.
28. **A malformed SRS reveals message bits through the verdict** (C103). Nothing in the crate lets a user check a proving key, and encrypt_with_proof returns its proof unchecked. An SRS generator can change one element of the proving key (the verification key and all ciphertexts stay the same) so that the proof verifies exactly if a chosen bit of the message is 0. Accepted proofs reveal nothing even then; verifying one's own proof before publishing it, twice with fresh randomness, excludes the leak.
29. **Nothing in key generation notices lost or stale messages** (C105). combineEKs, genP1share and combineP1share accept any non-empty lists. A missing, repeated or stale contribution shows only later, when verify_commitment rejects every honest ciphertext; decryption and proof verification still work with such a key.
30. (C117) `verify_commitment_and_proof` does not bind a ballot to who submits it, and ciphertexts with proofs can be re-randomised: k colluding users can copy an honest user's ballot unnoticed (all bytes differ), so that the tally contains that vote k + 1 times, and can be solved for it when the others' votes are small. Duplicate detection by comparing bytes does not help; the proof would have to cover the identity of the user.
31. `encrypt_and_ver_distributed` (src/saver_groth16.rs) and the test with addition (src/tests.rs) cannot pass with the 16-bit chunk size that is commented out in them: they decrypt with the doubled size 32, and `1 << 32` overflows (panic), or, without overflow checks, leaves a search bound of 1 (C119).
32. Ballots are not bound to a poll or a destination: a ballot of one poll is valid in every poll under the same key, and can so be disclosed to the destination of another poll (C121_replay_discloses).
33. Decryption without a table computes a pairing more for every chunk that is not zero, so its time discloses the number of zero chunks even before the search (C122_discloses).
34. Only `SecretKey` is `Zeroize`/`ZeroizeOnDrop` (`src/keygen.rs:25-40`); the key holders' shares `SecretKeyST` (`s`, `t`) and the decryption keys are not,
    nor are the toxic waste and the local secrets of setup. Erasure of memory is not modelled.
35. FkeygenPartial gives no way to check that a partial key belongs to the secrets in hand, and combineEKs takes whatever is published; a party that has lost its secrets and starts over silently makes the key useless: every ciphertext under it fails the commitment check (C123_carelessness). Parties must abort and start a fresh key generation instead.
36. Only SecretKey derives ZeroizeOnDrop (and it is a single scalar). SecretKeyST, which holds a party's whole secret, and the vectors of keygen, FkeygenPartial, encrypt and decrypt are freed without being overwritten, and what they leave is equivalent to the secrets (C124_keygen_memory, C124_parties_memory, C124_forgery_memory, C124_encrypt_memory, C124_decrypt_memory, C124_reencrypted_memory). SecretKeyST should derive ZeroizeOnDrop and the intermediate vectors be wrapped in Zeroizing.
