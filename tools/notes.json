{
 "C01": {
  "note": "Every field config (any prime, any limb count), element, supported size, both build profiles."
 },
 "C02": {
  "note": "Exact length, range, positional value, uniqueness and injectivity."
 },
 "C03": {
  "note": "decompose/compose, message-level encrypt and the commitment functions."
 },
 "C04": {
  "note": "Least-count characterisation; b=0 aborts; more than 255 chunks truncate."
 },
 "C05": {
  "note": "Exact criterion for centralised and distributed keys; holds on BLS12-381 (modulus proved prime), fails on a 521-bit field."
 },
 "C06": {
  "note": "In-range value and additivity; exact out-of-range behaviour of the 8-bit and 4-bit branches, incl. the checked-build abort."
 },
 "C07": {
  "note": "Exact success condition, shapes and validation of keygen and FkeygenPartial; b=0 aborts."
 },
 "C08": {
  "note": "All public pairing equations of a keygen output."
 },
 "C09": {
  "note": "Any number of parties, each with its own RNG; equality of whole keys."
 },
 "C10": {
  "note": "Permutation invariance of combineEKs, combineP1share and of the whole protocol, failing runs included."
 },
 "C11": {
  "note": "Exact abort/success conditions."
 },
 "C12": {
  "note": "Existence and uniqueness of the missing party's secret."
 },
 "C13": {
  "note": "Existence of the rogue submission for every target of the same shape and X_0."
 },
 "C14": {
  "note": "Complete case list; success gives the SAVER equations."
 },
 "C15": {
  "note": "Centralised and distributed keys, both encryption levels."
 },
 "C16": {
  "note": "Iff criterion for arbitrary ciphertexts plus tamper detection."
 },
 "C17": {
  "note": "Chunk-level round trip; the nondegeneracy condition is shown necessary."
 },
 "C18": {
  "note": "Message-level round trip, without and with table, and the Groth16-vk variants."
 },
 "C19": {
  "note": "nu for every successful decryption; public checkability and uniqueness."
 },
 "C20": {
  "note": "Complete case list for every ciphertext and key."
 },
 "C21": {
  "note": "Equality of whole Results, incl. errors and aborts; b=0 difference exhibited."
 },
 "C22": {
  "note": "Exact content, errors and aborts."
 },
 "C23": {
  "note": "Arbitrary (malformed) tables."
 },
 "C24": {
  "note": "Prepared forms from `From` and arbitrary prepared keys with equal pairing behaviour."
 },
 "C25": {
  "note": "Any number of ciphertexts, any order."
 },
 "C26": {
  "note": "Both levels, overflow gives CouldNotFindDiscreteLog."
 },
 "C27": {
  "note": "Any number of parties, any share order."
 },
 "C28": {
  "note": "Any number of encryptors and key holders."
 },
 "C29": {
  "note": "Exact shift by the missing secrets."
 },
 "C30": {
  "note": "Every other secret key, every position."
 },
 "C31": {
  "note": "Negative property (finding): an explicit key-less recovery function is proved correct."
 },
 "C32": {
  "note": "Exact shape behaviour, commutativity, associativity, order independence."
 },
 "C33": {
  "note": "All multipliers."
 },
 "C34": {
  "note": "At most k-1 bad challenges; constant multipliers shown unsound."
 },
 "C35": {
  "note": "Complete case list."
 },
 "C36": {
  "note": "Complete case list incl. b>=32 in both build profiles."
 },
 "C37": {
  "note": "Every aligned field; BLS12-381 at all supported sizes."
 },
 "C38": {
  "note": "Both key algorithms in closed form."
 },
 "C39": {
  "note": "Homomorphism, binding up to a discrete-log relation, perfect hiding (bijection)."
 },
 "C40": {
  "note": "Negative property (finding): misaligned fields drop the blinding; constant commitment when twice as long."
 },
 "C41": {
  "note": "Every chunk size."
 },
 "C42": {
  "note": "Every satisfying assignment, any synthesis mode."
 },
 "C43": {
  "note": "Iff for the synthesizer's own witness, and non-existence otherwise."
 },
 "C44": {
  "note": "Shape for all sizes and modes; 7920 for BLS12-381."
 },
 "C45": {
  "note": "Any circuit, any proof, integer chunk vectors."
 },
 "C46": {
  "note": "Chunk and message level; checked builds abort on out-of-range chunks."
 },
 "C47": {
  "note": "Every verification key and proof."
 },
 "C48": {
  "note": "Every ciphertext with a different component sum."
 },
 "C49": {
  "note": "Complete outcome list of setup and SRS generation for the bit-size circuit."
 },
 "C50": {
  "note": "Loops with an explicit iteration bound that is quantified away; domain separation below 2^56 attempts; raw collision exhibited."
 },
 "C51": {
  "note": "Every size hint and scalar."
 },
 "C52": {
  "note": "ark-serialize round trips/prefix-freeness for every serializable type, and the serde layer. Point encodings are assumed faithful (external)."
 },
 "C53": {
  "note": "Trailing junk, reordered/extra serde fields, malformed key shapes; the *_read_exactly theorems characterise, for every serde type, the values that are read."
 },
 "C54": {
  "note": "Composition of setup, encryption with proof, verification, decryption."
 },
 "C55": {
  "note": "Exact exceptional draws."
 },
 "C56": {
  "note": "Any number of key holders, up to 2^b+1 encryptors, 4- and 8-bit chunks."
 },
 "C57": {
  "note": "Chunk and message level, any RNGs."
 },
 "C58": {
  "note": "Simulated distribution = real one (bijection of the prover's draws); accepted proofs = simulated proofs."
 },
 "C59": {
  "note": "Iff and exact error order."
 },
 "C60": {
  "note": "Adversaries: fixed linear combinations of the published elements (algebraic, non-adaptive), knowing all key secrets. Computational adversaries are outside the model."
 },
 "C61": {
  "note": "Same adversary class as C60, not knowing the secrets."
 },
 "C62": {
  "note": "Counting version of C61 (explicit error bound). Draw vectors on which the first evaluation-point candidate lies in the domain count as not accepted."
 },
 "C63": {
  "note": "Counting version of C60."
 },
 "C64": {
  "note": "Generic-group adversary (questions are zero tests of known linear combinations, in G1, G2 and of pairings in GT); draws counted on a tape of K uniform scalars. Spec in SpecSec.lean."
 },
 "C65": {
  "note": "As C64, the SRS is fixed (arbitrary trapdoors, arbitrary further public points); only key generation, encryption and prover randomness is counted."
 },
 "C66": {
  "note": "Generic group model, semi-honest coalition: the other parties run the protocol's code with arbitrary RNGs fixed before the honest party's draws (C68 shows the claim is false for parties that deviate). The honest party may stand anywhere in the list."
 },
 "C67": {
  "note": "As C66; the SRS is fixed (arbitrary trapdoors)."
 },
 "C68": {
  "note": "Both attacks are existence theorems for an explicit strategy that uses only published values; the strategy is quantified before the honest parties."
 },
 "C69": {
  "note": "The pool is a small-step model of rayon's indexed collect: ranges split anywhere, any task progresses at any time, slot writes are atomic. Parallelism inside ark-* (MSM, FFT) is covered only by their being functions."
 },
 "C70": {
  "note": "Points at infinity have several encodings in arkworks; the hypothesis OneEncoding on the contained points excludes them."
 },
 "C71": {
  "note": "Adversary model as in C61/C62 (coefficients fixed before the honest draws); corrupted parties follow the protocol. C68 and C73 show what deviating or colluding parties can do."
 },
 "C72": {
  "note": "Adversary model as in C60/C63; the ciphertext has SAVER form by hypothesis (C73 shows that key holders can break the form)."
 },
 "C73": {
  "note": "A negative property (attack): delimits C61/C71, whose hypothesis is one honest, undisclosed t."
 },
 "C74": {
  "note": "Generic-group adversary, adaptive (decision tree of zero tests); strengthens C61/C62, whose adversary fixes its coefficients beforehand."
 },
 "C75": {
  "note": "Adaptive strengthening of C71; corrupted parties follow the protocol."
 },
 "C76": {
  "note": "Adaptive strengthening of C63/C72; the chunks and the randomness are chosen adaptively as well."
 },
 "C77": {
  "note": "The shift is a separate specification (Spec.rerandomise, Spec.rerandomiseProof); the verdicts and decryptions compared are those of the modelled functions."
 },
 "C78": {
  "note": "The two-level use of combineEKs is a separate specification (Spec.dkgInGroups) built of modelled functions."
 },
 "C79": {
  "note": "The forged shares are explicit (Spec.shiftShare, Spec.decidingShare)."
 },
 "C80": {
  "note": "The forwarding step (Spec.forward) is built of the modelled functions."
 },
 "C81": {
  "note": "Algebraic adversary, accepted in every run with the first candidate for the evaluation point; the conclusion is about all runs of every generator. C81_unrelated quantifies over the honest messages, C81_plaintext states it through decryption, C81_rerandomiser and C81_own_message show that both cases occur for all parameters."
 },
 "C82": {
  "note": "C82_roundtrip, C82_layout and C82_reloaded are the storage part; C82_unchecked gives the exact product of a tampered table, C82_malformed the panics."
 },
 "C83": {
  "note": "Counting version of C81: the accepting draws are counted exactly, no random oracle or asymptotics. C83_fraction gives the converse, so the hypothesis is met by both kinds of adversaries of C81_rerandomiser and C81_own_message."
 },
 "C84": {
  "note": "C84_keys_disagree and C84_few_keys are for one ciphertext and any decryption key; C84_robust counts the draws of keygen on which some wrong key decrypts some honest encryption; C84_wrong_key_error is the message-level consequence. Needs at least two chunks."
 },
 "C85": {
  "note": "All panic conditions are stated as iff over all inputs. Panics inside arkworks (curve arithmetic, deserialization of points) and allocation failures are outside the model."
 },
 "C86": {
  "note": "Exact counts over the scalars drawn; the SRS runs are those that find the evaluation point at the first draw (fuel 1), as in C62."
 },
 "C87": {
  "note": "Generic (algebraic) adversaries, as in C71-C76 and C81: outputs are linear combinations of the elements seen, the coefficients are chosen adaptively. The setup runs are those that find the evaluation point at the first draw (fuel 1)."
 },
 "C88": {
  "note": "Replayable-CCA secrecy in the adaptive generic-group model. The holder tells the message, not nu (C91 hands out nu as well); the setup is required to succeed at the first candidate for the evaluation point; answers of the group oracle are linear/pairing zero tests (SpecAdapt). C88_withholding_needed and C88_verification_needed show the two safeguards are necessary, C88_no_abort that the game does not stop."
 },
 "C89": {
  "note": "C89_share_ignores_chunks: shares are equal for chunk lists of equal length. C89_related_request: a request about any a X_r + u X_0 opens the ciphertext with first component X_r. C89_unrelated_request: a request about u X_0 gives only public values."
 },
 "C90": {
  "note": "C90_adaptive_non_malleable and C90_adaptive_bound: the statement for adversaries accepted often, and the bound for all adversaries. C90_rerandomiser, C90_adaptive_rerandomiser: the second case occurs for every number of parties, user and shift, also for adversaries that ask."
 },
 "C91": {
  "note": "C91_nu_handed_out is the bound with nu given out; C91_no_abort: the games do not stop; C91_withholding_nu_needed: nu of a withheld decryption reveals the message, so the policy of C88 must cover nu, too. C88 is the game without nu."
 },
 "C92": {
  "note": "C92_more_candidates, C92_ends_iff, C92_unlucky_count: the loop; C92_transfer, C92_transfer_srs, C92_transfer_dkg: any predicate of the outcome; C92_adaptive_soundness, C92_chosen_ciphertexts, C92_nu_handed_out: C74, C88 and C91 for every candidate limit."
 },
 "C93": {
  "note": "C93_common_opening: completeness; C93_opened_chunks, C93_same_message: algebra; C93_binding, C93_adaptive: adaptive adversaries; C93_honest: the hypotheses are met; C93_reused_blinding_links: the caveat of src/commitment.rs:36-39."
 },
 "C94": {
  "note": "C94_verified_requests: the bound; C94_no_abort: the games are not trivial; C94_refusal_needed, C94_verification_needed: neither half of the rule can be dropped. Compare C89 (one request for an unverified ciphertext opens any ciphertext)."
 },
 "C95": {
  "note": "Correctness error for every engine; parameters, correctness, adaptive soundness and chosen-ciphertext secrecy in numbers on BLS12-381."
 },
 "C96": {
  "note": "C56 turned into a probability statement over the SRS draws; BLS12-381 in numbers."
 },
 "C97": {
  "note": "C67, C75, C76, C90 and C94 with the parameters of C95; setup with one candidate for the evaluation point, as there."
 },
 "C98": {
  "note": "C90 composed with C27 and C55; setup with one candidate for the evaluation point."
 },
 "C99": {
  "note": "C75, C76, C90, C94 and C98 without their restriction to one candidate."
 },
 "C100": {
  "note": "C90 for each submission, together with C25, C27, C34 and C99."
 },
 "C101": {
  "note": "Extends C94 (single ciphertexts, all refused copies) to sums, where the reply depends on the sum only."
 },
 "C102": {
  "note": "C102_keygen ... C102_setupForGroth16: the scalars each operation reads, for every generator (ReadsScalars exact, ReadsBetween where the number depends on rejected candidates). C102_randomness_opens, C102_reuse_opens, C102_equal_seeds: what the used scalar, a reused scalar and equal seeds disclose. Concrete Goldilocks runs beside the theorems."
 },
 "C103": {
  "note": "Any proving key as a hypothesis-free structure; the prover's three points as affine functions of the two scalars, the verification equation linear in the first scalar and independent of the second; uniqueness of the scalars from the generating delta elements; for the attack the position of the bit in the witness (generateConstraints_eq), the effect of the altered element on C, C46_chunk_level for the honest part, nondegeneracy of the pairing; bits of the big-endian decomposition."
 },
 "C104": {
  "note": "The prover's own computation (witness map, quotient without its last coefficient) on any assignment; the difference of the two sides of the verification equation is the value of the polynomial AB - C - ZH at the evaluation point; that polynomial is nonzero because it does not vanish at the power of omega of the violated row, and has degree at most 2 (size - 1); C45_api carries the Groth16 equation to verify_proof."
 },
 "C105": {
  "note": "Closed forms of the partial keys, combinations and shares; the sum of the shares as the P_1 of the combined key plus a gap; nondegeneracy for the commitment check; counting: the gap is linear in t_0 of a party whose share is missing or repeated, and otherwise linear in t_1 of a sender with a wrong view, with a coefficient that is itself linear in s_0 of a party missing from (or repeated in) that view. For the counting part no party's partial key is combined twice and the list lengths are below p."
 },
 "C106": {
  "note": "Closed forms of the shares and their sums; exact cases of the discrete-logarithm search (C36); the gap as a linear combination of the parties' s_i with coefficients r - (sum of r' over the party's shares), and counting: n independent coordinates of one party's secret each confined to searchBound+1 values. What C29 says about a missing share in a single run is a special case."
 },
 "C107": {
  "note": "A transition system over the modelled functions and derived encodings; an inductive invariant ties storage, memory and published bytes to one choice of randomness per party (torn writes are unreadable by C52); progress in three phases. The storage discipline is the application's, not the crate's; the example in Props/Restart.lean shows (by C105) what happens to a party that publishes before storing."
 },
 "C108": {
  "note": "A transition system over the modelled functions and canonical encodings; an inductive invariant says that storage and published tally are the encryption of the sum of one cast vote per counted user and that every share is a share of the published tally (torn writes are unreadable); progress in three phases. The storage discipline and the list of counted users are the application's, not the crate's."
 },
 "C109": {
  "note": "The transition system of C108 with a step for dishonest users and a check before counting; the invariant ties storage, tally and shares to ciphertexts that were on the board. Whether a dishonest user's ciphertext carries numbers in range is not decided by this check (that takes the SNARK, C61)."
 },
 "C110": {
  "note": "The product of the transition systems of C107 and C109, in which the key of the poll is read off the key holders' state at every step; the invariant says that this key never changes once it can be computed (C107), so that every history is a run of key generation and a run of the poll with one key."
 },
 "C111": {
  "note": "Counting versions of the search and decryption functions (Model/Work), proved to return the same results on all inputs; the counter counts runs of loop bodies (group additions / comparisons), not seconds. Pairings and scalar multiplications outside the loops are not counted."
 },
 "C112": {
  "note": "A negative property: the commitment check shows that a ciphertext is well formed, not that it encrypts small or nonnegative numbers; C56, C61 and C100 are the counterparts with proofs. Built on C109."
 },
 "C113": {
  "note": "Liveness counterparts of the safety properties C107, C109 and C110. The actions to which fairness applies are stated by their effect (SpecLive). A deliberate assumption: channels deliver (the board is shared)."
 },
 "C114": {
  "note": "C109 with proofs, and its composition with the knowledge soundness of C100. The adversary is algebraic and its submissions depend on everything published and all honest submissions; dishonest users may also replay honest submissions. What they post after the tally is published is not counted."
 },
 "C115": {
  "note": "C113 for the poll with proofs of C114. What the outcome is, is said by C114."
 },
 "C116": {
  "note": "C110 and the whole-system part of C113 for the poll with proofs of C114. That what dishonest users prove is in range is in C114 (a count of draws)."
 },
 "C117": {
  "note": "A limitation: nothing in the crate binds a ciphertext or proof to who submits it. C77 applied to the polls of C114; C114_sums allows exactly this kind of contribution of the adversary (an honest user whose message it contains). The overflow conditions are those of C114_sums."
 },
 "C118": {
  "note": "Simplifications: the expressions have values in one type and no effects on each other. rayon::join is modelled by its documentation (both closures are always run; a panic is propagated, the first one's if both panic)."
 },
 "C119": {
  "note": "Not modelled: encrypt_decrypt_timing (commented out), output and timing; join and unnest_tuple (macros) are in C118. The random number generator is any state machine that also draws 32-bit integers. The number of chunks must fit in 8 bits. For gens: if the hash searches end."
 },
 "C120": {
  "note": "Scalars are counted as independent draws; points and 32-bit messages come from a separate source that does not influence them. The tests keygen_works, keygen_dist and commitment_key_creation never fail (C119)."
 },
 "C121": {
  "note": "The polls are those of C116. The crate has no notion of a poll or a session: the only inputs of encryption and verification are the key, the parameters and the message."
 },
 "C122": {
  "note": "Pairs are counted as they are passed to the pairing; that arkworks leaves out points at infinity is not modelled."
 },
 "C123": {
  "note": "The crate does not store anything itself; storage holds the derived canonical encodings, as in C107. A loss is any change after which nothing readable is left. A readable but wrong storage (silent corruption) is excluded."
 },
 "C124": {
  "note": "A lower bound: recorded are the buffers of the crate's own vectors that depend on secrets, with the contents they have when dropped. Stack copies, registers and the dependencies' buffers are not modelled, nor whether the allocator overwrites freed memory later."
 },
 "C125": {
  "note": "The transition systems of C107 and C108. A published re-encryption share counts as replaced (lost) if it is published again with other randomness; the poll may be closed before everybody is counted, so the published tally need not contain everybody."
 }
}