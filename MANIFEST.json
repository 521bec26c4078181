{
 "claims": [
  {
   "property": "C01",
   "status": "proved",
   "theorems": [
    "Verif.C01_decompose_compose_roundtrip"
   ],
   "note": "Every field config (any prime, any limb count), element, supported size, both build profiles."
  },
  {
   "property": "C02",
   "status": "proved",
   "theorems": [
    "Verif.C02_decompose_positional",
    "Verif.C02_decompose_injective"
   ],
   "note": "Exact length, range, positional value, uniqueness and injectivity."
  },
  {
   "property": "C03",
   "status": "proved",
   "theorems": [
    "Verif.C03_unsupported_rejected",
    "Verif.C03_compose_errors_exactly",
    "Verif.C03_commitment_rejects",
    "Verif.C03_encrypt_rejects"
   ],
   "note": "decompose/compose, message-level encrypt and the commitment functions."
  },
  {
   "property": "C04",
   "status": "proved",
   "theorems": [
    "Verif.C04_chunks_count_least",
    "Verif.C04_chunks_count_zero",
    "Verif.C04_chunks_count_truncates"
   ],
   "note": "Least-count characterisation; b=0 aborts; more than 255 chunks truncate."
  },
  {
   "property": "C05",
   "status": "proved",
   "theorems": [
    "Verif.C05_encrypt_fresh_key",
    "Verif.C05_bls12_381",
    "Verif.C05_fails_521"
   ],
   "note": "Exact criterion for centralised and distributed keys; holds on BLS12-381 (modulus proved prime), fails on a 521-bit field."
  },
  {
   "property": "C06",
   "status": "proved",
   "theorems": [
    "Verif.C06_compose_positional",
    "Verif.C06_compose_additive",
    "Verif.C06_compose_8_drops_carries",
    "Verif.C06_compose_4_exact",
    "Verif.C06_lost_carry"
   ],
   "note": "In-range value and additivity; exact out-of-range behaviour of the 8-bit and 4-bit branches, incl. the checked-build abort."
  },
  {
   "property": "C07",
   "status": "proved",
   "theorems": [
    "Verif.C07_keygen",
    "Verif.C07_fkeygenPartial",
    "Verif.C07_zero_size"
   ],
   "note": "Exact success condition, shapes and validation of keygen and FkeygenPartial; b=0 aborts."
  },
  {
   "property": "C08",
   "status": "proved",
   "theorems": [
    "Verif.C08_keygen_pairing_equations"
   ],
   "note": "All public pairing equations of a keygen output."
  },
  {
   "property": "C09",
   "status": "proved",
   "theorems": [
    "Verif.C09_dkg_equals_keygen"
   ],
   "note": "Any number of parties, each with its own RNG; equality of whole keys."
  },
  {
   "property": "C10",
   "status": "proved",
   "theorems": [
    "Verif.C10_combineEKs_order",
    "Verif.C10_combineP1share_order",
    "Verif.C10_dkg_order"
   ],
   "note": "Permutation invariance of combineEKs, combineP1share and of the whole protocol, failing runs included."
  },
  {
   "property": "C11",
   "status": "proved",
   "theorems": [
    "Verif.C11_combineEKs",
    "Verif.C11_combineEKs_ignores_extra",
    "Verif.C11_combineP1share",
    "Verif.C11_genP1share"
   ],
   "note": "Exact abort/success conditions."
  },
  {
   "property": "C12",
   "status": "proved",
   "theorems": [
    "Verif.C12_additive_sharing"
   ],
   "note": "Existence and uniqueness of the missing party's secret."
  },
  {
   "property": "C13",
   "status": "proved",
   "theorems": [
    "Verif.C13_rogue_key"
   ],
   "note": "Existence of the rogue submission for every target of the same shape and X_0."
  },
  {
   "property": "C14",
   "status": "proved",
   "theorems": [
    "Verif.C14_encrypt_decomposed",
    "Verif.C14_encrypt_splits"
   ],
   "note": "Complete case list; success gives the SAVER equations."
  },
  {
   "property": "C15",
   "status": "proved",
   "theorems": [
    "Verif.C15_honest_ciphertexts_verify"
   ],
   "note": "Centralised and distributed keys, both encryption levels."
  },
  {
   "property": "C16",
   "status": "proved",
   "theorems": [
    "Verif.C16_accept_iff",
    "Verif.C16_any_key",
    "Verif.C16_tamper_detected",
    "Verif.C16_hypotheses_honest"
   ],
   "note": "Iff criterion for arbitrary ciphertexts plus tamper detection."
  },
  {
   "property": "C17",
   "status": "proved",
   "theorems": [
    "Verif.C17_decrypt_encrypt_chunks",
    "Verif.C17_degenerate"
   ],
   "note": "Chunk-level round trip; the nondegeneracy condition is shown necessary."
  },
  {
   "property": "C18",
   "status": "proved",
   "theorems": [
    "Verif.C18_decrypt_encrypt",
    "Verif.C18_decrypt_encrypt_with_table"
   ],
   "note": "Message-level round trip, without and with table, and the Groth16-vk variants."
  },
  {
   "property": "C19",
   "status": "proved",
   "theorems": [
    "Verif.C19_nu",
    "Verif.C19_nu_message",
    "Verif.C19_publicly_checkable"
   ],
   "note": "nu for every successful decryption; public checkability and uniqueness."
  },
  {
   "property": "C20",
   "status": "proved",
   "theorems": [
    "Verif.C20_decrypt_cases",
    "Verif.C20_bound",
    "Verif.C20_unchecked"
   ],
   "note": "Complete case list for every ciphertext and key."
  },
  {
   "property": "C21",
   "status": "proved",
   "theorems": [
    "Verif.C21_table_same_result",
    "Verif.C21_table_exists",
    "Verif.C21_zero_size_differs"
   ],
   "note": "Equality of whole Results, incl. errors and aborts; b=0 difference exhibited."
  },
  {
   "property": "C22",
   "status": "proved",
   "theorems": [
    "Verif.C22_pairing_powers",
    "Verif.C22_unchecked"
   ],
   "note": "Exact content, errors and aborts."
  },
  {
   "property": "C23",
   "status": "proved",
   "theorems": [
    "Verif.C23_table_lookup_cases",
    "Verif.C23_no_wrong_chunk",
    "Verif.C23_invalid_powers_only_after_skip",
    "Verif.C23_short_row_aborts"
   ],
   "note": "Arbitrary (malformed) tables."
  },
  {
   "property": "C24",
   "status": "proved",
   "theorems": [
    "Verif.C24_prepared_agrees",
    "Verif.C24_decrypt_by_pairing",
    "Verif.C24_verify_by_pairing"
   ],
   "note": "Prepared forms from `From` and arbitrary prepared keys with equal pairing behaviour."
  },
  {
   "property": "C25",
   "status": "proved",
   "theorems": [
    "Verif.C25_aggregate_is_encryption_of_sum",
    "Verif.C25_add_two",
    "Verif.C25_same_as_encrypting_sum",
    "Verif.C25_aggregate_verifies"
   ],
   "note": "Any number of ciphertexts, any order."
  },
  {
   "property": "C26",
   "status": "proved",
   "theorems": [
    "Verif.C26_aggregate_decrypts",
    "Verif.C26_messages_sum"
   ],
   "note": "Both levels, overflow gives CouldNotFindDiscreteLog."
  },
  {
   "property": "C27",
   "status": "proved",
   "theorems": [
    "Verif.C27_reencryption_delivers"
   ],
   "note": "Any number of parties, any share order."
  },
  {
   "property": "C28",
   "status": "proved",
   "theorems": [
    "Verif.C28_pipeline"
   ],
   "note": "Any number of encryptors and key holders."
  },
  {
   "property": "C29",
   "status": "proved",
   "theorems": [
    "Verif.C29_missing_share"
   ],
   "note": "Exact shift by the missing secrets."
  },
  {
   "property": "C30",
   "status": "proved",
   "theorems": [
    "Verif.C30_wrong_key"
   ],
   "note": "Every other secret key, every position."
  },
  {
   "property": "C31",
   "status": "proved",
   "theorems": [
    "Verif.C31_reencryption_leaks"
   ],
   "note": "Negative property (finding): an explicit key-less recovery function is proved correct."
  },
  {
   "property": "C32",
   "status": "proved",
   "theorems": [
    "Verif.C32_shapes",
    "Verif.C32_comm_assoc",
    "Verif.C32_order_independent",
    "Verif.C32_reencryption_order"
   ],
   "note": "Exact shape behaviour, commutativity, associativity, order independence."
  },
  {
   "property": "C33",
   "status": "proved",
   "theorems": [
    "Verif.C33_batch_complete"
   ],
   "note": "All multipliers."
  },
  {
   "property": "C34",
   "status": "proved",
   "theorems": [
    "Verif.C34_batch_sound",
    "Verif.C34_constant_multipliers_unsound"
   ],
   "note": "At most k-1 bad challenges; constant multipliers shown unsound."
  },
  {
   "property": "C35",
   "status": "proved",
   "theorems": [
    "Verif.C35_batch_cases"
   ],
   "note": "Complete case list."
  },
  {
   "property": "C36",
   "status": "proved",
   "theorems": [
    "Verif.C36_decrypt_after_cases",
    "Verif.C36_larger_bound_same",
    "Verif.C36_above_65535_fails"
   ],
   "note": "Complete case list incl. b>=32 in both build profiles."
  },
  {
   "property": "C37",
   "status": "proved",
   "theorems": [
    "Verif.C37_commits_to_message",
    "Verif.C37_random_generators",
    "Verif.C37_bls12_381"
   ],
   "note": "Every aligned field; BLS12-381 at all supported sizes."
  },
  {
   "property": "C38",
   "status": "proved",
   "theorems": [
    "Verif.C38_key_algorithms",
    "Verif.C38_commitment_key"
   ],
   "note": "Both key algorithms in closed form."
  },
  {
   "property": "C39",
   "status": "proved",
   "theorems": [
    "Verif.C39_homomorphic",
    "Verif.C39_binding",
    "Verif.C39_perfectly_hiding"
   ],
   "note": "Homomorphism, binding up to a discrete-log relation, perfect hiding (bijection)."
  },
  {
   "property": "C40",
   "status": "proved",
   "theorems": [
    "Verif.C40_misaligned",
    "Verif.C40_constant_commitment"
   ],
   "note": "Negative property (finding): misaligned fields drop the blinding; constant commitment when twice as long."
  },
  {
   "property": "C41",
   "status": "proved",
   "theorems": [
    "Verif.C41_radix"
   ],
   "note": "Every chunk size."
  },
  {
   "property": "C42",
   "status": "proved",
   "theorems": [
    "Verif.C42_sound",
    "Verif.C42_gadget_lc",
    "Verif.C42_gadget_pack",
    "Verif.C42_gadget_or",
    "Verif.C42_gadget_or_value",
    "Verif.C42_gadget_enforce_false"
   ],
   "note": "Every satisfying assignment, any synthesis mode."
  },
  {
   "property": "C43",
   "status": "proved",
   "theorems": [
    "Verif.C43_complete"
   ],
   "note": "Iff for the synthesizer's own witness, and non-existence otherwise."
  },
  {
   "property": "C44",
   "status": "proved",
   "theorems": [
    "Verif.C44_shape",
    "Verif.C44_value_independent",
    "Verif.C44_bls_7920"
   ],
   "note": "Shape for all sizes and modes; 7920 for BLS12-381."
  },
  {
   "property": "C45",
   "status": "proved",
   "theorems": [
    "Verif.C45_reduces_to_groth16",
    "Verif.C45_api"
   ],
   "note": "Any circuit, any proof, integer chunk vectors."
  },
  {
   "property": "C46",
   "status": "proved",
   "theorems": [
    "Verif.C46_chunk_level",
    "Verif.C46_encrypt_with_proof",
    "Verif.C46_checked_build_aborts"
   ],
   "note": "Chunk and message level; checked builds abort on out-of-range chunks."
  },
  {
   "property": "C47",
   "status": "proved",
   "theorems": [
    "Verif.C47_sum_only",
    "Verif.C47_move_between_chunks"
   ],
   "note": "Every verification key and proof."
  },
  {
   "property": "C48",
   "status": "proved",
   "theorems": [
    "Verif.C48_no_transfer",
    "Verif.C48_single_change"
   ],
   "note": "Every ciphertext with a different component sum."
  },
  {
   "property": "C49",
   "status": "proved",
   "theorems": [
    "Verif.C49_lagrange_interpolates",
    "Verif.C49_setup_consistent",
    "Verif.C49_srs_cases"
   ],
   "note": "Complete outcome list of setup and SRS generation for the bit-size circuit."
  },
  {
   "property": "C50",
   "status": "proved",
   "theorems": [
    "Verif.C50_first_success",
    "Verif.C50_only_first_success",
    "Verif.C50_encryption_gens",
    "Verif.C50_commitment_gens",
    "Verif.C50_attempts_distinct",
    "Verif.C50_domain_separation",
    "Verif.C50_raw_collision"
   ],
   "note": "Loops with an explicit iteration bound that is quantified away; domain separation below 2^56 attempts; raw collision exhibited."
  },
  {
   "property": "C51",
   "status": "proved",
   "theorems": [
    "Verif.C51_window_table"
   ],
   "note": "Every size hint and scalar."
  },
  {
   "property": "C52",
   "status": "proved",
   "theorems": [
    "Verif.C52_scalar_canonical",
    "Verif.C52_secret_keys",
    "Verif.C52_encryption_keys",
    "Verif.C52_shares_decryption_keys_ciphertexts",
    "Verif.C52_generators_commitments",
    "Verif.C52_proving_key",
    "Verif.C52_serde_roundtrip"
   ],
   "note": "ark-serialize round trips/prefix-freeness for every serializable type, and the serde layer. Point encodings are assumed faithful (external)."
  },
  {
   "property": "C53",
   "status": "proved",
   "theorems": [
    "Verif.C53_trailing_bytes",
    "Verif.C53_ciphertext_encodings",
    "Verif.C53_ciphertext_read_exactly",
    "Verif.C53_malformed_encryption_key",
    "Verif.C53_malformed_decryption_key",
    "Verif.C53_keys_read_exactly",
    "Verif.C53_others_read_exactly"
   ],
   "note": "Trailing junk, reordered/extra serde fields, malformed key shapes; the *_read_exactly theorems characterise, for every serde type, the values that are read."
  },
  {
   "property": "C54",
   "status": "proved",
   "theorems": [
    "Verif.C54_pipeline"
   ],
   "note": "Composition of setup, encryption with proof, verification, decryption."
  },
  {
   "property": "C55",
   "status": "proved",
   "theorems": [
    "Verif.C55_generators",
    "Verif.C55_zero_generators",
    "Verif.C55_decryption_key",
    "Verif.C55_pipeline",
    "Verif.C55_random_generators"
   ],
   "note": "Exact exceptional draws."
  },
  {
   "property": "C56",
   "status": "proved",
   "theorems": [
    "Verif.C56_verified_aggregation"
   ],
   "note": "Any number of key holders, up to 2^b+1 encryptors, 4- and 8-bit chunks."
  },
  {
   "property": "C57",
   "status": "proved",
   "theorems": [
    "Verif.C57_injective",
    "Verif.C57_injective_messages"
   ],
   "note": "Chunk and message level, any RNGs."
  },
  {
   "property": "C58",
   "status": "proved",
   "theorems": [
    "Verif.C58_perfect_zero_knowledge",
    "Verif.C58_accepted_iff_simulated"
   ],
   "note": "Simulated distribution = real one (bijection of the prover's draws); accepted proofs = simulated proofs."
  },
  {
   "property": "C59",
   "status": "proved",
   "theorems": [
    "Verif.C59_verify_both",
    "Verif.C59_any_key"
   ],
   "note": "Iff and exact error order."
  },
  {
   "property": "C60",
   "status": "proved",
   "theorems": [
    "Verif.C60_range_sound",
    "Verif.C60_honest_prover"
   ],
   "note": "Adversaries: fixed linear combinations of the published elements (algebraic, non-adaptive), knowing all key secrets. Computational adversaries are outside the model."
  },
  {
   "property": "C61",
   "status": "proved",
   "theorems": [
    "Verif.C61_knowledge_sound",
    "Verif.C61_honest_strategy",
    "Verif.C61_is_encryption"
   ],
   "note": "Same adversary class as C60, not knowing the secrets."
  },
  {
   "property": "C62",
   "status": "proved",
   "theorems": [
    "Verif.C62_all_or_few",
    "Verif.C62_knowledge_error",
    "Verif.C62_honest_fraction"
   ],
   "note": "Counting version of C61 (explicit error bound). Draw vectors on which the first evaluation-point candidate lies in the domain count as not accepted."
  },
  {
   "property": "C63",
   "status": "proved",
   "theorems": [
    "Verif.C63_range_error"
   ],
   "note": "Counting version of C60."
  },
  {
   "property": "C64",
   "status": "proved",
   "theorems": [
    "Verif.C64_ciphertext_secrecy",
    "Verif.C64_no_abort"
   ],
   "note": "Generic-group adversary (questions are zero tests of known linear combinations, in G1, G2 and of pairings in GT); draws counted on a tape of K uniform scalars. Spec in SpecSec.lean."
  },
  {
   "property": "C65",
   "status": "proved",
   "theorems": [
    "Verif.C65_secrecy_with_proofs",
    "Verif.C65_no_abort"
   ],
   "note": "As C64, the SRS is fixed (arbitrary trapdoors, arbitrary further public points); only key generation, encryption and prover randomness is counted."
  },
  {
   "property": "C66",
   "status": "proved",
   "theorems": [
    "Verif.C66_secrecy_against_coalition",
    "Verif.C66_transcript_is_dkg",
    "Verif.C66_no_abort"
   ],
   "note": "Generic group model, semi-honest coalition: the other parties run the protocol's code with arbitrary RNGs fixed before the honest party's draws (C68 shows the claim is false for parties that deviate). The honest party may stand anywhere in the list."
  },
  {
   "property": "C67",
   "status": "proved",
   "theorems": [
    "Verif.C67_coalition_with_proofs",
    "Verif.C67_no_abort"
   ],
   "note": "As C66; the SRS is fixed (arbitrary trapdoors)."
  },
  {
   "property": "C68",
   "status": "proved",
   "theorems": [
    "Verif.C68_rogue_partial_key",
    "Verif.C68_rogue_share"
   ],
   "note": "Both attacks are existence theorems for an explicit strategy that uses only published values; the strategy is quantified before the honest parties."
  },
  {
   "property": "C69",
   "status": "proved",
   "theorems": [
    "Verif.C69_every_schedule",
    "Verif.C69_terminates",
    "Verif.C69_collects_iff",
    "Verif.C69_parallel_feature"
   ],
   "note": "The pool is a small-step model of rayon's indexed collect: ranges split anywhere, any task progresses at any time, slot writes are atomic. Parallelism inside ark-* (MSM, FFT) is covered only by their being functions."
  },
  {
   "property": "C70",
   "status": "proved",
   "theorems": [
    "Verif.C70_one_encoding",
    "Verif.C70_sizes",
    "Verif.C70_wire_layout",
    "Verif.C70_serde_layout"
   ],
   "note": "Points at infinity have several encodings in arkworks; the hypothesis OneEncoding on the contained points excludes them."
  },
  {
   "property": "C71",
   "status": "proved",
   "theorems": [
    "Verif.C71_knowledge_sound_coalition",
    "Verif.C71_knowledge_error_coalition",
    "Verif.C71_honest_strategy",
    "Verif.C71_honest_fraction"
   ],
   "note": "Adversary model as in C61/C62 (coefficients fixed before the honest draws); corrupted parties follow the protocol. C68 and C73 show what deviating or colluding parties can do."
  },
  {
   "property": "C72",
   "status": "proved",
   "theorems": [
    "Verif.C72_range_sound_all_parties",
    "Verif.C72_range_error_all_parties",
    "Verif.C72_honest_prover"
   ],
   "note": "Adversary model as in C60/C63; the ciphertext has SAVER form by hypothesis (C73 shows that key holders can break the form)."
  },
  {
   "property": "C73",
   "status": "proved",
   "theorems": [
    "Verif.C73_all_parties_forge",
    "Verif.C73_forgery_is_no_encryption",
    "Verif.C73_last_party_forges",
    "Verif.C73_accepted_garbage"
   ],
   "note": "A negative property (attack): delimits C61/C71, whose hypothesis is one honest, undisclosed t."
  },
  {
   "property": "C74",
   "status": "proved",
   "theorems": [
    "Verif.C74_adaptive_extractor",
    "Verif.C74_adaptive_soundness",
    "Verif.C74_adaptive_honest"
   ],
   "note": "Generic-group adversary, adaptive (decision tree of zero tests); strengthens C61/C62, whose adversary fixes its coefficients beforehand."
  },
  {
   "property": "C75",
   "status": "proved",
   "theorems": [
    "Verif.C75_adaptive_coalition_extractor",
    "Verif.C75_adaptive_coalition_soundness",
    "Verif.C75_adaptive_honest"
   ],
   "note": "Adaptive strengthening of C71; corrupted parties follow the protocol."
  },
  {
   "property": "C76",
   "status": "proved",
   "theorems": [
    "Verif.C76_adaptive_range",
    "Verif.C76_adaptive_range_all_parties",
    "Verif.C76_adaptive_honest"
   ],
   "note": "Adaptive strengthening of C63/C72; the chunks and the randomness are chosen adaptively as well."
  },
  {
   "property": "C77",
   "status": "proved",
   "theorems": [
    "Verif.C77_same_verdict",
    "Verif.C77_same_plaintext",
    "Verif.C77_same_reencryption",
    "Verif.C77_fresh",
    "Verif.C77_every_proof"
   ],
   "note": "The shift is a separate specification (Spec.rerandomise, Spec.rerandomiseProof); the verdicts and decryptions compared are those of the modelled functions."
  },
  {
   "property": "C78",
   "status": "proved",
   "theorems": [
    "Verif.C78_nested",
    "Verif.C78_groups",
    "Verif.C78_proofs_rejected"
   ],
   "note": "The two-level use of combineEKs is a separate specification (Spec.dkgInGroups) built of modelled functions."
  },
  {
   "property": "C79",
   "status": "proved",
   "theorems": [
    "Verif.C79_shifted_share",
    "Verif.C79_destination_deceived",
    "Verif.C79_last_share_decides"
   ],
   "note": "The forged shares are explicit (Spec.shiftShare, Spec.decidingShare)."
  },
  {
   "property": "C80",
   "status": "proved",
   "theorems": [
    "Verif.C80_forwarding",
    "Verif.C80_pipeline"
   ],
   "note": "The forwarding step (Spec.forward) is built of the modelled functions."
  },
  {
   "property": "C81",
   "status": "proved",
   "theorems": [
    "Verif.C81_non_malleable",
    "Verif.C81_unrelated",
    "Verif.C81_rerandomiser_uniform",
    "Verif.C81_rerandomiser",
    "Verif.C81_own_message",
    "Verif.C81_plaintext"
   ],
   "note": "Algebraic adversary, accepted in every run with the first candidate for the evaluation point; the conclusion is about all runs of every generator. C81_unrelated quantifies over the honest messages, C81_plaintext states it through decryption, C81_rerandomiser and C81_own_message show that both cases occur for all parameters."
  },
  {
   "property": "C82",
   "status": "proved",
   "theorems": [
    "Verif.C82_roundtrip",
    "Verif.C82_layout",
    "Verif.C82_reloaded",
    "Verif.C82_unchecked",
    "Verif.C82_malformed"
   ],
   "note": "C82_roundtrip, C82_layout and C82_reloaded are the storage part; C82_unchecked gives the exact product of a tampered table, C82_malformed the panics."
  },
  {
   "property": "C83",
   "status": "proved",
   "theorems": [
    "Verif.C83_all_or_few",
    "Verif.C83_non_malleable",
    "Verif.C83_plaintext",
    "Verif.C83_fraction"
   ],
   "note": "Counting version of C81: the accepting draws are counted exactly, no random oracle or asymptotics. C83_fraction gives the converse, so the hypothesis is met by both kinds of adversaries of C81_rerandomiser and C81_own_message."
  },
  {
   "property": "C84",
   "status": "proved",
   "theorems": [
    "Verif.C84_keys_disagree",
    "Verif.C84_few_keys",
    "Verif.C84_few_keys_reencrypted",
    "Verif.C84_robust",
    "Verif.C84_wrong_key_error"
   ],
   "note": "C84_keys_disagree and C84_few_keys are for one ciphertext and any decryption key; C84_robust counts the draws of keygen on which some wrong key decrypts some honest encryption; C84_wrong_key_error is the message-level consequence. Needs at least two chunks."
  },
  {
   "property": "C85",
   "status": "proved",
   "theorems": [
    "Verif.C85_vector_functions",
    "Verif.C85_encrypt_chunks",
    "Verif.C85_verify_commitment",
    "Verif.C85_verify_proof",
    "Verif.C85_decrypt_to_chunks",
    "Verif.C85_decrypt",
    "Verif.C85_decrypt_reencrypted",
    "Verif.C85_encrypt",
    "Verif.C85_verify_batch",
    "Verif.C85_outsider",
    "Verif.C85_checked_pipeline",
    "Verif.C85_unchecked_aggregate"
   ],
   "note": "All panic conditions are stated as iff over all inputs. Panics inside arkworks (curve arithmetic, deserialization of points) and allocation failures are outside the model."
  },
  {
   "property": "C86",
   "status": "proved",
   "theorems": [
    "Verif.C86_fresh_key_rejects",
    "Verif.C86_fresh_key_decrypts_nothing",
    "Verif.C86_fresh_srs_rejects",
    "Verif.C86_fresh_setup_rejects",
    "Verif.C86_neutral_accepted"
   ],
   "note": "Exact counts over the scalars drawn; the SRS runs are those that find the evaluation point at the first draw (fuel 1), as in C62."
  },
  {
   "property": "C87",
   "status": "proved",
   "theorems": [
    "Verif.C87_accepted_for_all_messages",
    "Verif.C87_adaptive_non_malleable",
    "Verif.C87_adaptive_bound",
    "Verif.C87_adaptive_plaintext",
    "Verif.C87_adaptive_rerandomiser"
   ],
   "note": "Generic (algebraic) adversaries, as in C71-C76 and C81: outputs are linear combinations of the elements seen, the coefficients are chosen adaptively. The setup runs are those that find the evaluation point at the first draw (fuel 1)."
  },
  {
   "property": "C88",
   "status": "proved",
   "theorems": [
    "Verif.C88_chosen_ciphertexts",
    "Verif.C88_no_abort",
    "Verif.C88_withholding_needed",
    "Verif.C88_verification_needed"
   ],
   "note": "Replayable-CCA secrecy in the adaptive generic-group model. The holder tells the message, not nu (C91 hands out nu as well); the setup is required to succeed at the first candidate for the evaluation point; answers of the group oracle are linear/pairing zero tests (SpecAdapt). C88_withholding_needed and C88_verification_needed show the two safeguards are necessary, C88_no_abort that the game does not stop."
  },
  {
   "property": "C89",
   "status": "proved",
   "theorems": [
    "Verif.C89_share_ignores_chunks",
    "Verif.C89_related_request",
    "Verif.C89_unrelated_request"
   ],
   "note": "C89_share_ignores_chunks: shares are equal for chunk lists of equal length. C89_related_request: a request about any a X_r + u X_0 opens the ciphertext with first component X_r. C89_unrelated_request: a request about u X_0 gives only public values."
  },
  {
   "property": "C90",
   "status": "proved",
   "theorems": [
    "Verif.C90_adaptive_non_malleable",
    "Verif.C90_adaptive_bound",
    "Verif.C90_rerandomiser",
    "Verif.C90_adaptive_rerandomiser"
   ],
   "note": "C90_adaptive_non_malleable and C90_adaptive_bound: the statement for adversaries accepted often, and the bound for all adversaries. C90_rerandomiser, C90_adaptive_rerandomiser: the second case occurs for every number of parties, user and shift, also for adversaries that ask."
  },
  {
   "property": "C91",
   "status": "proved",
   "theorems": [
    "Verif.C91_nu_handed_out",
    "Verif.C91_no_abort",
    "Verif.C91_withholding_nu_needed"
   ],
   "note": "C91_nu_handed_out is the bound with nu given out; C91_no_abort: the games do not stop; C91_withholding_nu_needed: nu of a withheld decryption reveals the message, so the policy of C88 must cover nu, too. C88 is the game without nu."
  },
  {
   "property": "C92",
   "status": "proved",
   "theorems": [
    "Verif.C92_more_candidates",
    "Verif.C92_ends_iff",
    "Verif.C92_unlucky_count",
    "Verif.C92_transfer",
    "Verif.C92_transfer_srs",
    "Verif.C92_transfer_dkg",
    "Verif.C92_adaptive_soundness",
    "Verif.C92_chosen_ciphertexts",
    "Verif.C92_nu_handed_out"
   ],
   "note": "C92_more_candidates, C92_ends_iff, C92_unlucky_count: the loop; C92_transfer, C92_transfer_srs, C92_transfer_dkg: any predicate of the outcome; C92_adaptive_soundness, C92_chosen_ciphertexts, C92_nu_handed_out: C74, C88 and C91 for every candidate limit."
  },
  {
   "property": "C93",
   "status": "proved",
   "theorems": [
    "Verif.C93_common_opening",
    "Verif.C93_opened_chunks",
    "Verif.C93_same_message",
    "Verif.C93_reused_blinding_links",
    "Verif.C93_binding",
    "Verif.C93_adaptive",
    "Verif.C93_honest"
   ],
   "note": "C93_common_opening: completeness; C93_opened_chunks, C93_same_message: algebra; C93_binding, C93_adaptive: adaptive adversaries; C93_honest: the hypotheses are met; C93_reused_blinding_links: the caveat of src/commitment.rs:36-39."
  },
  {
   "property": "C94",
   "status": "proved",
   "theorems": [
    "Verif.C94_verified_requests",
    "Verif.C94_no_abort",
    "Verif.C94_refusal_needed",
    "Verif.C94_verification_needed"
   ],
   "note": "C94_verified_requests: the bound; C94_no_abort: the games are not trivial; C94_refusal_needed, C94_verification_needed: neither half of the rule can be dropped. Compare C89 (one request for an unverified ciphertext opens any ciphertext)."
  },
  {
   "property": "C95",
   "status": "proved",
   "theorems": [
    "Verif.C95_correctness_error",
    "Verif.C95_bls_parameters",
    "Verif.C95_bls_correctness",
    "Verif.C95_bls_soundness",
    "Verif.C95_bls_secrecy",
    "Verif.C95_instance"
   ],
   "note": "Correctness error for every engine; parameters, correctness, adaptive soundness and chosen-ciphertext secrecy in numbers on BLS12-381."
  },
  {
   "property": "C96",
   "status": "proved",
   "theorems": [
    "Verif.C96_aggregation_error",
    "Verif.C96_bls_aggregation"
   ],
   "note": "C56 turned into a probability statement over the SRS draws; BLS12-381 in numbers."
  },
  {
   "property": "C97",
   "status": "proved",
   "theorems": [
    "Verif.C97_bls_coalition_secrecy",
    "Verif.C97_bls_coalition_soundness",
    "Verif.C97_bls_range",
    "Verif.C97_bls_non_malleable",
    "Verif.C97_bls_reencryption",
    "Verif.C97_bls_no_abort"
   ],
   "note": "C67, C75, C76, C90 and C94 with the parameters of C95; setup with one candidate for the evaluation point, as there."
  },
  {
   "property": "C98",
   "status": "proved",
   "theorems": [
    "Verif.C98_says",
    "Verif.C98_says_rerandomised",
    "Verif.C98_plaintext",
    "Verif.C98_plaintext_bound",
    "Verif.C98_bls"
   ],
   "note": "C90 composed with C27 and C55; setup with one candidate for the evaluation point."
  },
  {
   "property": "C99",
   "status": "proved",
   "theorems": [
    "Verif.C99_transfer",
    "Verif.C99_coalition_soundness",
    "Verif.C99_non_malleable",
    "Verif.C99_plaintext",
    "Verif.C99_verified_requests",
    "Verif.C99_range",
    "Verif.C99_bls_plaintext",
    "Verif.C99_bls_reencryption"
   ],
   "note": "C75, C76, C90, C94 and C98 without their restriction to one candidate."
  },
  {
   "property": "C100",
   "status": "proved",
   "theorems": [
    "Verif.C100_says",
    "Verif.C100_sums_one_candidate",
    "Verif.C100_proofs_needed",
    "Verif.C100_sums",
    "Verif.C100_batch",
    "Verif.C100_bls_sums",
    "Verif.C100_bls_batch"
   ],
   "note": "C90 for each submission, together with C25, C27, C34 and C99."
  },
  {
   "property": "C101",
   "status": "proved",
   "theorems": [
    "Verif.C101_sums_reveal_sums",
    "Verif.C101_honest_sums_given",
    "Verif.C101_no_abort",
    "Verif.C101_care_needed",
    "Verif.C101_copies_break_secrecy",
    "Verif.C101_any_candidates",
    "Verif.C101_bls"
   ],
   "note": "Extends C94 (single ciphertexts, all refused copies) to sums, where the reply depends on the sum only."
  },
  {
   "property": "C102",
   "status": "proved",
   "theorems": [
    "Verif.C102_fkeygenDest",
    "Verif.C102_fkeygenPartial",
    "Verif.C102_keygen",
    "Verif.C102_encryptDecomposed",
    "Verif.C102_encrypt",
    "Verif.C102_encryptGivenSnarkVk",
    "Verif.C102_reEncryptShare",
    "Verif.C102_createProof",
    "Verif.C102_encryptWithProof",
    "Verif.C102_generateSrs",
    "Verif.C102_setupForGroth16",
    "Verif.C102_randomness_opens",
    "Verif.C102_reuse_opens",
    "Verif.C102_equal_seeds"
   ],
   "note": "C102_keygen ... C102_setupForGroth16: the scalars each operation reads, for every generator (ReadsScalars exact, ReadsBetween where the number depends on rejected candidates). C102_randomness_opens, C102_reuse_opens, C102_equal_seeds: what the used scalar, a reused scalar and equal seeds disclose. Concrete Goldilocks runs beside the theorems."
  },
  {
   "property": "C103",
   "status": "proved",
   "theorems": [
    "Verif.C103_any_key",
    "Verif.C103_same_distribution",
    "Verif.C103_two_checks",
    "Verif.C103_selective_failure",
    "Verif.C103_message_bit"
   ],
   "note": "Any proving key as a hypothesis-free structure; the prover's three points as affine functions of the two scalars, the verification equation linear in the first scalar and independent of the second; uniqueness of the scalars from the generating delta elements; for the attack the position of the bit in the witness (generateConstraints_eq), the effect of the altered element on C, C46_chunk_level for the honest part, nondegeneracy of the pairing; bits of the big-endian decomposition."
  },
  {
   "property": "C104",
   "status": "proved",
   "theorems": [
    "Verif.C104_oversized_chunk"
   ],
   "note": "The prover's own computation (witness map, quotient without its last coefficient) on any assignment; the difference of the two sides of the verification equation is the value of the polynomial AB - C - ZH at the evaluation point; that polynomial is nonzero because it does not vanish at the power of omega of the violated row, and has degree at most 2 (size - 1); C45_api carries the Groth16 equation to verify_proof."
  },
  {
   "property": "C105",
   "status": "proved",
   "theorems": [
    "Verif.C105_aborts_iff",
    "Verif.C105_any_delivery",
    "Verif.C105_faultless",
    "Verif.C105_faults_noticed"
   ],
   "note": "Closed forms of the partial keys, combinations and shares; the sum of the shares as the P_1 of the combined key plus a gap; nondegeneracy for the commitment check; counting: the gap is linear in t_0 of a party whose share is missing or repeated, and otherwise linear in t_1 of a sender with a wrong view, with a coefficient that is itself linear in s_0 of a party missing from (or repeated in) that view. For the counting part no party's partial key is combined twice and the list lengths are below p."
  },
  {
   "property": "C106",
   "status": "proved",
   "theorems": [
    "Verif.C106_any_delivery",
    "Verif.C106_fault_kinds",
    "Verif.C106_faultless",
    "Verif.C106_faults_noticed",
    "Verif.C106_wrong_destination"
   ],
   "note": "Closed forms of the shares and their sums; exact cases of the discrete-logarithm search (C36); the gap as a linear combination of the parties' s_i with coefficients r - (sum of r' over the party's shares), and counting: n independent coordinates of one party's secret each confined to searchBound+1 values. What C29 says about a missing share in a single run is a special case."
  },
  {
   "property": "C107",
   "status": "proved",
   "theorems": [
    "Verif.C107_every_history",
    "Verif.C107_agreement",
    "Verif.C107_durable",
    "Verif.C107_no_deadlock"
   ],
   "note": "A transition system over the modelled functions and derived encodings; an inductive invariant ties storage, memory and published bytes to one choice of randomness per party (torn writes are unreadable by C52); progress in three phases. The storage discipline is the application's, not the crate's; the example in Props/Restart.lean shows (by C105) what happens to a party that publishes before storing."
  },
  {
   "property": "C108",
   "status": "proved",
   "theorems": [
    "Verif.C108_every_history",
    "Verif.C108_agreement",
    "Verif.C108_no_deadlock"
   ],
   "note": "A transition system over the modelled functions and canonical encodings; an inductive invariant says that storage and published tally are the encryption of the sum of one cast vote per counted user and that every share is a share of the published tally (torn writes are unreadable); progress in three phases. The storage discipline and the list of counted users are the application's, not the crate's."
  },
  {
   "property": "C109",
   "status": "proved",
   "theorems": [
    "Verif.C109_every_history",
    "Verif.C109_sums",
    "Verif.C109_agreement",
    "Verif.C109_no_deadlock",
    "Verif.C109_length_check_needed"
   ],
   "note": "The transition system of C108 with a step for dishonest users and a check before counting; the invariant ties storage, tally and shares to ciphertexts that were on the board. Whether a dishonest user's ciphertext carries numbers in range is not decided by this check (that takes the SNARK, C61)."
  },
  {
   "property": "C110",
   "status": "proved",
   "theorems": [
    "Verif.C110_every_history",
    "Verif.C110_sums",
    "Verif.C110_agreement",
    "Verif.C110_no_deadlock"
   ],
   "note": "The product of the transition systems of C107 and C109, in which the key of the poll is read off the key holders' state at every step; the invariant says that this key never changes once it can be computed (C107), so that every history is a run of key generation and a run of the poll with one key."
  },
  {
   "property": "C111",
   "status": "proved",
   "theorems": [
    "Verif.C111_same_result",
    "Verif.C111_exact_work",
    "Verif.C111_bound",
    "Verif.C111_work_discloses",
    "Verif.C111_work_discloses_after_reencryption"
   ],
   "note": "Counting versions of the search and decryption functions (Model/Work), proved to return the same results on all inputs; the counter counts runs of loop bodies (group additions / comparisons), not seconds. Pairings and scalar multiplications outside the loops are not counted."
  },
  {
   "property": "C112",
   "status": "proved",
   "theorems": [
    "Verif.C112_accepted",
    "Verif.C112_shift",
    "Verif.C112_denied",
    "Verif.C112_one_user_decides"
   ],
   "note": "A negative property: the commitment check shows that a ciphertext is well formed, not that it encrypts small or nonnegative numbers; C56, C61 and C100 are the counterparts with proofs. Built on C109."
  },
  {
   "property": "C113",
   "status": "proved",
   "theorems": [
    "Verif.C113_keygen_finishes",
    "Verif.C113_keygen_finishes_if_crashes_stop",
    "Verif.C113_keygen_fair_history",
    "Verif.C113_strong_fairness_needed",
    "Verif.C113_poll_finishes",
    "Verif.C113_poll_finishes_if_crashes_stop",
    "Verif.C113_poll_counts",
    "Verif.C113_poll_fair_history",
    "Verif.C113_whole_finishes",
    "Verif.C113_whole_fair_history"
   ],
   "note": "Liveness counterparts of the safety properties C107, C109 and C110. The actions to which fairness applies are stated by their effect (SpecLive). A deliberate assumption: channels deliver (the board is shared)."
  },
  {
   "property": "C114",
   "status": "proved",
   "theorems": [
    "Verif.C114_every_history",
    "Verif.C114_agreement",
    "Verif.C114_no_deadlock",
    "Verif.C114_sums",
    "Verif.C114_bls_sums"
   ],
   "note": "C109 with proofs, and its composition with the knowledge soundness of C100. The adversary is algebraic and its submissions depend on everything published and all honest submissions; dishonest users may also replay honest submissions. What they post after the tally is published is not counted."
  },
  {
   "property": "C115",
   "status": "proved",
   "theorems": [
    "Verif.C115_finishes",
    "Verif.C115_finishes_if_crashes_stop",
    "Verif.C115_counts",
    "Verif.C115_fair_history"
   ],
   "note": "C113 for the poll with proofs of C114. What the outcome is, is said by C114."
  },
  {
   "property": "C116",
   "status": "proved",
   "theorems": [
    "Verif.C116_every_history",
    "Verif.C116_sums",
    "Verif.C116_agreement",
    "Verif.C116_no_deadlock",
    "Verif.C116_finishes",
    "Verif.C116_fair_history"
   ],
   "note": "C110 and the whole-system part of C113 for the poll with proofs of C114. That what dishonest users prove is in range is in C114 (a count of draws)."
  },
  {
   "property": "C117",
   "status": "proved",
   "theorems": [
    "Verif.C117_accepted",
    "Verif.C117_counted_again",
    "Verif.C117_attack"
   ],
   "note": "A limitation: nothing in the crate binds a ciphertext or proof to who submits it. C77 applied to the polls of C114; C114_sums allows exactly this kind of contribution of the adversary (an honest user whose message it contains). The overflow conditions are those of C114_sums."
  },
  {
   "property": "C118",
   "status": "proved",
   "theorems": [
    "Verif.C118_join",
    "Verif.C118_any_order",
    "Verif.C118_join_finishes",
    "Verif.C118_features",
    "Verif.C118_multi_pairing"
   ],
   "note": "Simplifications: the expressions have values in one type and no effects on each other. rayon::join is modelled by its documentation (both closures are always run; a panic is propagated, the first one's if both panic)."
  },
  {
   "property": "C119",
   "status": "proved",
   "theorems": [
    "Verif.C119_encrypt_decrypt",
    "Verif.C119_encrypt_decrypt_distributed",
    "Verif.C119_keygen_works",
    "Verif.C119_keygen_dist",
    "Verif.C119_commitment_key_creation",
    "Verif.C119_setup_works",
    "Verif.C119_snark",
    "Verif.C119_distributed",
    "Verif.C119_addition",
    "Verif.C119_distributed_sixteen",
    "Verif.C119_addition_sixteen",
    "Verif.C119_gens"
   ],
   "note": "Not modelled: encrypt_decrypt_timing (commented out), output and timing; join and unnest_tuple (macros) are in C118. The random number generator is any state machine that also draws 32-bit integers. The number of chunks must fit in 8 bits. For gens: if the hash searches end."
  },
  {
   "property": "C120",
   "status": "proved",
   "theorems": [
    "Verif.C120_snark_tests",
    "Verif.C120_sixteen_tests",
    "Verif.C120_setup_test",
    "Verif.C120_encryption_tests",
    "Verif.C120_bls"
   ],
   "note": "Scalars are counted as independent draws; points and 32-bit messages come from a separate source that does not influence them. The tests keygen_works, keygen_dist and commitment_key_creation never fail (C119)."
  },
  {
   "property": "C121",
   "status": "proved",
   "theorems": [
    "Verif.C121_every_history",
    "Verif.C121_agreement",
    "Verif.C121_no_deadlock",
    "Verif.C121_finishes",
    "Verif.C121_fair_history",
    "Verif.C121_replays_counted",
    "Verif.C121_replay_discloses"
   ],
   "note": "The polls are those of C116. The crate has no notion of a poll or a session: the only inputs of encryption and verification are the key, the parameters and the message."
  },
  {
   "property": "C122",
   "status": "proved",
   "theorems": [
    "Verif.C122_same_result",
    "Verif.C122_one",
    "Verif.C122_batch",
    "Verif.C122_batch_saves",
    "Verif.C122_decrypt",
    "Verif.C122_table",
    "Verif.C122_proof",
    "Verif.C122_discloses"
   ],
   "note": "Pairs are counted as they are passed to the pairing; that arkworks leaves out points at infinity is not modelled."
  },
  {
   "property": "C123",
   "status": "proved",
   "theorems": [
    "Verif.C123_safe",
    "Verif.C123_agreement",
    "Verif.C123_can_end_iff",
    "Verif.C123_early_no_deadlock",
    "Verif.C123_carelessness"
   ],
   "note": "The crate does not store anything itself; storage holds the derived canonical encodings, as in C107. A loss is any change after which nothing readable is left. A readable but wrong storage (silent corruption) is excluded."
  },
  {
   "property": "C124",
   "status": "proved",
   "theorems": [
    "Verif.C124_same",
    "Verif.C124_keygen_memory",
    "Verif.C124_parties_memory",
    "Verif.C124_forgery_memory",
    "Verif.C124_encrypt_memory",
    "Verif.C124_decrypt_memory",
    "Verif.C124_reencrypted_memory",
    "Verif.C124_reencrypted_chunks"
   ],
   "note": "A lower bound: recorded are the buffers of the crate's own vectors that depend on secrets, with the contents they have when dropped. Stack copies, registers and the dependencies' buffers are not modelled, nor whether the allocator overwrites freed memory later."
  },
  {
   "property": "C125",
   "status": "proved",
   "theorems": [
    "Verif.C125_keygen_bounded",
    "Verif.C125_keygen_complete",
    "Verif.C125_keygen_exactly",
    "Verif.C125_keygen_any_order",
    "Verif.C125_poll_bounded",
    "Verif.C125_poll_complete",
    "Verif.C125_poll_everybody",
    "Verif.C125_poll_any_order"
   ],
   "note": "The transition systems of C107 and C108. A published re-encryption share counts as replaced (lost) if it is published again with other randomness; the poll may be closed before everybody is counted, so the published tally need not contain everybody."
  }
 ]
}