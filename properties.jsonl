{"id": "C01", "title": "decompose/compose round trip", "statement": "For every prime scalar field, every field element m and every supported chunk size (4, 8, 16 bits), compose(decompose(m, b), b) returns Ok(m).", "quantifier": "all primes and limb counts, all field elements, all three supported chunk sizes", "why_tests_cant": "A field has about 2^255 elements; a test samples a handful of them, on one curve.", "anchors": ["src/utils.rs:decompose", "src/utils.rs:compose"]}
{"id": "C02", "title": "decompose yields an in-range big-endian positional representation", "statement": "decompose(m, b) succeeds for b in {4,8,16}, always yields exactly (64*limbs)/b chunks, each chunk is < 2^b, and the base-2^b big-endian value of the chunk list is the canonical integer representative of m; consequently two different field elements never share a decomposition.", "quantifier": "all fields, all field elements, all supported chunk sizes", "why_tests_cant": "Universally quantified over the field; injectivity ranges over pairs of elements.", "anchors": ["src/utils.rs:decompose"]}
{"id": "C03", "title": "unsupported chunk sizes are rejected, never mis-encoded", "statement": "For every chunk size other than 4, 8, 16, decompose and compose return Err(UnexpectedBase(b)) on every input, and so do the message-level encrypt and the chunked-commitment constructor (when they get that far); the only other error of compose is InvalidDecomposition, returned exactly for an odd number of 4-bit chunks.", "quantifier": "all u8 chunk sizes, all inputs", "why_tests_cant": "Requires all 253 other sizes with all messages / chunk vectors.", "anchors": ["src/utils.rs:decompose", "src/utils.rs:compose", "src/encryption.rs:Encryption::encrypt", "src/commitment.rs:ChunkedCommitment::new"]}
{"id": "C04", "title": "chunks_count is the least number of chunks covering the field", "statement": "For every field and chunk size b>0 with ceil(bits/b) <= 255, chunks_count is the least n with n*b >= bit length of the modulus; b = 0 aborts (division by zero); when ceil(bits/b) > 255 the u8 conversion silently truncates and the result no longer covers the field.", "quantifier": "all moduli, all chunk sizes", "why_tests_cant": "Ranges over all moduli; the truncation case needs a field outside the tests.", "anchors": ["src/utils.rs:chunks_count"]}
{"id": "C05", "title": "when do decomposition length and key length agree", "statement": "For a freshly generated key (centralised or distributed) with chunk size 4, 8 or 16, message-level encryption gets past the length check exactly when (64*limbs)/b = chunks_count(b); this holds for the BLS12-381 scalar field at all three sizes, and fails for every field whose modulus leaves at least b leading zero bits in its limbs, in which case encrypt returns Err(IncompatibleEncryptionKey) for every message.", "quantifier": "all fields, all messages, all keys, all randomness", "why_tests_cant": "Tests use one curve only; the failure is for a whole class of fields and every message.", "anchors": ["src/utils.rs:chunks_count", "src/utils.rs:decompose", "src/encryption.rs:Encryption::encrypt"]}
{"id": "C06", "title": "compose is the positional value on in-range chunks and only there", "statement": "On every list of chunks each < 2^b (even length for b=4), compose returns the base-2^b value of the list reduced modulo the field order, and is a homomorphism for chunk-wise addition as long as the sums stay < 2^b; with out-of-range chunks carries out of a byte are silently dropped, so chunk-wise sums that overflow compose to a wrong value.", "quantifier": "all chunk lists of any length, all fields", "why_tests_cant": "Quantifies over all chunk vectors.", "anchors": ["src/utils.rs:compose"]}
{"id": "C07", "title": "keygen succeeds exactly when enough generators are supplied, and its keys validate", "statement": "keygen and FkeygenPartial return Ok iff g_i has at least chunks_count(b) elements, otherwise Err(VectorShorterThanExpected(g_i.len(), n)); on success X and Y have n, Z has n+1, V_1 and V_2 have n elements, validate() is Ok, supported_chunks_count() is Ok(n) and commitment_key() is Y followed by P_1.", "quantifier": "all fields, chunk sizes, generator vectors, randomness", "why_tests_cant": "Ranges over randomness and all sizes, tests check b=4 with one seed.", "anchors": ["src/keygen.rs:keygen", "src/keygen.rs:FkeygenPartial", "src/keygen.rs:supported_chunks_count", "src/keygen.rs:validate", "src/keygen.rs:commitment_key"]}
{"id": "C08", "title": "keygen output satisfies the public pairing equations of SAVER", "statement": "For every output of keygen: e(Y_i,H)=e(g_i,Z_{i+1}); e(P_1,H)=e(X_0,Z_0)+sum e(X_i,Z_{i+1}); e(X_i,V_2[i]) = rho * e(X_0,V_1[i]); V_0 = rho*H; and P_2 is to gamma_g as X_0+sum X_i is to X_0, i.e. e-equations that let a third party audit the key hold.", "quantifier": "all randomness, all setup parameters, all chunk counts", "why_tests_cant": "Equations must hold for all secrets; a test instantiates one seed.", "anchors": ["src/keygen.rs:keygen"]}
{"id": "C09", "title": "distributed key generation equals centralised key generation on the summed secrets", "statement": "For any number N>=1 of honest parties running FkeygenPartial, combineEKs, genP1share, combineP1share and keygenFinal with the same public parameters, the final encryption key equals, component by component, the encryption key that keygen outputs when its secrets are the sums of the parties' s and t vectors.", "quantifier": "all N>=1, all parties' randomness, all parameters", "why_tests_cant": "N and the randomness are unbounded; tests run N=2 with one seed and never compare with keygen.", "anchors": ["src/keygen.rs:FkeygenPartial", "src/keygen.rs:combineEKs", "src/keygen.rs:genP1share", "src/keygen.rs:combineP1share", "src/keygen.rs:keygenFinal", "src/keygen.rs:keygen"]}
{"id": "C10", "title": "distributed keygen does not depend on party order", "statement": "Permuting the parties (their partial keys and their P_1 shares, independently) does not change the combined partial key, the combined P_1 or the final key, provided all parties agree on X_0.", "quantifier": "all permutations of any number of honest or dishonest partial keys of equal shape", "why_tests_cant": "N! orders for unbounded N.", "anchors": ["src/keygen.rs:combineEKs", "src/keygen.rs:combineP1share"]}
{"id": "C11", "title": "key and share combination: abort and truncation behaviour", "statement": "combineEKs aborts exactly when the list is empty or some later key has a shorter X, Y or Z than the first; otherwise it returns a key with the shape of the first key and ignores extra elements of later keys; combineP1share aborts exactly on the empty list; genP1share aborts exactly when t is not longer than X.", "quantifier": "all lists of partial keys of all shapes", "why_tests_cant": "Shapes and list lengths are unbounded.", "anchors": ["src/keygen.rs:combineEKs", "src/keygen.rs:combineP1share", "src/keygen.rs:genP1share"]}
{"id": "C12", "title": "additive sharing: any N-1 parties' secrets are consistent with every joint secret", "statement": "For every set of N-1 parties' secrets, every candidate joint secret (s,t) has exactly one choice of the remaining party's secret that makes the joint key equal to the key of that candidate; so N-1 parties' secrets alone do not determine the joint secret.", "quantifier": "all N, all secrets", "why_tests_cant": "It is a statement about all values of a hidden secret.", "anchors": ["src/keygen.rs:FkeygenPartial", "src/keygen.rs:combineEKs"]}
{"id": "C13", "title": "combineEKs gives no protection against a rogue key", "statement": "For every list of honest partial keys and every target combined key of the same shape there is a partial key which, submitted last, makes combineEKs return exactly the target (combineEKs performs no proof of possession), so correctness claims for the joint key hold for honest submissions only.", "quantifier": "all honest keys, all targets", "why_tests_cant": "Existential witness for each of unboundedly many targets.", "anchors": ["src/keygen.rs:combineEKs"]}
{"id": "C14", "title": "encryption succeeds exactly on matching shapes and produces the SAVER ciphertext", "statement": "encrypt_decomposed_message returns Ok iff the key is well-formed, the number of chunks equals the supported count and enough g_i are given (for keys with fewer than 256 chunks), and then X_r = r*X_0, c_i = r*X_i + m_i*g_i, psi = sum m_i*Y_i + r*P_1; every other case is the documented error value; encrypt splits the vector into X_r, enc_chunks and commitment without losing or reordering any element.", "quantifier": "all keys, chunk vectors, generators, randomness", "why_tests_cant": "Universal over all inputs incl. malformed keys.", "anchors": ["src/encryption.rs:Encryption::encrypt_decomposed_message", "src/encryption.rs:Encryption::encrypt", "src/encryption.rs:Encryption::encrypt_given_snark_vk"]}
{"id": "C15", "title": "honest ciphertexts pass the commitment check", "statement": "For a key from keygen or from the N-party distributed key generation, every ciphertext produced by encrypt/encrypt_decomposed_message (any message chunks, any randomness) is accepted by verify_commitment / verify_ciphertext_commitment.", "quantifier": "all messages, randomness, N, keys", "why_tests_cant": "Unbounded message space and randomness.", "anchors": ["src/encryption.rs:Encryption::verify_ciphertext_commitment", "src/encryption.rs:Ciphertext::verify_commitment"]}
{"id": "C16", "title": "commitment check: exact acceptance criterion and tamper detection", "statement": "For a key with Z_i = t_i*H (H nonzero), verify_ciphertext_commitment accepts an arbitrary (possibly adversarial) ciphertext iff its length matches and commitment = t_0*c_0 + sum t_{i+1}*c_i; hence for given chunks exactly one commitment is accepted, and changing a single component of an accepted ciphertext (with nonzero t) makes it rejected with InvalidCommitment; wrong lengths give IncompatibleEncryptionKey.", "quantifier": "all ciphertexts, all keys", "why_tests_cant": "Adversarial ciphertexts cannot be enumerated.", "anchors": ["src/encryption.rs:Encryption::verify_ciphertext_commitment"]}
{"id": "C17", "title": "decryption inverts encryption (chunk level)", "statement": "With keys from keygen and nondegenerate secrets (rho, v_i nonzero), decrypt_to_chunks of an encryption of any chunk vector with every chunk <= 2^b-1 (1<=b<=16) returns exactly that vector, for every randomness.", "quantifier": "all chunk vectors, randomness, keys", "why_tests_cant": "Unbounded message space, key space, randomness.", "anchors": ["src/encryption.rs:Encryption::decrypt_to_chunks", "src/encryption.rs:Encryption::encrypt_decomposed_message"]}
{"id": "C18", "title": "decryption inverts encryption (message level)", "statement": "When the decomposition length matches the key (e.g. BLS12-381), decrypt(encrypt(m)) = Ok(m, nu) for every field element m, every supported chunk size, every nondegenerate key and every randomness; likewise through the _given_groth16_vk variants.", "quantifier": "all messages, keys, randomness, supported chunk sizes", "why_tests_cant": "Message space has 2^255 elements.", "anchors": ["src/encryption.rs:Ciphertext::decrypt", "src/encryption.rs:Encryption::decrypt", "src/encryption.rs:decrypt_given_groth16_vk", "src/encryption.rs:encrypt_given_snark_vk"]}
{"id": "C19", "title": "the value nu returned by decryption is rho*X_r", "statement": "Every successful decryption (any ciphertext, any key) returns nu = sk*c_0, so that e(nu,H)=e(c_0,V_0) for keygen keys, and for an honest ciphertext nu = rho*r*X_0.", "quantifier": "all ciphertexts and keys", "why_tests_cant": "Universal over group elements.", "anchors": ["src/encryption.rs:Encryption::decrypt_to_chunks_given_pairing_powers"]}
{"id": "C20", "title": "decryption of arbitrary ciphertexts is sound and complete w.r.t. the pairing equation", "statement": "For every ciphertext, key and 1<=b<=16, decrypt_to_chunks returns Ok(m) only if every m_i <= 2^b-1 is the least value with e(c_i,V_2i)-sk*e(c_0,V_1i) = m_i*e(g_i,V_2i); it returns Err(CouldNotFindDiscreteLog) iff the shapes are right and some position has no such value in range; the shape errors are returned exactly for the mismatching shapes.", "quantifier": "all ciphertexts (including adversarial), all keys", "why_tests_cant": "Adversarial inputs; exact characterisation of all outcomes.", "anchors": ["src/encryption.rs:Encryption::decrypt_to_chunks_given_pairing_powers", "src/encryption.rs:Encryption::solve_discrete_log"]}
{"id": "C21", "title": "precomputed pairing powers do not change decryption results", "statement": "For every ciphertext, decryption key, generator vector and chunk size 1..=16, decrypting with the table returned by pairing_powers for the same dk, g_i, b gives exactly the same Result as decrypting without a table; with b = 0 the two paths differ.", "quantifier": "all ciphertexts, keys, chunk sizes", "why_tests_cant": "Equality of two programs on all inputs, including error cases.", "anchors": ["src/encryption.rs:decrypt_to_chunks_given_pairing_powers", "src/keygen.rs:PreparedDecryptionKey::pairing_powers", "src/encryption.rs:solve_discrete_log_using_pairing_powers"]}
{"id": "C22", "title": "pairing_powers content", "statement": "pairing_powers(b, g_i) for a well-formed key and enough g_i returns n tables, table i has max(1, 2^b-1) entries for b<=16 and entry j (0-based) is (j+1)*e(g_i, V_2[i]); a malformed key gives MalformedDecryptionKey; too few g_i abort.", "quantifier": "all keys, generator vectors, chunk sizes", "why_tests_cant": "Table sizes up to 65535 and arbitrary group elements.", "anchors": ["src/keygen.rs:pairing_powers"]}
{"id": "C23", "title": "malformed pairing-power tables never produce a wrong chunk, but abort instead of returning InvalidPairingPowers", "statement": "For every table, a chunk j returned through the table satisfies table[i][j-1] = the decrypted pairing value; with a table row that is too short the code aborts (index out of bounds) instead of returning InvalidPairingPowers: the inner length check can never fire, and the outer one fires only if an earlier row index was skipped because its chunk is zero.", "quantifier": "all tables, all ciphertexts", "why_tests_cant": "Requires all malformed tables.", "anchors": ["src/encryption.rs:solve_discrete_log_using_pairing_powers"]}
{"id": "C24", "title": "prepared and unprepared keys are interchangeable", "statement": "verify_commitment, batch verification, decrypt and pairing_powers give identical results whether called with a key (or generators) or with its prepared form, for all inputs; supported_chunks_count and validate agree too. Moreover the verdicts of commitment verification, batch verification and verify_commitment_and_proof depend on a prepared key only through its lengths and pairings.", "quantifier": "all keys, prepared keys (also ones not made from a key), generators, ciphertexts", "why_tests_cant": "Program equivalence on all inputs.", "anchors": ["src/keygen.rs:From<EncryptionKey> for PreparedEncryptionKey", "src/keygen.rs:From<DecryptionKey> for PreparedDecryptionKey", "src/setup.rs:From<EncryptionGens> for PreparedEncryptionGens"]}
{"id": "C25", "title": "ciphertext addition is homomorphic", "statement": "add_cts of encryptions of m and m' under one key with randomness r, r' is component by component (including the commitment) the encryption of the chunk-wise sum with randomness r+r'; for any number of ciphertexts folded in any order the result is the encryption of the sum, and it passes the commitment check.", "quantifier": "all messages, randomness, number of ciphertexts, fold orders", "why_tests_cant": "Unbounded number of summands and orders.", "anchors": ["src/encryption.rs:Encryption::add_cts"]}
{"id": "C26", "title": "aggregates decrypt to the chunk-wise sum or fail, never to a wrong value", "statement": "Decrypting a sum of K honest ciphertexts returns the exact chunk-wise integer sum when every sum is at most 2^b-1, and Err(CouldNotFindDiscreteLog) when some chunk sum exceeds it while staying below the group order; at message level decrypt returns the field sum of the messages when no chunk overflows.", "quantifier": "all K, all messages, randomness, keys", "why_tests_cant": "Unbounded K and messages; overflow conditions.", "anchors": ["src/encryption.rs:Encryption::add_cts", "src/encryption.rs:Encryption::decrypt", "src/encryption.rs:decrypt_to_chunks"]}
{"id": "C27", "title": "N-party re-encryption delivers the plaintext to the destination key", "statement": "For any N>=1 parties holding the joint key and any destination key pair from Fkeygen_dest, combining all N re_encrypt_share outputs with combine_re_encrypt_share, applying combine_ct_with_w and decrypting with decrypt_to_chunks_after_re_encryption returns exactly the encrypted chunks (chunks <= min(2^b-1, 65535), b<32), for all randomness.", "quantifier": "all N, messages, randomness", "why_tests_cant": "Tests run N=2 and one seed.", "anchors": ["src/encryption.rs:re_encrypt_share", "src/encryption.rs:combine_re_encrypt_share", "src/encryption.rs:combine_ct_with_w", "src/encryption.rs:decrypt_to_chunks_after_re_encryption", "src/keygen.rs:Fkeygen_dest"]}
{"id": "C28", "title": "end-to-end aggregation pipeline", "statement": "K ciphertexts under an N-party key, aggregated by add_cts, re-encrypted by all N parties and decrypted by the destination yield the exact chunk-wise sum of the K messages whenever the sums are within range, and CouldNotFindDiscreteLog otherwise (sums below the group order).", "quantifier": "all K, N, messages, randomness", "why_tests_cant": "The project's own test checks a single chunk of one run with K=N=2.", "anchors": ["src/tests.rs:encrypt_and_ver_distributed_with_addition", "src/encryption.rs:add_cts", "src/encryption.rs:re_encrypt_share"]}
{"id": "C29", "title": "a missing party's share prevents re-encryption", "statement": "If the shares of a non-empty set of parties are left out, the value recovered at chunk i is shifted by r*(sum of missing s_i)*X_0; hence the destination does not recover the message unless that shift is zero for every chunk.", "quantifier": "all N, all subsets of parties, all randomness", "why_tests_cant": "All subsets of unboundedly many parties.", "anchors": ["src/encryption.rs:re_encrypt_share", "src/encryption.rs:combine_re_encrypt_share"]}
{"id": "C30", "title": "only the matching destination secret decrypts", "statement": "Decrypting a re-encrypted ciphertext with a secret key different from the destination's never returns the original chunks when the combined re-encryption randomness is nonzero (and at least one chunk exists).", "quantifier": "all keys, messages, randomness", "why_tests_cant": "All wrong keys.", "anchors": ["src/encryption.rs:decrypt_to_chunks_after_re_encryption", "src/keygen.rs:Fkeygen_dest"]}
{"id": "C31", "title": "re-encrypted ciphertexts do not hide the plaintext from the public", "statement": "re_encrypt_share reuses one mask for all chunks, so chunk differences of a re-encrypted ciphertext are m_i*g_i - m_j*g_j: without any secret key, anyone who knows one chunk (for example a leading zero) recovers all chunks, and in general obtains a list of at most 2^b candidate plaintexts containing the true one. The README's 'without reveal the underlying plaintext' does not hold.", "quantifier": "all N, messages, keys, randomness", "why_tests_cant": "A confidentiality failure for all inputs is invisible to functional tests.", "anchors": ["src/encryption.rs:re_encrypt_share", "src/encryption.rs:combine_ct_with_w", "README.md"]}
{"id": "C32", "title": "re-encryption share combination is order independent; shape behaviour", "statement": "combine_re_encrypt_share is commutative and associative on shares of equal length, so N shares may be folded in any order; it aborts iff the second share is shorter and silently drops the tail if it is longer; re_encrypt_share aborts iff the secret key has fewer s_i than there are chunks; combine_ct_with_w aborts iff w is shorter than c; add_cts likewise.", "quantifier": "all share vectors, all orders, all lengths", "why_tests_cant": "Orders and lengths unbounded.", "anchors": ["src/encryption.rs:combine_re_encrypt_share", "src/encryption.rs:re_encrypt_share", "src/encryption.rs:combine_ct_with_w", "src/encryption.rs:add_cts"]}
{"id": "C33", "title": "batch commitment verification is complete", "statement": "If every ciphertext of a non-empty batch is accepted individually, the batch is accepted for every vector of multipliers of the right length.", "quantifier": "all batches, all multipliers", "why_tests_cant": "Batch size unbounded.", "anchors": ["src/encryption.rs:verify_commitments_in_batch", "src/encryption.rs:get_g1_for_ciphertext_commitments_in_batch_pairing_checks"]}
{"id": "C34", "title": "batch commitment verification is sound up to k-1 challenges", "statement": "If at least one of k ciphertexts of the right length is individually rejected, then among all field elements r at most k-1 make the batch with multipliers 1,r,...,r^(k-1) accept.", "quantifier": "all batches of any size, all keys", "why_tests_cant": "A probability statement over a field of size 2^255.", "anchors": ["src/encryption.rs:verify_commitments_in_batch"]}
{"id": "C35", "title": "batch verification edge cases", "statement": "verify_commitments_in_batch aborts iff the numbers of multipliers and ciphertexts differ, or (after a well-formed key) the batch is empty; a malformed key or a ciphertext of wrong length gives the corresponding error, the first offending ciphertext determining it.", "quantifier": "all inputs (keys below 256 chunks)", "why_tests_cant": "Exact outcome on all malformed inputs.", "anchors": ["src/encryption.rs:verify_commitments_in_batch"]}
{"id": "C36", "title": "chunk size parameter of re-encrypted decryption", "statement": "decrypt_to_chunks_after_re_encryption searches up to min(2^b-1, 65535) for b<32; for b>=32 it aborts in checked builds and silently searches up to 2^(b mod 32)-1 otherwise; so enlarging b never changes a successful result (b<=16) and sums above 65535 are never recovered.", "quantifier": "all chunk size bytes, all ciphertexts", "why_tests_cant": "256 parameter values x all ciphertexts x build profiles.", "anchors": ["src/encryption.rs:decrypt_to_chunks_after_re_encryption", "src/encryption.rs:solve_discrete_log_for_g"]}
{"id": "C37", "title": "chunked commitment commits to the whole message", "statement": "When decomposition length and chunks_count agree, ChunkedCommitment::new(m, r, b, gens) = m*G + r*H for every m, r and supported b, and get_commitment_given_commitment_key with commitment_key gives the same value.", "quantifier": "all messages, blindings, generators, supported sizes", "why_tests_cant": "2^255 messages.", "anchors": ["src/commitment.rs:ChunkedCommitment::new", "src/commitment.rs:get_commitment_given_commitment_key", "src/commitment.rs:commitment_key"]}
{"id": "C38", "title": "the two commitment-key algorithms agree", "statement": "For every g, chunk count n and b<=30, repeated doubling and field exponentiation both give [radix^(n-1)*g, ..., radix*g, g] with radix=2^b (n>=1), and commitment_key is that list followed by H.", "quantifier": "all group elements, counts, chunk sizes", "why_tests_cant": "Tests check three sizes on one random element.", "anchors": ["src/commitment.rs:commitment_key_for_radix_power_of_2", "src/commitment.rs:commitment_key_for_radix_non_power_of_2", "src/commitment.rs:commitment_key"]}
{"id": "C39", "title": "chunked commitments are additively homomorphic and binding up to a discrete-log relation", "statement": "The sum of commitments to (m,r) and (m',r') is the commitment to (m+m', r+r'); two different openings of one commitment yield the discrete logarithm relation (m-m')G = (r'-r)H, so if no nontrivial relation between G and H is known the opening is unique; for every m there is a blinding giving any commitment value in the span of H (perfect hiding) when G is a multiple of H.", "quantifier": "all messages and blindings", "why_tests_cant": "Quantifies over pairs of openings.", "anchors": ["src/commitment.rs:ChunkedCommitment::new"]}
{"id": "C40", "title": "chunked commitment misalignment on other fields", "statement": "On fields where the decomposition is longer than chunks_count, the commitment silently truncates: the blinding is not used at all, so the commitment is independent of the blinding (not hiding) and H is multiplied by a message chunk.", "quantifier": "all such fields, messages, blindings", "why_tests_cant": "The tested curve is aligned.", "anchors": ["src/commitment.rs:ChunkedCommitment::new", "src/utils.rs:chunks_count"]}
{"id": "C41", "title": "commitment_key radix computation", "statement": "commitment_key computes the radix in a 32-bit signed integer: for b<=30 the radix is 2^b; for b=31 it becomes 2^64-2^31 and the key is wrong; for b>=32 it aborts in checked builds; b=0 aborts.", "quantifier": "all chunk size bytes, both build profiles", "why_tests_cant": "Overflow behaviour is profile dependent.", "anchors": ["src/commitment.rs:commitment_key"]}
{"id": "C42", "title": "bit-size circuit is sound", "statement": "Every assignment satisfying all constraints generated for values v_1..v_k and bit size b (b <= modulus bits) has every v_i < 2^b as canonical integers, although the bit decomposition is non-unique.", "quantifier": "all assignments (malicious witnesses), all k, b, fields", "why_tests_cant": "Malicious witnesses cannot be enumerated.", "anchors": ["src/circuit.rs:BitsizeCheckCircuit::generate_constraints"]}
{"id": "C43", "title": "bit-size circuit is complete", "statement": "If every value is < 2^b, the witness the synthesizer itself computes satisfies every generated constraint; if some value is >= 2^b no witness does.", "quantifier": "all value vectors, all b, fields", "why_tests_cant": "Universal over values.", "anchors": ["src/circuit.rs:BitsizeCheckCircuit::generate_constraints"]}
{"id": "C44", "title": "bit-size circuit shape", "statement": "The circuit structure depends only on the number of values and b: k+1 instance variables (values first, in order), and k*(2*bits-b+1) constraints when b<bits (7920 for BLS12-381 with 16-bit chunks); setup and proving modes generate the same constraints; missing values in proving mode give AssignmentMissing; b>bits aborts.", "quantifier": "all k, b, fields, values", "why_tests_cant": "Shape equality must hold for all values.", "anchors": ["src/circuit.rs:BitsizeCheckCircuit::generate_constraints", "src/circuit.rs:BitsizeCheckCircuit::new"]}
{"id": "C45", "title": "SAVER proof verification reduces exactly to Groth16 verification", "statement": "For an honest ciphertext of chunks m under a key from keygen or N-party distributed keygen with the SRS's parameters, verify_proof of a Groth16 proof whose c was shifted by r*P_2 succeeds iff plain Groth16 verification of the unshifted proof with public inputs m succeeds.", "quantifier": "all proofs (honest or not), messages, randomness, SRS trapdoors", "why_tests_cant": "Equivalence over all proofs and trapdoors.", "anchors": ["src/saver_groth16.rs:create_proof", "src/saver_groth16.rs:verify_proof", "src/saver_groth16.rs:calculate_d", "src/saver_groth16.rs:verify_qap_proof"]}
{"id": "C46", "title": "encrypt_with_proof output is accepted", "statement": "With an SRS from generate_srs and keys from setup (centralised or distributed), for every message the output of encrypt_with_proof passes verify_commitment_and_proof.", "quantifier": "all messages, randomness, trapdoors", "why_tests_cant": "Completeness for all messages and randomness.", "anchors": ["src/encryption.rs:encrypt_with_proof", "src/encryption.rs:verify_commitment_and_proof", "src/saver_groth16.rs:generate_srs", "src/saver_groth16.rs:create_proof", "src/saver_groth16.rs:verify_proof"]}
{"id": "C47", "title": "proof verification alone binds only the sum of the ciphertext components", "statement": "verify_proof gives the same answer for any two ciphertexts with equal X_r + sum c_i (any number or order of chunks, any commitment); in particular swapping chunks is not detected by it, while verify_commitment rejects moving a nonzero group element between two chunks with different t.", "quantifier": "all ciphertexts, proofs, keys", "why_tests_cant": "Universal over malleations.", "anchors": ["src/saver_groth16.rs:calculate_d", "src/saver_groth16.rs:verify_proof", "src/encryption.rs:verify_commitment"]}
{"id": "C48", "title": "a valid proof does not transfer to a ciphertext with a different component sum", "statement": "If verify_proof accepts a proof for a ciphertext, it rejects the same proof with PairingCheckFailed for every ciphertext whose component sum differs (gamma, H nonzero); in particular changing a single component is detected.", "quantifier": "all proofs and ciphertext pairs", "why_tests_cant": "Universal over tampered ciphertexts.", "anchors": ["src/saver_groth16.rs:verify_proof"]}
{"id": "C49", "title": "setup_for_groth16 yields mutually consistent parameters", "statement": "When SRS generation succeeds, setup_for_groth16 succeeds, vk has chunks_count+1 input elements, keys validate with supported count chunks_count, and keys are built from the SRS's own delta*G and -gamma*G.", "quantifier": "all chunk sizes, generators, randomness", "why_tests_cant": "All randomness and sizes.", "anchors": ["src/setup.rs:setup_for_groth16", "src/saver_groth16.rs:generate_srs", "src/saver_groth16.rs:get_gs_for_encryption"]}
{"id": "C50", "title": "label-derived generators: deterministic first success, domain separated", "statement": "Hash-to-group returns the point of the first attempt (attempt 0: hash of the bytes; attempt j: hash of bytes||'-attempt-'||le64(j)) on which from_random_bytes succeeds, and returns iff there is one; all digest inputs over attempts are pairwise distinct; for the label API the digest inputs for G and for H, for one label or for different labels, are disjoint as long as fewer than 2^56 attempts are made. The raw byte API has no such separation: when attempt 0 on a string fails, hashing that string and hashing the string with the first attempt suffix give the same point.", "quantifier": "all labels, digests, curves", "why_tests_cant": "All labels and all attempts.", "anchors": ["src/utils.rs:projective_group_elem_from_try_and_incr", "src/utils.rs:field_elem_from_try_and_incr", "src/setup.rs:EncryptionGens::new", "src/setup.rs:ChunkedCommitmentGens::new"]}
{"id": "C51", "title": "window-table multiplication is correct for any size hint", "statement": "WindowTable::new(k, g).multiply(x) = x*g and multiply_many = map, for every hint k, group element and scalar; multiply_field_elems_with_same_group_elem(g, xs)[i] = xs[i]*g.", "quantifier": "all size hints, scalars, group elements", "why_tests_cant": "The doc claims the hint 'does not impact correctness'; unbounded hints.", "anchors": ["src/utils.rs:WindowTable", "src/utils.rs:multiply_field_elems_with_same_group_elem"]}
{"id": "C52", "title": "serialization round-trips for keys and ciphertexts", "statement": "For every ciphertext, encryption key, partial key, decryption key, secret key and generators, deserializing its canonical serialization returns the same value and consumes exactly the written bytes, for vectors of any length below 2^64.", "quantifier": "all values", "why_tests_cant": "Unbounded vector lengths and points.", "anchors": ["src/serde_utils.rs:AsCanonical", "src/encryption.rs:Ciphertext", "src/keygen.rs:EncryptionKey", "src/keygen.rs:DecryptionKey", "src/keygen.rs:FEncryptionKeyPartial", "src/keygen.rs:SecretKeyST", "src/setup.rs:EncryptionGens"]}
{"id": "C53", "title": "deserialization tolerates trailing bytes and ill-shaped keys; shape errors surface at use", "statement": "AsCanonical deserialization of serialize(x)||junk returns x for all junk (encodings are not unique); a serialized key with inconsistent vector lengths deserializes successfully, and encryption, verification and decryption with it return Malformed...Key errors.", "quantifier": "all values, all junk strings", "why_tests_cant": "All byte strings.", "anchors": ["src/serde_utils.rs:AsCanonical::deserialize", "src/keygen.rs:supported_chunks_count"]}
{"id": "C54", "title": "setup, encrypt with proof, verify and decrypt compose", "statement": "For every successful setup_for_groth16 whose input generators and decryption key have no identity component, every message and every randomness: encrypt_with_proof succeeds, its output passes verify_ciphertext_commitment plus Groth16 verification, decrypt_given_groth16_vk returns exactly the message, and the returned nu satisfies e(nu,H)=e(X_r,V_0).", "quantifier": "all messages, all setup and encryption randomness, all supported chunk sizes aligned with the field", "why_tests_cant": "Composition of six APIs over all randomness and messages.", "anchors": ["src/setup.rs:setup_for_groth16", "src/encryption.rs:encrypt_with_proof", "src/encryption.rs:verify_commitment_and_proof", "src/encryption.rs:decrypt_given_groth16_vk"]}
{"id": "C55", "title": "The non-degeneracy that decryption relies on fails only for a few exceptional random draws", "statement": "For every successful SRS generation for the bit-size circuit, the i-th chunk generator equals ((beta*L_j(tau) - L_k(tau))/gamma)*G for explicitly given row indices j, k; a generator is zero only if G is zero or beta is one of at most chunks_count values determined by the domain and tau. For every successful keygen all V_2 components are nonzero iff H, rho and all v_i are nonzero (or there are no chunks). Hence setup_for_groth16 succeeds, and everything encrypted with proof under its keys verifies and decrypts to the message, whenever the random draws avoid these explicit values.", "quantifier": "every engine, FFT configuration, RNG and state, chunk bit size, generator pair, and message", "why_tests_cant": "A run with random draws hits the exceptional values with negligible probability, so testing says nothing about which draws are bad or how many there are.", "anchors": ["src/setup.rs: setup_for_groth16", "src/saver_groth16.rs: generate_srs, get_gs_for_encryption", "src/circuit.rs: BitsizeCheckCircuit::generate_constraints", "src/keygen.rs: keygen"]}
{"id": "C56", "title": "Verified aggregation workflow end to end", "statement": "With an SRS for 4- or 8-bit chunks with nonzero generators, keys from distributed key generation by any number of parties and any destination key: every encryptor of a chunk vector of the right length succeeds and can prove its ciphertext so that the commitment and proof checks pass; the aggregate of up to 2^b+1 ciphertexts passes the commitment check; all key holders together, in any order, re-encrypt it for the destination; and the destination, decrypting with chunk size 2*b, obtains exactly the chunk-wise sums.", "quantifier": "all curves/fields with order above 65535, all SRSs, numbers of parties and encryptors (up to 2^b+1), all in-range chunk vectors, all randomness of everyone, all orders of the parties, checked and unchecked builds", "why_tests_cant": "the integration test runs one configuration with fixed sizes and random messages; the bound on the number of encryptors and the independence of order and randomness need a proof", "anchors": ["src/tests.rs", "src/encryption.rs: encrypt_decomposed_message, aggregate, re_encrypt_share, decrypt_after_reencryption, verify_commitment_and_proof", "src/keygen.rs: combine_*"]}
{"id": "C57", "title": "Encryption is injective", "statement": "With nonzero X_0 and generators, two successful encryptions under the same key that agree in X_r and the encrypted chunks are of the same message, with the same randomness, and have the same commitment.", "quantifier": "all scalar fields of order above 65535 (so that chunks embed), all keys with nonzero X_0, all nonzero generators, all pairs of messages, random number generators and states", "why_tests_cant": "a collision between two different messages cannot be excluded by sampling", "anchors": ["src/encryption.rs: encrypt, encrypt_decomposed_message"]}
{"id": "C58", "title": "Proofs are perfectly zero-knowledge", "statement": "The proof create_proof returns for an honest ciphertext is the proof a simulator makes from the SRS trapdoors and the ciphertext alone, evaluated at a point that is a bijective function of the prover's two random draws; so its distribution depends on nothing but the ciphertext. Conversely the proofs verify_proof accepts for a ciphertext are exactly the simulated ones.", "quantifier": "all SRSs, keys, in-range chunk vectors, encryption randomness, prover randomness, both build modes", "why_tests_cant": "a statement about the distribution of outputs over all prover randomness", "anchors": ["src/saver_groth16.rs: create_proof, verify_proof", "src/encryption.rs: encrypt_with_proof"]}
{"id": "C59", "title": "Combined verification is exact", "statement": "verify_commitment_and_proof accepts exactly if the ciphertext has as many chunks as the key, the commitment equation holds and the Groth16 pairing equation holds for X_r plus the sum of the chunks; otherwise it reports the first of: wrong chunk count, invalid commitment, failed pairing check.", "quantifier": "all well-formed encryption keys with fewer than 256 chunks, all verifying keys, proofs and ciphertexts", "why_tests_cant": "exactness and the order of errors range over all ciphertexts, proofs and keys", "anchors": ["src/encryption.rs: Ciphertext::verify_commitment_and_proof, verify_commitment", "src/saver_groth16.rs: verify_proof, calculate_d"]}
{"id": "C60", "title": "Range proofs are sound against algebraic provers", "statement": "A prover that knows all secrets of the key pair and chooses a ciphertext of the SAVER form, with arbitrary field elements in place of chunks, and a proof, all as fixed linear combinations of the published group elements, can be accepted by verify_proof for all draws of generate_srs only if every element is below 2^b. In-range elements are provable.", "quantifier": "all prover strategies, all field elements m_i and randomness r, all key-generation randomness, all chunk sizes and fields with 3*domain size < p", "why_tests_cant": "soundness quantifies over all adversaries", "anchors": ["src/saver_groth16.rs: generate_srs, verify_proof", "src/circuit.rs: BitsizeCheckCircuit", "src/keygen.rs: keygen"]}
{"id": "C61", "title": "Accepted ciphertexts are encryptions of in-range chunks", "statement": "If a ciphertext and a proof that an adversary builds by fixed linear combinations of the published elements (SRS, encryption key, decryption key) are accepted by verify_commitment_and_proof for all draws of the setup, then the ciphertext is the output of encrypt_decomposed_message for chunks below 2^b and randomness determined by the adversary's coefficients, in every setup run, and decrypts to these chunks. Conversely every in-range encryption is accepted.", "quantifier": "all algebraic adversaries, all setups, all chunk sizes up to 16 and fields with 3*domain size < p", "why_tests_cant": "knowledge soundness quantifies over all adversaries", "anchors": ["src/encryption.rs: verify_commitment_and_proof, encrypt_decomposed_message, decrypt_to_chunks", "src/setup.rs: setup_for_groth16", "src/saver_groth16.rs: verify_proof"]}
{"id": "C62", "title": "Knowledge error of the combined verification", "statement": "An algebraic adversary is accepted by verify_commitment_and_proof either after every successful setup or on at most a (3*domain size + 5)/p fraction of the setup's random draws; if on more, its ciphertext is the encryption of in-range chunks determined by its coefficients in every setup. Honest encryptors are accepted on all but a (domain size + 2)/p fraction (the draws on which the setup does not succeed at the first evaluation point).", "quantifier": "all algebraic adversaries, all chunk sizes, fields, FFT configurations and nonzero generators", "why_tests_cant": "a probability bound over all draws of the setup and all adversaries", "anchors": ["src/setup.rs: setup_for_groth16", "src/encryption.rs: verify_commitment_and_proof", "src/saver_groth16.rs: generate_srs, verify_proof"]}
{"id": "C63", "title": "Soundness error of the range check", "statement": "A prover that knows all key secrets and encrypts fixed field elements, one of which is 2^b or more, is accepted by verify_proof on at most a (3*domain size + 5)/p fraction of the draws of generate_srs, whatever linear combinations of the published elements it uses as a proof.", "quantifier": "all prover strategies, field elements, key-generation randomness, chunk sizes, fields", "why_tests_cant": "a probability bound over all SRS draws and all provers", "anchors": ["src/saver_groth16.rs: generate_srs, verify_proof", "src/circuit.rs: BitsizeCheckCircuit"]}
{"id": "C64", "title": "Secrecy of ciphertexts against holders of the public and decryption keys", "statement": "Someone who holds the encryption key and the decryption key but not the secret key, and who adaptively obtains encryptions of one of two equally long chunk vectors of his choice, learns nothing about which one: for a generic-group adversary making Q equality/pairing tests, the numbers of choices of the K random draws (key generation and encryption) on which it says 'right' differ by at most 5 Q p^(K-1) out of p^K between the two games. Games do not abort for messages of the right length.", "quantifier": "all adaptive generic-group adversaries, message pairs, numbers of encryptions, chunk sizes, fields, public points fixed before key generation", "why_tests_cant": "a probability bound over all draws and all adversaries", "anchors": ["src/keygen.rs: keygen", "src/encryption.rs: Encryption::encrypt_decomposed_message"]}
{"id": "C65", "title": "Secrecy of ciphertexts published with their proofs", "statement": "Publishing the Groth16 proof next to the ciphertext does not weaken secrecy, even against whoever generated the SRS: for encrypt_with_proof with any successfully generated SRS, and an adversary as in C64 that also receives the proofs, the numbers of draws on which it says 'right' differ by at most 5 Q p^(K-1) out of p^K between the two games, for any two messages in the field. Games do not abort.", "quantifier": "all SRS and trapdoors, all adaptive generic-group adversaries, messages, chunk sizes 4/8/16 whose chunks fill the limbs, fields, FFT configurations", "why_tests_cant": "a probability bound over all draws and all adversaries", "anchors": ["src/encryption.rs: Encryption::encrypt_with_proof", "src/saver_groth16.rs: create_proof, generate_srs", "src/keygen.rs: keygen"]}
{"id": "C66", "title": "Distributed keys protect messages as long as one party is honest", "statement": "After distributed key generation in which one party keeps its secret and draws it at random, the other parties together (knowing their own secrets, all published partial keys and P_1 shares and the final key) learn nothing about which of two equally long chunk vectors of their choice was encrypted: for a generic-group adversary making Q equality/pairing tests, the numbers of choices of the K honest draws (the honest party's key and the encryption scalars) on which it says 'right' differ by at most 5 Q p^(K-1) out of p^K between the two games. The published transcript belongs to exactly the runs of the protocol, and the games do not abort for messages of the right length.", "quantifier": "all numbers of parties, positions of the honest party, randomness sources of the colluding parties (fixed in advance), adaptive generic-group adversaries, message pairs, chunk sizes, fields", "why_tests_cant": "a probability bound over all draws, all coalitions and all adversaries", "anchors": ["src/keygen.rs: FkeygenPartial, combineEKs, genP1share, combineP1share, FkeygenFinal", "src/encryption.rs: Encryption::encrypt_decomposed_message"]}
{"id": "C67", "title": "Distributed keys protect messages published with proofs as long as one party is honest", "statement": "As C66, when the ciphertexts are published with their Groth16 proofs (encrypt_with_proof), for any successfully generated SRS whose trapdoors the coalition may know: the numbers of honest draws on which the coalition says 'right' differ by at most 5 Q p^(K-1) out of p^K between the games for any two messages in the field. The games do not abort.", "quantifier": "all numbers of parties, positions of the honest party, randomness sources of the colluding parties (fixed in advance), adaptive generic-group adversaries, message pairs, chunk sizes, fields; all SRS and trapdoors, FFT configurations", "why_tests_cant": "a probability bound over all draws, all coalitions and all adversaries", "anchors": ["src/keygen.rs: FkeygenPartial, combineEKs, genP1share, combineP1share, FkeygenFinal", "src/encryption.rs: Encryption::encrypt_with_proof", "src/saver_groth16.rs: create_proof"]}
{"id": "C68", "title": "Distributed key generation does not withstand a party that contributes last and deviates", "statement": "A party that sees the other partial keys before submitting its own can force the final key to have secrets of its choice: the protocol completes, the final key is one honest key generation could have produced, ciphertexts under it pass verify_commitment, and that party alone recovers m_i g_i from every ciphertext as c_i - s_i X_r. With an honest partial key it can still, by its P_1 share alone, make P_1 zero, so that the commitment of every ciphertext is the randomness-free value sum m_i Y_i.", "quantifier": "all numbers of honest parties and all their randomness, all chosen secrets, all messages and encryption randomness, chunk sizes, fields", "why_tests_cant": "an attack strategy that works against every behaviour of the other parties; it delimits the guarantee of C66", "anchors": ["src/keygen.rs: combineEKs, combineP1share, FkeygenFinal", "src/encryption.rs: Encryption::encrypt_decomposed_message"]}
{"id": "C69", "title": "Results do not depend on the thread schedule", "statement": "With the default feature `parallel`, key preparation, FkeygenPartial, keygen, encrypt_decomposed_message and verify_commitments_in_batch return, for every number of threads, every splitting of the work and every interleaving, exactly what the sequential build returns. Every parallel map finishes (no deadlock, no endless schedule), calls its closure exactly once per item, and collects the results in order.", "quantifier": "all schedules (splittings, stealing orders, interleavings), pools, inputs, randomness sources", "why_tests_cant": "thread schedules cannot be enumerated by tests", "anchors": ["Cargo.toml: features parallel", "src/keygen.rs: From<EncryptionKey>, From<DecryptionKey>, FkeygenPartial, keygen (cfg_iter!)", "src/encryption.rs: encrypt_decomposed_message, get_g1_for_ciphertext_commitments_in_batch_pairing_checks (cfg_into_iter!, cfg_iter!)"]}
{"id": "C70", "title": "Every value has one canonical encoding, of predictable size", "statement": "Whatever bytes the canonical deserializer accepts as a secret key, share, partial, encryption, decryption or destination key, ciphertext, generator set, chunked commitment or proving key are exactly the bytes the serializer writes for that value (followed by the unread rest), as long as the points in it have only one encoding; so an encoding cannot be altered without changing the value. The sizes depend only on the number of chunks, e.g. 8 + (n+2) l1 for ciphertexts and 24 + (2n+3) l1 + (n+1) l2 for encryption keys. The byte layout is the declared fields in order, scalars little endian, vectors with an 8-byte little-endian length; in self-describing formats, maps with the declared field names.", "quantifier": "all byte strings, all values, all numbers of chunks, all point encodings", "why_tests_cant": "ranges over all byte strings", "anchors": ["src/keygen.rs: derive(CanonicalSerialize, CanonicalDeserialize) on the key types", "src/encryption.rs: Ciphertext", "src/setup.rs: EncryptionGens", "src/commitment.rs: ChunkedCommitment", "src/saver_groth16.rs: ProvingKey"]}
{"id": "C71", "title": "Knowledge soundness for distributed keys, against all parties but one", "statement": "Parameters are made by generate_srs and the key by distributed key generation among any number of parties, of whom all but one disclose their secrets (they run the protocol with any randomness). Whoever makes a ciphertext and a proof by fixed linear combinations of everything published (parameters, partial keys, P_1 shares, final key) and of these secrets, and has them accepted by verify_commitment_and_proof in every run, has encrypted in-range chunks: the ciphertext is the SAVER encryption of fixed chunks below 2^b under the joint key in every run. If accepted on more than a (3 size + 5)/p fraction of the draws of the setup and the honest party, the same holds. Honest encryptors are of this kind and are accepted on all but a (size + 2)/p fraction.", "quantifier": "all parties and secrets, positions of the honest party, algebraic adversaries, generators, fields, chunk sizes", "why_tests_cant": "ranges over all adversaries and counts all draws", "anchors": ["src/encryption.rs: verify_commitment_and_proof", "src/keygen.rs: FkeygenPartial, combineEKs, combineP1share", "src/saver_groth16.rs: generate_srs, verify_proof"]}
{"id": "C72", "title": "The range proof is sound even against all key holders together", "statement": "With a distributedly generated key whose secrets are all known to the prover, verify_proof accepts a proof for a SAVER-form ciphertext of field elements m_i (made by fixed linear combinations of everything published and of the secrets) in every run only if every m_i is below 2^b; acceptance on more than a (3 size + 5)/p fraction of the draws of generate_srs suffices. For all chunks below 2^b the honest prover is of this kind.", "quantifier": "all sets of parties and secrets, all algebraic provers, all field elements", "why_tests_cant": "ranges over all adversaries and counts all draws", "anchors": ["src/saver_groth16.rs: generate_srs, verify_proof, create_proof", "src/keygen.rs: combineEKs, combineP1share"]}
{"id": "C73", "title": "Ciphertext verification does not bind those who know t", "statement": "If a ciphertext and proof pass verify_commitment_and_proof, all parties of distributed key generation together can move any group element between two chunks, correct the commitment with their secrets and pass with the same proof. A party that contributes last to distributed key generation can, alone and from published values, force the t secrets of its choice (the key remains one honest generation could produce) and do the same. So, end to end, it can publish, from the encryption of every message, ciphertexts that verify_commitment_and_proof accepts and that are not encryptions of any chunks below 2^b.", "quantifier": "all parties, all accepted ciphertexts and proofs, all pairs of chunks, all group elements, all messages", "why_tests_cant": "ranges over all ciphertexts, proofs and secrets of other parties", "anchors": ["src/encryption.rs: verify_commitment_and_proof, verify_commitment", "src/keygen.rs: FkeygenPartial, combineEKs, genP1share, combineP1share", "src/saver_groth16.rs: verify_proof"]}
{"id": "C74", "title": "Adaptive adversaries cannot make verify_commitment_and_proof accept anything but encryptions", "statement": "An adversary that is shown everything published by the setup, asks up to q questions about it (zero tests of linear combinations in each group and of combinations of pairings) and then chooses the coefficients of a ciphertext and a proof, is accepted with a ciphertext that is not a SAVER encryption of chunks below 2^b on at most a (q+1)(3 size+5)/p fraction of the draws of setup. If it is accepted more often than that, there are chunks and randomness fixed before the setup that it encrypts on all but a q(3 size+5)/p fraction of the draws.", "quantifier": "all adaptive adversaries (decision trees of any depth), all generators, all domain configurations; the draws of setup are counted", "why_tests_cant": "ranges over all adversaries and counts all draws", "anchors": ["src/encryption.rs: verify_commitment_and_proof", "src/setup.rs: setup_for_groth16", "src/saver_groth16.rs: generate_srs, verify_proof", "src/keygen.rs: keygen"]}
{"id": "C75", "title": "The same under distributed keys, against adaptive coalitions of all parties but one", "statement": "As C74, for a distributedly generated key of which all secrets but those of one party are arbitrary known constants: the adversary is shown the parameters, all partial keys, all P_1 shares and the final key, and the draws of generate_srs and of the honest party are counted.", "quantifier": "all sets and positions of other parties, all adaptive adversaries", "why_tests_cant": "ranges over all adversaries and counts all draws", "anchors": ["src/encryption.rs: verify_commitment_and_proof", "src/keygen.rs: FkeygenPartial, combineEKs, genP1share, combineP1share", "src/saver_groth16.rs: generate_srs, verify_proof"]}
{"id": "C76", "title": "The range proof resists adaptive provers that know every key secret", "statement": "A prover that knows all key secrets (of a single key generation, or of all parties of a distributed one), asks up to q questions about everything published and then chooses field elements m_i, the randomness of their SAVER ciphertext and a proof, is accepted by verify_proof although some m_i is not below 2^b on at most a (q+1)(3 size+5)/p fraction of the draws of generate_srs.", "quantifier": "all key generations, all sets of parties, all adaptive provers; the draws of generate_srs are counted", "why_tests_cant": "ranges over all adversaries and counts all draws", "anchors": ["src/saver_groth16.rs: generate_srs, verify_proof", "src/keygen.rs: keygen, combineEKs, combineP1share"]}
{"id": "C77", "title": "Anybody can re-randomise an accepted ciphertext together with its proof", "statement": "Using the public keys only, every ciphertext and proof can be shifted by a chosen u (and the proof by chosen z, w): verify_commitment_and_proof gives the same result as before, decryption and re-encryption give the same chunks, the ciphertext becomes the encryption of the same chunks with randomness r+u, and every accepted proof of the new ciphertext can be reached. So neither ciphertexts nor proofs can be recognised by comparing bytes.", "quantifier": "all SRSs of any circuit, all keys (single or distributed), all ciphertexts and proofs (honest or not), all u, z, w with z nonzero", "why_tests_cant": "ranges over all keys, ciphertexts, proofs and shifts", "anchors": ["src/encryption.rs: verify_commitment_and_proof, decrypt_to_chunks, reEncrypt", "src/saver_groth16.rs: verify_proof", "src/keygen.rs: EncryptionKey"]}
{"id": "C78", "title": "Combining combined keys again (groups of parties) gives a key whose proofs are rejected", "statement": "combineEKs is not associative: replacing a group of partial keys by its own combination gives the same X_0, X, Y, Z and one more gamma_g in P_2. Hence distributed key generation in groups yields the secret keys and key of the flat one with P_2 off by one gamma_g per group; with such a key encryption with proof succeeds and commitments are accepted, but verify_proof rejects unless the randomness is 0.", "quantifier": "all lists of partial keys (any lengths), all groupings of parties, all messages and draws", "why_tests_cant": "ranges over all groupings, keys, messages and draws", "anchors": ["src/keygen.rs: combineEKs, genP1share, combineP1share", "src/encryption.rs: encrypt_with_proof, verify_commitment", "src/saver_groth16.rs: create_proof, verify_proof"]}
{"id": "C79", "title": "Re-encryption shares are not authenticated: one contributor changes, the last one decides, what the destination decrypts", "statement": "A contributor at any position that shifts its share by e_i g_i makes the destination decrypt m_i+e_i instead of m_i without any error and with the same first element; and somebody without any secret that contributes last, knowing the other shares, makes the destination decrypt any chunks of its choice.", "quantifier": "all ciphertexts, all sets and orders of contributors, all shifts, all chosen chunks in the search range", "why_tests_cant": "ranges over all ciphertexts, contributors and choices", "anchors": ["src/encryption.rs: re_encrypt_share, combine_re_encrypt_share, combine_ct_with_w, decrypt_to_chunks_after_re_encryption"]}
{"id": "C80", "title": "Re-encrypted ciphertexts can be forwarded any number of times", "statement": "A destination can pass a ciphertext on by making a re-encryption share with its own secret in place of every s_i. Through any chain of destinations, whatever is drawn, forwarding never fails and the last destination's decryption gives exactly the result (chunks or error) of the first one's; end to end, chunks encrypted under a distributed key arrive unchanged.", "quantifier": "all ciphertext vectors, all chains of destinations, all draws", "why_tests_cant": "induction over chains of any length, all inputs and draws", "anchors": ["src/encryption.rs: re_encrypt_share, combine_ct_with_w, decrypt_to_chunks_after_re_encryption", "src/keygen.rs: Fkeygen_dest"]}
{"id": "C81", "title": "Non-malleability up to re-randomisation: an accepted ciphertext made from honest ones is an own encryption or a re-randomised copy", "statement": "Honest users encrypt any messages with encrypt_with_proof. An adversary sees the SRS, all public keys and all these ciphertexts and proofs, and outputs a ciphertext and a proof by fixed linear combinations of the group elements it sees. If they pass verify_commitment_and_proof in every run, then either its ciphertext is in every run the encryption of one fixed list of chunks below 2^b with fixed randomness, or it is in every run the ciphertext of one fixed user re-randomised by a fixed scalar. If it is accepted for all honest messages, its message is the same for all of them, or always exactly that user's message: messages related in another way (plus one, sums, one chunk replaced) are impossible. Both cases occur.", "quantifier": "all numbers of honest users and all their messages, all linear strategies over everything seen, all runs of the setup and all draws of the users, all supported chunk sizes", "why_tests_cant": "ranges over all strategies and all runs; needs an argument about polynomial identities in the draws", "anchors": ["src/encryption.rs: encrypt_with_proof, verify_commitment_and_proof, decrypt_to_chunks, decrypt", "src/setup.rs: setup_for_groth16", "src/saver_groth16.rs: create_proof, verify_proof"]}
{"id": "C82", "title": "Window tables can be stored and reloaded; a loaded table is used unchecked", "statement": "A window table built from a generator, stored with the canonical or the serde encoding and loaded again, is the same table and multiplies every scalar by that generator; truncated encodings are rejected and no encoding is a prefix of another. Loading checks nothing beyond the encoding: a table in which one entry was replaced loads without error and then gives the correct product for exactly the scalars whose digit does not select that entry, and for all others a product off by exactly the change; a table with missing rows, short rows or a zero window size loads and makes multiply or multiply_many panic.", "quantifier": "all prime fields, groups, generators, sizes, scalars, all replaced entries and all point encodings that round-trip", "why_tests_cant": "ranges over all scalars, table sizes and all tampered tables", "anchors": ["src/utils.rs: WindowTable, WindowTable::new, WindowTable::multiply, WindowTable::multiply_many", "src/serde_utils.rs"]}
{"id": "C83", "title": "Malleability error: an adversary that sees honest ciphertexts is accepted on few draws unless it encrypts its own message or re-randomises a copy", "statement": "Honest users encrypt any messages with encrypt_with_proof. An adversary sees the SRS, all public keys and all these ciphertexts and proofs, and outputs a ciphertext and a proof by fixed linear combinations of the group elements it sees. If verify_commitment_and_proof accepts on more than a (3 size + 6)/p fraction of all draws (of the setup and of the users; size is the size of the evaluation domain, p the order of the scalar field), then it accepts in every run, and either the adversary's ciphertext is in every run the encryption of one fixed list of chunks below 2^b, or in every run a fixed re-randomisation of the ciphertext of one fixed user. If this holds for all honest messages, the adversary's plaintext is the same for all of them or always that user's message. Adversaries of these two kinds are accepted on all but a (size + 2)/p fraction.", "quantifier": "all numbers of honest users and all their messages, all linear strategies over everything seen, all supported chunk sizes; counted over all draws", "why_tests_cant": "a bound on the number of accepting draws out of p^K for every strategy cannot be measured by running", "anchors": ["src/encryption.rs: encrypt_with_proof, verify_commitment_and_proof, decrypt_to_chunks, decrypt", "src/setup.rs: setup_for_groth16", "src/saver_groth16.rs: create_proof, verify_proof"]}
{"id": "C84", "title": "A wrong secret key does not decrypt: it fails with an error, except on a negligible share of keys, and never agrees with the right one", "statement": "For every ciphertext with a nonzero first component, at most 2^b secret keys make decrypt (or decrypt_after_re_encryption) succeed at all, and any two of them that succeed give different chunks and different nu. For keys drawn by keygen, on all but a (4^(b+1) + 4)/p share of all draws, no encryption (with nonzero randomness) of any message is decrypted to anything by any other secret key: decrypt returns CouldNotFindDiscreteLog. On the exceptional draws a wrong key can succeed with wrong chunks.", "quantifier": "all ciphertexts (also malformed ones), all decryption keys, all pairs of secret keys; for robustness all messages, all encryption randomness, all wrong keys, counted over all draws of keygen", "why_tests_cant": "quantifies over all p secret keys and p^(2+3n) key draws; a test tries a few wrong keys on a few ciphertexts", "anchors": ["src/encryption.rs: decrypt, decrypt_to_chunks, encrypt_decomposed_message, decrypt_after_re_encryption", "src/keygen.rs: keygen"]}
{"id": "C85", "title": "Exactly which calls abort: checked input never makes a holder of well-formed keys abort, unchecked input can", "statement": "For every input, each API function that takes ciphertexts, proofs, shares or keys from others aborts (panics) exactly under a stated condition on lengths: verify_commitment and encrypt only for keys with 256 or more positions; batch verification also for a wrong number of coefficients or no ciphertext; verify_proof only for a verifying key without instance elements; decrypt and decrypt_to_chunks_after_re_encryption only for chunk sizes of 32 or more in builds with overflow checks; add_cts, combine_re_encrypt_share, combine_ct_with_w and re_encrypt_share exactly when the second vector (or secret key) is shorter. Hence with keys from keygen or distributed key generation no ciphertext and no proof makes verification or decryption abort, and aggregation, re-encryption and final decryption of ciphertexts that passed verify_commitment never abort, whoever made them; without that check one short ciphertext makes aggregation abort.", "quantifier": "all ciphertexts, proofs, shares and (prepared) keys of all lengths, all chunk sizes, both build profiles", "why_tests_cant": "absence of panics must hold for every combination of lengths and values an outsider may send; tests try well-formed ones", "anchors": ["src/encryption.rs: verify_ciphertext_commitment, verify_commitments_in_batch, decrypt, decrypt_to_chunks, encrypt, encrypt_decomposed_message, add_cts, re_encrypt_share, combine_re_encrypt_share, combine_ct_with_w, decrypt_to_chunks_after_re_encryption", "src/saver_groth16.rs: verify_proof, verify_commitment_and_proof"]}
{"id": "C86", "title": "Fresh keys and fresh setups reject whatever was fixed before they were drawn", "statement": "A ciphertext fixed before the keys are drawn, unless all its components but the commitment are the neutral element, passes verify_commitment on at most one in p of the possible draws of keygen; with a nonzero first component and at least one chunk it decrypts to anything at all on at most 2^b + 2 in p of them. A proof and a ciphertext fixed before the SRS is drawn pass verify_proof on at most size + 1 in p of the draws of generate_srs, for every circuit (size: the evaluation domain), and verify_commitment_and_proof on at most size + 1 in p of the draws of setup_for_groth16. The ciphertext of neutral elements is the exception: every key accepts it.", "quantifier": "all ciphertexts, proofs, generators and chunk sizes, all circuits, counted over all possible draws of the randomness", "why_tests_cant": "a statement about the share of all p^K random draws, for every ciphertext and proof; a test sees a handful of draws", "anchors": ["src/keygen.rs: keygen", "src/encryption.rs: verify_ciphertext_commitment, decrypt_to_chunks", "src/saver_groth16.rs: generate_srs, verify_proof, verify_commitment_and_proof", "src/setup.rs: setup_for_groth16"]}
{"id": "C87", "title": "Adaptive adversaries can only re-randomise: the choice of victim and message cannot depend on what they see", "statement": "An adversary sees the setup and the ciphertexts and proofs of any number of honest users, may ask any Q questions about linear combinations and pairings of these group elements, and chooses its own ciphertext and proof depending on the answers. If for some honest messages it is accepted on more than a (Q+1)(3 size + 6)/p fraction of the draws, then there are fixed chunks below 2^b and a fixed scalar r such that, whatever the honest messages, its ciphertext is the encryption of these chunks with randomness r; or there are a fixed user and a fixed scalar u such that, whatever the honest messages, its ciphertext is this user's ciphertext re-randomised by u - in both cases on all but a Q (3 size + 6)/p fraction of the draws. Its ciphertext therefore decrypts to fixed chunks, or to the message of one fixed user. An adversary with fixed coefficients that is accepted this often for some honest messages is accepted in every run for all honest messages.", "quantifier": "all adaptive adversaries, numbers of questions, honest users and messages, counted over all draws of the setup and the honest users", "why_tests_cant": "a statement about all adversaries and the share of all p^K draws for every list of honest messages; tests sample a few runs with honest inputs", "anchors": ["src/setup.rs: setup_for_groth16", "src/encryption.rs: encrypt_with_proof, decrypt, verify_ciphertext_commitment", "src/saver_groth16.rs: create_random_proof, verify_proof, verify_commitment_and_proof"]}
{"id": "C88", "title": "Secrecy against chosen ciphertexts: letting others have verified ciphertexts decrypted does not endanger honest ones", "statement": "An adversary that sees all public keys and parameters, asks for encryptions (with proofs) of one of two messages it chooses, again and again, and may at any time submit ciphertexts with proofs of its own making to the holder of the secret key -- who runs verify_commitment_and_proof and, if it accepts, decrypt_given_groth16_vk, and tells the message unless it is one of those the adversary handed over itself -- guesses which of the two messages were encrypted no better than by chance: the number of random draws on which it says 'right' differs between the two games by at most ((Q+D)(3 size+6)+2n+1) p^(K-1) out of p^K. Neither verification nor withholding can be left out: without either of them one submitted ciphertext (the challenge plus an own encryption, or the re-randomised challenge) decides the game on nearly all draws.", "quantifier": "all adaptive generic-group adversaries (any questions, any pairs of messages, any order, any submitted linear combinations), all generators, all supported chunk sizes and fields; counted over all draws of setup and encryption", "why_tests_cant": "quantifies over all adaptive adversaries and all random draws of key generation and encryption", "anchors": ["src/encryption.rs: Encryption::verify_commitment_and_proof, Encryption::decrypt_given_groth16_vk, Encryption::encrypt_with_proof", "src/setup.rs: setup_for_groth16", "src/keygen.rs: keygen"]}
{"id": "C89", "title": "A re-encryption performed for one ciphertext opens every related one", "statement": "A party's re-encryption share depends on the chunk components it is given only through their number. Let all parties of a key generation help to re-encrypt one pair (a X_r + u X_0, c') to a destination key, where X_r is the first component of somebody else's ciphertext, a is nonzero, u any scalar, X_0 the first component of the public key and c' arbitrary group elements. Then the owner of the destination key recovers exactly the chunks of that other ciphertext with one call of decrypt_to_chunks_after_re_encryption. If instead the first component is a multiple u X_0 known to the requester, what it learns after removing its mask is -u X_i, which it can compute from the public key alone.", "quantifier": "all key generations by any number of parties, destination keys, encrypted chunk vectors and randomness, scalars a, u and chunk components c'", "why_tests_cant": "a statement about all requests related to a ciphertext; tests only re-encrypt the honest ciphertext itself", "anchors": ["src/encryption.rs: re_encrypt_share, combine_re_encrypt_share, combine_ct_with_w, decrypt_to_chunks_after_re_encryption", "src/tests.rs: encrypt_and_ver_distributed_with_addition"]}
{"id": "C90", "title": "Under a distributed key, adaptive coalitions of all parties but one can only re-randomise", "statement": "The encryption key is generated by any number of parties, of which the adversary controls all but one. It sees everything published during parameter and key generation and the ciphertexts and proofs of any number of honest users, asks any Q questions about linear combinations and pairings of these group elements, and chooses its own ciphertext and proof depending on the answers. If for some honest messages it is accepted on more than a (Q+1)(3 size + 6)/p fraction of the draws, then there are fixed chunks below 2^b and a fixed scalar r such that, whatever the honest messages, its ciphertext is the encryption of these chunks with randomness r; or there are a fixed user and a fixed scalar u such that, whatever the honest messages, its ciphertext is this user's ciphertext re-randomised by u - in both cases on all but a Q (3 size + 6)/p fraction of the draws of parameter generation, the honest party and the honest users.", "quantifier": "all coalitions (arbitrary other parties in arbitrary states), adaptive adversaries, numbers of questions, honest users and messages, counted over all draws of the honest side", "why_tests_cant": "a statement about all coalitions and adversaries and the share of all p^K draws; tests run three honest parties and one honest user", "anchors": ["src/setup.rs: generate_srs", "src/keygen.rs: partial_keygen, combine_eks, gen_p1_share, combine_p1_share, keygen_final", "src/encryption.rs: encrypt_with_proof", "src/saver_groth16.rs: create_random_proof, verify_proof, verify_commitment_and_proof"]}
{"id": "C91", "title": "Handing out nu with every decryption does not hurt secrecy, unless it is handed out for a withheld message", "statement": "In the game of C88 the holder of the secret key verifies each submitted ciphertext and answers with everything decryption returns: the message and the element nu, which the adversary may use in all further questions, ciphertexts and proofs. Both are withheld if the message is one that the adversary has handed over itself. An adversary with Q questions and D submissions then guesses which of its messages are encrypted differently on at most ((Q+D)(3 size + 6) + 2n + 1) p^(K-1) of the p^K draws. If only the message is withheld and nu is still handed out, one submission and one question suffice to distinguish any two messages on all but few draws.", "quantifier": "all adaptive adversaries with any number of challenges, questions and submitted ciphertexts (depending on all replies and all nu handed out), all messages, both overflow modes, counted over all draws of setup and encryptions", "why_tests_cant": "a statement about all adversaries and the share of all p^K draws; a test decrypts single ciphertexts and never looks at what nu reveals", "anchors": ["src/setup.rs: setup_for_groth16", "src/encryption.rs: encrypt_with_proof, decrypt_given_groth16_vk, decrypt", "src/saver_groth16.rs: verify_commitment_and_proof"]}
{"id": "C92", "title": "The search for the evaluation point: how often it needs more candidates, and that nothing depends on it", "statement": "setup_for_groth16 draws candidates for the evaluation point until one lies outside the evaluation domain. Allowing more candidates never changes a result; with at most F candidates it fails to end exactly if all F lie in the domain, which happens on exactly size^F p^(K-F) of the p^K choices of draws; it then yields keys exactly if the trapdoors gamma and delta are nonzero. Whatever is asked of the outcome (of parameter generation, of setup, or of setup with distributed keys), the number of draws with answer yes changes by at most size p^(K-1) between any two positive candidate limits. So the theorems counting draws for one candidate hold for every limit: adaptive soundness (C74) with an additional size/p, secrecy against chosen ciphertexts without and with nu (C88, C91) with an additional 2 size/p.", "quantifier": "all generators and states, candidate limits, domains, questions about the outcome, adversaries", "why_tests_cant": "an unbounded rejection loop and exact shares of all p^K draws; a test sees one run", "anchors": ["src/setup.rs: setup_for_groth16", "src/saver_groth16.rs: generate_srs"]}
{"id": "C93", "title": "Linking ciphertexts and chunked commitments: a common opening means the same message", "statement": "The commitment inside the ciphertext of a message and the chunked commitment to the same message have a common opening, by one vector of in-range chunks. Conversely, whatever scalars open a chunked commitment with respect to commitment_key, it is what ChunkedCommitment::new returns for their value in base 2^b. If the ciphertext is the ciphertext of these scalars and decrypts to a message M, the chunked commitment is the one to M, with the same blinding. No adaptive adversary that asks q questions about everything the setup publishes knows two openings of one ciphertext commitment, and none gets a ciphertext and a proof accepted and opens its commitment with chunks that belong to anything but the decrypted message, except on a (q+1)(3 size+5)/p fraction of the draws of the setup. The documented caveat: reusing a blinding with two commitment keys that share H links messages: the difference of the commitments is the same exactly for equal messages.", "quantifier": "all messages, blindings, generators, keys, openings, adaptive adversaries, counted over all draws of the setup", "why_tests_cant": "statements about every possible opening and every adversary; a test opens one commitment", "anchors": ["src/commitment.rs: ChunkedCommitment::new", "src/commitment.rs: ChunkedCommitment::commitment_key", "src/encryption.rs: Encryption::encrypt", "src/encryption.rs: Encryption::verify_commitment_and_proof", "src/encryption.rs: Ciphertext::decrypt_given_groth16_vk"]}
{"id": "C94", "title": "Secrecy when an honest party helps to re-encrypt verified ciphertexts", "statement": "The key is generated jointly; all parties but one are arbitrary machines controlled by the adversary. The adversary sees everything published, hands over pairs of messages and receives encrypt_with_proof of the left or of the right ones, and at any time asks the honest party for its re_encrypt_share of a ciphertext and a destination key of its own making. If the honest party first runs verify_commitment_and_proof, and refuses ciphertexts that are possible outputs of encrypt for a message the adversary handed over itself, then no adversary with Q questions and D requests guesses 'right' more often in the one game than in the other by more than ((Q+D)(3 size+6)+2n+1)/p, whatever the honest party's random numbers for re-encryption are. Neither half of the rule can be dropped: without the refusal a re-randomised copy of the challenge, and without the verification a copy with one changed chunk, lets an adversary with one request and one question win on nearly all draws, for every pair of messages. The games do not stop by themselves.", "quantifier": "all numbers of parties, all other parties, all adaptive generic-group adversaries, all random number generators for re-encryption, counted over all draws of parameter generation, the honest party and the encryptions", "why_tests_cant": "a statement about every adaptive adversary and a count over all draws; tests play single runs without an adversary", "anchors": ["src/encryption.rs: Encryption::re_encrypt_share", "src/keygen.rs: FkeygenPartial", "src/encryption.rs: Encryption::verify_commitment_and_proof", "src/encryption.rs: Encryption::encrypt_with_proof", "src/setup.rs: setup_for_groth16"]}
{"id": "C95", "title": "Correctness error, and all guarantees in numbers on BLS12-381", "statement": "The setup fails, or some message under some encryption randomness is not encrypted with proof, verified and decrypted to itself with its keys, on at most a (domain size + 2*chunks + 3)/p fraction of the setup's random draws. On BLS12-381, for each supported chunk size b: there are 256/b chunks, every message is decomposed into that many, the circuit has 511-b constraints per chunk and its evaluation domain exists and has 2^17/b points; and so this correctness error is at most 2^-239; an algebraic prover asking Q questions gets something other than an encryption of in-range chunks accepted with probability at most (Q+1)*2^-237; and an adversary asking Q questions and having D verified ciphertexts opened distinguishes two messages with advantage at most (Q+D+1)*2^-238.", "quantifier": "all pairings over the BLS12-381 scalar field with radix-2 domains, all supported chunk sizes, nonzero generators, all draws, numbers of candidates for the evaluation point, messages, encryption randomness, adaptive algebraic provers, adaptive chosen-ciphertext adversaries, both build modes", "why_tests_cant": "The probabilities are over about 2^14000 choices of draws, with a universal quantifier over messages inside; a test never hits any of the failing draws.", "anchors": ["src/setup.rs: setup_for_groth16", "src/saver_groth16.rs: generate_srs, create_proof, verify_proof", "src/encryption.rs: encrypt_with_proof, decrypt_given_groth16_vk", "src/utils.rs: chunks_count, decompose", "src/circuit.rs: BitsizeCheckCircuit"]}
{"id": "C96", "title": "Verified aggregation works on nearly all SRS draws, whatever anybody else's randomness", "statement": "On all but a (domain size + chunks + 2)/p fraction of the draws of generate_srs (for 4- or 8-bit chunks, nonzero G) the SRS is generated and then, for every number of parties and all their randomness, the distributed key generation succeeds; every destination obtains a key; and for all encryptors (at most 2^b+1) with in-range chunk vectors, all their randomness, all orders of the parties and both build modes: all can encrypt and prove, everything verifies, the aggregate passes the commitment check, the parties re-encrypt it for the destination, and the destination decrypts exactly the chunk-wise sums. On BLS12-381 the exceptional fraction is at most 2^-239.", "quantifier": "all pairings, FFT configurations, nonzero generators, SRS draws (counted), candidates; all parties, destinations, encryptors, chunk vectors, orders and randomness of everybody (inside the count)", "why_tests_cant": "A count over all SRS draws with universal quantifiers over all participants inside.", "anchors": ["src/saver_groth16.rs: generate_srs, create_proof, verify_proof", "src/keygen.rs: FkeygenPartial, combineEKs, genP1share, combineP1share, keygenFinal, Fkeygen_dest", "src/encryption.rs: encrypt_decomposed_message, add_cts, re_encrypt_share, combine_re_encrypt_share, combine_ct_with_w, decrypt_to_chunks_after_re_encryption", "src/tests.rs"]}
{"id": "C97", "title": "The guarantees for distributed keys in numbers on BLS12-381", "statement": "On BLS12-381, for each supported chunk size, when the key is generated by any number of parties of which the adversary controls all but one (arbitrary randomness, following the protocol): asking Q questions, the coalition distinguishes two messages encrypted with proof with advantage at most Q*2^-252 (whatever the SRS trapdoors); gets something accepted that is not an encryption of in-range chunks with probability at most (Q+1)*2^-238; gets a range proof accepted for out-of-range values, even if all parties collude, with probability at most (Q+1)*2^-238; gets something accepted that is neither one fixed encryption nor a fixed re-randomisation of one fixed user's ciphertext with probability at most (Q+1)*2^-238; and with D re-encryption shares of verified ciphertexts from the honest party distinguishes with advantage at most (Q+D+1)*2^-238, in games that stop by themselves with probability at most 2^-239.", "quantifier": "all pairings over the BLS12-381 scalar field with radix-2 domains, all supported chunk sizes, nonzero generators, numbers and randomness of the other parties, adaptive generic-group adversaries, messages, numbers of users, both build modes; counted over all draws of the honest side", "why_tests_cant": "Counts over all 2^255-sized draws of the honest side for every adaptive adversary.", "anchors": ["src/saver_groth16.rs: generate_srs, verify_proof", "src/keygen.rs: FkeygenPartial, combineEKs, genP1share, combineP1share, keygenFinal", "src/encryption.rs: verify_commitment_and_proof, encrypt_with_proof, re_encrypt_share"]}
{"id": "C98", "title": "What a coalition's ciphertext says to its destination", "statement": "Every SAVER ciphertext of chunks below 2^b under a key made by distributed key generation, whoever made it and with whatever randomness, also after re-randomisation, is read as exactly these chunks by every destination after all parties re-encrypted it, in any order, with any randomness, in both build modes. Hence: an adversary that controls all parties but one, sees everything published and the ciphertexts and proofs of the honest users, and outputs a ciphertext with an accepted proof, either has one list of in-range chunks as which its ciphertext is read by every destination whatever the honest messages are, or has one user whose message is read; on all but a ((Q+1)(3 size+6)+n)/p fraction of the draws (on BLS12-381: (Q+1)/2^238). It cannot make the destination read anything that depends on the honest messages in any other way.", "quantifier": "all engines, chunk sizes, nonzero generators, numbers and randomness of the other parties, adaptive generic-group adversaries, messages and numbers of honest users, destinations, orders and randomness of the re-encrypting parties, both build modes; counted over all draws of parameter generation, the honest party and the honest users", "why_tests_cant": "It speaks about all adversaries and all draws, and about every later run of the re-encryption protocol.", "anchors": ["src/encryption.rs: verify_commitment_and_proof, re_encrypt_share, decrypt_after_reEncryption, encrypt_with_proof", "src/keygen.rs: FkeygenPartial, keygenFinal, FkeygenDest", "src/saver_groth16.rs: generate_srs"]}
{"id": "C99", "title": "The guarantees for distributed keys whatever the number of candidates for the evaluation point, with separate random tapes", "statement": "Parameter generation draws candidates for its evaluation point until one lies outside the evaluation domain. Let it draw up to any number F of them, from its own source of randomness, separate from those of the honest party and the honest users. Whatever is asked of the outcome of distributed key generation, the share of draws with answer 'yes' differs by at most size/p from that with one candidate on one common tape. Hence the bounds for coalitions of all parties but one hold with size/p added (2 size/p for secrecy): an accepted ciphertext that is not an encryption of in-range chunks, that is neither one fixed encryption nor a fixed re-randomisation of one user's ciphertext, or that is read by a destination as anything but fixed chunks or one fixed user's message; range proofs for out-of-range values even if all parties collude; and left-or-right secrecy when the honest party hands out re-encryption shares of verified ciphertexts. On BLS12-381: (Q+1)/2^237 and (Q+D+1)/2^237.", "quantifier": "all engines, chunk sizes, nonzero generators, numbers of candidates, numbers and randomness of the other parties, adaptive generic-group adversaries, messages and numbers of honest users, both build modes; counted over all draws of parameter generation, and of the honest party and the honest users", "why_tests_cant": "It counts over all draws, for every adversary and every number of candidates.", "anchors": ["src/saver_groth16.rs: generate_srs", "src/keygen.rs: FkeygenPartial, keygenFinal", "src/encryption.rs: verify_commitment_and_proof, re_encrypt_share, decrypt_after_reEncryption"]}
{"id": "C100", "title": "Sums of verified ciphertexts, some of them submitted by an adversary", "statement": "Ciphertexts of several encryptors are verified, added up, re-encrypted by the key holders and read by a destination. The adversary controls all key-generation parties but one and some of the encryptors; it sees everything published and the ciphertexts and proofs of the q honest users, asks Q adaptive questions and submits k ciphertexts with proofs. Then its contributions are fixed in advance: for each of its submissions there is a vector of chunks below 2^b, or an honest user, such that whatever the honest messages are, on all but a (k (Q+1) (3 size + 6) + n + size)/p fraction of the draws the honest submissions are accepted, and any selection of accepted submissions (in any order) adds up to a ciphertext whose commitment is accepted and which every destination reads, as b'-bit chunks wide enough for the sums, as the chunk-wise sums of the honest messages and these contributions. The same holds with q+k-1 more draws if all commitments are checked by one call of verify_commitments_in_batch with the powers of a challenge. On BLS12-381: k(Q+1)+1, respectively k(Q+1)+1+q+k, in 2^237. If proofs are not checked it fails: an adversary cancels the message of any user it chooses, in every run.", "quantifier": "all engines, supported chunk sizes, nonzero generators, numbers of candidates, parties, honest users and submissions, adaptive generic-group adversaries, honest messages, selections and orders of submissions, destinations, randomness and orders of the key holders, both build modes; counted over all draws", "why_tests_cant": "It counts over all draws, for every adversary, and every selection of submissions.", "anchors": ["src/encryption.rs: add_cts, verify_commitment_and_proof, verify_commitments_in_batch, re_encrypt_share, decrypt_after_reEncryption", "src/keygen.rs: FkeygenPartial, keygenFinal", "src/saver_groth16.rs: verify_proof"]}
{"id": "C101", "title": "Helping to re-encrypt sums reveals nothing but the sums", "statement": "Honest users encrypt messages with proofs, the honest key holder hands out re_encrypt_share of sums (add_cts) of ciphertexts selected by an adversary that controls all other key-generation parties, adds verified ciphertexts of its own and chooses all destination keys, the messages and everything it does adaptively. Consider two lists of messages the honest users may have encrypted. If a share is handed out only when the sum, taken on either list, encrypts the same numbers chunk by chunk, then an adversary that asks at most Q questions and whose selections have at most D entries in total tells the two lists apart on at most a ((Q + 2D)(3 size + 6) + 2n + 1)/p fraction of the draws; the same with any number of candidates for the evaluation point (+ 2 size), and on BLS12-381 (Q + 2D + 1) in 2^237. So ballots of the same totals cannot be told apart. The condition is met for every selection of honest users with equal chunk sums: then the share is handed out. The game does not stop by itself (all but (size+2)/p). The condition is necessary: for every selection of honest users with different chunk sums one question on the handed-out share tells the lists apart on all but few draws. And verification alone does not protect ballots: the adversary can re-randomise the ciphertext of an honest user; the copy is accepted, and handing out the share of a sum that contains original and copy reveals that user's message.", "quantifier": "all engines, supported chunk sizes, nonzero generators, numbers of candidates, other parties, pairs of message lists, adaptive generic-group adversaries, selections, destination keys, randomness of the honest key holder, both build modes; counted over all draws", "why_tests_cant": "It compares counts over all draws for every adversary and every course of events; no set of test runs can exclude a distinguisher.", "anchors": ["src/encryption.rs: add_cts, encrypt_with_proof, verify_commitment_and_proof, re_encrypt_share", "src/keygen.rs: FkeygenPartial, keygenFinal"]}
{"id": "C102", "title": "Which randomness each operation uses, and what reuse costs", "statement": "Every randomised operation is a fixed function of its arguments and of the next scalars its random number generator delivers, for every generator: Fkeygen_dest, encrypt_decomposed_message, encrypt, encrypt_given_snark_vk and re_encrypt_share read exactly one scalar, create_proof two, encrypt_with_proof three, FkeygenPartial with n chunks 1+2n, keygen 2+3n; generate_srs reads at least five and setup_for_groth16 in addition the 2+3n of keygen; a run that reads k scalars has the same outcome on every generator that delivers these k scalars. Nothing else influences the outcome, and on success the generator is left exactly that many scalars further. Consequently security rests on fresh draws: the scalar returned by encrypt opens the ciphertext without any key; two encryptions with the same scalar are recognisable by their equal first components (and with X_0 != 0 only such), the differences of their components are the differences of the messages, and whoever knows one message reads the other; and if all parties of a distributed key generation draw the same scalars, each alone reads every message.", "quantifier": "all random number generators and states, all arguments of the operations, all circuits for generate_srs; for reuse: all keys, messages, pairs of generators, any number of parties", "why_tests_cant": "A test uses one generator and cannot show that nothing but the drawn scalars matters, nor that an operation reads the same number of scalars for all arguments.", "anchors": ["src/keygen.rs:FkeygenPartial", "src/keygen.rs:keygen", "src/keygen.rs:Fkeygen_dest", "src/encryption.rs:encrypt", "src/encryption.rs:encrypt_decomposed_message", "src/encryption.rs:encrypt_given_snark_vk", "src/encryption.rs:encrypt_with_proof", "src/encryption.rs:re_encrypt_share", "src/saver_groth16.rs:create_proof", "src/saver_groth16.rs:generate_srs", "src/setup.rs:setup_for_groth16"]}
{"id": "C103", "title": "Proofs made with a proving key from an untrusted source", "statement": "Whatever proving key a prover was handed (its delta elements generating the groups) and whatever circuit, encryption randomness and key it uses: if create_proof succeeds at all with a nonzero first scalar it succeeds for all scalars, and for every ciphertext either every proof is accepted by verify_proof, each accepted proof being the outcome of exactly one pair of drawn scalars - so the proof is uniform on the set of accepted proofs, which depends on the verification key and the ciphertext alone, and any two such provers have the same distribution - or at most one value of the first scalar gives an accepted proof. Two own runs with different first scalars that are accepted exclude the second case. But the second case can be made to depend on the message: for every bit position, whoever generates the SRS can change a single element of the proving key, leaving the verification key as it is, so that encrypt_with_proof succeeds as before with the same ciphertext and the result passes verify_commitment_and_proof exactly if that bit of the message is 0.", "quantifier": "all proving keys, circuits, encryption keys, random scalars, ciphertexts and builds; for the negative part all honest SRSs, supported chunk sizes, keys from keygen or distributed key generation, messages, bit positions and nonzero points", "why_tests_cant": "A test tries a few keys and scalars; that no malformed key can leak through an accepted proof, and that every single bit can be leaked through rejection, are statements about all keys, all draws and all messages.", "anchors": ["src/saver_groth16.rs: create_proof, verify_proof, verify_qap_proof, generate_srs", "src/encryption.rs: encrypt_with_proof, verify_commitment_and_proof", "src/circuit.rs: generate_constraints"]}
{"id": "C104", "title": "Chunks that do not fit", "statement": "A vector of chunks one of which does not fit in the chunk size is encrypted by encrypt_decomposed_message without complaint, into a ciphertext that passes verify_commitment. In a checked build create_proof aborts on it. In an unchecked build it returns a proof, and verify_commitment_and_proof rejects the ciphertext with that proof (PairingCheckFailed), whatever the trapdoors, the keys and the randomness of encryption and proof, unless the SRS was generated at one of at most 2 (size - 1) evaluation points, size being the size of the evaluation domain; these points depend on the chunks only.", "quantifier": "all chunk vectors with a chunk that does not fit, chunk sizes, SRSs, generators of randomness, keys from keygen or distributed key generation and builds", "why_tests_cant": "That the honest prover's output for an unsatisfied constraint system never passes by accident, except on an explicitly bounded set of evaluation points, is a statement about polynomials of all assignments; a test sees one key and one assignment.", "anchors": ["src/encryption.rs: encrypt_decomposed_message, verify_commitment, verify_commitment_and_proof", "src/saver_groth16.rs: create_proof, verify_proof, generate_srs", "src/circuit.rs: generate_constraints"]}
{"id": "C105", "title": "Distributed key generation when messages are lost, repeated or out of date", "statement": "Whatever partial keys reached whom, in whatever order, and whatever P_1 shares were collected (possibly repeatedly, each computed by its sender from the partial keys that had reached it): key generation aborts exactly if no partial key or no share was delivered, or no partial key to the sender of some share; otherwise it returns a key without any error. If nothing was lost, repeated or out of date, the key is that of distributed key generation, independently of the order. In general it differs from the key distributed key generation gives to the parties whose partial keys were combined only in P_1, by an explicit multiple of X_0, and ciphertexts under it only in their commitments; verify_commitment accepts an honest ciphertext exactly if its randomness or that multiple is 0. If the delivery is not without fault, although no party's partial key is combined twice, that multiple is 0 for at most 2 p^(K-1) of the p^K choices of the parties' K secret scalars: on all others no honest encryption with nonzero randomness passes verify_commitment.", "quantifier": "all deliveries (lists of parties for the final combination, lists of shares, the sender's view at each share), numbers of parties, chunk sizes, parameters, random generators, messages", "why_tests_cant": "The property quantifies over all schedules of message delivery and all of the parties' secrets; a test plays one schedule with one set of keys.", "anchors": ["src/keygen.rs: FkeygenPartial, combineEKs, genP1share, combineP1share, keygenFinal", "src/encryption.rs: encrypt_decomposed_message, verify_commitment", "src/tests.rs: the two-party key generation"]}
{"id": "C106", "title": "Re-encryption when shares are lost, repeated, or made for another ciphertext or destination", "statement": "Whatever re-encryption shares of the parties of a distributed key are combined (any number per party, in any order, each made for any ciphertext and any destination) and added to a ciphertext: the combination aborts if there is no share at all; otherwise nothing aborts, and decrypt_to_chunks_after_re_encryption returns for chunk i the least x in its search range with x g_i = m_i g_i + keyGap_i X_0 + maskGap G, or CouldNotFindDiscreteLog if a chunk has none, where keyGap_i = r (sum of all s_i) - (sum over the shares of r' s_i) and maskGap = sum over the shares of rho (sk_dest - sk). If every party's share for this ciphertext and this destination arrived exactly once, in whatever order, the chunks come out. If some party's shares do not add up (it has sent none or several for this ciphertext, or its only one is for a ciphertext with other randomness), then on all but ((searchBound+1)/p)^n of the parties' secrets the destination gets an error; if some share is for a destination with another secret, the same holds on all but (searchBound+1)/p of the shares' randomness, whatever else was delivered.", "quantifier": "all deliveries (lists of shares with sender, ciphertext, destination, randomness), numbers of parties, ciphertexts, destinations, chunk sizes, parameters, messages", "why_tests_cant": "The property quantifies over all deliveries and all secrets of the parties; a test plays one.", "anchors": ["src/encryption.rs: re_encrypt_share, combine_re_encrypt_share, combine_ct_with_w, decrypt_to_chunks_after_re_encryption", "src/keygen.rs: Fkeygen_dest, FkeygenPartial, combineEKs", "src/tests.rs: the two-party re-encryption"]}
{"id": "C107", "title": "Distributed key generation by parties that crash and restart at any moment", "statement": "Let N parties run distributed key generation in any order and with any repetitions, each party storing its secret key and partial key (serialize) before publishing the partial key, publishing only what it has stored, computing its P_1 share from the secret key in its memory and all published partial keys, and loading its secret key (deserialize) after a crash; crashes may happen at any moment, also in the middle of a write, of which then any proper prefix is stored, and a party that finds nothing readable generates anew. In every history: as soon as everything is published, combineEKs, combineP1share and keygenFinal succeed and give exactly the key of a run without crashes (dkg) in which every party has the secret key that is in its storage; from then on everybody computes this same key whatever happens; what is completely stored or published never changes; and from every reachable state the parties can finish.", "quantifier": "all finite histories (interleavings of generating, storing, publishing, sharing, crashing at any byte of a write, restarting), numbers of parties, randomness, codecs satisfying the round-trip law, chunk sizes, parameters", "why_tests_cant": "The property quantifies over all schedules and crash points; a test plays one schedule.", "anchors": ["src/keygen.rs: FkeygenPartial, combineEKs, genP1share, combineP1share, keygenFinal, derived CanonicalSerialize/CanonicalDeserialize of SecretKeyST, FEncryptionKeyPartial, P1share", "src/tests.rs: the distributed setup"]}
{"id": "C108", "title": "Aggregation and re-encryption by users, an aggregator and key holders that crash at any moment", "statement": "After distributed key generation, let any number of users encrypt chunks (encrypt_decomposed_message) and publish the ciphertexts, possibly several times; let an aggregator add published ciphertexts (add_cts) one at a time to the tally in its storage, together with the list of users it has counted, skipping users already counted, and crash at any moment, also in the middle of a write, of which then any proper prefix is stored (if nothing readable is stored it starts anew); let it publish its tally once; let the key holders publish re-encryption shares of it (re_encrypt_share), possibly several times with fresh randomness. In every history: as soon as the tally and all shares are published, the destination (combine_re_encrypt_share, combine_ct_with_w, decrypt_to_chunks_after_re_encryption) obtains the chunk-wise sums of votes that were cast, exactly one of each user published as counted (or the search error if a sum is out of range); from then on it obtains the same whatever happens; and from every reachable state in which some vote was cast the aggregator and the key holders can finish without any further vote, counting every user who has voted if no tally was published.", "quantifier": "all finite histories (interleavings of voting, counting, crashing at any byte of a write, closing, sharing), numbers of users and key holders, votes, randomness, codecs satisfying the round-trip law, parameters", "why_tests_cant": "The property quantifies over all schedules, repetitions and crash points; a test plays one schedule.", "anchors": ["src/encryption.rs: encrypt_decomposed_message, add_cts, re_encrypt_share, combine_re_encrypt_share, combine_ct_with_w, decrypt_to_chunks_after_re_encryption", "src/keygen.rs: FkeygenDest", "src/tests.rs: aggregation and re-encryption"]}
{"id": "C109", "title": "A poll in which dishonest users publish whatever they like, and everybody crashes", "statement": "In the setting of C108, let some of the users be dishonest: they put any bytes they like on the board, any number of times, also bytes computed from what is published. Let the aggregator count a ballot only if it can be read, has n+2 entries and passes verify_ciphertext_commitment. Then in every history with every pattern of crashes: once the tally and all shares are published the destination never aborts; there is exactly one ciphertext for each user published as counted, which was that user's ballot on the board at some point and passes verify_commitment, and for an honest user is an encryption of a vote it has cast; and the destination obtains exactly the numbers that these ciphertexts carry together, or the search error (so the plain sums if every counted ciphertext carries numbers and the sums are in range). From then on it obtains the same whatever happens; dishonest users cannot block the poll: from every reachable state with an acceptable ballot, or with an honest vote cast, the aggregator and key holders can finish, counting every honest voter and every acceptable ballot. Checking the commitment alone would not suffice: a ballot with an additional entry passes verify_ciphertext_commitment, but adding an honest ballot to it with add_cts aborts.", "quantifier": "all finite histories, all sets of dishonest users and all bytes they publish, numbers of users and key holders, votes, randomness, codecs satisfying the round-trip law, parameters", "why_tests_cant": "The property quantifies over all adversarial bytes, schedules and crash points; a test tries a few.", "anchors": ["src/encryption.rs: encrypt_decomposed_message, verify_ciphertext_commitment, add_cts, re_encrypt_share, combine_re_encrypt_share, combine_ct_with_w, decrypt_to_chunks_after_re_encryption", "src/tests.rs: aggregation and re-encryption"]}
{"id": "C110", "title": "The whole life cycle: distributed key generation and a poll, with crashes and dishonest users at any time", "statement": "Let any number of key holders run distributed key generation (FkeygenPartial, combineEKs, genP1share, combineP1share, keygenFinal), crashing and restarting at any time, also in the middle of writing their secrets (C107), and let a poll with dishonest users and a crashing aggregator (C109) be run with the key that can be computed from what the key holders have published and with the secret keys they find in their storages, the key holders going on crashing, restarting and publishing again meanwhile. In every history: if the destination gets anything, the key is that of an uninterrupted run of key generation with exactly the secret keys in the storages; there is exactly one ciphertext for each user published as counted, which that user had put on the board and which passes verify_commitment, for an honest user an encryption of a vote it has cast; and the destination gets the numbers these carry together, or the search error, and never aborts. From then on it gets the same, whatever happens. From every reachable state the key holders can still finish, any honest user can still cast any vote, and the destination can then get a result, in which, if no tally had been published, every honest voter is counted.", "quantifier": "all finite histories, interleavings of key generation and poll, crash points, sets of dishonest users and bytes they publish, numbers of key holders and users, votes, randomness, codecs satisfying the round-trip law, parameters", "why_tests_cant": "The property quantifies over all interleavings of two protocols with all crash points and all adversarial bytes; a test plays one of them.", "anchors": ["src/keygen.rs: FkeygenPartial, combineEKs, genP1share, combineP1share, keygenFinal, FkeygenDest", "src/encryption.rs: encrypt_decomposed_message, verify_ciphertext_commitment, add_cts, re_encrypt_share, combine_re_encrypt_share, combine_ct_with_w, decrypt_to_chunks_after_re_encryption", "src/tests.rs: the whole scenario"]}
{"id": "C111", "title": "How much work the search of decryption does, and what its duration discloses", "statement": "On every input, well-formed or not, decrypt_to_chunks and decrypt_to_chunks_after_re_encryption run the body of their discrete-logarithm loops at most (number of chunks) x (2^b - 2) times, and never more than 65534 times per chunk; with a table of pairing powers at most once more per chunk. If they succeed, the number is exactly the sum of d - 1 over the returned chunks d that are not zero (of d with a table). So it is a function of the message alone: whoever can measure how long the decryption of an honest ciphertext takes, whatever the keys and the randomness, learns the sum of the chunks, and for the destination of a re-encrypted aggregate, the sum of the votes.", "quantifier": "all ciphertexts, keys, generators, tables of powers, chunk sizes, overflow modes; for the disclosure all keys, messages, randomness", "why_tests_cant": "A worst case and an exact cost for every input cannot be measured; a test measures the time of one decryption.", "anchors": ["src/encryption.rs: decrypt_to_chunks, decrypt_to_chunks_given_pairing_powers, decrypt_to_chunks_after_re_encryption, solve_discrete_log, solve_discrete_log_for_g, solve_discrete_log_using_pairing_powers"]}
{"id": "C112", "title": "In a poll without range proofs, one dishonest user decides the result", "statement": "In the poll of C109 (ballots are counted if they can be read, have n+2 entries and pass verify_ciphertext_commitment) let one user be dishonest. For any integers delta_i, also negative ones, it can compute from the public key alone a ballot that passes all checks, such that in every history in which it has put nothing else on the board and is counted, the destination reads the sums of the other counted users' votes plus delta_i (so it can take away others' votes), if these are in its search range, and gets the search error if one of them is not, modulo the group order. It can do so at any time before the tally is published, and the others, doing their duty, will finish the poll with all honest voters and this ballot counted. With delta_i larger than the search range it denies everybody the result, whatever the votes.", "quantifier": "all histories, interleavings and crash points, votes, integers delta_i, keys, randomness, numbers of users and key holders", "why_tests_cant": "The attack works in every history and for every choice of integers and votes; a test would show one.", "anchors": ["src/encryption.rs: verify_ciphertext_commitment, add_cts, encrypt_decomposed_message, decrypt_to_chunks_after_re_encryption", "src/tests.rs: the scenario, which checks commitments only", "src/keygen.rs: EncryptionKey"]}
{"id": "C113", "title": "Under every fair schedule key generation and the poll finish, however often somebody crashes", "statement": "In every infinite history of the distributed key generation in which every party in the end does what it can do (stores its generated keys, publishes its partial key, reloads its secrets after a crash, and publishes its share of P_1 if it can do so again and again), the public key is eventually computable from what has been published and stays the same from then on, however often and wherever the parties crash. Likewise the poll: if some honest user votes and the aggregator and the key holders in the end do what they can do, the destination eventually gets an outcome, which stays the same, whatever bytes dishonest users post and however often the aggregator loses its tally; every honest voter is eventually counted in the stored tally if the tally is lost only finitely often. The same for key generation and poll as one system. If crashes stop at some time, weak fairness is enough; otherwise it is not: a single party that crashes each time after loading its secrets is weakly fair and never finishes. Fair histories exist through every reachable state.", "quantifier": "all infinite histories, interleavings, crash points and numbers of crashes, bytes posted by dishonest users, randomness, numbers of parties and users", "why_tests_cant": "Termination under all fair infinite schedules cannot be observed by finitely many finite runs.", "anchors": ["src/keygen.rs: FkeygenPartial, combineEKs, genP1share, combineP1share, keygenFinal", "src/encryption.rs: add_cts, re_encrypt_share, combine_re_encrypt_share, combine_ct_with_w, decrypt_to_chunks_after_re_encryption", "src/tests.rs: the order of calls"]}
{"id": "C114", "title": "A poll in which ballots carry proofs delivers the sums of in-range votes in every history, whatever dishonest users post", "statement": "A poll in which honest users submit what encrypt_with_proof returns, dishonest users (and nobody needs to know who they are) put any bytes on the board, the aggregator counts what can be read as a ciphertext with a proof and passes verify_commitment_and_proof, and everybody may act in any order, crash and start again. In every history, if the destination gets anything, then there is exactly one ciphertext for each user published as counted, which that user had on the board with an accepted proof, for honest users an encryption of a vote they cast, and the destination gets the numbers they carry together; it never aborts, never changes what it gets, and nobody can block the poll. And with the key generated by parties of which the adversary controls all but one: what the adversary's submissions contribute is fixed in advance, for each either chunks below 2^b or the message of an honest user, and on all but a (k (Q+1) (3 size + 6) + n + size)/p fraction of the draws (at most k (Q+1) + 1 in 2^237 on BLS12-381) every poll, among any number of users and with any of them dishonest, delivers in every history exactly the chunk-wise sums of the contributions of the counted users: sums are never out of range, so the error for that does not occur.", "quantifier": "all histories, interleavings, crash points, bytes posted, randomness, sets of dishonest users, numbers of users and parties, destinations, algebraic adversaries with Q questions and k submissions, honest messages", "why_tests_cant": "It quantifies over all asynchronous histories and all adversaries, and counts random draws of a 255-bit field.", "anchors": ["src/encryption.rs: encrypt_with_proof, verify_commitment_and_proof, add_cts, re_encrypt_share, combine_re_encrypt_share, combine_ct_with_w, decrypt_to_chunks_after_re_encryption", "src/saver_groth16.rs: create_proof, verify_proof", "src/keygen.rs: FkeygenPartial, combineEKs, keygenFinal"]}
{"id": "C115", "title": "A poll in which ballots carry proofs finishes under every fair schedule", "statement": "A poll as in C114, in which the aggregator, whenever it can start a tally or publish one, in the end does, and every key holder who can compute its share in the end does. If some honest user votes, the destination eventually has an outcome, and the same one for ever after, whatever dishonest users post, in any order and with any crashes of the aggregator; weak fairness is enough if the aggregator loses its tally only finitely often, and then every honest user whom the aggregator in the end counts if it can is counted. From every state that can be reached there is a fair schedule.", "quantifier": "all infinite fair histories, interleavings, crash points, bytes posted, randomness, sets of dishonest users, numbers of users and parties, destinations", "why_tests_cant": "It is about infinite executions: no finite test observes that something eventually happens under every fair schedule.", "anchors": ["src/encryption.rs: encrypt_with_proof, verify_commitment_and_proof, add_cts, re_encrypt_share, combine_re_encrypt_share, combine_ct_with_w, decrypt_to_chunks_after_re_encryption", "src/saver_groth16.rs: create_proof, verify_proof", "src/keygen.rs: FkeygenPartial, combineEKs, keygenFinal"]}
{"id": "C116", "title": "The whole life cycle with proofs: distributed key generation and a poll of proved ballots, with crashes and dishonest users at any time", "statement": "The key holders generate the key for a given SRS, crashing and restarting at any moment; users submit what encrypt_with_proof returns under the key that can be computed from what has been published, dishonest users put any bytes on the board, the aggregator counts what verify_commitment_and_proof accepts, and the key holders re-encrypt the published sum. In every history, if the destination gets anything: the key is that of an undisturbed run of key generation in which everybody has the secret key in its storage; one accepted ciphertext with proof per user published as counted, for honest users an encryption of a vote they cast; the destination gets the sums of what these carry (exactly the sums of the numbers if they are in the search range, else the error for that), and never aborts. What it gets never changes. From every reachable state the key holders can finish, any honest user can still submit any message, and the destination can get something in which every honest voter is counted. Under every fair schedule the key is computed and, if an honest user votes, the destination gets its outcome; from every reachable state there is a fair schedule.", "quantifier": "all finite and infinite histories, interleavings, crash points, bytes posted, randomness, sets of dishonest users, numbers of users and holders, messages, destinations", "why_tests_cant": "It quantifies over all asynchronous histories with crashes of all participants, and over infinite fair executions.", "anchors": ["src/keygen.rs: FkeygenPartial, combineEKs, genP1share, combineP1share, keygenFinal, Fkeygen_dest", "src/encryption.rs: encrypt_with_proof, verify_commitment_and_proof, add_cts, re_encrypt_share, combine_re_encrypt_share, combine_ct_with_w, decrypt_to_chunks_after_re_encryption", "src/saver_groth16.rs: generate_srs, get_gs_for_encryption, create_proof, verify_proof"]}
{"id": "C117", "title": "Proofs do not stop copying: dishonest users can submit re-randomised copies of an honest ballot, multiply that vote and read it off the result", "statement": "Whoever sees an accepted submission (ciphertext and proof) can make from it, with public keys only, another one that verify_commitment_and_proof accepts, that carries the same chunks and that differs as bytes. In every history of a poll with proofs in which all that dishonest users post are such copies of ballots of one honest user, every counted dishonest user counts as another vote for that user's chunks. From every reachable state in which an honest user has voted, no tally has been published and no dishonest user has posted anything, any k dishonest users can copy that ballot, and the poll then goes on, without further steps of users, to a result that is at each position k + 1 times that user's chunk plus the chunks of the other honest users; so where the others' sum is at most k, the quotient and remainder of the result by k + 1 are that user's chunk and the others' sum.", "quantifier": "all accepted submissions, scalars, histories, interleavings, crashes of the aggregator, reachable states, honest votes, sets of dishonest users, numbers of users and holders, randomness", "why_tests_cant": "It is about every accepted submission, whoever made it, and about what can happen from every reachable state.", "anchors": ["src/encryption.rs: encrypt_with_proof, verify_commitment_and_proof, add_cts, re_encrypt_share, combine_ct_with_w, decrypt_to_chunks_after_re_encryption", "src/saver_groth16.rs: verify_proof"]}
{"id": "C118", "title": "The exported macros join! and multi_pairing! compute what they say, whatever the threads do", "statement": "join! with the feature parallel, given one to six expressions: in every schedule every expression is run exactly once, also if others panic; the outcome is the tuple of the values in the order written, or the panic of the first (in that order) that panics; every schedule finishes after at most 2n - 1 steps and none gets stuck. Without the feature the outcome is the same, but nothing after the first panic is run. With more than six expressions join! compiles only without the feature. multi_pairing! never aborts and returns the product of the pairings of its pairs, in whatever order they are given.", "quantifier": "all schedules of the nested rayon::join calls, outcomes of the expressions (values or panics), numbers of expressions, lists of pairs", "why_tests_cant": "The results must not depend on the thread schedule, and unit tests see only a few schedules, with expressions that do not panic.", "anchors": ["src/macros.rs: join, unnest_tuple, multi_pairing"]}
{"id": "C119", "title": "The crate's own test programs pass for every random generator, with the chunk sizes they are written for; 16 bits cannot pass the distributed ones", "statement": "For every random number generator, every state of it and every field: the tests keygen_works and keygen_dist pass for every chunk size; commitment_key_creation for chunk sizes below 64; setup_for_groth16_works whenever the SRS can be generated. Unless a generator of the setup comes out zero: encrypt_decrypt, encrypt_decrypt_distributed and encrypt_and_snark_verification pass for chunk sizes 1 to 16; encrypt_and_ver_distributed and encrypt_and_ver_distributed_with_addition (which double the size for decryption) for chunk sizes 1 to 15, the last with at least five chunks. With chunk size 16 these two panic: with overflow checks always, without them as soon as a message chunk (a sum of two) is above 1. The test gens passes exactly if the generators of its different labels differ and successive draws differ.", "quantifier": "all random number generators and states (so all messages, keys, randomness), chunk sizes, fields and groups", "why_tests_cant": "The tests run with one seed and mostly with one chunk size; whether they could fail with another seed or with the sizes that are commented out is not settled by running them.", "anchors": ["src/encryption.rs: tests", "src/keygen.rs: tests", "src/saver_groth16.rs: tests", "src/commitment.rs: tests", "src/setup.rs: tests", "src/tests.rs"]}
{"id": "C120", "title": "The crate's tests are not flaky: with other seeds they fail on a negligible share, counted, of the scalars they draw", "statement": "Fix any source of messages and of nonzero points. Among all choices of the first K scalars a test draws (K at least 7 + 3n), the tests with a SNARK fail on at most (size + 2n + 3) p^(K-1) of the p^K, setup_for_groth16_works on at most (size + 2) p^(K-1), encrypt_decrypt on at most (n + 1) p^(K-1), encrypt_decrypt_distributed on none; size is that of the evaluation domain, n the number of chunks. On BLS12-381, for 4, 8 and 16 bits, each of these is at most one in 2^239. For encrypt_and_ver_distributed and ..._with_addition this holds with 4 and 8 bits; with 16 bits and overflow checks they pass on at most one in 2^239.", "quantifier": "all sources of messages and points, all numbers of draws, chunk sizes, build modes, numbers of candidates for the evaluation point; counting over all choices of the scalars", "why_tests_cant": "A test run shows one seed; that the share of failing seeds is negligible (and not zero) is a statement about all of them.", "anchors": ["src/encryption.rs: tests", "src/saver_groth16.rs: tests", "src/setup.rs: tests", "src/tests.rs", "src/saver_groth16.rs: generate_srs", "src/keygen.rs: keygen"]}
{"id": "C121", "title": "Many polls under one key: they do not disturb each other, but ballots can be replayed from one into another", "statement": "One key is generated by key holders that crash; any number of polls, each with its own users, dishonest users, destination and aggregator, then run under it in any interleaving. If the destinations of some polls get something, then there is one key, and each gets the numbers that the counted ciphertexts of its own poll carry together, each put on that poll's board by a user of it; it then never changes, whatever happens in other polls. No poll can be blocked, and in every fair history every poll in which an honest user votes ends. But nothing ties a ballot to a poll: bytes that an honest user has put on the board of one poll are accepted in every other poll and count there as the same vote; and a dishonest user of an otherwise empty poll can thereby have the honest user's vote, exactly, disclosed to the destination of that poll.", "quantifier": "all numbers of key holders, polls and users, all sets of dishonest users, all bytes they post, all crash points, interleavings and fair infinite histories", "why_tests_cant": "A test runs one poll once; that polls are independent, and what a replay does, are statements about all interleavings of unboundedly many polls.", "anchors": ["src/keygen.rs: FkeygenPartial, combineEKs, genP1share, keygenFinal, Fkeygen_dest", "src/encryption.rs: encrypt_with_proof, verify_commitment_and_proof, add_cts, re_encrypt_share, combine_ct_with_w, decrypt_to_chunks_after_re_encryption", "src/saver_groth16.rs: encrypt_and_ver_distributed", "src/tests.rs: encrypt_and_ver_distributed_with_addition"]}
{"id": "C122", "title": "How many pairings verification and decryption compute", "statement": "The number of pairings (pairs of points that are paired) that each function computes is exact. Checking the commitment of one ciphertext of n chunks takes n + 2 for every verdict and none if the shapes do not fit; checking a batch of any number k of ciphertexts also takes n + 2, so that checking k good ciphertexts one after the other takes exactly k times as many; checking the proof takes three whatever n; both together n + 5. Decryption that succeeds takes two for each chunk and, without a precomputed table, one more for each chunk that is not zero; it never takes more than 3n (2n with a table) whatever the input and however it ends; the table itself takes n. Hence the number of pairings of decrypting an honest ciphertext discloses how many chunks of the message are zero.", "quantifier": "all ciphertexts, keys, parameters, lists of ciphertexts, coefficients, tables, bit sizes and randomness, accepted or not", "why_tests_cant": "Tests measure time on one input on one machine; they cannot show that the number of pairings of batch verification is independent of the number of ciphertexts, nor that no input makes decryption compute more.", "anchors": ["src/encryption.rs: verify_ciphertext_commitment, verify_commitments_in_batch, decrypt_to_chunks, decrypt_to_chunks_given_pairing_powers, verify_commitment_and_proof", "src/keygen.rs: pairing_powers", "src/saver_groth16.rs: verify_proof, verify_qap_proof"]}
{"id": "C123", "title": "Distributed key generation when storage is lost", "statement": "Parties generate the key by FkeygenPartial, combineEKs, genP1share, combineP1share and keygenFinal, may crash and restart in any order (as in C107), and what they have stored may be damaged or lost. If storage is lost only before its owner has published anything, or if parties never write new secrets once something is published under their name, then a key that comes out is that of a run without crashes and losses, what anybody still has of its secrets belongs to that key, and it never changes afterwards. Early losses never block key generation. With careful parties it can still end exactly as long as every party that has published its partial key but not its share has its secrets in storage or at least in memory. If a party that has lost its storage starts over, however, the key that comes out from then on is such that the commitment check rejects every honest ciphertext under it, except by chance.", "quantifier": "all histories of any number of parties' steps, crashes and losses of storage (at any time, of any extent), all randomness, all bit sizes, keys and lawful codecs", "why_tests_cant": "A test can lose the storage of one party at one moment; the claim is about every interleaving of losses, crashes, restarts and messages, and the third part is an if and only if about all continuations of a history.", "anchors": ["src/keygen.rs: FkeygenPartial, combineEKs, genP1share, combineP1share, keygenFinal, SecretKeyST, FEncryptionKeyPartial", "src/encryption.rs: verify_ciphertext_commitment"]}
{"id": "C124", "title": "What is left of secrets in freed memory", "statement": "Somebody who can read the heap memory the crate gives back to the allocator (a core dump, swap, a neighbouring bug) learns the following, although SecretKey wipes itself: (a) what keygen frees is enough to read every honest ciphertext under the key, without the secret key and the decryption key, whether or not the compiler reuses the buffer of the s_i (in the first case: unless the decryption key does not work anyway); (b) once all parties of a distributed key generation have dropped their SecretKeyST, what that frees is enough to read every honest ciphertext under the key; (c) what FkeygenPartial itself frees at the parties is enough to make ciphertexts with arbitrary components that pass the commitment check; (d) encryption, successful or not, frees the bytes of the message, and if successful the encryption randomness; (e) decryption frees the chunks of the message that it finds, all of them if it succeeds and those before the first one out of range if it fails; (f) decryption after re-encryption frees points from which anybody gets, with any bit size, what the owner of the destination key gets, even if the decryption itself fails because the bit size is too small, and in that case also the chunks found before. The results of the functions are unaffected: the account of freed buffers only adds to them.", "quantifier": "all randomness, bit sizes, generators, numbers of parties, messages, keys and ciphertexts", "why_tests_cant": "A test cannot look at memory it no longer owns, and what can be computed from it for every key, message and randomness is an algebraic statement about all of them.", "anchors": ["src/keygen.rs: SecretKey, SecretKeyST, FkeygenPartial, keygen", "src/encryption.rs: encrypt, encrypt_decomposed_message, decrypt, decrypt_to_chunks_after_re_encryption", "src/utils.rs: decompose"]}
{"id": "C125", "title": "Without losses, completion after a bounded number of steps in any order", "statement": "Whatever has happened before, however often parties have crashed: from the moment on that nothing is lost any more (nobody loses its memory, what is written is written completely), the N parties of a key generation can do at most 3N steps that change anything, in whatever order (exactly 3N if they start with nothing); when no such step is left, everybody has published everything and holds its secret key, and the key anybody computes is that of a run without crashes with these secret keys. Parties that keep going in any order therefore agree on such a key sooner or later, with no fairness among them. Likewise, once nobody votes any more, aggregator and key holders of a poll can do at most (users + 1 + key holders) such steps; when none is left and somebody has voted, the destination gets its result and everybody who has voted is in the tally stored by the aggregator. If moreover the aggregator closes the poll only when everybody who has voted is counted, everybody who has voted is in the published tally when no such step is left.", "quantifier": "all reachable states of the two protocols with crashes and all continuations in every order, all numbers of parties, users and steps, all randomness and messages", "why_tests_cant": "A test tries one order after one history; termination for every order after every history needs a measure that every step decreases.", "anchors": ["src/keygen.rs: FkeygenPartial, combineEKs, genP1share, combineP1share, keygenFinal", "src/encryption.rs: encrypt_decomposed_message, add_cts, re_encrypt_share, combine_re_encrypt_share, decrypt_to_chunks_after_re_encryption", "src/tests.rs: test_encrypt_re_encrypt_decrypt"]}
