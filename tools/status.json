{
 "C01": [
  "proved",
  "Exact domain of Modulus::new, reported value, and which panic outside."
 ],
 "C02": [
  "proved",
  "All four reductions and their vector forms, both build profiles."
 ],
 "C03": [
  "proved",
  "Lazy reductions and reduce_ct."
 ],
 "C04": [
  "proved",
  "Scalar and vector operations; vector tail behaviour included."
 ],
 "C05": [
  "proved",
  "Shoup products, scalar_mul_vec (lazy outputs)."
 ],
 "C06": [
  "proved",
  "pow, inv, inv_vec."
 ],
 "C07": [
  "partial",
  "The claim is FALSE of the code: bits() computes u64::MAX - leading_zeros. c07_bits_wrong proves the negation for every modulus; c07_bits_partial gives the value actually returned."
 ],
 "C08": [
  "proved",
  "bit_vector, decompose_bits, and both panic cases."
 ],
 "C09": [
  "proved",
  "Exact stream windows, bounds, panics; RNG = arbitrary word stream."
 ],
 "C10": [
  "proved",
  "Result is the greatest admissible prime iff one exists; termination is by construction (well-founded loops). is_prime is modelled as exact primality."
 ],
 "C11": [
  "proved",
  "Termination of the inner loop, sizes, congruence, distinctness and coprimality."
 ],
 "C12": [
  "proved",
  "All U256 operations used by the crate."
 ],
 "C13": [
  "proved",
  "ilog2, div_ceil."
 ],
 "C14": [
  "proved",
  "Structure of every returned operator for every sampler outcome; success criterion; rejection of unsuitable parameters. In-bounds accesses of forward/backward follow from c15/c16 (.ok results with checked accesses)."
 ],
 "C15": [
  "proved",
  "Inputs below 4p, both profiles."
 ],
 "C16": [
  "proved",
  "Both compositions; wrong lengths panic."
 ],
 "C17": [
  "proved",
  "Against an explicit negacyclic convolution."
 ],
 "C18": [
  "proved",
  "new succeeds exactly for pairwise coprime moduli in [2,2^62); lift and project are mutually inverse; lift is additive."
 ],
 "C19": [
  "partial",
  "False as stated: src/rns.rs drops carries when the quotient v has 66 bits or more; c19_dropped_carry is a run with fourteen 62-bit moduli. c19_scale_partial proves the claim when den divides num*Q or the residues sum to less than 2^65; c19_scale_eight shows that this covers every input with at most eight moduli. c19_scale_error describes the result for every input, dropped carries included (off by 2k with 4|k| at most the sum of the residues); c19_scale_sixteen gives the error 4 + 1/2 + 2^-60 for at most sixteen moduli."
 ],
 "C20": [
  "proved",
  "Round trips, identity, NttShoup panic; existence of contexts; every valid polynomial denotes integers unique modulo Q."
 ],
 "C21": [
  "proved",
  "add, sub, neg, mul, mul by BigUint are the operations modulo X^N+1 and Q; non-NTT operands panic."
 ],
 "C22": [
  "proved",
  "Both representations, all odd exponents, degree up to 2^31; even exponents panic."
 ],
 "C23": [
  "proved",
  "Nearest-integer rounding, next context, both panics."
 ],
 "C24": [
  "proved",
  "switch_iterations characterised for every target; mod_switch_to performs exactly those roundings."
 ],
 "C25": [
  "proved",
  "Three imports, export, round trip, too-long vectors panic."
 ],
 "C26": [
  "partial",
  "Exact domain proved: c26_scale_one_iff shows that the claim holds for two contexts if and only if the agreeing positions of their bases form a prefix (proof of 'if' with the sharp bound: c26_scale_one_partial). c26_not_prefix is a concrete run outside the domain."
 ],
 "C27": [
  "proved",
  "Poly encoding round trip; too many values panic."
 ],
 "C28": [
  "partial",
  "FALSE of the code: matrix_reps_index_map omits a shift and slots coincide. c28_simd_not_round_trip proves the failure for every degree; c28_round_trip_iff_partial says exactly which vectors survive, c28_capacity which slots coincide (5N/8 are different) and c28_survivors that t^(5N/8) of the t^N vectors survive."
 ],
 "C29": [
  "proved",
  "Exact rounding bound of to_poly."
 ],
 "C30": [
  "proved",
  "All keys, messages and tapes at level 0; explicit noise bound 2 t variance + 2 t; decryption is total on well-formed ciphertexts; degree of the ciphertext arbitrary."
 ],
 "C31": [
  "partial",
  "FALSE of the code: encrypt_poly stores level 0. c31_lower_level_fails proves that decryption then panics for every key, message and randomness; c31_lower_level_partial shows correctness once the level field is corrected."
 ],
 "C32": [
  "proved",
  "Two-component ciphertexts; exact phases, noise growth, decryption, mismatch panics."
 ],
 "C33": [
  "partial",
  "FALSE of the code: the polynomial is added to both components. c33_add_poly_wrong proves the violation for every nonzero key; c33_add_poly_partial gives the exact phase."
 ],
 "C34": [
  "proved",
  "Poly, Plaintext and BigUint operands; exact phases and noise growth."
 ],
 "C35": [
  "partial",
  "The claim is FALSE of the code: cs[i+j] is overwritten instead of accumulated. c35_mul_wrong: for every message there are a key and tapes whose two encryptions multiply to a ciphertext decrypting to 0. c35_mul_partial states the exact components computed; missing is the cross term F0*G1 of the middle component."
 ],
 "C36": [
  "proved",
  "Every key, tape and polynomial at equal ciphertext and key level; explicit error bound; mismatches panic."
 ],
 "C37": [
  "proved",
  "Every odd exponent, degree at most 2^31 (c22); error bound, message transformation, level panic."
 ],
 "C38": [
  "proved",
  "Both input representations."
 ],
 "C39": [
  "proved",
  "encrypt and encrypt_poly, every level; error bound and message-level statement."
 ],
 "C40": [
  "proved",
  "Assembled keys and RGSW ciphertexts satisfy the same predicate as encrypted ones, with explicit errors."
 ],
 "C41": [
  "partial",
  "build yields working keys for all keys and randomness; the expansion loops are right for every ciphertext given the monomials X^(-2^i); unpack itself panics for every ciphertext because gen_x_pows asks for even exponents (proved)"
 ],
 "C42": [
  "partial",
  "One-hot structure and length proved for every query of the right shape; coordinates out of range panic. The size test is weaker than stated: c42_size_wrong accepts 17 rows for sizes 4,2,2; c42_accepts_partial gives the exact accepted range."
 ],
 "C43": [
  "proved",
  "Server::new and the folding of decode, for every shape first_dim*dim^(d-1), every database and every coordinates; exactly one result, encoding the addressed row, with an explicit noise bound."
 ],
 "C44": [
  "partial",
  "decode panics for every query (proved: gen_x_pows). With the monomials X^(-2^i) given instead, the answer decrypts to the addressed row for all databases, coordinates, keys and randomness within an explicit noise bound, assuming the dimension count is right (C53)."
 ],
 "C45": [
  "partial",
  "Terminates and gives first_dim + dim*k for dim >= 2 (k minimal; exact for first_dim*dim^k rows). False for dim = 1: c45_diverges(_release)."
 ],
 "C46": [
  "proved",
  "Exact decrypted value in terms of the accumulated error, round trip within [-q/4, q/2-q/4), and unconditionally when m*2*variance fits."
 ],
 "C47": [
  "partial",
  "False as stated: c47_default_wrong exhibits key, error and selector choices decrypting 0000 as 1111. c47_default_iff_partial says exactly for which errors the bits come back (in particular for selectors with at most 4095 ones or errors in [-16384,16384), c47_default_partial). C69 bounds the probability of failure."
 ],
 "C48": [
  "proved",
  "Bit length of the largest centered coefficient of phase minus ideal message."
 ],
 "C49": [
  "proved",
  "Sum of products for every non-empty list; length mismatch and empty lists panic."
 ],
 "C50": [
  "proved",
  "multiply_with_strategy encodes the product with an explicit noise bound; needs N * 2^(number of moduli) <= 2^57 so that the tensor product does not wrap the extended modulus. Never panics on well-formed operands; mismatches panic."
 ],
 "C51": [
  "proved",
  "Structure of every level, success criterion of the constructor, ctx_level."
 ],
 "C52": [
  "proved",
  "All scalers built by the library satisfy den | num*Q."
 ],
 "C53": [
  "partial",
  "c53_dimensions_iff characterises exactly when the count is right for dim >= 2 (dim^k < 2^((k+1)*log2 dim)); it is right for every power of two and for k <= 1 (c53_two_dimensions_partial). False otherwise: c53_dimensions_wrong (dim = 3, 9 chunks gives 4 dimensions); dim = 1 divides by zero."
 ],
 "C54": [
  "proved",
  "process modelled with parameters, D and clues as arguments (the code hardcodes default, 64 and an empty vector)."
 ],
 "C55": [
  "partial",
  "The operations act on the first two components and drop the rest (proved exactly). Violated for three components: c55_linear_wrong."
 ],
 "C56": [
  "partial",
  "Violated: c56_panics (every polynomial of every context); it returns only when there is no coefficient."
 ],
 "C57": [
  "proved",
  ""
 ],
 "C58": [
  "proved",
  "In power basis inverse is coefficientwise: c58_power_basis."
 ],
 "C59": [
  "partial",
  "Right for ct_level >= ksk_level (c59_switch_partial). Violated for ct_level < ksk_level: the rows of the missing moduli are zero, c59_low_partial says what is computed and c59_low_wrong that it is wrong."
 ],
 "C60": [
  "proved",
  "By induction on circuits, worst-case noise; inputs and keys as produced by the library (c60_fresh)."
 ],
 "C61": [
  "proved",
  "The ciphertext operation is composed from change_representation and mod_switch_to; the code has no such function."
 ],
 "C62": [
  "proved",
  ""
 ],
 "C63": [
  "partial",
  "Right for degrees 8, 16, 32 and 64 (c63_default_partial; c63_default_up_to_27_partial exhibits the primes). Violated for every other degree: the fixed plaintext modulus 1153 has no NTT (c63_default_degrees, c63_default_panics). c63_generate_then_new is the general statement for other plaintext moduli."
 ],
 "C64": [
  "partial",
  "Proved with the monomials X^(-2^i) given in place of the result of gen_x_pows and for every dim for which decode counts the dimensions right (c53_dimensions_iff). decode as written always panics (c44_decode_panics). c64_noise_fits discharges the noise hypothesis of C44."
 ],
 "C65": [
  "proved",
  ""
 ],
 "C66": [
  "partial",
  "Proved for the NTT and, within range, for the scaler (c66_scale_partial). Violated by RnsScaler::scale in release builds: its bounds are checked by debug_assert! only; c66_scale_release says exactly for which arguments it reads out of bounds."
 ],
 "C67": [
  "partial",
  "Proved for the checks the code makes. Violated where it makes none: sums and products of polynomials do not compare contexts (c67_contexts_not_compared); ciphertext multiplication, decryption and the external product ignore the parameters of the ciphertext (c67_params_not_compared)."
 ],
 "C68": [
  "proved",
  ""
 ],
 "C69": [
  "proved",
  ""
 ],
 "C70": [
  "proved",
  ""
 ],
 "C71": [
  "proved",
  ""
 ],
 "C72": [
  "proved",
  ""
 ],
 "C73": [
  "partial",
  "The first row is rotated (proved for plaintexts and ciphertexts). The second row never is, and the rows are not exchanged: slot N/2+i evaluates at the exponent -(2*3^i+1) instead of -3^i because of the index map (C28); for the message X every slot of the second row is wrong (c73_second_row_wrong, c73_swap_wrong)."
 ],
 "C74": [
  "proved",
  ""
 ],
 "C75": [
  "proved",
  ""
 ],
 "C76": [
  "proved",
  ""
 ],
 "C77": [
  "proved",
  ""
 ],
 "C78": [
  "proved",
  ""
 ],
 "C79": [
  "proved",
  ""
 ],
 "C80": [
  "proved",
  "About corrected copies of the defective functions (lean/Verif/Model/Repair.lean), which are not repository code; the corresponding statements about the repository are the restricted theorems and counterexamples of C07, C19, C26, C28, C31, C33, C35, C41, C42, C44, C45, C47, C53, C55, C56, C59, C63, C64, C66, C67 and C73. The correction for C56 needs enough digits for the moduli (c80_bit_decomposition_short, c80_bit_decomposition_shipped)."
 ],
 "C81": [
  "proved",
  "Reduction: decision LWE itself is an assumption. The generator's values are assumed uniform."
 ],
 "C82": [
  "proved",
  "Reduction: decision RLWE itself is an assumption. The generator's values are assumed uniform. RGSW encryptions of the key itself, relinearization and Galois keys have non-affine sources and are not covered."
 ],
 "C83": [
  "proved",
  "The composition (Spec.omrRun) is not a function of the repository, which stops after packing; every function it calls is. The existence of the transform for the PVW modulus is a hypothesis (C14 says when it is built)."
 ],
 "C84": [
  "proved",
  "Out-of-range get_unchecked accesses are the outcome `bounds` in both builds of the model (C66 says when they cannot happen); loops that may not terminate run with explicit fuel."
 ],
 "C85": [
  "proved",
  "Substitution needs N ≤ 2^31, as in C22."
 ],
 "C86": [
  "proved",
  "The code seeds its generator with 0, so for each q it sees one particular sequence; the count is over all sequences."
 ],
 "C87": [
  "partial",
  "decode itself panics in gen_x_pows (C41, C44): proved in full for the folding, and end to end with the monomials given in place of the result of gen_x_pows."
 ],
 "C88": [
  "proved",
  "The words of the generators (ChaCha8, thread_rng) are taken to be uniform; the crates' samplers are modelled from their published source."
 ],
 "C89": [
  "proved",
  "ChaCha8, seed_from_u64 and gen_range are modelled from the published source of the crates; known-answer examples in Props/Random."
 ],
 "C90": [
  "proved",
  "The bodies are modelled after the construction of the parameters, which C89 covers."
 ],
 "C91": [
  "proved",
  "The statements on add, sub and neg in the release build are for moduli that do not divide 2^64 (all odd moduli). c91_inv_composite is a witness that inv needs a prime, which the type does not enforce."
 ],
 "C92": [
  "proved",
  "Vectors of a wrong length panic in both builds (C16). Nothing is said about the values the release build returns outside of the ranges."
 ],
 "C93": [
  "proved",
  "The trace is that of the source text: the compiler, the processor and the dependencies (drawing random numbers, big integers, ndarray) are not modelled."
 ],
 "C94": [
  "proved",
  "About the tests with gen_x_pows corrected (Model/Repair); as shipped they panic (C71). The printing lines after the trial decryptions of unpack_decomp are not modelled."
 ],
 "C95": [
  "proved",
  "Format {:?}. The types that contain an ndarray array (Poly and what contains it) and the indented format {:#?} are not modelled. Finding: SecretKey derives Debug and prints the key."
 ],
 "C96": [
  "proved",
  "The crates sha2 and rand_chacha are modelled from their published portable source. That the key stream is pseudorandom is not a theorem; C77, C79 and C82 count tapes."
 ],
 "C97": [
  "partial",
  "False as stated. Exact domain proved if t n^2 < 2^64 for n moduli: c97_encrypt_decrypt_iff (all messages come back if and only if 3t < 2 q0), c97_exact says what comes back. Without that bound: c97_encrypt_decrypt_partial (13t + 4 < 8 q0) and c97_narrow_fails."
 ],
 "C98": [
  "proved",
  "The crate is modelled from its published source. That no composite below 2^64 passes the test is a computation of the literature and stays an assumption (hypothesis of c98_is_prime); elsewhere the model uses primality for is_prime."
 ],
 "C99": [
  "proved",
  "Server and expansion: the corrected copies of C80 (the code panics on every query, C44). Data of another shape is the subject of C67 and C73."
 ],
 "C100": [
  "proved",
  "A reduction to RLWE with the evaluation keys as auxiliary information, as C79. The choices may not depend on what the client decrypts."
 ],
 "C101": [
  "proved",
  "A property of BFV without authentication, not a deviation of the code; it bounds what C79 and C100 can promise."
 ],
 "C102": [
  "proved",
  "End-to-end part for the corrected decode (C80); the folding part is about the code as it is."
 ],
 "C103": [
  "proved",
  "About the folding loops of decode with given selectors."
 ],
 "C104": [
  "proved",
  "The size of the answer is about the corrected decode of C80."
 ],
 "C105": [
  "proved",
  "The end-to-end theorem c105_answer is about the corrected decode of C80; the two _partial theorems are about the code's decode with the monomials given in place of the result of gen_x_pows."
 ],
 "C106": [
  "proved",
  ""
 ],
 "C107": [
  "proved",
  ""
 ],
 "C108": [
  "proved",
  "About the corrected decode of C80; the operation on ciphertexts (Spec.switchCt) is not in the code, which has mod_switch_to for polynomials."
 ],
 "C109": [
  "proved",
  ""
 ],
 "C110": [
  "proved",
  ""
 ],
 "C111": [
  "proved",
  ""
 ],
 "C112": [
  "proved",
  ""
 ],
 "C113": [
  "proved",
  ""
 ],
 "C114": [
  "proved",
  ""
 ],
 "C115": [
  "proved",
  ""
 ],
 "C116": [
  "proved",
  ""
 ],
 "C117": [
  "proved",
  ""
 ],
 "C118": [
  "proved",
  ""
 ],
 "C119": [
  "proved",
  ""
 ],
 "C120": [
  "proved",
  ""
 ],
 "C121": [
  "proved",
  ""
 ],
 "C122": [
  "proved",
  ""
 ],
 "C123": [
  "proved",
  ""
 ],
 "C124": [
  "proved",
  ""
 ],
 "C125": [
  "proved",
  ""
 ],
 "C126": [
  "proved",
  ""
 ],
 "C127": [
  "proved",
  ""
 ],
 "C128": [
  "proved",
  ""
 ],
 "C129": [
  "proved",
  ""
 ],
 "C130": [
  "proved",
  ""
 ],
 "C131": [
  "proved",
  ""
 ],
 "C132": [
  "proved",
  "Together with C28: c132_round_trip says what comes back for every vector, not only for those that survive."
 ],
 "C133": [
  "proved",
  ""
 ],
 "C134": [
  "proved",
  ""
 ],
 "C135": [
  "proved",
  ""
 ],
 "C136": [
  "proved",
  ""
 ],
 "C137": [
  "proved",
  ""
 ],
 "C138": [
  "proved",
  ""
 ],
 "C139": [
  "proved",
  ""
 ],
 "C140": [
  "proved",
  ""
 ],
 "C141": [
  "proved",
  ""
 ],
 "C142": [
  "proved",
  ""
 ]
}