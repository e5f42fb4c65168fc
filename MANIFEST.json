{
 "claims": [
  {
   "property": "C01",
   "status": "proved",
   "theorems": [
    "OnionPIR.c01_modulus_new",
    "OnionPIR.c01_modulus_value",
    "OnionPIR.c01_modulus_panics"
   ],
   "note": "Exact domain of Modulus::new, reported value, and which panic outside."
  },
  {
   "property": "C02",
   "status": "proved",
   "theorems": [
    "OnionPIR.c02_reduce",
    "OnionPIR.c02_reduce_u128",
    "OnionPIR.c02_reduce_i64",
    "OnionPIR.c02_reduce_biguint",
    "OnionPIR.c02_reduce_vec_u64",
    "OnionPIR.c02_reduce_vec_i64",
    "OnionPIR.c02_reduce_vec_biguint",
    "OnionPIR.c02_unique"
   ],
   "note": "All four reductions and their vector forms, both build profiles."
  },
  {
   "property": "C03",
   "status": "proved",
   "theorems": [
    "OnionPIR.c03_lazy_reduce_ct",
    "OnionPIR.c03_lazy_reduce_u128",
    "OnionPIR.c03_reduce_ct"
   ],
   "note": "Lazy reductions and reduce_ct."
  },
  {
   "property": "C04",
   "status": "proved",
   "theorems": [
    "OnionPIR.c04_add",
    "OnionPIR.c04_sub",
    "OnionPIR.c04_mul",
    "OnionPIR.c04_neg",
    "OnionPIR.c04_vec",
    "OnionPIR.c04_neg_vec"
   ],
   "note": "Scalar and vector operations; vector tail behaviour included."
  },
  {
   "property": "C05",
   "status": "proved",
   "theorems": [
    "OnionPIR.c05_shoup",
    "OnionPIR.c05_scalar_mul_vec"
   ],
   "note": "Shoup products, scalar_mul_vec (lazy outputs)."
  },
  {
   "property": "C06",
   "status": "proved",
   "theorems": [
    "OnionPIR.c06_pow",
    "OnionPIR.c06_inv",
    "OnionPIR.c06_inv_vec"
   ],
   "note": "pow, inv, inv_vec."
  },
  {
   "property": "C07",
   "status": "partial",
   "theorems": [
    "OnionPIR.c07_bits_wrong",
    "OnionPIR.c07_bits_partial"
   ],
   "note": "The claim is FALSE of the code: bits() computes u64::MAX - leading_zeros. c07_bits_wrong proves the negation for every modulus; c07_bits_partial gives the value actually returned."
  },
  {
   "property": "C08",
   "status": "proved",
   "theorems": [
    "OnionPIR.c08_bit_vector",
    "OnionPIR.c08_bit_vector_panics",
    "OnionPIR.c08_capacity_panics",
    "OnionPIR.c08_decompose_bits",
    "OnionPIR.c08_decompose_bits_panics",
    "OnionPIR.c08_zero_chunk_panics"
   ],
   "note": "bit_vector, decompose_bits, and both panic cases."
  },
  {
   "property": "C09",
   "status": "proved",
   "theorems": [
    "OnionPIR.c09_sample_vec_cbd",
    "OnionPIR.c09_bounded",
    "OnionPIR.c09_panics"
   ],
   "note": "Exact stream windows, bounds, panics; RNG = arbitrary word stream."
  },
  {
   "property": "C10",
   "status": "proved",
   "theorems": [
    "OnionPIR.c10_generate_prime",
    "OnionPIR.c10_none_iff",
    "OnionPIR.c10_out_of_range"
   ],
   "note": "Result is the greatest admissible prime iff one exists; termination is by construction (well-founded loops). is_prime is modelled as exact primality."
  },
  {
   "property": "C11",
   "status": "proved",
   "theorems": [
    "OnionPIR.c11_generate_moduli",
    "OnionPIR.c11_terminates",
    "OnionPIR.c11_panics_on_size"
   ],
   "note": "Termination of the inner loop, sizes, congruence, distinctness and coprimality."
  },
  {
   "property": "C12",
   "status": "proved",
   "theorems": [
    "OnionPIR.c12_wrapping_add",
    "OnionPIR.c12_wrapping_sub",
    "OnionPIR.c12_not",
    "OnionPIR.c12_msb",
    "OnionPIR.c12_shr",
    "OnionPIR.c12_of_u128s",
    "OnionPIR.c12_to_u128"
   ],
   "note": "All U256 operations used by the crate."
  },
  {
   "property": "C13",
   "status": "proved",
   "theorems": [
    "OnionPIR.c13_ilog2_zero",
    "OnionPIR.c13_ilog2",
    "OnionPIR.c13_div_ceil",
    "OnionPIR.c13_div_ceil_zero"
   ],
   "note": "ilog2, div_ceil."
  },
  {
   "property": "C14",
   "status": "proved",
   "theorems": [
    "OnionPIR.c14_new",
    "OnionPIR.c14_new_succeeds",
    "OnionPIR.c14_new_rejects"
   ],
   "note": "Structure of every returned operator for every sampler outcome; success criterion; rejection of unsuitable parameters. In-bounds accesses of forward/backward follow from c15/c16 (.ok results with checked accesses)."
  },
  {
   "property": "C15",
   "status": "proved",
   "theorems": [
    "OnionPIR.c15_forward"
   ],
   "note": "Inputs below 4p, both profiles."
  },
  {
   "property": "C16",
   "status": "proved",
   "theorems": [
    "OnionPIR.c16_backward_forward",
    "OnionPIR.c16_forward_backward",
    "OnionPIR.c16_wrong_length"
   ],
   "note": "Both compositions; wrong lengths panic."
  },
  {
   "property": "C17",
   "status": "proved",
   "theorems": [
    "OnionPIR.c17_convolution"
   ],
   "note": "Against an explicit negacyclic convolution."
  },
  {
   "property": "C18",
   "status": "proved",
   "theorems": [
    "OnionPIR.c18_new_iff",
    "OnionPIR.c18_modulus",
    "OnionPIR.c18_lift_project",
    "OnionPIR.c18_project_lift",
    "OnionPIR.c18_lift_add"
   ],
   "note": "new succeeds exactly for pairwise coprime moduli in [2,2^62); lift and project are mutually inverse; lift is additive."
  },
  {
   "property": "C19",
   "status": "partial",
   "theorems": [
    "OnionPIR.c19_new_succeeds",
    "OnionPIR.c19_zero_denominator",
    "OnionPIR.c19_scale_error",
    "OnionPIR.c19_scale_partial",
    "OnionPIR.c19_scale_eight",
    "OnionPIR.c19_scale_sixteen",
    "OnionPIR.c19_dropped_carry"
   ],
   "note": "False as stated: src/rns.rs drops carries when the quotient v has 66 bits or more; c19_dropped_carry is a run with fourteen 62-bit moduli. c19_scale_partial proves the claim when den divides num*Q or the residues sum to less than 2^65; c19_scale_eight shows that this covers every input with at most eight moduli. c19_scale_error describes the result for every input, dropped carries included (off by 2k with 4|k| at most the sum of the residues); c19_scale_sixteen gives the error 4 + 1/2 + 2^-60 for at most sixteen moduli."
  },
  {
   "property": "C20",
   "status": "proved",
   "theorems": [
    "OnionPIR.c20_context_exists",
    "OnionPIR.c20_denotes",
    "OnionPIR.c20_denotes_unique",
    "OnionPIR.c20_round_trip",
    "OnionPIR.c20_same",
    "OnionPIR.c20_ntt_shoup"
   ],
   "note": "Round trips, identity, NttShoup panic; existence of contexts; every valid polynomial denotes integers unique modulo Q."
  },
  {
   "property": "C21",
   "status": "proved",
   "theorems": [
    "OnionPIR.c21_add",
    "OnionPIR.c21_sub",
    "OnionPIR.c21_neg",
    "OnionPIR.c21_mul",
    "OnionPIR.c21_mul_big",
    "OnionPIR.c21_power_basis_panics"
   ],
   "note": "add, sub, neg, mul, mul by BigUint are the operations modulo X^N+1 and Q; non-NTT operands panic."
  },
  {
   "property": "C22",
   "status": "proved",
   "theorems": [
    "OnionPIR.c22_substitute",
    "OnionPIR.c22_even"
   ],
   "note": "Both representations, all odd exponents, degree up to 2^31; even exponents panic."
  },
  {
   "property": "C23",
   "status": "proved",
   "theorems": [
    "OnionPIR.c23_switch",
    "OnionPIR.c23_last_level",
    "OnionPIR.c23_ntt_panics"
   ],
   "note": "Nearest-integer rounding, next context, both panics."
  },
  {
   "property": "C24",
   "status": "proved",
   "theorems": [
    "OnionPIR.c24_chain",
    "OnionPIR.c24_switch_to",
    "OnionPIR.c24_unreachable"
   ],
   "note": "switch_iterations characterised for every target; mod_switch_to performs exactly those roundings."
  },
  {
   "property": "C25",
   "status": "proved",
   "theorems": [
    "OnionPIR.c25_from_u64",
    "OnionPIR.c25_from_i64",
    "OnionPIR.c25_from_bigint",
    "OnionPIR.c25_export",
    "OnionPIR.c25_to_u64",
    "OnionPIR.c25_round_trip",
    "OnionPIR.c25_too_long"
   ],
   "note": "Three imports, export, round trip, too-long vectors panic."
  },
  {
   "property": "C26",
   "status": "partial",
   "theorems": [
    "OnionPIR.c26_scale_one_partial",
    "OnionPIR.c26_not_prefix",
    "OnionPIR.c26_scale_one_iff"
   ],
   "note": "Exact domain proved: c26_scale_one_iff shows that the claim holds for two contexts if and only if the agreeing positions of their bases form a prefix (proof of 'if' with the sharp bound: c26_scale_one_partial). c26_not_prefix is a concrete run outside the domain."
  },
  {
   "property": "C27",
   "status": "proved",
   "theorems": [
    "OnionPIR.c27_poly_round_trip",
    "OnionPIR.c27_too_long"
   ],
   "note": "Poly encoding round trip; too many values panic."
  },
  {
   "property": "C28",
   "status": "partial",
   "theorems": [
    "OnionPIR.c28_simd_round_trip_partial",
    "OnionPIR.c28_simd_not_round_trip",
    "OnionPIR.c28_round_trip_iff_partial",
    "OnionPIR.c28_capacity",
    "OnionPIR.c28_survivors"
   ],
   "note": "FALSE of the code: matrix_reps_index_map omits a shift and slots coincide. c28_simd_not_round_trip proves the failure for every degree; c28_round_trip_iff_partial says exactly which vectors survive, c28_capacity which slots coincide (5N/8 are different) and c28_survivors that t^(5N/8) of the t^N vectors survive."
  },
  {
   "property": "C29",
   "status": "proved",
   "theorems": [
    "OnionPIR.c29_to_poly"
   ],
   "note": "Exact rounding bound of to_poly."
  },
  {
   "property": "C30",
   "status": "proved",
   "theorems": [
    "OnionPIR.c30_components",
    "OnionPIR.c30_decrypt",
    "OnionPIR.c30_decrypt_total",
    "OnionPIR.c30_encrypt_components",
    "OnionPIR.c30_encrypt_poly",
    "OnionPIR.c30_encrypt",
    "OnionPIR.c30_encrypt_decrypt",
    "OnionPIR.c30_generate"
   ],
   "note": "All keys, messages and tapes at level 0; explicit noise bound 2 t variance + 2 t; decryption is total on well-formed ciphertexts; degree of the ciphertext arbitrary."
  },
  {
   "property": "C31",
   "status": "partial",
   "theorems": [
    "OnionPIR.c31_lower_level_fails",
    "OnionPIR.c31_lower_level_partial"
   ],
   "note": "FALSE of the code: encrypt_poly stores level 0. c31_lower_level_fails proves that decryption then panics for every key, message and randomness; c31_lower_level_partial shows correctness once the level field is corrected."
  },
  {
   "property": "C32",
   "status": "proved",
   "theorems": [
    "OnionPIR.c32_add",
    "OnionPIR.c32_sub",
    "OnionPIR.c32_decrypts",
    "OnionPIR.c32_mismatch"
   ],
   "note": "Two-component ciphertexts; exact phases, noise growth, decryption, mismatch panics."
  },
  {
   "property": "C33",
   "status": "partial",
   "theorems": [
    "OnionPIR.c33_add_poly_partial",
    "OnionPIR.c33_add_poly_wrong",
    "OnionPIR.c33_exists_poly"
   ],
   "note": "FALSE of the code: the polynomial is added to both components. c33_add_poly_wrong proves the violation for every nonzero key; c33_add_poly_partial gives the exact phase."
  },
  {
   "property": "C34",
   "status": "proved",
   "theorems": [
    "OnionPIR.c34_mul_poly",
    "OnionPIR.c34_mul_plain",
    "OnionPIR.c34_mul_plain_level",
    "OnionPIR.c34_mul_big"
   ],
   "note": "Poly, Plaintext and BigUint operands; exact phases and noise growth."
  },
  {
   "property": "C35",
   "status": "partial",
   "theorems": [
    "OnionPIR.c35_mul_partial",
    "OnionPIR.c35_mul_wrong"
   ],
   "note": "The claim is FALSE of the code: cs[i+j] is overwritten instead of accumulated. c35_mul_wrong: for every message there are a key and tapes whose two encryptions multiply to a ciphertext decrypting to 0. c35_mul_partial states the exact components computed; missing is the cross term F0*G1 of the middle component."
  },
  {
   "property": "C36",
   "status": "proved",
   "theorems": [
    "OnionPIR.c36_new",
    "OnionPIR.c36_key_switch",
    "OnionPIR.c36_mismatch",
    "OnionPIR.c36_bound"
   ],
   "note": "Every key, tape and polynomial at equal ciphertext and key level; explicit error bound; mismatches panic."
  },
  {
   "property": "C37",
   "status": "proved",
   "theorems": [
    "OnionPIR.c37_galois",
    "OnionPIR.c37_single_modulus"
   ],
   "note": "Every odd exponent, degree at most 2^31 (c22); error bound, message transformation, level panic."
  },
  {
   "property": "C38",
   "status": "proved",
   "theorems": [
    "OnionPIR.c38_relinearize"
   ],
   "note": "Both input representations."
  },
  {
   "property": "C39",
   "status": "proved",
   "theorems": [
    "OnionPIR.c39_encrypt_poly",
    "OnionPIR.c39_encrypt",
    "OnionPIR.c39_external_product"
   ],
   "note": "encrypt and encrypt_poly, every level; error bound and message-level statement."
  },
  {
   "property": "C40",
   "status": "proved",
   "theorems": [
    "OnionPIR.c40_assembled_ksk",
    "OnionPIR.c40_assembled_rgsw",
    "OnionPIR.c40_rlwe",
    "OnionPIR.c40_garner"
   ],
   "note": "Assembled keys and RGSW ciphertexts satisfy the same predicate as encrypted ones, with explicit errors."
  },
  {
   "property": "C41",
   "status": "partial",
   "theorems": [
    "OnionPIR.c41_build",
    "OnionPIR.c41_unpack_partial",
    "OnionPIR.c41_unpack_panics"
   ],
   "note": "build yields working keys for all keys and randomness; the expansion loops are right for every ciphertext given the monomials X^(-2^i); unpack itself panics for every ciphertext because gen_x_pows asks for even exponents (proved)"
  },
  {
   "property": "C42",
   "status": "partial",
   "theorems": [
    "OnionPIR.c42_encode",
    "OnionPIR.c42_accepts_partial",
    "OnionPIR.c42_empty",
    "OnionPIR.c42_size_wrong"
   ],
   "note": "One-hot structure and length proved for every query of the right shape; coordinates out of range panic. The size test is weaker than stated: c42_size_wrong accepts 17 rows for sizes 4,2,2; c42_accepts_partial gives the exact accepted range."
  },
  {
   "property": "C43",
   "status": "proved",
   "theorems": [
    "OnionPIR.c43_new",
    "OnionPIR.c43_select"
   ],
   "note": "Server::new and the folding of decode, for every shape first_dim*dim^(d-1), every database and every coordinates; exactly one result, encoding the addressed row, with an explicit noise bound."
  },
  {
   "property": "C44",
   "status": "partial",
   "theorems": [
    "OnionPIR.c44_decode_partial",
    "OnionPIR.c44_query",
    "OnionPIR.c44_answer_partial",
    "OnionPIR.c44_decode_panics"
   ],
   "note": "decode panics for every query (proved: gen_x_pows). With the monomials X^(-2^i) given instead, the answer decrypts to the addressed row for all databases, coordinates, keys and randomness within an explicit noise bound, assuming the dimension count is right (C53)."
  },
  {
   "property": "C45",
   "status": "partial",
   "theorems": [
    "OnionPIR.c45_no_of_cts",
    "OnionPIR.c45_partial",
    "OnionPIR.c45_diverges",
    "OnionPIR.c45_diverges_release",
    "OnionPIR.c45_zero"
   ],
   "note": "Terminates and gives first_dim + dim*k for dim >= 2 (k minimal; exact for first_dim*dim^k rows). False for dim = 1: c45_diverges(_release)."
  },
  {
   "property": "C46",
   "status": "proved",
   "theorems": [
    "OnionPIR.c46_value",
    "OnionPIR.c46_roundtrip",
    "OnionPIR.c46_always"
   ],
   "note": "Exact decrypted value in terms of the accumulated error, round trip within [-q/4, q/2-q/4), and unconditionally when m*2*variance fits."
  },
  {
   "property": "C47",
   "status": "partial",
   "theorems": [
    "OnionPIR.c47_default_partial",
    "OnionPIR.c47_default_iff_partial",
    "OnionPIR.c47_default_wrong"
   ],
   "note": "False as stated: c47_default_wrong exhibits key, error and selector choices decrypting 0000 as 1111. c47_default_iff_partial says exactly for which errors the bits come back (in particular for selectors with at most 4095 ones or errors in [-16384,16384), c47_default_partial). C69 bounds the probability of failure."
  },
  {
   "property": "C48",
   "status": "proved",
   "theorems": [
    "OnionPIR.c48_measure_noise"
   ],
   "note": "Bit length of the largest centered coefficient of phase minus ideal message."
  },
  {
   "property": "C49",
   "status": "proved",
   "theorems": [
    "OnionPIR.c49_inner_product",
    "OnionPIR.c49_mismatch",
    "OnionPIR.c49_empty"
   ],
   "note": "Sum of products for every non-empty list; length mismatch and empty lists panic."
  },
  {
   "property": "C50",
   "status": "proved",
   "theorems": [
    "OnionPIR.c50_multiply_total",
    "OnionPIR.c50_multiply",
    "OnionPIR.c50_decrypts",
    "OnionPIR.c50_mismatch"
   ],
   "note": "multiply_with_strategy encodes the product with an explicit noise bound; needs N * 2^(number of moduli) <= 2^57 so that the tensor product does not wrap the extended modulus. Never panics on well-formed operands; mismatches panic."
  },
  {
   "property": "C51",
   "status": "proved",
   "theorems": [
    "OnionPIR.c51_levels",
    "OnionPIR.c51_ctx_level",
    "OnionPIR.c51_new_succeeds"
   ],
   "note": "Structure of every level, success criterion of the constructor, ctx_level."
  },
  {
   "property": "C52",
   "status": "proved",
   "theorems": [
    "OnionPIR.c52_scale_exact",
    "OnionPIR.c52_scale_few_moduli"
   ],
   "note": "All scalers built by the library satisfy den | num*Q."
  },
  {
   "property": "C53",
   "status": "partial",
   "theorems": [
    "OnionPIR.c53_dimensions_partial",
    "OnionPIR.c53_dimensions_iff",
    "OnionPIR.c53_two_dimensions_partial",
    "OnionPIR.c53_dimensions_wrong",
    "OnionPIR.c53_dimensions_one"
   ],
   "note": "c53_dimensions_iff characterises exactly when the count is right for dim >= 2 (dim^k < 2^((k+1)*log2 dim)); it is right for every power of two and for k <= 1 (c53_two_dimensions_partial). False otherwise: c53_dimensions_wrong (dim = 3, 9 chunks gives 4 dimensions); dim = 1 divides by zero."
  },
  {
   "property": "C54",
   "status": "proved",
   "theorems": [
    "OnionPIR.c54_process",
    "OnionPIR.c54_too_many"
   ],
   "note": "process modelled with parameters, D and clues as arguments (the code hardcodes default, 64 and an empty vector)."
  },
  {
   "property": "C55",
   "status": "partial",
   "theorems": [
    "OnionPIR.c55_linear_partial",
    "OnionPIR.c55_phase_partial",
    "OnionPIR.c55_linear_wrong"
   ],
   "note": "The operations act on the first two components and drop the rest (proved exactly). Violated for three components: c55_linear_wrong."
  },
  {
   "property": "C56",
   "status": "partial",
   "theorems": [
    "OnionPIR.c56_step_panics",
    "OnionPIR.c56_panics",
    "OnionPIR.c56_returns_partial"
   ],
   "note": "Violated: c56_panics (every polynomial of every context); it returns only when there is no coefficient."
  },
  {
   "property": "C57",
   "status": "proved",
   "theorems": [
    "OnionPIR.c57_decrypt_trial",
    "OnionPIR.c57_mismatch",
    "OnionPIR.c57_unique",
    "OnionPIR.c57_decrypts"
   ],
   "note": ""
  },
  {
   "property": "C58",
   "status": "proved",
   "theorems": [
    "OnionPIR.c58_inverse",
    "OnionPIR.c58_not_invertible",
    "OnionPIR.c58_release",
    "OnionPIR.c58_power_basis"
   ],
   "note": "In power basis inverse is coefficientwise: c58_power_basis."
  },
  {
   "property": "C59",
   "status": "partial",
   "theorems": [
    "OnionPIR.c59_switch_partial",
    "OnionPIR.c59_low_partial",
    "OnionPIR.c59_low_wrong"
   ],
   "note": "Right for ct_level >= ksk_level (c59_switch_partial). Violated for ct_level < ksk_level: the rows of the missing moduli are zero, c59_low_partial says what is computed and c59_low_wrong that it is wrong."
  },
  {
   "property": "C60",
   "status": "proved",
   "theorems": [
    "OnionPIR.c60_total",
    "OnionPIR.c60_run",
    "OnionPIR.c60_decrypts",
    "OnionPIR.c60_fresh"
   ],
   "note": "By induction on circuits, worst-case noise; inputs and keys as produced by the library (c60_fresh)."
  },
  {
   "property": "C61",
   "status": "proved",
   "theorems": [
    "OnionPIR.c61_poly",
    "OnionPIR.c61_switch",
    "OnionPIR.c61_decrypts",
    "OnionPIR.c61_up"
   ],
   "note": "The ciphertext operation is composed from change_representation and mod_switch_to; the code has no such function."
  },
  {
   "property": "C62",
   "status": "proved",
   "theorems": [
    "OnionPIR.c62_generate_moduli"
   ],
   "note": ""
  },
  {
   "property": "C63",
   "status": "partial",
   "theorems": [
    "OnionPIR.c63_default_degrees",
    "OnionPIR.c63_generate_then_new",
    "OnionPIR.c63_default_partial",
    "OnionPIR.c63_default_up_to_27_partial",
    "OnionPIR.c63_default_panics"
   ],
   "note": "Right for degrees 8, 16, 32 and 64 (c63_default_partial; c63_default_up_to_27_partial exhibits the primes). Violated for every other degree: the fixed plaintext modulus 1153 has no NTT (c63_default_degrees, c63_default_panics). c63_generate_then_new is the general statement for other plaintext moduli."
  },
  {
   "property": "C64",
   "status": "partial",
   "theorems": [
    "OnionPIR.c64_noise_fits",
    "OnionPIR.c64_protocol_partial"
   ],
   "note": "Proved with the monomials X^(-2^i) given in place of the result of gen_x_pows and for every dim for which decode counts the dimensions right (c53_dimensions_iff). decode as written always panics (c44_decode_panics). c64_noise_fits discharges the noise hypothesis of C44."
  },
  {
   "property": "C65",
   "status": "proved",
   "theorems": [
    "OnionPIR.c65_decrypt_rounds",
    "OnionPIR.c65_threshold",
    "OnionPIR.c65_decrypt"
   ],
   "note": ""
  },
  {
   "property": "C66",
   "status": "partial",
   "theorems": [
    "OnionPIR.c66_forward",
    "OnionPIR.c66_backward",
    "OnionPIR.c66_scale_partial",
    "OnionPIR.c66_scale_debug",
    "OnionPIR.c66_scale_release"
   ],
   "note": "Proved for the NTT and, within range, for the scaler (c66_scale_partial). Violated by RnsScaler::scale in release builds: its bounds are checked by debug_assert! only; c66_scale_release says exactly for which arguments it reads out of bounds."
  },
  {
   "property": "C67",
   "status": "partial",
   "theorems": [
    "OnionPIR.c67_poly_partial",
    "OnionPIR.c67_poly_big",
    "OnionPIR.c67_scale",
    "OnionPIR.c67_scaler_new",
    "OnionPIR.c67_to_u64",
    "OnionPIR.c67_add_sub",
    "OnionPIR.c67_add_poly",
    "OnionPIR.c67_mul_poly",
    "OnionPIR.c67_mul_partial",
    "OnionPIR.c67_multiply",
    "OnionPIR.c67_key_switch",
    "OnionPIR.c67_galois",
    "OnionPIR.c67_from_rlwes",
    "OnionPIR.c67_rgsw_encrypt",
    "OnionPIR.c67_rgsw_encrypt_poly",
    "OnionPIR.c67_inner_product",
    "OnionPIR.c67_decode",
    "OnionPIR.c67_decode_refuses",
    "OnionPIR.c67_params_not_compared",
    "OnionPIR.c67_contexts_not_compared"
   ],
   "note": "Proved for the checks the code makes. Violated where it makes none: sums and products of polynomials do not compare contexts (c67_contexts_not_compared); ciphertext multiplication, decryption and the external product ignore the parameters of the ciphertext (c67_params_not_compared)."
  },
  {
   "property": "C68",
   "status": "proved",
   "theorems": [
    "OnionPIR.c68_distribution",
    "OnionPIR.c68_moments",
    "OnionPIR.c68_secret_key"
   ],
   "note": ""
  },
  {
   "property": "C69",
   "status": "proved",
   "theorems": [
    "OnionPIR.c69_failure",
    "OnionPIR.c69_default"
   ],
   "note": ""
  },
  {
   "property": "C70",
   "status": "proved",
   "theorems": [
    "OnionPIR.c70_scaling_factor",
    "OnionPIR.c70_u64s",
    "OnionPIR.c70_shr",
    "OnionPIR.c70_client_new",
    "OnionPIR.c70_accessors",
    "OnionPIR.c70_decode_poly",
    "OnionPIR.c70_rns_fields",
    "OnionPIR.c70_param_fields",
    "OnionPIR.c70_ksk_with_pt",
    "OnionPIR.c70_decode_decrypted",
    "OnionPIR.c70_seed",
    "OnionPIR.c70_to_u128s",
    "OnionPIR.c70_secret_key_new",
    "OnionPIR.c70_client_default",
    "OnionPIR.c70_pvw_new"
   ],
   "note": ""
  },
  {
   "property": "C71",
   "status": "proved",
   "theorems": [
    "OnionPIR.c71_default",
    "OnionPIR.c71_encrypt_decrypt",
    "OnionPIR.c71_encrypt_decrypt_fails",
    "OnionPIR.c71_mul_op",
    "OnionPIR.c71_galois_key",
    "OnionPIR.c71_ksk_with_pt",
    "OnionPIR.c71_ksk_of_error",
    "OnionPIR.c71_ksk",
    "OnionPIR.c71_ksk_71",
    "OnionPIR.c71_external_product",
    "OnionPIR.c71_change_representation",
    "OnionPIR.c71_mod_switch",
    "OnionPIR.c71_bijection",
    "OnionPIR.c71_decompose_bits",
    "OnionPIR.c71_bit_vector",
    "OnionPIR.c71_pvw",
    "OnionPIR.c71_unpack_panics",
    "OnionPIR.c71_client_encode_panics",
    "OnionPIR.c71_unpack_decomp_panics",
    "OnionPIR.c71_pack_panics",
    "OnionPIR.c71_query_panics"
   ],
   "note": ""
  },
  {
   "property": "C72",
   "status": "proved",
   "theorems": [
    "OnionPIR.c72_decode",
    "OnionPIR.c72_decrypt",
    "OnionPIR.c72_add",
    "OnionPIR.c72_mul_plain",
    "OnionPIR.c72_mul",
    "OnionPIR.c72_circuit",
    "OnionPIR.c72_encoded"
   ],
   "note": ""
  },
  {
   "property": "C73",
   "status": "partial",
   "theorems": [
    "OnionPIR.c73_rotate_plain_partial",
    "OnionPIR.c73_second_row_wrong",
    "OnionPIR.c73_swap_wrong",
    "OnionPIR.c73_rotate_partial"
   ],
   "note": "The first row is rotated (proved for plaintexts and ciphertexts). The second row never is, and the rows are not exchanged: slot N/2+i evaluates at the exponent -(2*3^i+1) instead of -3^i because of the index map (C28); for the message X every slot of the second row is wrong (c73_second_row_wrong, c73_swap_wrong)."
  },
  {
   "property": "C74",
   "status": "proved",
   "theorems": [
    "OnionPIR.c74_run",
    "OnionPIR.c74_deterministic",
    "OnionPIR.c74_decrypts",
    "OnionPIR.c74_keys"
   ],
   "note": ""
  },
  {
   "property": "C75",
   "status": "proved",
   "theorems": [
    "OnionPIR.c75_always_small",
    "OnionPIR.c75_encoded",
    "OnionPIR.c75_fresh"
   ],
   "note": ""
  },
  {
   "property": "C76",
   "status": "proved",
   "theorems": [
    "OnionPIR.c76_add",
    "OnionPIR.c76_mul",
    "OnionPIR.c76_sub",
    "OnionPIR.c76_div",
    "OnionPIR.c76_mod",
    "OnionPIR.c76_leading_zeros",
    "OnionPIR.c76_reverse_bits",
    "OnionPIR.c76_count_ones",
    "OnionPIR.c76_pow",
    "OnionPIR.c76_assert",
    "OnionPIR.c76_assert_eq",
    "OnionPIR.c76_unwrap",
    "OnionPIR.c76_index",
    "OnionPIR.c76_set",
    "OnionPIR.c76_for",
    "OnionPIR.c76_map",
    "OnionPIR.c76_zip",
    "OnionPIR.c76_zip_mut"
   ],
   "note": ""
  },
  {
   "property": "C77",
   "status": "proved",
   "theorems": [
    "OnionPIR.c77_mask",
    "OnionPIR.c77_mask_uniform",
    "OnionPIR.c77_encrypt",
    "OnionPIR.c77_encrypt_uniform",
    "OnionPIR.c77_ksk",
    "OnionPIR.c77_key_switch",
    "OnionPIR.c77_galois",
    "OnionPIR.c77_relinearize",
    "OnionPIR.c77_external_product",
    "OnionPIR.c77_error_bound"
   ],
   "note": ""
  },
  {
   "property": "C78",
   "status": "proved",
   "theorems": [
    "OnionPIR.c78_key_switch",
    "OnionPIR.c78_galois",
    "OnionPIR.c78_galois_decrypt",
    "OnionPIR.c78_external_product",
    "OnionPIR.c78_ksk_test"
   ],
   "note": ""
  },
  {
   "property": "C79",
   "status": "proved",
   "theorems": [
    "OnionPIR.c79_card",
    "OnionPIR.c79_stored",
    "OnionPIR.c79_encrypt_poly",
    "OnionPIR.c79_encryptions",
    "OnionPIR.c79_query"
   ],
   "note": ""
  },
  {
   "property": "C80",
   "status": "proved",
   "theorems": [
    "OnionPIR.c80_bits",
    "OnionPIR.c80_encrypt",
    "OnionPIR.c80_round_trip",
    "OnionPIR.c80_add_poly",
    "OnionPIR.c80_mul",
    "OnionPIR.c80_accepts",
    "OnionPIR.c80_encode",
    "OnionPIR.c80_dimensions",
    "OnionPIR.c80_bit_decomposition",
    "OnionPIR.c80_bit_decomposition_short",
    "OnionPIR.c80_bit_decomposition_capacity",
    "OnionPIR.c80_context",
    "OnionPIR.c80_bit_decomposition_shipped",
    "OnionPIR.c80_scale",
    "OnionPIR.c80_scale_bounds",
    "c80_scale_one",
    "c80_add_sub",
    "c80_mul_linear",
    "c80_contexts",
    "c80_params",
    "c80_ksk",
    "c80_default",
    "c80_pvw_default_params",
    "c80_pvw_default",
    "c80_no_of_cts",
    "c80_common_prefix",
    "OnionPIR.c80_unpack",
    "OnionPIR.c80_answer",
    "OnionPIR.c80_protocol",
    "OnionPIR.c80_query",
    "OnionPIR.c80_simd_round_trip",
    "OnionPIR.c80_index_map",
    "OnionPIR.c80_simd_decode",
    "OnionPIR.c80_rotate_plain",
    "OnionPIR.c80_swap_plain",
    "OnionPIR.c80_rotate",
    "OnionPIR.c80_swap",
    "OnionPIR.c80_encoded"
   ],
   "note": "About corrected copies of the defective functions (lean/Verif/Model/Repair.lean), which are not repository code; the corresponding statements about the repository are the restricted theorems and counterexamples of C07, C19, C26, C28, C31, C33, C35, C41, C42, C44, C45, C47, C53, C55, C56, C59, C63, C64, C66, C67 and C73. The correction for C56 needs enough digits for the moduli (c80_bit_decomposition_short, c80_bit_decomposition_shipped)."
  },
  {
   "property": "C81",
   "status": "proved",
   "theorems": [
    "OnionPIR.c81_card",
    "OnionPIR.c81_key",
    "OnionPIR.c81_leftover",
    "OnionPIR.c81_privacy",
    "OnionPIR.c81_default"
   ],
   "note": "Reduction: decision LWE itself is an assumption. The generator's values are assumed uniform."
  },
  {
   "property": "C82",
   "status": "proved",
   "theorems": [
    "OnionPIR.c82_stored",
    "OnionPIR.c82_ksk",
    "OnionPIR.c82_rgsw",
    "OnionPIR.c82_encrypt"
   ],
   "note": "Reduction: decision RLWE itself is an assumption. The generator's values are assumed uniform. RGSW encryptions of the key itself, relinearization and Galois keys have non-affine sources and are not covered."
  },
  {
   "property": "C83",
   "status": "proved",
   "theorems": [
    "OnionPIR.c83_detect",
    "OnionPIR.c83_run"
   ],
   "note": "The composition (Spec.omrRun) is not a function of the repository, which stops after packing; every function it calls is. The existence of the transform for the PVW modulus is a hypothesis (C14 says when it is built)."
  },
  {
   "property": "C84",
   "status": "proved",
   "theorems": [
    "OnionPIR.c84_release_panics",
    "OnionPIR.c84_modulus",
    "OnionPIR.c84_utils",
    "OnionPIR.c84_ntt",
    "OnionPIR.c84_rns",
    "OnionPIR.c84_rq",
    "OnionPIR.c84_bfv",
    "OnionPIR.c84_keys",
    "OnionPIR.c84_pir",
    "OnionPIR.c84_omr"
   ],
   "note": "Out-of-range get_unchecked accesses are the outcome `bounds` in both builds of the model (C66 says when they cannot happen); loops that may not terminate run with explicit fuel."
  },
  {
   "property": "C85",
   "status": "proved",
   "theorems": [
    "OnionPIR.c85_substitution_unique",
    "OnionPIR.c85_ring",
    "OnionPIR.c85_coefficients_unique",
    "OnionPIR.c85_expression",
    "OnionPIR.c85_laws",
    "OnionPIR.c85_code_laws"
   ],
   "note": "Substitution needs N ≤ 2^31, as in C22."
  },
  {
   "property": "C86",
   "status": "proved",
   "theorems": [
    "OnionPIR.c86_new_iff",
    "OnionPIR.c86_count",
    "OnionPIR.c86_rare",
    "OnionPIR.c86_context_iff"
   ],
   "note": "The code seeds its generator with 0, so for each q it sees one particular sequence; the count is over all sequences."
  },
  {
   "property": "C87",
   "status": "partial",
   "theorems": [
    "OnionPIR.c87_select",
    "OnionPIR.c87_coordinates",
    "OnionPIR.c87_no_selectors",
    "OnionPIR.c87_dimensions",
    "OnionPIR.c87_decode_partial",
    "OnionPIR.c87_answer_partial"
   ],
   "note": "decode itself panics in gen_x_pows (C41, C44): proved in full for the folding, and end to end with the monomials given in place of the result of gen_x_pows."
  },
  {
   "property": "C88",
   "status": "proved",
   "theorems": [
    "OnionPIR.c88_uniform",
    "OnionPIR.c88_gen_range",
    "OnionPIR.c88_random",
    "OnionPIR.c88_random_vec",
    "OnionPIR.c88_poly",
    "OnionPIR.c88_mask",
    "OnionPIR.c88_gen_sk",
    "OnionPIR.c88_primitive_root"
   ],
   "note": "The words of the generators (ChaCha8, thread_rng) are taken to be uniform; the crates' samplers are modelled from their published source."
  },
  {
   "property": "C89",
   "status": "proved",
   "theorems": [
    "OnionPIR.c89_generator",
    "OnionPIR.c89_construct_ntt_operator",
    "OnionPIR.c89_default",
    "OnionPIR.c89_degree_64",
    "OnionPIR.c89_unpack_decomp",
    "OnionPIR.c89_client_encode",
    "OnionPIR.c89_unpack",
    "OnionPIR.c89_encrypt_poly",
    "OnionPIR.c89_plaintext_modulus",
    "OnionPIR.c89_trial",
    "OnionPIR.c89_context",
    "OnionPIR.c89_omr_operator",
    "OnionPIR.c89_test_params"
   ],
   "note": "ChaCha8, seed_from_u64 and gen_range are modelled from the published source of the crates; known-answer examples in Props/Random."
  },
  {
   "property": "C90",
   "status": "proved",
   "theorems": [
    "OnionPIR.c90_simd",
    "OnionPIR.c90_round_trip",
    "OnionPIR.c90_slot_rotations",
    "OnionPIR.c90_slot_rotations_15",
    "OnionPIR.c90_trial",
    "OnionPIR.c90_construct_ksk",
    "OnionPIR.c90_construct_full",
    "OnionPIR.c90_construct_full_one",
    "OnionPIR.c90_default_size",
    "OnionPIR.c90_encrypt_poly",
    "OnionPIR.c90_encrypt_poly_printed",
    "OnionPIR.c90_substitute",
    "OnionPIR.c90_substitute_inverse"
   ],
   "note": "The bodies are modelled after the construction of the parameters, which C89 covers."
  },
  {
   "property": "C91",
   "status": "proved",
   "theorems": [
    "OnionPIR.c91_reduce_ct_debug",
    "OnionPIR.c91_reduce_ct_release",
    "OnionPIR.c91_debug",
    "OnionPIR.c91_debug_shoup",
    "OnionPIR.c91_debug_vec",
    "OnionPIR.c91_debug_map",
    "OnionPIR.c91_debug_scalar",
    "OnionPIR.c91_add_release",
    "OnionPIR.c91_sub_release",
    "OnionPIR.c91_neg_release",
    "OnionPIR.c91_neg_value",
    "OnionPIR.c91_mul_release",
    "OnionPIR.c91_pow_release",
    "OnionPIR.c91_inv_release",
    "OnionPIR.c91_inv_prime",
    "OnionPIR.c91_inv_composite",
    "OnionPIR.c91_shoup_release",
    "OnionPIR.c91_lazy_mul_shoup_release",
    "OnionPIR.c91_mul_shoup_unreduced"
   ],
   "note": "The statements on add, sub and neg in the release build are for moduli that do not divide 2^64 (all odd moduli). c91_inv_composite is a witness that inv needs a prime, which the type does not enforce."
  },
  {
   "property": "C92",
   "status": "proved",
   "theorems": [
    "OnionPIR.c92_forward_debug",
    "OnionPIR.c92_backward_debug",
    "OnionPIR.c92_lazy"
   ],
   "note": "Vectors of a wrong length panic in both builds (C16). Nothing is said about the values the release build returns outside of the ranges."
  },
  {
   "property": "C93",
   "status": "proved",
   "theorems": [
    "OnionPIR.c93_values",
    "OnionPIR.c93_arithmetic",
    "OnionPIR.c93_debug",
    "OnionPIR.c93_shoup",
    "OnionPIR.c93_pow",
    "OnionPIR.c93_pow_exponent",
    "OnionPIR.c93_ntt",
    "OnionPIR.c93_generate",
    "OnionPIR.c93_encrypt",
    "OnionPIR.c93_phase",
    "OnionPIR.c93_decrypt",
    "OnionPIR.c93_scale_leaks",
    "OnionPIR.c93_key_values",
    "OnionPIR.c93_encrypt_plain",
    "OnionPIR.c93_ksk",
    "OnionPIR.c93_galois_key",
    "OnionPIR.c93_relin_key",
    "OnionPIR.c93_rgsw",
    "OnionPIR.c93_build",
    "OnionPIR.c93_query",
    "OnionPIR.c93_pvw",
    "OnionPIR.c93_events",
    "OnionPIR.c93_loop"
   ],
   "note": "The trace is that of the source text: the compiler, the processor and the dependencies (drawing random numbers, big integers, ndarray) are not modelled."
  },
  {
   "property": "C94",
   "status": "proved",
   "theorems": [
    "OnionPIR.c94_unpack",
    "OnionPIR.c94_client_encode",
    "OnionPIR.c94_unpack_decomp",
    "OnionPIR.c94_pack_compares",
    "OnionPIR.c94_pack_and_construct_rgsw",
    "OnionPIR.c94_pack_detects"
   ],
   "note": "About the tests with gen_x_pows corrected (Model/Repair); as shipped they panic (C71). The printing lines after the trial decryptions of unpack_decomp are not modelled."
  },
  {
   "property": "C95",
   "status": "proved",
   "theorems": [
    "OnionPIR.c95_values",
    "OnionPIR.c95_unpack_lines",
    "OnionPIR.c95_params",
    "OnionPIR.c95_rns_context",
    "OnionPIR.c95_rq_context",
    "OnionPIR.c95_degree_hidden",
    "OnionPIR.c95_secret_key",
    "OnionPIR.c95_secret_key_leaks",
    "OnionPIR.c95_plaintext",
    "OnionPIR.c95_modulus",
    "OnionPIR.c95_scaling_factor",
    "OnionPIR.c95_bit_decomposition",
    "OnionPIR.c95_substitution",
    "OnionPIR.c95_enums",
    "OnionPIR.c95_u256",
    "OnionPIR.c95_pvw",
    "OnionPIR.c95_ntt_operator"
   ],
   "note": "Format {:?}. The types that contain an ndarray array (Poly and what contains it) and the indented format {:#?} are not modelled. Finding: SecretKey derives Debug and prints the key."
  },
  {
   "property": "C96",
   "status": "proved",
   "theorems": [
    "OnionPIR.c96_sha256",
    "OnionPIR.c96_key_stream",
    "OnionPIR.c96_expand",
    "OnionPIR.c96_encrypt",
    "OnionPIR.c96_masks"
   ],
   "note": "The crates sha2 and rand_chacha are modelled from their published portable source. That the key stream is pseudorandom is not a theorem; C77, C79 and C82 count tapes."
  },
  {
   "property": "C97",
   "status": "partial",
   "theorems": [
    "OnionPIR.c97_first_modulus",
    "OnionPIR.c97_encrypt_decrypt_partial",
    "OnionPIR.c97_narrow_fails",
    "OnionPIR.c97_exact",
    "OnionPIR.c97_encrypt_decrypt_iff"
   ],
   "note": "False as stated. Exact domain proved if t n^2 < 2^64 for n moduli: c97_encrypt_decrypt_iff (all messages come back if and only if 3t < 2 q0), c97_exact says what comes back. Without that bound: c97_encrypt_decrypt_partial (13t + 4 < 8 q0) and c97_narrow_fails."
  },
  {
   "property": "C98",
   "status": "proved",
   "theorems": [
    "OnionPIR.c98_test_moduli",
    "OnionPIR.c98_baillie_psw",
    "OnionPIR.c98_accepted",
    "OnionPIR.c98_search",
    "OnionPIR.c98_primes",
    "OnionPIR.c98_is_prime",
    "OnionPIR.c98_terminates",
    "OnionPIR.c98_generate_prime",
    "OnionPIR.c98_generate_moduli"
   ],
   "note": "The crate is modelled from its published source. That no composite below 2^64 passes the test is a computation of the literature and stays an assumption (hypothesis of c98_is_prime); elsewhere the model uses primality for is_prime."
  },
  {
   "property": "C99",
   "status": "proved",
   "theorems": [
    "OnionPIR.c99_shape",
    "OnionPIR.c99_decrypt",
    "OnionPIR.c99_inspect",
    "OnionPIR.c99_circuit",
    "OnionPIR.c99_unpack",
    "OnionPIR.c99_dimensions",
    "OnionPIR.c99_decode",
    "OnionPIR.c99_exists_env",
    "OnionPIR.c99_exists_eval"
   ],
   "note": "Server and expansion: the corrected copies of C80 (the code panics on every query, C44). Data of another shape is the subject of C67 and C73."
  },
  {
   "property": "C100",
   "status": "proved",
   "theorems": [
    "OnionPIR.c100_encryptions",
    "OnionPIR.c100_queries"
   ],
   "note": "A reduction to RLWE with the evaluation keys as auxiliary information, as C79. The choices may not depend on what the client decrypts."
  },
  {
   "property": "C101",
   "status": "proved",
   "theorems": [
    "OnionPIR.c101_key_recovery",
    "OnionPIR.c101_key_determined",
    "OnionPIR.c101_malleable"
   ],
   "note": "A property of BFV without authentication, not a deviation of the code; it bounds what C79 and C100 can promise."
  },
  {
   "property": "C102",
   "status": "proved",
   "theorems": [
    "OnionPIR.c102_select",
    "OnionPIR.c102_one_row",
    "OnionPIR.c102_answer"
   ],
   "note": "End-to-end part for the corrected decode (C80); the folding part is about the code as it is."
  },
  {
   "property": "C103",
   "status": "proved",
   "theorems": [
    "OnionPIR.c103_noise_known",
    "OnionPIR.c103_exact",
    "OnionPIR.c103_not_private"
   ],
   "note": "About the folding loops of decode with given selectors."
  },
  {
   "property": "C104",
   "status": "proved",
   "theorems": [
    "OnionPIR.c104_poly",
    "OnionPIR.c104_ciphertext",
    "OnionPIR.c104_ksk",
    "OnionPIR.c104_rgsw",
    "OnionPIR.c104_build",
    "OnionPIR.c104_query",
    "OnionPIR.c104_answer",
    "OnionPIR.c104_database"
   ],
   "note": "The size of the answer is about the corrected decode of C80."
  },
  {
   "property": "C105",
   "status": "proved",
   "theorems": [
    "OnionPIR.c105_balanced_partial",
    "OnionPIR.c105_answer_partial",
    "OnionPIR.c105_answer",
    "OnionPIR.c105_stored",
    "OnionPIR.c105_not_mod_t"
   ],
   "note": "The end-to-end theorem c105_answer is about the corrected decode of C80; the two _partial theorems are about the code's decode with the monomials given in place of the result of gen_x_pows."
  },
  {
   "property": "C106",
   "status": "proved",
   "theorems": [
    "OnionPIR.c106_generate",
    "OnionPIR.c106_to_poly",
    "OnionPIR.c106_encrypt",
    "OnionPIR.c106_ksk",
    "OnionPIR.c106_relinearization",
    "OnionPIR.c106_galois",
    "OnionPIR.c106_rgsw",
    "OnionPIR.c106_build",
    "OnionPIR.c106_decode"
   ],
   "note": ""
  },
  {
   "property": "C107",
   "status": "proved",
   "theorems": [
    "OnionPIR.c107_forge",
    "OnionPIR.c107_decrypts",
    "OnionPIR.c107_shift",
    "OnionPIR.c107_replace"
   ],
   "note": ""
  },
  {
   "property": "C108",
   "status": "proved",
   "theorems": [
    "OnionPIR.c108_answer"
   ],
   "note": "About the corrected decode of C80; the operation on ciphertexts (Spec.switchCt) is not in the code, which has mod_switch_to for polynomials."
  },
  {
   "property": "C109",
   "status": "proved",
   "theorems": [
    "OnionPIR.c109_decrypt",
    "OnionPIR.c109_other_key",
    "OnionPIR.c109_default",
    "OnionPIR.c109_universal",
    "OnionPIR.c109_shift"
   ],
   "note": ""
  },
  {
   "property": "C110",
   "status": "proved",
   "theorems": [
    "OnionPIR.c110_coordinates",
    "OnionPIR.c110_vector",
    "OnionPIR.c110_doc_example",
    "OnionPIR.c110_row",
    "OnionPIR.c110_sign",
    "OnionPIR.c110_split",
    "OnionPIR.c110_step",
    "OnionPIR.c110_tree"
   ],
   "note": ""
  },
  {
   "property": "C111",
   "status": "proved",
   "theorems": [
    "OnionPIR.c111_gen_sk",
    "OnionPIR.c111_gen_pk",
    "OnionPIR.c111_message",
    "OnionPIR.c111_encrypt",
    "OnionPIR.c111_entries",
    "OnionPIR.c111_value",
    "OnionPIR.c111_roundtrip",
    "OnionPIR.c111_two",
    "OnionPIR.c111_decrypt"
   ],
   "note": ""
  },
  {
   "property": "C112",
   "status": "proved",
   "theorems": [
    "OnionPIR.c112_recipients",
    "OnionPIR.c112_default",
    "OnionPIR.c112_returns"
   ],
   "note": ""
  },
  {
   "property": "C113",
   "status": "proved",
   "theorems": [
    "OnionPIR.c113_necessary",
    "OnionPIR.c113_debug",
    "OnionPIR.c113_release",
    "OnionPIR.c113_debug_params",
    "OnionPIR.c113_capped"
   ],
   "note": ""
  },
  {
   "property": "C114",
   "status": "proved",
   "theorems": [
    "OnionPIR.c114_insiders",
    "OnionPIR.c114_default",
    "OnionPIR.c114_returns"
   ],
   "note": ""
  },
  {
   "property": "C115",
   "status": "proved",
   "theorems": [
    "OnionPIR.c115_read",
    "OnionPIR.c115_default",
    "OnionPIR.c115_optimal"
   ],
   "note": ""
  },
  {
   "property": "C116",
   "status": "proved",
   "theorems": [
    "OnionPIR.c116_wrong_key"
   ],
   "note": ""
  },
  {
   "property": "C117",
   "status": "proved",
   "theorems": [
    "OnionPIR.c117_run",
    "OnionPIR.c117_same",
    "OnionPIR.c117_laws",
    "OnionPIR.c117_inner_product"
   ],
   "note": ""
  },
  {
   "property": "C118",
   "status": "proved",
   "theorems": [
    "OnionPIR.c118_read",
    "OnionPIR.c118_default",
    "OnionPIR.c118_optimal"
   ],
   "note": ""
  },
  {
   "property": "C119",
   "status": "proved",
   "theorems": [
    "OnionPIR.c119_read",
    "OnionPIR.c119_generated",
    "OnionPIR.c119_optimal"
   ],
   "note": ""
  },
  {
   "property": "C120",
   "status": "proved",
   "theorems": [
    "OnionPIR.c120_trace",
    "OnionPIR.c120_two",
    "OnionPIR.c120_constant",
    "OnionPIR.c120_last",
    "OnionPIR.c120_read",
    "OnionPIR.c120_generated",
    "OnionPIR.c120_optimal"
   ],
   "note": ""
  },
  {
   "property": "C121",
   "status": "proved",
   "theorems": [
    "OnionPIR.c121_values",
    "OnionPIR.c121_new",
    "OnionPIR.c121_switch",
    "OnionPIR.c121_unpack",
    "OnionPIR.c121_as_is",
    "OnionPIR.c121_decode",
    "OnionPIR.c121_answer"
   ],
   "note": ""
  },
  {
   "property": "C122",
   "status": "proved",
   "theorems": [
    "OnionPIR.c122_value",
    "OnionPIR.c122_scale",
    "OnionPIR.c122_constant",
    "OnionPIR.c122_scale_constant"
   ],
   "note": ""
  },
  {
   "property": "C123",
   "status": "proved",
   "theorems": [
    "OnionPIR.c123_expand",
    "OnionPIR.c123_expand_decrypt",
    "OnionPIR.c123_expand_bits"
   ],
   "note": ""
  },
  {
   "property": "C124",
   "status": "proved",
   "theorems": [
    "OnionPIR.c124_answer",
    "OnionPIR.c124_answer_bits"
   ],
   "note": ""
  },
  {
   "property": "C125",
   "status": "proved",
   "theorems": [
    "OnionPIR.c125_values",
    "OnionPIR.c125_transform",
    "OnionPIR.c125_switch",
    "OnionPIR.c125_expand",
    "OnionPIR.c125_once",
    "OnionPIR.c125_new",
    "OnionPIR.c125_answer"
   ],
   "note": ""
  },
  {
   "property": "C126",
   "status": "proved",
   "theorems": [
    "OnionPIR.c126_unpack",
    "OnionPIR.c126_full",
    "OnionPIR.c126_work",
    "OnionPIR.c126_answer",
    "OnionPIR.c126_saves"
   ],
   "note": ""
  },
  {
   "property": "C127",
   "status": "proved",
   "theorems": [
    "OnionPIR.c127_expand",
    "OnionPIR.c127_expand_decrypt",
    "OnionPIR.c127_answer",
    "OnionPIR.c127_answer_bits"
   ],
   "note": ""
  },
  {
   "property": "C128",
   "status": "proved",
   "theorems": [
    "OnionPIR.c128_values",
    "OnionPIR.c128_encrypt",
    "OnionPIR.c128_decrypt",
    "OnionPIR.c128_keys",
    "OnionPIR.c128_galois",
    "OnionPIR.c128_build",
    "OnionPIR.c128_query"
   ],
   "note": ""
  },
  {
   "property": "C129",
   "status": "proved",
   "theorems": [
    "OnionPIR.c129_values",
    "OnionPIR.c129_multiply",
    "OnionPIR.c129_once",
    "OnionPIR.c129_plain",
    "OnionPIR.c129_inner"
   ],
   "note": ""
  },
  {
   "property": "C130",
   "status": "proved",
   "theorems": [
    "OnionPIR.c130_errors",
    "OnionPIR.c130_encrypt",
    "OnionPIR.c130_gap",
    "OnionPIR.c130_key_switch",
    "OnionPIR.c130_galois",
    "OnionPIR.c130_galois_fails",
    "OnionPIR.c130_external_product"
   ],
   "note": ""
  },
  {
   "property": "C131",
   "status": "proved",
   "theorems": [
    "OnionPIR.c131_multiply_comm",
    "OnionPIR.c131_switch_add",
    "OnionPIR.c131_deviation",
    "OnionPIR.c131_not_additive"
   ],
   "note": ""
  },
  {
   "property": "C132",
   "status": "proved",
   "theorems": [
    "OnionPIR.c132_short",
    "OnionPIR.c132_long",
    "OnionPIR.c132_round_trip",
    "OnionPIR.c132_debug",
    "OnionPIR.c132_decode"
   ],
   "note": "Together with C28: c132_round_trip says what comes back for every vector, not only for those that survive."
  },
  {
   "property": "C133",
   "status": "proved",
   "theorems": [
    "OnionPIR.c133_encrypt",
    "OnionPIR.c133_source",
    "OnionPIR.c133_ksk",
    "OnionPIR.c133_galois",
    "OnionPIR.c133_clue"
   ],
   "note": ""
  },
  {
   "property": "C134",
   "status": "proved",
   "theorems": [
    "OnionPIR.c134_compose",
    "OnionPIR.c134_ring",
    "OnionPIR.c134_switch_substitute",
    "OnionPIR.c134_switch_add",
    "OnionPIR.c134_not_additive"
   ],
   "note": ""
  },
  {
   "property": "C135",
   "status": "proved",
   "theorems": [
    "OnionPIR.c135_inverse",
    "OnionPIR.c135_count",
    "OnionPIR.c135_most",
    "OnionPIR.c135_known_error",
    "OnionPIR.c135_clue"
   ],
   "note": ""
  },
  {
   "property": "C136",
   "status": "proved",
   "theorems": [
    "OnionPIR.c136_mask",
    "OnionPIR.c136_one_key",
    "OnionPIR.c136_two_keys",
    "OnionPIR.c136_two_messages",
    "OnionPIR.c136_query",
    "OnionPIR.c136_key"
   ],
   "note": ""
  },
  {
   "property": "C137",
   "status": "proved",
   "theorems": [
    "OnionPIR.c137_add",
    "OnionPIR.c137_zero",
    "OnionPIR.c137_rgsw_add",
    "OnionPIR.c137_not_additive"
   ],
   "note": ""
  },
  {
   "property": "C138",
   "status": "proved",
   "theorems": [
    "OnionPIR.c138_random",
    "OnionPIR.c138_onto"
   ],
   "note": ""
  },
  {
   "property": "C139",
   "status": "proved",
   "theorems": [
    "OnionPIR.c139_phase",
    "OnionPIR.c139_add",
    "OnionPIR.c139_refresh",
    "OnionPIR.c139_random"
   ],
   "note": ""
  },
  {
   "property": "C140",
   "status": "proved",
   "theorems": [
    "OnionPIR.c140_key",
    "OnionPIR.c140_default",
    "OnionPIR.c140_zero",
    "OnionPIR.c140_message",
    "OnionPIR.c140_selector",
    "OnionPIR.c140_selector_default"
   ],
   "note": ""
  },
  {
   "property": "C141",
   "status": "proved",
   "theorems": [
    "OnionPIR.c141_uniform",
    "OnionPIR.c141_same",
    "OnionPIR.c141_only",
    "OnionPIR.c141_decrypt"
   ],
   "note": ""
  },
  {
   "property": "C142",
   "status": "proved",
   "theorems": [
    "OnionPIR.c142_open",
    "OnionPIR.c142_zero",
    "OnionPIR.c142_read"
   ],
   "note": ""
  }
 ]
}