{"id": "C01", "title": "Modulus constructor accepts exactly the usable moduli", "statement": "Modulus::new(p) returns a modulus if and only if 2 <= p < 2^62; for every other u64 it panics, and the returned object reports p as its modulus.", "quantifier": "every u64 p", "why_tests_cant": "2^64 inputs; the boundary cases 0, 1 and 2^62 each panic for a different reason", "anchors": ["src/modulus.rs: Modulus::new"]}
{"id": "C02", "title": "Single-word, double-word, signed and big-integer reduction return the canonical residue", "statement": "For a modulus p built by Modulus::new: reduce(a), reduce_u128(a), reduce_i64(a), reduce_biguint(a) return the unique r in [0,p) congruent to a modulo p, and no intermediate operation overflows or trips a debug assertion, in debug and in release builds.", "quantifier": "every valid p; every u64, u128, i64 or BigUint a; both build profiles", "why_tests_cant": "the u128 domain cannot be enumerated and the carry/borrow cases in Barrett reduction are sparse", "anchors": ["src/modulus.rs: Modulus::{lazy_reduce_ct,lazy_reduce_u128,reduce_ct,reduce,reduce_u128,reduce_i64,reduce_biguint,reduce_vec_u64,reduce_vec_i64,reduce_vec_biguint}"]}
{"id": "C03", "title": "Lazy reductions stay below 2p", "statement": "lazy_reduce_ct(a) and lazy_reduce_u128(a) return a value congruent to a modulo p and strictly below 2p, for every input of their type (not only for a < p^2 as the comment says).", "quantifier": "every valid p, every u64 / u128 a, both profiles", "why_tests_cant": "same as C02", "anchors": ["src/modulus.rs: Modulus::{lazy_reduce_ct,lazy_reduce_u128}"]}
{"id": "C04", "title": "Modular add, sub, mul, neg are exact and closed", "statement": "For canonical operands a,b in [0,p): add, sub, mul, neg return the canonical representative of a+b, a-b, a*b, -a mod p, never overflow and never trip an assertion; the vector versions act elementwise and leave the tail of a longer destination untouched.", "quantifier": "every valid p, all canonical operands / vectors of any length, both profiles", "why_tests_cant": "quadratic in 2^62 operand space; overflow only near 2^62", "anchors": ["src/modulus.rs: Modulus::{add,sub,mul,neg,add_vec,sub_vec,mul_vec,neg_vec}"]}
{"id": "C05", "title": "Shoup multiplication is exact", "statement": "With b_shoup = shoup(b), mul_shoup(a,b,b_shoup) = a*b mod p and lazy_mul_shoup returns a value < 2p congruent to a*b, for every u64 a (even a >= p) and b in [0,p); scalar_mul_vec(v,b) returns values < 2p congruent to v_i*b.", "quantifier": "every valid p, every u64 a, every b < p, both profiles", "why_tests_cant": "needs the exact bound of the truncated quotient for all 2^64 multiplicands", "anchors": ["src/modulus.rs: Modulus::{shoup,shoup_vec,mul_shoup,lazy_mul_shoup,scalar_mul_vec}"]}
{"id": "C06", "title": "Modular exponentiation and inversion are exact", "statement": "pow(a,r) = a^r mod p for canonical a and every r < p; for prime p and a != 0, inv(a) is the canonical multiplicative inverse of a.", "quantifier": "every valid p, all a, r < p; every prime p for inv", "why_tests_cant": "exponent loop length depends on r; inverse relies on Fermat's little theorem", "anchors": ["src/modulus.rs: Modulus::{pow,inv,inv_vec}"]}
{"id": "C07", "title": "Modulus::bits returns the bit length of the modulus", "statement": "bits() returns the number of significant bits of p, so that bit decomposition of values below p has that many bits.", "quantifier": "every valid p", "why_tests_cant": "a property of all moduli", "anchors": ["src/modulus.rs: Modulus::bits", "src/rq.rs: Poly::apply_bit_decomposition"]}
{"id": "C08", "title": "Bit vectors and bit decomposition recompose to the value", "statement": "For m < 2^parent_bits, parent_bits < 2^63 and decomp_bits >= 1, bit_vector(parent_bits,m) has exactly parent_bits entries, entry i being bit i of m; decompose_bits(m,parent_bits,decomp_bits) has ceil(parent_bits/decomp_bits) digits, each below 2^decomp_bits, and sum digit_i*2^(decomp_bits*i) = m. If m >= 2^parent_bits the call panics; parent_bits >= 2^63 exceeds the capacity of the vector and panics.", "quantifier": "all m, parent_bits, decomp_bits", "why_tests_cant": "the shipped tests check one literal", "anchors": ["src/utils.rs: bit_vector, decompose_bits"]}
{"id": "C09", "title": "Centered binomial sampler is bounded and consumes the random stream without reuse", "statement": "sample_vec_cbd(n,v,rng) with 1<=v<=16 returns n integers, each in [-2v,2v]; the i-th output is popcount of bits [4vi,4vi+2v) minus popcount of bits [4vi+2v,4vi+4v) of the concatenated RNG output, so no random bit is used twice and none is skipped. Other variances panic.", "quantifier": "every RNG output stream, every length n, every variance", "why_tests_cant": "the distribution of tests never exhibits bit reuse; the bound must hold for every tape because decryption correctness relies on it", "anchors": ["src/utils.rs: sample_vec_cbd"]}
{"id": "C10", "title": "generate_prime returns the largest admissible prime or None", "statement": "For 10<=num_bits<=62, modulo>=2 and 1<=upper_bound<=2^num_bits, generate_prime returns Some(p) exactly when a prime with exactly num_bits bits, congruent to 1 mod modulo and below upper_bound exists, and then p is the largest such prime; outside 10..=62 it returns None. The search always terminates.", "quantifier": "all num_bits, modulo, upper_bound", "why_tests_cant": "search space of 2^62 candidates", "anchors": ["src/utils.rs: generate_prime, is_prime"]}
{"id": "C11", "title": "generate_moduli returns distinct NTT-friendly primes of the requested sizes", "statement": "If generate_moduli(sizes,degree) returns Some(moduli), there is one modulus per requested size, each a prime with exactly that many bits, congruent to 1 mod 2*degree, and all are pairwise distinct (so pairwise coprime).", "quantifier": "every list of sizes in 10..=62, every degree >= 1", "why_tests_cant": "list length and sizes are unbounded in combination", "anchors": ["src/bfv.rs: BfvParameters::generate_moduli"]}
{"id": "C12", "title": "U256 arithmetic is exact modulo 2^256", "statement": "wrapping_add_assign and wrapping_sub_assign compute a+b and a-b modulo 2^256, not computes 2^256-1-a, msb is the top bit, and >> by any amount below 256 computes floor(a/2^k).", "quantifier": "all four-limb values, all shift amounts < 256", "why_tests_cant": "2^512 inputs; carry chains", "anchors": ["src/utils.rs: U256"]}
{"id": "C13", "title": "ilog2 and div_ceil", "statement": "ilog2(v) is floor(log2 v) for v >= 1; div_ceil(a,b) is the least integer >= a/b for b >= 1 (when a+b-1 does not overflow).", "quantifier": "all values of the machine type", "why_tests_cant": "unbounded numeric claim", "anchors": ["src/utils.rs: ilog2, div_ceil"]}
{"id": "C14", "title": "NTT operator construction yields a primitive 2n-th root and in-range tables", "statement": "Whenever NttOperator::new(p,n) returns, n is a power of two >= 8, p is a prime = 1 mod 2n, its tables are the powers of one element psi with psi^n = -1 mod p in bit-reversed order, all table entries are canonical and every (unchecked) table access made by forward and backward is in bounds.", "quantifier": "every prime, every size, every outcome of the internal sampler", "why_tests_cant": "memory safety of unchecked indexing and table order must hold for every size", "anchors": ["src/ntt.rs: NttOperator::new, supports_ntt, primitive_root, is_primitive_root"]}
{"id": "C15", "title": "Forward NTT evaluates the polynomial at the odd powers of psi", "statement": "forward(a) for an input with entries < 4p (in particular any canonical vector) ends with entry i equal to sum_j a_j*psi^(j*(2*bitrev(i)+1)) mod p, canonical, with no overflow or assertion failure on the way.", "quantifier": "every operator size and prime, every input vector, both profiles", "why_tests_cant": "lazy ranges [0,4p) only overflow on adversarial inputs; correctness must hold for all sizes", "anchors": ["src/ntt.rs: NttOperator::{forward,butterfly}, reduce_4p"]}
{"id": "C16", "title": "Backward NTT is the exact two-sided inverse of forward", "statement": "backward(forward(a)) = a and forward(backward(b)) = b for all canonical vectors of the operator's size; wrong-length inputs panic.", "quantifier": "every operator, every canonical vector", "why_tests_cant": "the shipped test uses n=8, q=1153 and random vectors", "anchors": ["src/ntt.rs: NttOperator::{forward,backward,butterfly_inv}"]}
{"id": "C17", "title": "Pointwise multiplication in NTT form is negacyclic polynomial multiplication", "statement": "backward(forward(a) .* forward(b)) is the product of a and b in Z_p[X]/(X^n+1).", "quantifier": "every operator, all canonical a,b", "why_tests_cant": "all sizes and coefficient vectors", "anchors": ["src/ntt.rs", "src/rq.rs: MulAssign for Poly"]}
{"id": "C18", "title": "RNS project and lift are mutually inverse", "statement": "For pairwise coprime moduli, lift(project(x)) = x mod Q and project(lift(r)) = r for canonical residues r; lift is additive modulo Q; RnsContext::new panics if the moduli are not pairwise coprime.", "quantifier": "every list of moduli, every BigUint, every residue vector", "why_tests_cant": "unbounded number of moduli and integers", "anchors": ["src/rns.rs: RnsContext::{new,project,lift,modulus}"]}
{"id": "C19", "title": "RNS scaling rounds to nearest", "statement": "RnsScaler::scale maps the residues of x to the residues, modulo every target modulus, of one integer y with |y - x'*num/den| <= 1/2 + eps where x' is a representative of x modulo Q within Q/2 + Q*eps' of 0; no intermediate wraps.", "quantifier": "every pair of RNS contexts, every scaling factor in range, every residue vector", "why_tests_cant": "fixed-point error analysis; failure only at rounding boundaries", "anchors": ["src/rns.rs: RnsScaler::{new,extract_projection_and_theta,scale}"]}
{"id": "C20", "title": "Representation changes are lossless", "statement": "For a well-formed polynomial, switching PowerBasis->Ntt->PowerBasis or Ntt->PowerBasis->Ntt gives back the identical polynomial; switching to the current representation is the identity; requesting NttShoup panics.", "quantifier": "every context, every polynomial", "why_tests_cant": "all degrees, moduli counts and coefficient values", "anchors": ["src/rq.rs: Poly::change_representation"]}
{"id": "C21", "title": "Polynomial add, sub, neg, mul and scalar mul are the ring operations of R_Q", "statement": "In Ntt representation +, -, unary -, *, * BigUint compute the ring operations of Z_Q[X]/(X^N+1) on the represented polynomials; using PowerBasis operands in +,-,* panics.", "quantifier": "every context, all polynomials", "why_tests_cant": "unbounded coefficients and sizes", "anchors": ["src/rq.rs: AddAssign, SubAssign, MulAssign, Mul<&BigUint>, Neg for Poly"]}
{"id": "C22", "title": "Substitution X -> X^k is the same ring automorphism in both representations", "statement": "For odd k, substitute maps p(X) to p(X^k) mod X^N+1 in PowerBasis; in Ntt representation it gives the NTT of that same polynomial; Substitution::new with an even exponent panics.", "quantifier": "every odd k, every context, every polynomial", "why_tests_cant": "the shipped test only prints", "anchors": ["src/rq.rs: Substitution::new, Poly::substitute"]}
{"id": "C23", "title": "Modulus switching rounds to the nearest integer", "statement": "mod_switch_down_next maps a PowerBasis polynomial with coefficients x modulo Q to the polynomial with coefficients round(x/q_last) modulo Q/q_last, in the next context; it panics on the last level or in Ntt form.", "quantifier": "every context with >= 2 moduli, every polynomial", "why_tests_cant": "rounding ties and carries at 2^62 boundaries", "anchors": ["src/rq.rs: Poly::mod_switch_down_next"]}
{"id": "C24", "title": "Switching to a lower context iterates and reaches exactly it", "statement": "switch_iterations(ctx) returns the number of moduli to drop when ctx is a prefix of the chain (and None otherwise); mod_switch_to performs that many roundings and ends in ctx.", "quantifier": "every chain length, every target", "why_tests_cant": "unbounded chain length", "anchors": ["src/rq.rs: RqContext::switch_iterations, Poly::mod_switch_to"]}
{"id": "C25", "title": "Coefficient import and export are exact", "statement": "try_from_vec_u64 / i64 / bigint build the polynomial whose first coefficients are the given integers modulo Q and the rest 0, and exporting a PowerBasis polynomial as Vec<BigUint> returns these residues; vectors longer than the degree panic.", "quantifier": "every context, every vector", "why_tests_cant": "all lengths and values", "anchors": ["src/rq.rs: Poly::{try_from_vec_u64,try_from_vec_i64,try_from_bigint}, From<&Poly> for Vec<BigUint>"]}
{"id": "C26", "title": "Scaling a polynomial by one preserves it across contexts sharing moduli", "statement": "RqScaler::scale with factor 1 into a context of the same degree returns a polynomial congruent to the input (or to the centered input) modulo every target modulus.", "quantifier": "every pair of contexts, every polynomial", "why_tests_cant": "depends on which positions of the two modulus lists coincide", "anchors": ["src/rq.rs: RqScaler::{new,scale}"]}
{"id": "C27", "title": "Polynomial plaintext encoding round-trips", "statement": "decode(Plaintext::new(values,Poly)) returns the values padded with zeros to the degree; more than degree values panic.", "quantifier": "every parameter set, every value vector", "why_tests_cant": "all vectors", "anchors": ["src/bfv.rs: Plaintext::{new,decode}"]}
{"id": "C28", "title": "SIMD plaintext encoding round-trips", "statement": "decode(Plaintext::new(values,SIMD)) = values for every vector of degree-many values below the plaintext modulus.", "quantifier": "every parameter set, every value vector", "why_tests_cant": "holds or fails by the structure of a permutation for each degree", "anchors": ["src/bfv.rs: BfvParameters::new (matrix_reps_index_map), Plaintext::{new,decode}"]}
{"id": "C29", "title": "Plaintext scaling places the message at floor(Q*m/t)", "statement": "to_poly of a plaintext with values m_j represents, modulo Q, a polynomial whose j-th coefficient is floor(Q*m_j'/t) or floor(Q*m_j'/t)-1, with m_j' = m_j mod t.", "quantifier": "every parameter set, every plaintext", "why_tests_cant": "rounding by the lazy multiplication must be bounded for all values", "anchors": ["src/bfv.rs: Plaintext::to_poly, BfvParameters::new (delta_ts,q_mod_ts)"]}
{"id": "C30", "title": "Decryption inverts encryption for every random tape", "statement": "For level 0, decrypt(encrypt(m)) has values m mod t for every secret key, every message and every randomness outcome, provided the ciphertext modulus exceeds an explicit multiple of t*variance.", "quantifier": "every secret key, message, seed and noise tape", "why_tests_cant": "probability-free statement over all tapes; tests sample", "anchors": ["src/bfv.rs: SecretKey::{encrypt,encrypt_poly,decrypt}"]}
{"id": "C31", "title": "Encryption at a lower level decrypts", "statement": "A plaintext created at level l encrypts and decrypts back to itself for every level l.", "quantifier": "every level", "why_tests_cant": "tests only use level 0", "anchors": ["src/bfv.rs: SecretKey::encrypt_poly (level: 0)"]}
{"id": "C32", "title": "Homomorphic addition and subtraction", "statement": "If two ciphertexts decrypt with noise within the budget, their sum / difference decrypts to the sum / difference of the messages mod t; exactly, the phase of the sum is the sum of the phases.", "quantifier": "all ciphertexts, keys", "why_tests_cant": "all noise patterns", "anchors": ["src/bfv.rs: Add, Sub for BfvCipherText"]}
{"id": "C33", "title": "Adding a plaintext polynomial to a ciphertext adds it to the message", "statement": "ct + poly has phase phase(ct) + poly.", "quantifier": "all ciphertexts, polynomials, keys", "why_tests_cant": "no test", "anchors": ["src/bfv.rs: Add<&Poly> for &BfvCipherText"]}
{"id": "C34", "title": "Multiplying a ciphertext by a plaintext polynomial multiplies the message", "statement": "phase(ct * poly) = phase(ct) * poly in R_Q, for Plaintext, Poly and BigUint right operands, and noise grows by at most the factor N*max|poly|.", "quantifier": "all ciphertexts, plaintexts, keys", "why_tests_cant": "all noise patterns", "anchors": ["src/bfv.rs: Mul<&Plaintext>, Mul<&Poly>, Mul<&BigUint> for &BfvCipherText"]}
{"id": "C35", "title": "Ciphertext multiplication operator", "statement": "ct1 * ct2 decrypts (with the degree-2 decryption) to the product of the messages; in particular all cross terms c_i*d_j with i+j=k are accumulated in component k.", "quantifier": "all ciphertexts", "why_tests_cant": "no test uses the operator", "anchors": ["src/bfv.rs: Mul<&BfvCipherText> for &BfvCipherText"]}
{"id": "C36", "title": "Key switching identity and noise bound", "statement": "For a key-switching key of `from` under sk made with any randomness and any polynomial c: c0' + c1'*s = c*from + E in R_Q, where E = sum_i d_i*e_i and every coefficient of E is at most k*N*qmax*2*variance in absolute value.", "quantifier": "every key, every randomness, every polynomial", "why_tests_cant": "noise worst case never sampled", "anchors": ["src/ksk.rs: Ksk::{new,key_switch}"]}
{"id": "C37", "title": "Galois relinearization applies the automorphism to the message", "statement": "relinearize(ct) under the Galois key for X->X^k has phase substitute(phase(ct),k) + E with E bounded as in key switching; wrong level panics.", "quantifier": "every key, odd k, ciphertext, randomness", "why_tests_cant": "all randomness", "anchors": ["src/bfv.rs: GaliosKey::{new,relinearize}"]}
{"id": "C38", "title": "Relinearization replaces s^2 by s", "statement": "relinearize_poly(c2) returns (r0,r1) with r0 + r1*s = c2*s^2 + E with E bounded, for both input representations.", "quantifier": "every key, polynomial, randomness", "why_tests_cant": "all randomness", "anchors": ["src/bfv.rs: RelinearizationKey::{new,relinearize_poly}"]}
{"id": "C39", "title": "RGSW external product multiplies the message", "statement": "external_product(RGSW(m),ct) has phase m*phase(ct) + E, E bounded by an explicit function of N, moduli and variance; RGSW from encrypt and encrypt_poly both satisfy it.", "quantifier": "every key, m, ciphertext, randomness", "why_tests_cant": "all randomness", "anchors": ["src/rgsw.rs: RgswCt::{encrypt_poly,encrypt,external_product}"]}
{"id": "C40", "title": "RGSW ciphertext assembled from RLWE ciphertexts behaves like an encrypted one", "statement": "If ct_i are RLWE encryptions of garner_i*b and RGSW(s) is given, the RGSW built with try_from_decomposed_rlwes/try_from_ksks satisfies the external product identity for b with explicit noise.", "quantifier": "every key, b, ciphertexts, randomness", "why_tests_cant": "all randomness", "anchors": ["src/ksk.rs: Ksk::try_from_decomposed_rlwes", "src/rgsw.rs: RgswCt::try_from_ksks", "src/evaluations.rs: Server::decode"]}
{"id": "C41", "title": "Oblivious expansion returns one ciphertext per coefficient", "statement": "unpack(ct) for a ciphertext of sum b_i X^i returns N ciphertexts, the i-th one being an encryption of the constant b_i.", "quantifier": "every degree, key, message, randomness", "why_tests_cant": "tests only print error counts", "anchors": ["src/evaluations.rs: Evaluation::{build,unpack,gen_x_pows}"]}
{"id": "C42", "title": "Client query encoding is a concatenation of one-hot vectors", "statement": "encode(query_dims,db_rows) returns a 0/1 vector of length first_dim + dim*(d-1) that has exactly one 1 per dimension, at the requested coordinate; out-of-range coordinates or a database size not matching the dimensions panic.", "quantifier": "every dimension list, database size", "why_tests_cant": "unbounded number of dimensions", "anchors": ["src/evaluations.rs: Client::encode"]}
{"id": "C43", "title": "Server selection returns the addressed row", "statement": "With one-hot selectors for coordinates (i0,...,i_{d-1}) and a database of first_dim*dim^(d-1) rows, the server's folding returns exactly one result, equal to row i0 + first_dim*(i1 + dim*(i2 + ...)).", "quantifier": "every database, every dimension count, every coordinate", "why_tests_cant": "all shapes", "anchors": ["src/evaluations.rs: Server::decode"]}
{"id": "C44", "title": "End-to-end PIR answer", "statement": "For every database, index, key and randomness within the noise budget, decrypting the server's answer gives the addressed database row.", "quantifier": "all databases, indices, keys, randomness", "why_tests_cant": "tests only print the answer for one query", "anchors": ["src/evaluations.rs: Server::{new,decode}, Evaluation::unpack"]}
{"id": "C45", "title": "Number of query ciphertexts", "statement": "no_of_cts terminates for every configuration and returns first_dim + dim*(number of further dimensions).", "quantifier": "all db sizes and dims", "why_tests_cant": "termination is not testable", "anchors": ["src/evaluations.rs: Server::no_of_cts"]}
{"id": "C46", "title": "PVW decryption inverts encryption within the noise bound", "statement": "For bits m, decrypt(encrypt(m)) = m for every key and every randomness whose accumulated error is below q/4; in particular always if m*2*variance < q/4 - 1.", "quantifier": "every params, key, randomness", "why_tests_cant": "tests sample 5 runs", "anchors": ["src/pvw.rs: PvwSk::{gen_pk,decrypt}, PvwPk::encrypt"]}
{"id": "C47", "title": "PVW default parameters are always correct", "statement": "With PvwParams::default() decryption returns the encrypted bits for every randomness.", "quantifier": "every randomness", "why_tests_cant": "needs worst case over tapes", "anchors": ["src/pvw.rs: PvwParams::default"]}
{"id": "C48", "title": "Noise measurement", "statement": "measure_noise(ct) is the bit length of the largest centered distance between the ciphertext's phase and the ideal scaled message.", "quantifier": "every ciphertext and key", "why_tests_cant": "no test asserts it", "anchors": ["src/bfv.rs: SecretKey::measure_noise"]}
{"id": "C49", "title": "Homomorphic inner product", "statement": "inner_product(cts,polys) has phase sum_i phase(ct_i)*poly_i; different lengths panic.", "quantifier": "every list length", "why_tests_cant": "unbounded length", "anchors": ["src/omr.rs: inner_product"]}
{"id": "C50", "title": "Relinearized ciphertext multiplication decrypts to the product", "statement": "multiply_with_strategy(ct1,ct2,rlk) is a two-component ciphertext that decrypts to m1*m2 in Z_t[X]/(X^N+1) whenever an explicit noise inequality holds.", "quantifier": "all ciphertexts, keys, randomness", "why_tests_cant": "noise worst case", "anchors": ["src/bfv.rs: multiply_with_strategy, MultiplicationParameters"]}
{"id": "C51", "title": "Parameter construction never runs out of auxiliary primes and its contexts form the modulus chain", "statement": "BfvParameters::new builds one ciphertext context per level, level i using the first n-i moduli; the extended basis has ceil((bits+60)/62) primes distinct from all ciphertext moduli; the slice of auxiliary primes is always in range.", "quantifier": "every parameter choice accepted", "why_tests_cant": "all list lengths", "anchors": ["src/bfv.rs: BfvParameters::{new,ctx_level}"]}
{"id": "C52", "title": "RNS scaling rounds to nearest for every factor the library uses", "statement": "If the denominator divides numerator*Q, or the source basis is small (n*q <= 2^63), RnsScaler::scale returns the residues modulo every requested target modulus of one integer y with |y - x*num/den| <= 1/2 + 2B/2^127, where x has the given residues and |x| <= Q/2 + Q*B*max(B,2^63)/2^191; no step overflows or fails an assertion.", "quantifier": "every pair of RNS contexts, every such factor, every residue vector", "why_tests_cant": "fixed-point error analysis; failure only at rounding boundaries", "anchors": ["src/rns.rs: RnsScaler::{new,extract_projection_and_theta,scale}"]}
{"id": "C53", "title": "The server computes the number of dimensions of its database", "statement": "For a database of first_dim*dim^k rows, decode computes dimensions = k+1.", "quantifier": "all first_dim, dim >= 2, k", "why_tests_cant": "only fails for dim that is not a power of two and enough dimensions", "anchors": ["src/evaluations.rs: Server::decode"]}
{"id": "C54", "title": "Clue packing puts every component of every clue in its slot", "statement": "process encodes component k of all clues as a polynomial whose forward transform is that component of clue 0, 1, ... followed by zeros up to D slots; more than D clues panic.", "quantifier": "every list of well-formed clues, every transform size", "why_tests_cant": "the code calls it only with an empty list of clues", "anchors": ["src/omr.rs: process"]}
{"id": "C55", "title": "Linear operations keep every component", "statement": "ct + ct and ct - ct on ciphertexts with k >= 2 components at the same level return the componentwise sum and difference, so that decryption of the result is the sum and difference of the messages.", "quantifier": "every parameter set, every pair of ciphertexts, every number of components", "why_tests_cant": "shipped tests add only fresh two-component ciphertexts", "anchors": ["src/bfv.rs: Add/Sub for BfvCipherText"]}
{"id": "C56", "title": "Bit decomposition of a polynomial recomposes to the polynomial", "statement": "apply_bit_decomposition stores for every coefficient digits whose weighted sum is the coefficient, without panic.", "quantifier": "every context, every polynomial, every base", "why_tests_cant": "no test calls it", "anchors": ["src/rq.rs: Poly::apply_bit_decomposition"]}
{"id": "C57", "title": "Trial decryption returns the phase", "statement": "decrypt_trial(c0,c1) is c0 + c1*s modulo the ciphertext modulus, in NTT form; polynomials of different contexts panic; a ciphertext whose trial decryption is Q/t*m plus small noise decrypts to m.", "quantifier": "every parameter set, key and pair of polynomials", "why_tests_cant": "statement about all keys and ring elements", "anchors": ["src/bfv.rs: SecretKey::decrypt_trial"]}
{"id": "C58", "title": "Poly::inverse is the inverse modulo X^N+1 and Q", "statement": "For a polynomial in NTT form invertible modulo Q, inverse returns its inverse in both builds; if it is not invertible the debug build panics and the release build returns a pseudo-inverse; in power basis the result is not the ring inverse.", "quantifier": "every context, every polynomial", "why_tests_cant": "needs all residues at all evaluation points", "anchors": ["src/rq.rs: Poly::inverse"]}
{"id": "C59", "title": "Key switching across levels", "statement": "A key made by Ksk::new(sk, from, ct_level, ksk_level) switches any polynomial of level ct_level: the resulting pair has phase poly*from plus the bounded noise, for every pair of levels.", "quantifier": "every parameter set, key, source polynomial, pair of levels, randomness and input polynomial", "why_tests_cant": "tests use equal levels only", "anchors": ["src/ksk.rs:47-125"]}
{"id": "C60", "title": "Circuits of homomorphic operations decrypt to the value of the circuit", "statement": "For every circuit of additions, subtractions, plaintext and scalar products, ciphertext products with relinearization, automorphisms and external products, evaluation never panics, and if the worst-case noise computed from the circuit is at most the budget the result decrypts to the value of the circuit modulo t.", "quantifier": "every circuit, parameter set, key, inputs and randomness", "why_tests_cant": "tests run single operations on random messages", "anchors": ["src/bfv.rs: multiply_with_strategy, GaliosKey::relinearize", "src/rgsw.rs: external product"]}
{"id": "C61", "title": "Modulus switching keeps the message and divides the noise", "statement": "Applying mod_switch_to to every component of a ciphertext, from level i to level j >= i, never panics, keeps the message, and divides the noise by the product of the dropped moduli up to t times (1 + N S + (N S)^2 + ...), S bounding the key; if that fits, the result decrypts to the same message. Switching to a higher modulus panics.", "quantifier": "every parameter set, key, ciphertext with any number of components, pair of levels", "why_tests_cant": "noise growth bound over all ciphertexts", "anchors": ["src/rq.rs:388-433"]}
{"id": "C62", "title": "generate_moduli finds the largest primes and fails only if there are too few", "statement": "generate_moduli(sizes, degree) returns Some exactly if, for every size, there are at least as many primes of that size congruent to 1 mod 2*degree as requested, and None otherwise. The i-th modulus is the largest such prime of its size that is not among the earlier ones.", "quantifier": "every list of sizes in 10..=62, every degree >= 1 with 2*degree < 2^64", "why_tests_cant": "sizes and degrees are unbounded in combination; None is reached only when the primes run out", "anchors": ["src/bfv.rs:205-226"]}
{"id": "C63", "title": "BfvParameters::default returns usable parameters", "statement": "BfvParameters::default(n, degree, _) returns parameters with n distinct 62-bit moduli for every n >= 1 and every power-of-two degree >= 8 for which enough primes exist.", "quantifier": "every number of moduli and degree, both build profiles", "why_tests_cant": "the shipped tests use degree 8 only", "anchors": ["src/bfv.rs:193-200", "src/bfv.rs:205-226", "src/bfv.rs:46-182"]}
{"id": "C64", "title": "The whole retrieval protocol returns the addressed row", "statement": "For degree at most 4096, plaintext modulus at most 2^21, at least four 62-bit moduli and dimensions that fit the degree, key generation, evaluation keys, server construction, query encoding and encryption, decode and decryption succeed and the decrypted answer is the row at the queried coordinates.", "quantifier": "every parameter set in that range, database, coordinates, key and randomness, both build profiles on either side", "why_tests_cant": "the shipped test runs one database with one query and checks nothing", "anchors": ["src/evaluations.rs:421-465", "src/evaluations.rs: Server::decode", "src/evaluations.rs: Client::encode"]}
{"id": "C65", "title": "Decryption rounds to nearest and fails beyond Q/2", "statement": "decrypt returns, for each coefficient, y mod t where y is t*phi/Q rounded to nearest (phi the phase coefficient, up to the stated 2^-31 relative slack). So a message with scaled noise v decrypts to the right value if 2^32|v| < Q(2^31-1) and to a wrong one if Q(2^31+1) < 2^32|v| and |v| <= Q(t-1).", "quantifier": "every parameter set whose first modulus is at least 2t (C97 treats the others), level, key, ciphertext with at least one component, both build profiles", "why_tests_cant": "tests decrypt fresh ciphertexts only; the failure threshold is never reached", "anchors": ["src/bfv.rs:347-382"]}
{"id": "C66", "title": "The unsafe blocks never access memory out of bounds", "statement": "The unchecked accesses of the NTT (forward and backward) and of RnsScaler::scale are in bounds for whatever arguments the safe public functions are given.", "quantifier": "every operator and scaler returned by its constructor, every slice, output length and starting index, both build profiles", "why_tests_cant": "an out-of-bounds read is undefined behaviour and need not be visible; tests run in the debug profile where debug_assert! stops it", "anchors": ["src/ntt.rs:77-156", "src/rns.rs:298-431"]}
{"id": "C67", "title": "Operations on operands that do not belong together panic", "statement": "An operation on polynomials, ciphertexts, plaintexts or keys returns a value only if its operands have the representation, context, level, parameters and number of components it requires; otherwise it panics, in both build profiles.", "quantifier": "every operand of every binary operation, both build profiles", "why_tests_cant": "the mismatched combinations are unbounded and no test tries them", "anchors": ["src/rq.rs:545-637", "src/rq.rs:86-151", "src/bfv.rs:424-565", "src/bfv.rs:657-770", "src/ksk.rs:102-156", "src/rgsw.rs:28-61", "src/omr.rs:9-19"]}
{"id": "C68", "title": "The noise sampler is exactly centered binomial and independent", "statement": "Over uniformly random words, the outputs of sample_vec_cbd(n, v) are independent and each takes the value x with probability C(4v, 2v+x)/2^(4v), which has mean 0 and variance v. The secret key is distributed accordingly.", "quantifier": "every length, every variance 1..16, every output vector, counting all random streams", "why_tests_cant": "a distribution can only be estimated by sampling", "anchors": ["src/utils.rs:54-85", "src/bfv.rs:279-290"]}
{"id": "C69", "title": "The probability that PVW decryption fails", "statement": "For every key, public matrix, selector and message, the fraction of the choices of the key-error words for which decryption does not return the message is at most 2*ell*exp(-floor(q/4)^2/(2*variance*m)); with the default parameters it is below 2^-6000.", "quantifier": "every accepted parameter set, key, matrix, selector, message and build profile, counting all choices of the error words", "why_tests_cant": "the shipped test tries five random keys; failures exist (C47) but are too rare to be met by sampling", "anchors": ["src/pvw.rs:19-29", "src/pvw.rs:56-148"]}
{"id": "C70", "title": "Stored fields, small constructors and conversions are right", "statement": "q_star, q_tilde and garner hold the CRT constants; pt_ctx is the context of the first modulus and the multiplication parameters join the level's contexts; Ksk::new_with_pt makes a key-switching key for the scaled plaintext; a decrypted plaintext decodes only after set_encoding(Poly), to its values; seed expansion gives canonical polynomials; U256 splits into its halves and limbs; a scaling factor exists for every nonzero denominator and knows whether it is one; Client::new addresses a cube with the given sides; the default client addresses a 4x4x4 cube.", "quantifier": "all moduli, parameters, keys, ciphertexts, seeds and words", "why_tests_cant": "the fields are not read by the shipped tests", "anchors": ["src/rns.rs:39-70", "src/bfv.rs:84-168", "src/ksk.rs:38-45", "src/bfv.rs:611-632", "src/rq.rs:478-499", "src/utils.rs:220-227", "src/evaluations.rs:22-29", "src/utils.rs:214-218, 244-252", "src/rns.rs:101-111", "src/rq.rs:69-73, 268-270", "src/evaluations.rs:32-34"]}
{"id": "C71", "title": "The shipped tests hold for all inputs and randomness", "statement": "For parameters of the size the tests use, the bodies of mul_op, galois_key, ksk_with_pt, external_product, change_representation, mod_switch, bijection, test_decompose_bits and test_bit_vector never fail, whatever the values and the random choices (mul_op and ksk_with_pt give the product of any two messages); encrypt_decrypt passes with polynomial encoding, and with SIMD encoding exactly if slots that share an index hold equal values; ksk holds with a limit of 71 bits; pvw encrypt_decrypt passes exactly when the C46 round trip holds; the tests of evaluations.rs always panic, in unpack or decode.", "quantifier": "all values, keys, masks, errors and build profiles; degrees up to 2048, 2 to 40 moduli of 62 bits, plaintext moduli below 2^21", "why_tests_cant": "the tests draw a few random samples or use fixed constants", "anchors": ["src/bfv.rs:775-890", "src/ksk.rs:195-265", "src/rgsw.rs:297-342", "src/rq.rs:690-760", "src/ntt.rs:262-282", "src/utils.rs:290-320", "src/pvw.rs:155-180", "src/evaluations.rs:325-570"]}
{"id": "C72", "title": "Homomorphic operations act slot by slot on SIMD plaintexts", "statement": "SIMD decoding of a plaintext polynomial evaluates it at fixed odd powers of a primitive 2N-th root of unity modulo t. So, within the noise budget, decrypting and SIMD-decoding x + y, x - y, x * plaintext and multiply_with_strategy(x, y) gives the slotwise sum, difference and product modulo t of the decodings of the operands; in any circuit only Galois gates combine different slots.", "quantifier": "all parameters, keys, ciphertexts, plaintexts, circuits, randomness and build profiles", "why_tests_cant": "no test applies an operation to SIMD-encoded data", "anchors": ["src/bfv.rs:583-628", "src/bfv.rs:141-158", "src/bfv.rs:424-565", "src/bfv.rs:657-700"]}
{"id": "C73", "title": "Galois automorphisms rotate the SIMD slots", "statement": "Applying a Galois key for the exponent 3^r to a ciphertext rotates each of the two rows of N/2 SIMD slots by r, and the exponent 2N - 1 exchanges the rows.", "quantifier": "all parameters, keys, ciphertexts within the noise budget, rotations and randomness", "why_tests_cant": "the test of Galois keys uses polynomial encoding only", "anchors": ["src/bfv.rs:141-158", "src/bfv.rs:611-628", "src/bfv.rs:706-750", "src/rq.rs:36-60", "src/rq.rs:343-390"]}
{"id": "C74", "title": "Leveled programs: circuits with modulus switching in between", "statement": "A program that repeatedly lowers all ciphertexts with mod_switch_to and then applies circuits (additions, products, plaintext products, Galois automorphisms, external products) with keys of the new level never fails, and decrypts to the values of the composed circuits modulo t, as long as the recursively computed noise bound of every stage stays within the budget. Key generation supplies such keys at every level.", "quantifier": "all parameters, keys, programs of any length, levels, messages, randomness and build profiles", "why_tests_cant": "no test combines modulus switching with evaluation at a lower level; programs are unboundedly many", "anchors": ["src/rq.rs:388-433", "src/bfv.rs:424-565", "src/bfv.rs:640-770", "src/ksk.rs:102-125", "src/rgsw.rs:63-78"]}
{"id": "C75", "title": "What measure_noise says", "statement": "For a fresh encryption measure_noise returns exactly the bit length of the largest coefficient of the sampled error. For a ciphertext encoding a message with scaled noise V within the decryption threshold, t*2^(noise-1) < V + 2t. For every ciphertext whatsoever, also one that no longer decrypts to its message, the reading stays at about Q/2t, so a large reading cannot reveal failed decryption.", "quantifier": "all parameters, keys, ciphertexts, messages, randomness and build profiles", "why_tests_cant": "tests compare the reading with a constant for a few random ciphertexts", "anchors": ["src/bfv.rs:386-409"]}
{"id": "C76", "title": "The machine operations of the model are fixed-width bit-vector operations", "statement": "In both build profiles the model's +, -, *, /, %, pow, leading_zeros, reverse_bits and count_ones on w-bit values agree with Lean's BitVec operations: the result when it fits, a panic (debug) or the wrapped bit vector (release) when it does not. Assertions, unwraps, indexing, in-place writes, for loops, maps and zips behave as the corresponding Rust constructs.", "quantifier": "all widths, operands, lists and build profiles", "why_tests_cant": "the operations underlie every other theorem and hold for all 2^128 operand pairs", "anchors": ["src/modulus.rs:1-261", "src/utils.rs:1-150"]}
{"id": "C77", "title": "Encryptions and key-switching keys are RLWE samples with uniform masks", "statement": "An encryption is exactly (e - a s + M, a) with the mask a read from the tape, the error e the output of sample_vec_cbd and M a function of the plaintext; each residue class modulo Q is the mask of exactly one choice of values, so for fixed error the ciphertexts of a plaintext are exactly the pairs of phase M + e, each hit once. The pairs of a key-switching key are such samples plus the Garner multiples of the source. The error of key_switch, relinearize, relinearize_poly and external_product is exactly the sum of digits times these sampled errors.", "quantifier": "all parameters, keys, plaintexts, polynomials, tapes and build profiles", "why_tests_cant": "uniformity and the exact form of the error are statements about all random choices", "anchors": ["src/bfv.rs:299-334", "src/rq.rs:460-475", "src/rq.rs:501-513", "src/ksk.rs:47-125", "src/rgsw.rs:28-78", "src/bfv.rs:706-770"]}
{"id": "C78", "title": "Key-switching noise is sub-Gaussian", "statement": "For any key, masks and input, at most the fraction 2N exp(-T^2/(2 variance N sum q_j^2)) of the choices of random words of the key errors gives a key switch (Galois relinearization, external product with twice the sum) whose error has a coefficient of T or more; decryption after a Galois automorphism fails for at most that fraction when t T leaves room. The test ksk with its own limit of 70 bits, which is below the worst case, fails for at most one in 2^290 choices.", "quantifier": "all parameters, keys, masks, ciphertexts, thresholds and build profiles; the fraction is a count over all choices of the words", "why_tests_cant": "failure probabilities this small never show in samples", "anchors": ["src/ksk.rs:47-125", "src/ksk.rs:223-264", "src/bfv.rs:700-740", "src/rgsw.rs:28-78", "src/utils.rs:54-88"]}
{"id": "C79", "title": "Queries are private if RLWE samples look uniform", "statement": "For any two lists of encoded coordinates, any way of drawing the secret key, any further information about it given to the server (for instance the evaluation keys) and any predicate of the server's view, the probabilities that the predicate holds of the two queries' ciphertexts differ by at most the sum of the advantages of two explicit distinguishers of RLWE samples (with the centered binomial error that the code samples) from uniform pairs, given the same information. The same holds for any number of calls of encrypt_poly with any messages.", "quantifier": "all parameters, key distributions, auxiliary information, message lists, predicates and build profiles; probabilities count all choices of mask values and error words", "why_tests_cant": "a statement about all distinguishers and all random choices", "anchors": ["src/bfv.rs:299-334", "src/rq.rs:460-475", "src/rq.rs:501-513", "src/evaluations.rs:438-453"]}
{"id": "C80", "title": "The located defects are the only obstacles: corrected lines give the unrestricted statements", "statement": "Replacing only the lines found defective by the restricted properties gives programs for which the unrestricted statements hold: the bit count of every modulus (C07); encryption, and its round trip with decryption, at every level (C31); adding a polynomial to a ciphertext adds it to the message once (C33); the product of ciphertexts with any numbers of components encrypts the product (C35); the client accepts every coordinate tuple within the database and encodes it (C42, C45); SIMD encoding round-trips every vector, slotwise sums, differences and products of encrypted vectors come out for all vectors, Galois keys for 3^r rotate both rows of slots and the key for 2N-1 exchanges them (C28, C72, C73); unpacking a query never fails for any dimensions (C41); the whole protocol, for all dimensions, returns the addressed row (C44, C53, C64); the RNS scaler rounds to nearest for every number of moduli and never reads out of bounds (C19, C66); scaling by one is right between any two bases (C26); sums, differences and products by integers, polynomials and plaintexts act on all components of a ciphertext (C55); polynomials of different contexts and ciphertexts of different parameters are refused (C67); every key-switching key that is handed out is right (C59); default parameters exist for every power-of-two degree from 8 to 131072 (C63); PVW with the default parameters always decrypts correctly (C47); the count of query ciphertexts ends for all dimensions (C45); and the bit decomposition of a polynomial, with the digits stored, recomposes to the polynomial exactly when the array has room for the bits of every modulus, which the shipped setting of eight digits of four bits does not have (C56). This is a statement about corrected copies of the functions, kept apart from the model of the repository.", "quantifier": "all parameters accepted by the code, all moduli, vectors, ciphertexts, databases, dimensions, coordinates, random tapes and build profiles, within the stated noise budgets", "why_tests_cant": "the code under test has the defects; the statement is about all inputs of the corrected code", "anchors": ["src/modulus.rs: Modulus::bits", "src/bfv.rs: SecretKey::encrypt_poly, Add<&Poly>, Mul<&BfvCipherText>, BfvParameters::new (matrix_reps_index_map)", "src/evaluations.rs: Client::encode, Evaluation::{gen_x_pows,unpack}, Server::{no_of_cts,decode}, test query", "src/rns.rs: RnsScaler::scale", "src/rq.rs: RqScaler::new, AddAssign/SubAssign/MulAssign<&Poly>", "src/bfv.rs: Add/Sub/Mul<&BfvCipherText>, Mul<&Poly>, Mul<&Plaintext>, Mul<&BigUint>, SecretKey::decrypt, BfvParameters::default", "src/rgsw.rs: external_product", "src/ksk.rs: Ksk::new", "src/pvw.rs: PvwParams::default", "src/rq.rs: Poly::apply_bit_decomposition"]}
{"id": "C81", "title": "PVW encryptions hide the message under LWE", "statement": "Key generation stores exactly LWE samples (a, S a + e) with the drawn matrix, secret and centered binomial errors. For every two bit vectors and every predicate of the public key and a ciphertext, the probabilities that it holds of the encryptions of the two vectors differ by at most the advantages of two explicit distinguishers of m LWE samples from uniform pairs plus sqrt(q^(n+ell) / 2^m), by a leftover hash lemma that holds for every modulus; with the default parameters the last term is below 2^-4000.", "quantifier": "all parameters with 2 <= q < 2^62 and variance 1..16, all messages, all predicates, both build profiles; probabilities over uniform secret, matrix, error words and selection bits", "why_tests_cant": "indistinguishability is a statement about distributions and all distinguishers", "anchors": ["src/pvw.rs: PvwSk::gen_sk, PvwPk::gen_pk, PvwPk::encrypt", "src/utils.rs: sample_vec_cbd"]}
{"id": "C82", "title": "RGSW ciphertexts hide the message under RLWE, without circular security", "statement": "At every level, for every two messages and every predicate, the probabilities that it holds of the RGSW encryptions of the two messages (encrypt_poly and encrypt) differ by at most the advantages of two explicit distinguishers of RLWE samples from uniform pairs, although one half encrypts multiples of the secret key. The same for key-switching keys whose source is an affine function u + v s of the secret key. The distinguishers get the same auxiliary information about the key.", "quantifier": "all accepted parameters, levels, messages, distributions of the key, auxiliary information, predicates and build profiles", "why_tests_cant": "indistinguishability is a statement about distributions and all distinguishers", "anchors": ["src/rgsw.rs: RgswCt::{encrypt,encrypt_poly}", "src/ksk.rs: Ksk::new"]}
{"id": "C83", "title": "Packing, inner product and PVW keys compose to homomorphic PVW decryption", "statement": "The functions of omr.rs compose to their purpose: with the PVW modulus as BFV plaintext modulus and D slots, packing up to D clues with process, taking inner_product of the packed a components with an encryption of row k of the PVW secret key, decrypting and transforming gives for every clue at once the value from which pvw::decrypt rounds bit k; hence the whole composition (PVW key generation, clues, packing, encrypted key, inner products, decryption, rounding) recovers every bit of every clue whenever PVW itself decrypts the clue correctly and the noise bound 4 n D (2 q v + 2 q) q <= Q holds.", "quantifier": "all parameters accepted by the code, all clues, PVW keys, messages, random tapes and build profiles, within the stated bounds", "why_tests_cant": "omr.rs has no test at all, and process runs on an empty list of clues; the claim ranges over all clues, keys and randomness of two schemes", "anchors": ["src/omr.rs: inner_product, process", "src/pvw.rs: gen_sk, gen_pk, encrypt, decrypt", "src/bfv.rs: SecretKey::encrypt, SecretKey::decrypt, Mul<&Poly>, Add"]}
{"id": "C84", "title": "Debug and release builds behave alike", "statement": "For every public function and every input, without any precondition: if the debug build returns a value, the release build returns the same value; if the debug build panics other than by an arithmetic overflow or a debug_assert, the release build panics in the same way. In particular no debug_assert has an effect on the results, and a panic of the release build is always a panic of the debug build.", "quantifier": "all inputs (also those outside the domain of the other properties) of all modelled public functions", "why_tests_cant": "tests run in one build profile at a time on a few inputs; the statement compares both builds on all inputs", "anchors": ["src/modulus.rs: debug_assert! in reduce, add, sub, shoup, lazy_mul_shoup", "src/ntt.rs: butterfly, butterfly_inv", "src/rns.rs: RnsScaler::scale", "src/evaluations.rs: unpack"]}
{"id": "C85", "title": "Stored polynomials are the ring (Z/Q)[X]/(X^N+1)", "statement": "For every context returned by RqContext::new, the NTT-form polynomials that can be stored for it correspond one to one to the elements of (Z/Q)[X]/(X^N+1), with import, zero, add, sub, mul, neg, multiplication by a BigUint and substitution by odd k corresponding to the operations of the ring and its endomorphism X -> X^k; any expression built from these operators over imported coefficient vectors, exported to integers, returns exactly the reduced coefficients of its value in that ring, without a panic in either build, and two expressions return the same integers exactly when their values are equal.", "quantifier": "all contexts, all imported vectors of length at most N, all expressions of any depth, both builds", "why_tests_cant": "tests compare single operations on a few random polynomials; the statement covers all compositions of operations on all polynomials and every ring law at once", "anchors": ["src/rq.rs: Poly, Add, Sub, Mul, Neg, Mul<&BigUint>, substitute, try_convert_from, change_representation, From<&Poly> for Vec<BigUint>", "src/rq.rs: RqContext::new, Substitution::new"]}
{"id": "C86", "title": "How often the primitive root search fails", "statement": "For every NTT-friendly prime q and size n = 2^K >= 8, NttOperator::new returns an operator exactly when one of the first 100 samples of primitive_root is a quadratic non-residue modulo q, and otherwise panics at its assert; of the q^100 possible sequences of samples exactly ((q+1)/2)^100 make it panic, a fraction below 2^-91 for every q and below 2^-99 for q >= 150. RqContext::new returns a context exactly when the degree is a power of two at least 8 and the moduli are a nonempty list of distinct primes below 2^62, 1 modulo twice the degree, each with such a sample.", "quantifier": "all NTT-friendly primes, all sizes, all sample sequences, both builds", "why_tests_cant": "the failure is too rare to be observed and the generator in the code is seeded with a constant, so tests see one sequence per modulus", "anchors": ["src/ntt.rs: primitive_root, is_primitive_root, NttOperator::new", "src/rq.rs: RqContext::new"]}
{"id": "C87", "title": "The server answers databases of any size", "statement": "For a database of any number of rows, with correct selectors for coordinates (i0, is), the folding of Server::decode returns exactly one ciphertext for each started block of first_dim*dim^(d-1) rows, the j-th encoding the row with those coordinates in the j-th block (zero if the database ends before it), with the same noise bound for every size. Every row has exactly one block number and list of coordinates. Whenever Client::encode accepts the number of rows the answer has one ciphertext, or two if the rows are not exactly one block, and the first decrypts to the addressed row; with a power of two as dim, decode computes the right number of dimensions for all these sizes.", "quantifier": "all database sizes, rows, coordinates, keys, randomness, parameters, both builds", "why_tests_cant": "the tests use one database whose size is exactly first_dim*dim^k, so the short last chunks are never exercised", "anchors": ["src/evaluations.rs:109-226 Server::decode", "src/evaluations.rs:36-62 Client::encode"]}
{"id": "C88", "title": "The samplers are exactly uniform", "statement": "Reading uniform 64-bit words, the rejection samplers that the library calls (Uniform::from(0..q) in Modulus::random and random_vec, gen_range(0..p) in primitive_root) return every value of their range for exactly the same number of word sequences of each length; the numbers, and those of the sequences that do not suffice, are given in closed form. So Poly::random (the masks of all encryptions and key-switching keys) is exactly uniform over the ring modulo Q, PvwSk::gen_sk over all matrices modulo q, and all results are among the tapes that the other theorems quantify over. primitive_root with these words is the modelled search with the drawn values.", "quantifier": "all moduli, degrees, contexts, parameters, sequences of words", "why_tests_cant": "a test sees one sample; exact uniformity is a statement about all word sequences", "anchors": ["src/modulus.rs:244-252 random, random_vec", "src/rq.rs:460-475 Poly::random", "src/pvw.rs:40-52 gen_sk", "src/ntt.rs:211-226 primitive_root"]}
{"id": "C89", "title": "The shipped parameter sets are constructed by the actual generator", "statement": "primitive_root draws its candidates from ChaCha8Rng::seed_from_u64(0). With these actual values every parameter set, context and NTT operator that the repository constructs in its tests and in omr.rs is constructed without a panic in both builds: BfvParameters::default(n, 8) for n from 1 to 6, generate_moduli(&[62,62,62,62]) for degrees 64 and 8, [50,55,55] for degrees 2048 and 64, [61,61,61] with the 60-bit plaintext modulus, the literal moduli of ksk.rs and rq.rs. generate_moduli and generate_prime return the stated primes, which are the largest ones. So the theorems about the tests (C71) hold for the parameters of the tests without any assumption on the sampler.", "quantifier": "both builds, all bit decompositions and variances; the parameter sets are those of the repository", "why_tests_cant": "a test run shows it for one build on one machine; it does not show that the primes are the largest ones or primes at all", "anchors": ["src/ntt.rs:211-226 primitive_root", "src/bfv.rs:40-203 BfvParameters::new, default, generate_moduli", "src/evaluations.rs:334-560 parameters of the tests", "src/rgsw.rs:108-118", "src/ksk.rs:178-184", "src/rq.rs:683-689 MODULI"]}
{"id": "C90", "title": "What the printing tests of the repository show", "statement": "Seven tests assert nothing and print what they compute. For all messages and all randomness: simd_slot_rotations shows in slot k the value stored for the exponent e times that of slot k (for degree 8 and exponent 15 it shows [0, v6, 0, 0, v1, 0, v1, 0] for every vector v, since the slot map of the code is not injective); the SIMD round trip returns the value of the last slot with the same exponent; trial shows the product of message and factor; contruct_ksk_from_rgsw shows the product of the two messages and the factor; construct_full_from_half does not show b times the values but b times the sum of the values and the error sampled for their encryption, because the values are encrypted without scaling, and equals the values for b = 1 exactly if all sampled errors are zero; encrypt_poly prints as third number at most 74 or 183 bits, with the parameters of the test; substitute with inverse exponents shows the same polynomial twice.", "quantifier": "all keys, messages, random tapes, both builds; parameters of the sizes used in the tests", "why_tests_cant": "the tests check nothing: they print one random run", "anchors": ["src/bfv.rs:870-893 simd_slot_rotations", "src/ksk.rs:171-195 trial", "src/rgsw.rs:106-184 encrypt_poly", "src/rgsw.rs:187-242 construct_full_from_half", "src/rgsw.rs:245-296 contruct_ksk_from_rgsw", "src/rq.rs:713-727 substitute"]}
{"id": "C91", "title": "Exact contracts of the modular arithmetic on all words", "statement": "For every modulus and all 64-bit words, reduced or not: in the debug build add, sub, mul, neg, pow, inv, shoup, lazy_mul_shoup, mul_shoup, reduce_ct and the vector operations panic exactly when an argument that meets the operation violates the contract (not below p; for inv also zero; for Shoup multiplication also a wrong representation); in the release build they return, and the result is the residue exactly if: a + b < 2p for add; 0 <= a + p - b < 2p for sub; a <= p for neg; always for mul; always for pow except the first power of an unreduced word; for inv the result is an inverse exactly if a^(p-1) = 1 modulo p, so for prime p always but for composite p not in general; shoup represents the residue; lazy_mul_shoup is the exact difference modulo 2^64.", "quantifier": "all moduli accepted by Modulus::new, all words, all vectors, both builds", "why_tests_cant": "2^128 pairs of words; the tests use reduced random values in one build", "anchors": ["src/modulus.rs:72-87 reduce_ct", "src/modulus.rs:122-221 pow..shoup_vec", "src/modulus.rs:223-242 mul_shoup, lazy_mul_shoup"]}
{"id": "C92", "title": "The transforms accept exactly the lazy residues", "statement": "For every operator built by NttOperator::new and every vector of its size: the debug build of forward succeeds exactly if all entries are below 4q and of backward exactly if all entries are below 2q, and otherwise panics in a debug assertion; within these ranges, in both builds, the transform of the vector is the transform of its residues modulo q.", "quantifier": "all moduli, sizes and operators that NttOperator::new returns, all vectors of words", "why_tests_cant": "the only test runs one size and one modulus on reduced random vectors", "anchors": ["src/ntt.rs:77-156 forward, backward", "src/ntt.rs:163-192 butterfly, butterfly_inv"]}
{"id": "C93", "title": "Branches, accesses and divisions do not depend on secrets", "statement": "In the release build the modular arithmetic (lazy_reduce_ct, reduce_ct, lazy_mul_shoup and what is built on them) executes no branch, no slice access and no division on any words; two runs of the transforms, of key generation, of the encryption of polynomials and plaintexts, of RGSW encryption, of the generation of key-switching, Galois, relinearization and evaluation keys, of encoding a query, and of PVW key generation and encryption leave the same sequence of branches, accesses and division operands whatever the vectors, keys, messages, queries and random numbers of the same shape; the trace of decryption depends on key and ciphertext only through the sign of w of each coefficient. The debug build of reduce_ct, shoup, the exponent of pow and the sign of w in scale do leave a trace, and the trace of PVW decryption reveals exactly the noisy slots, which are operands of a division.", "quantifier": "all words, all moduli and operators, all parameter sets, keys, messages, ciphertexts and random tapes", "why_tests_cant": "the documentation claims constant time, and no test observes anything but values", "anchors": ["src/modulus.rs:31-47 lazy_reduce_ct", "src/modulus.rs:64-87 reduce_ct", "src/modulus.rs:227-242 lazy_mul_shoup", "src/ntt.rs:77-192 forward, backward", "src/bfv.rs:279-382 generate, encrypt_poly, decrypt", "src/rns.rs:384-416 scale", "src/ksk.rs:38-98 new_with_pt, new", "src/bfv.rs:707-760 GaliosKey::new, RelinearizationKey::new", "src/rgsw.rs:28-62 encrypt_poly, encrypt", "src/evaluations.rs:36-62 encode", "src/evaluations.rs:235-252 build", "src/pvw.rs:56-149 gen_pk, decrypt, encrypt"]}
{"id": "C94", "title": "The expansion tests of the repository hold once gen_x_pows returns the monomials", "statement": "With the corrected gen_x_pows of C80, the tests unpack, client_encode, unpack_decomp and pack_and_construct_rgsw of evaluations.rs, which panic as shipped (C71), run to their end in both builds: unpack decrypts to the packed values with no mismatch; client_encode recovers the encoded query followed by zeros; the i-th trial decryption of unpack_decomp is the i-th value times the constant up to an error below 2^96; and pack_and_construct_rgsw compares the random vector times the first value of the query with the vector times its constant, so its assertion holds when the two agree and fails when they differ and the first entry of the vector is not zero.", "quantifier": "For all parameters of the shape the tests use (degree at most 2048, plaintext modulus below 2^21, two to forty moduli of 49 to 62 bits with product at least 2^122; at least four moduli of 62 bits for the RGSW test), all values, queries, vectors, secret keys, uniform masks and noise.", "why_tests_cant": "The tests stop at the panic in unpack; even repaired they would run one set of parameters, one query and one draw of randomness.", "anchors": ["src/evaluations.rs:331-418 pack_and_construct_rgsw", "src/evaluations.rs:468-499 client_encode", "src/evaluations.rs:501-548 unpack_decomp", "src/evaluations.rs:550-590 unpack", "src/evaluations.rs:301-320 gen_x_pows"]}
{"id": "C95", "title": "What the Debug implementations show", "statement": "The printed form ({:?}) of a value determines exactly the listed parts of it and depends on nothing else: BfvParameters the degree and the ciphertext moduli, RnsContext the moduli and their product, RqContext the moduli only (not the degree), Plaintext its values, encoding, level and parameters as printed; Modulus, NttOperator, ScalingFactor, BitDecomposition, Substitution, U256, PvwParams, PvwCiphertext, the two enums and vectors of words are printed without loss. SecretKey derives Debug and prints all its coefficients: two keys print alike only if the coefficients are equal, so a logged key is a disclosed key.", "quantifier": "For all values of the types (all lengths of the vectors, all sizes of the integers).", "why_tests_cant": "Unique readability of a text format is a statement about all pairs of values; printing samples shows neither that different values print differently nor which fields have no influence.", "anchors": ["src/bfv.rs:253-270 Debug for BfvParameters", "src/bfv.rs:272-276 SecretKey", "src/rns.rs:24-37 Debug for RnsContext", "src/rq.rs:169-183 Debug for RqContext", "src/evaluations.rs:585-586 println", "src/bfv.rs:574-580 Plaintext", "src/pvw.rs:10-17 PvwParams", "src/utils.rs:152-153 U256"]}
{"id": "C96", "title": "Masks are expanded from 32 bytes by SHA-256 and ChaCha8", "statement": "random_from_seed computes the SHA-256 hash (FIPS 180-4, constants characterised by the roots of the first primes) of its seed, uses it as key of ChaCha with 8 rounds and zero nonce, and fills the rows by rejection sampling from the key stream. The result is canonical, is the same function of seed, moduli and degree for every number of blocks read, and an encryption whose mask is expanded from any seed decrypts to the message. At most 2^256 polynomials are masks, so over a larger ring the mask is not uniform in the information-theoretic sense.", "quantifier": "For all messages of bytes shorter than 2^61 bytes (SHA-256), all keys and block numbers below 2^64 (ChaCha8), all seeds, contexts, parameters, keys, plaintexts and error tapes.", "why_tests_cant": "Agreement with the standards on all inputs and decryption for all 2^256 seeds cannot be sampled; the count of masks is a statement about all seeds at once.", "anchors": ["src/rq.rs:478-499 random_from_seed", "src/bfv.rs:303-305 seed of encrypt_poly", "src/ksk.rs:55-57 seeds of Ksk::new", "Cargo.lock sha2 0.10.6, rand_chacha 0.3.1"]}
{"id": "C97", "title": "Accepted parameters decrypt fresh encryptions correctly", "statement": "For parameters accepted by BfvParameters::new, every key, message and randomness, decrypt(encrypt(m)) = m mod t when Q is large enough for the fresh noise. The code violates this: decrypt shifts the rounded value by t and reduces it modulo the first ciphertext modulus q0, which new compares with t only in a debug assertion of neg (t < q0). With n moduli and t n^2 < 2^64, for every key and randomness, all messages come back if and only if 3t < 2 q0: a residue r > t/2 always comes back, another one if and only if t + r < q0, and otherwise as t + r - q0. For any number of moduli it holds when 13t + 4 < 8 q0, and a coefficient r with 8r + 4 < 3t and q0 <= t + r comes back as t + r - q0.", "quantifier": "every parameter set, key, message, randomness, both build profiles", "why_tests_cant": "tests use first moduli much larger than t; the failing parameters are the band between t and 3t/2", "anchors": ["src/bfv.rs:346-382 decrypt", "src/bfv.rs:60-200 BfvParameters::new"]}
{"id": "C98", "title": "is_prime is the Baillie-PSW test and rejects no prime", "statement": "probably_prime(n, 0) of num-bigint-dig, which is_prime calls, terminates for every n and returns true exactly for the numbers accepted by the Baillie-PSW test (trial division to 53, strong Fermat test to base 2, extra strong Lucas test with method C). It accepts every prime for which some number up to 10002 is a quadratic non-residue, and every prime up to 10002; accepted numbers are prime or base-2 pseudoprimes. Where it agrees with primality, generate_prime with the test returns what the model of generate_prime returns; the moduli of the tests of degree 8 and 64 are found.", "quantifier": "every natural number (test), every size, step and bound (generate_prime), both build profiles", "why_tests_cant": "the absence of rejected primes and the equality with the test of the literature are statements about all numbers", "anchors": ["src/utils.rs:109-146 is_prime, generate_prime", "src/bfv.rs:205-226 generate_moduli", "Cargo.lock num-bigint-dig 0.8.1"]}
{"id": "C99", "title": "Arbitrary contents never make an operation panic", "statement": "If ciphertexts, key-switching keys, Galois keys and RGSW ciphertexts have the right shape (context of the level, NTT form, one row of residues for every modulus, one pair for every modulus), then, whatever residues they hold: decryption with any key returns a vector of the degree, measure_noise and decrypt_trial return, every circuit of additions, subtractions, plaintext and constant products, ciphertext products, Galois automorphisms and external products returns a ciphertext of the same shape, and the corrected expansion and the corrected server (C80) return as many ciphertexts of that shape as blocks of rows were started; the server rejects a query exactly if the number of ciphertexts is wrong. The corrected count of dimensions is characterised for every number of rows.", "quantifier": "every residue of every ciphertext and key (honest or not), every secret key, circuit, database of rows that fit, both build profiles", "why_tests_cant": "the tests only use honestly generated keys and ciphertexts; a malicious peer can send any residues", "anchors": ["src/bfv.rs:333-422 SecretKey", "src/bfv.rs:424-760 ciphertext operations", "src/ksk.rs", "src/rgsw.rs", "src/evaluations.rs", "src/server.rs"]}
{"id": "C100", "title": "Privacy of adaptively chosen queries", "statement": "Let encryptions (or whole queries) be made one after the other under one key, each for a message (or coordinates) chosen by a function of the ciphertexts so far and of further information such as the evaluation keys. For every two such functions and every predicate of the server's view, the probabilities that the predicate holds differ by at most the advantages of two explicit distinguishers of as many RLWE samples from uniform pairs (one sample per encryption, l+1 per query).", "quantifier": "every number of queries, every adaptive choice of coordinates, every distinguisher, every way of drawing the key and the auxiliary information, both build profiles", "why_tests_cant": "indistinguishability quantifies over all distinguishers and the probabilities are over all coins", "anchors": ["src/evaluations.rs:438-453 query", "src/bfv.rs:333-380 encrypt, encrypt_poly"]}
{"id": "C101", "title": "A dishonest server can read the key from one decrypted answer", "statement": "There is a ciphertext that depends on the parameters only and decrypts to the secret key modulo t, for every key with coefficients at most Q/(4t); if the coefficients are below t/2 (as for every generated key when 4·variance < t) the key is a function of the decrypted values. Answers are malleable: a server can add any vector and any multiple of the key to the decrypted row without knowing either. So decrypt must only be applied to answers whose values are not shown to the server.", "quantifier": "every secret key, every honest answer with room for the additional noise, every vector added, both build profiles", "why_tests_cant": "the tests decrypt honest ciphertexts only", "anchors": ["src/bfv.rs:382-422 decrypt", "src/evaluations.rs:433-461 query"]}
{"id": "C102", "title": "Selectors with arbitrary weights give weighted sums of the rows", "statement": "If the selector ciphertexts encrypt arbitrary integer weights instead of one 1 per dimension, the folding of decode succeeds, returns one ciphertext per started block of rows, and that ciphertext encodes the sum of the rows of the block with the products of their weights. The weights of the first dimension do not enter the noise; in every further dimension the noise is multiplied by the sum of the absolute weights. One-hot weights give back the addressed row. End to end, with the corrected decode of C80, a query that encrypts any vector of words decrypts to that weighted sum modulo t, so a client is not limited to single rows: the database is not protected against clients.", "quantifier": "every weight vector, database of any size, key, randomness, both build profiles", "why_tests_cant": "the tests only encode one-hot queries", "anchors": ["src/evaluations.rs:109-226 decode", "src/evaluations.rs:36-62 encode"]}
{"id": "C103", "title": "The noise of an answer depends on rows that were not asked for", "statement": "A ciphertext whose noise is below half the modulus determines that noise, so whoever holds the secret key can compute it from the ciphertext. Folding in one dimension leaves exactly the noise sum over all rows of the block of (noise of the selector) times (row), not only of the selected row. Hence two databases that agree in the selected row but differ in another one for which these sums differ give different answers to the same query, although both answers encode the same row: answers are not function private, and a client learns about rows it did not ask for even with an honest query.", "quantifier": "every database, selector ciphertexts with any noise below the bound, both build profiles", "why_tests_cant": "the tests compare decrypted messages, never the noise", "anchors": ["src/evaluations.rs:109-226 decode", "src/evaluations.rs:150-225 dot product of a block"]}
{"id": "C104", "title": "Sizes of keys, queries, answers and stored databases", "statement": "With L ciphertext moduli and degree N, counted in 64-bit residue words: a ciphertext of n components at level i has n(L-i)N, a key-switching key 2(L-i)^2 N and an RGSW ciphertext 4(L-i)^2 N. The evaluation keys that build returns contain log2 N Galois keys and one RGSW ciphertext, (2 log2 N + 4) L^2 N words, and have exactly the shape that the server needs (C99). A query has L+1 ciphertexts, 2 L (L+1) N words. The database is stored in L N words per row whatever the rows contain. An answer has one ciphertext for every started block of firstDim*dim^k rows, 2 L N words each: its size depends only on the number of rows, not on contents, keys or query.", "quantifier": "every accepted parameter set, key, randomness, database and query, both build profiles", "why_tests_cant": "the tests do not measure sizes; four parameter-dependent formulas over all parameter sets", "anchors": ["src/evaluations.rs:235-252 build", "src/evaluations.rs:73-93 Server::new", "src/evaluations.rs:109-226 decode", "src/ksk.rs:47-98 new", "src/rgsw.rs: RgswCt::encrypt_poly"]}
{"id": "C105", "title": "Database rows with entries outside the plaintext range", "statement": "Server::new reduces the entries of the rows modulo the ciphertext moduli, not modulo the plaintext modulus t, so the stored polynomials determine the entries exactly modulo the ciphertext modulus Q: two databases of the same size are stored alike just if their entries are congruent modulo Q. For any integers b congruent to the entries modulo Q and at most T in absolute value, if the noise of the answer computed for T is below Q/4 then the folding of decode gives an answer that decrypts to b modulo t; in particular, with the corrected decode of C80 (decode itself panics, C41), rows with entries up to T < 2^64 come back modulo t. It is not true that entries are read modulo t: with Q < 2^64 the entry Q-1 acts as -1.", "quantifier": "every accepted parameter set, key, randomness, database with 64-bit entries and query within the noise bound, both build profiles", "why_tests_cant": "the test database has entries below t only; the claim is over all 64-bit entries", "anchors": ["src/evaluations.rs:73-93 Server::new", "src/evaluations.rs:109-226 decode", "src/rq.rs:515-522 try_from_vec_u64"]}
{"id": "C106", "title": "Exactly when key generation, encryption and the server return", "statement": "For accepted parameters, SecretKey::generate returns just if the variance is between 1 and 16 (BfvParameters::new accepts any variance). to_poly returns just if the level exists and there are at most N values; encrypt just if in addition the variance is between 1 and 16. Ksk::new, RelinearizationKey::new and RGSW encryption return just if the level exists and the variance is between 1 and 16; GaliosKey::new and Evaluation::build just if in addition there is more than one ciphertext modulus. In all other cases they panic, in both build profiles. The corrected decode of C80 (decode itself always panics, C41) returns just if first_dim is between 1 and N, the selectors of the further dimensions, dim times their number k, are at most N, and the query has one ciphertext more than there are moduli, whatever the ciphertexts and keys hold.", "quantifier": "every accepted parameter set, any variance, key, plaintext, level and randomness, both build profiles", "why_tests_cant": "the tests run with variance 10 and valid levels only", "anchors": ["src/utils.rs sample_vec_cbd", "src/bfv.rs:285-334 generate, encrypt", "src/bfv.rs:634-654 to_poly", "src/bfv.rs:707-760 GaliosKey::new, RelinearizationKey::new", "src/ksk.rs:47-100 new", "src/rgsw.rs:28-42 encrypt_poly", "src/evaluations.rs:235-252 build", "src/evaluations.rs:109-226 decode"]}
{"id": "C107", "title": "Answers are not authenticated", "statement": "For every plaintext with at most N values at an existing level there is a ciphertext, computed from public data only (to_poly and Poly::zero), that has the shape and size of an honest two-component ciphertext and, if 8t <= Q of the level and 2t <= q_0, decrypts under every secret key to the values modulo t. Adding it to any two-component ciphertext of that level that encodes a message with noise V, 4(V + 2t) <= Q, shifts what that one decrypts to by the chosen values modulo t; hence any answer can be turned into one that decrypts to any chosen vector by somebody who knows what the answer decrypts to, without the key.", "quantifier": "every accepted parameter set, level, plaintext, ciphertext within the noise bound, all keys, both build profiles", "why_tests_cant": "the tests decrypt honest ciphertexts only", "anchors": ["src/bfv.rs:347-382 decrypt", "src/bfv.rs:634-654 to_poly", "src/bfv.rs:424-439 Add", "src/rq.rs:435-442 Poly::zero"]}
{"id": "C108", "title": "Answers sent at a smaller level", "statement": "The answer of the corrected decode of C80 for a database of first_dim * dim^k rows, with every component switched down to level j by mod_switch_to, consists of (L-j)/L of the words of the answer and decrypts at level j to the row asked for modulo t, if four times (noise of the answer divided by the product of the dropped moduli, plus t times the rounding noise 1 + N S) is at most the modulus of level j.", "quantifier": "every accepted parameter set, key, randomness, database with 64-bit entries, query and level within the noise bound, both build profiles", "why_tests_cant": "decode returns level 0 ciphertexts and no test switches a ciphertext; the claim is over all parameters and rows", "anchors": ["src/rq.rs:388-433 mod_switch_down_next, mod_switch_to", "src/evaluations.rs:109-226 decode", "src/bfv.rs:336-375 decrypt"]}
{"id": "C109", "title": "Clues and the keys they were not made for", "statement": "For every clue and every key of the shape of the parameters PvwSk::decrypt returns, slot by slot, whether (b_l - <s_l, a>) mod q lies in the interval [q/2 - q/4, 2(q/2) - q/4) (integer divisions). If some entry of a is invertible modulo q, the keys that make the clue decrypt to a bit vector m are exactly the fraction prod_l w(m_l) / q^ell of all keys, with w(1) = q/2 rounded down and w(0) = q/2 rounded up; with the default parameters an unrelated key takes any clue with a nonzero a for four zeros with probability (32769/65537)^4, more than 1/16. The clue a = 0, b = (q/2) m decrypts to m under every key, and adding (q/2) d to b flips the bits d of what a clue decrypts to, unless a phase is the one value 2(q/2) - q/4.", "quantifier": "every PVW parameter set with a modulus that Modulus::new accepts, every clue, every key, both build profiles", "why_tests_cant": "the test decrypts one clue with the key it was made for; the claim counts all q^(n ell) keys", "anchors": ["src/pvw.rs:94-114 decrypt", "src/pvw.rs:40-52 gen_sk", "src/pvw.rs:19-29 PvwParams::default"]}
{"id": "C110", "title": "The procedures described in the Readme", "statement": "Dividing a row number as Readme.md says (index = remainder by the current dimension, next index = quotient) gives coordinates within the dimensions whose address is the row, Client::encode on them returns exactly the flattened zeros and ones the Readme describes, and the protocol with the corrected lines of C80 answers such a query by that row. Each step of the expansion tree is right: X -> X^(N/2^i+1) changes the sign of every second term of a node of depth i, the even child is twice every second term and the odd child times X^(-2^i) twice the others, one iteration of the inner loop of unpack does exactly this to a ciphertext of any message with noise 2V + tB, and after i stages entry j encodes 2^i [m_j, m_(j+2^i), ...], after all of them N m_j. The Readme's own example is off by one: it expands the index 8 with the 1 at position 7, the code puts it at position 8.", "quantifier": "every row, dimensions, message, ciphertext, evaluation keys within the stated bounds, every stage, both build profiles", "why_tests_cant": "the documentation is not executed, and no test looks at a node inside the expansion tree", "anchors": ["Readme.md:7-102", "src/client.rs:1-90", "src/evaluations.rs:36-62 encode", "src/evaluations.rs:254-299 unpack"]}
{"id": "C111", "title": "When the clue operations return, and messages and clues of other lengths", "statement": "gen_sk returns exactly for the moduli Modulus::new accepts, gen_pk exactly if moreover ell = 0 or the variance is between 1 and 16. encrypt never compares the length of the message with ell: it uses the first ell entries and zeros for missing ones, so that bits of any length are decrypted up to padding and truncation. In the debug build it returns exactly if floor(q/2) x < q for the entries x it uses, that is for 0, 1 and, if q is odd, 2, which is decrypted as 0; in the release build it always returns. decrypt of canonical values returns exactly if the second part has at least ell values and the first at least n (unless ell = 0); further values of the first part are ignored, and further values of the second part are decided about as they are, so that the output has the length of the second part.", "quantifier": "every parameters, key, message, clue and randomness, both build profiles", "why_tests_cant": "the test only encrypts messages of ell bits under the default parameters", "anchors": ["src/pvw.rs:40-52 gen_sk", "src/pvw.rs:56-92 gen_pk", "src/pvw.rs:94-114 decrypt", "src/pvw.rs:120-148 encrypt"]}
{"id": "C112", "title": "Clues do not reveal their recipients", "statement": "For R recipients with keys of gen_sk and gen_pk and k clues of encrypt, any assignment of recipients and bit messages to the clues returns keys and clues for all coins, and for any two assignments and every predicate D of the public keys and the clues the probabilities of D differ by at most the sum of the advantages of 2R explicit distinguishers of m LWE samples (the errors from sample_vec_cbd) from uniform pairs, plus k sqrt(q^(n+ell)/2^m), at most k/2^4000 with the default parameters. The distinguishers run the code of encrypt.", "quantifier": "every PVW parameters with 2 <= q < 2^62 and variance 1..16, every number of recipients and clues, assignment of recipients and bit messages of length ell, predicate, both build profiles", "why_tests_cant": "a statement about probabilities over all keys and coins; the test makes one key and one ciphertext", "anchors": ["src/pvw.rs:40-52 gen_sk", "src/pvw.rs:56-92 gen_pk", "src/pvw.rs:120-148 encrypt"]}
{"id": "C113", "title": "Exactly which arguments BfvParameters::new accepts", "statement": "For a degree N below 2^64, plaintext modulus t and at most 2^30 moduli l, and a sampler that finds a quadratic non-residue modulo every suitable prime within 100 draws, the release build returns parameters exactly if N is a power of two and at least 8, t and the moduli are primes below 2^62 that are 1 modulo 2N, the moduli are distinct and there is at least one, and there are more such primes of 62 bits outside of l than moduli; the debug build exactly if moreover t is below every modulus. The conditions are necessary whatever the sampler draws. What decrypt returns for parameters of either build is below t and below the first modulus, so with the plaintext moduli above it that only the release build accepts, messages with larger coefficients never come back.", "quantifier": "every degree, plaintext modulus, list of moduli, sampler and variance, both build profiles; every key and ciphertext", "why_tests_cant": "the tests construct parameters from a few suitable arguments; refusals and the difference between the builds are not tested", "anchors": ["src/bfv.rs:46-182 BfvParameters::new", "src/bfv.rs:347-382 decrypt", "src/modulus.rs:188-191 neg"]}
{"id": "C114", "title": "Clues do not reveal their recipients to other recipients", "statement": "For R honest recipients and k clues for them, and R' other recipients that pool everything they have (their secret keys, their public keys and k' clues for them) with the public keys of the R recipients and the k clues: for any two assignments of honest recipients and bit messages to the k clues and every predicate D of all of this the probabilities of D differ by at most the sum of the advantages of 2R explicit distinguishers of m LWE samples (the errors from sample_vec_cbd) from uniform pairs, plus k sqrt(q^(n+ell)/2^m), at most k/2^4000 with the default parameters. All keys and clues are returned for all coins.", "quantifier": "every number of honest and other recipients, of clues, every two assignments of recipients and messages, every predicate; PVW parameters with 2 <= q < 2^62 and variance 1 to 16; both build profiles", "why_tests_cant": "a statement about the distributions over all coins and about all procedures that look at the keys and clues", "anchors": ["src/pvw.rs:40-52 gen_sk", "src/pvw.rs:56-92 gen_pk", "src/pvw.rs:120-148 encrypt"]}
{"id": "C115", "title": "Chosen clues read a PVW key", "statement": "A program that depends on the parameters only and may ask for what chosen clues decrypt to ends with the secret key after n ceil(log2 q) questions, for every key of the parameters and without any panic; with the default parameters and the keys of gen_sk it takes 7650 questions. This is almost the least possible: if a program finds out every key with at most k questions, whatever clues it asks about, then q^n <= 2^k, with the default parameters k >= 7200. So a recipient must not show what arbitrary clues decrypt to.", "quantifier": "every PVW parameter set with a modulus that Modulus::new accepts, every key, every adaptive program, both build profiles", "why_tests_cant": "a statement about all keys and about all programs that choose clues depending on earlier answers", "anchors": ["src/pvw.rs:94-114 decrypt", "src/pvw.rs:40-52 gen_sk", "src/pvw.rs:19-29 PvwParams::default"]}
{"id": "C116", "title": "Decrypting with another key", "statement": "Let two keys be given whose difference is invertible modulo Q. Then every encryption under the one decrypts under the other without panic, and for any given values the fraction of the masks for which exactly those values come out is at most ((1 + 2^-31)/t + 1/Q)^N, whatever the message and the errors are. So a key that differs from the right one in a single coefficient by one already gives nothing: the result is almost uniform on the t^N messages.", "quantifier": "every parameter set of BfvParameters::new with variance at most 16, all pairs of keys with an invertible difference, every plaintext, every error tape, all target values, both build profiles", "why_tests_cant": "a statement about the fraction of all masks, for all pairs of keys; no test run can exclude that a wrong key decrypts some of them", "anchors": ["src/bfv.rs:299-334 SecretKey::encrypt_poly, encrypt", "src/bfv.rs:347 SecretKey::decrypt"]}
{"id": "C117", "title": "Linear operators on ciphertexts satisfy the laws of a module exactly", "statement": "Every expression of ct + ct, ct - ct, ct * poly and ct * big integer over two-component ciphertexts of one level returns without panic, with the value of the expression in each component, and two expressions return the same ciphertext word for word exactly if their values agree modulo Q. In particular sums commute and associate, differences undo sums, products distribute and can be exchanged, and inner_product returns the same words in whatever order its pairs are given: a reordered or parallel summation cannot change an answer.", "quantifier": "every parameter set of BfvParameters::new, every level, all ciphertexts and polynomials of the level, all expressions, all permutations, both build profiles", "why_tests_cant": "quantifies over all expressions and all orders of summation", "anchors": ["src/bfv.rs:425-455 Add", "src/bfv.rs: Sub, Mul<&Poly>, Mul<&BigUint> for BfvCipherText", "src/omr.rs:9-19 inner_product"]}
{"id": "C118", "title": "Chosen clues read a PVW key if only their acceptance is seen", "statement": "Let a recipient accept exactly the clues that decrypt to a fixed message. A program that depends on the parameters and the message only, chooses clues and sees only which of them are accepted ends with the secret key after at most n (3^ell + ell ceil(log2 q)) clues, for every key of the parameters and without any panic; with the default parameters and the keys of gen_sk at most 67050 clues. If a program finds out every key with at most k clues in this way, then q^(n ell) <= 2^k, with the default parameters k >= 28800. So not even the reaction of a recipient to arbitrary clues may be visible.", "quantifier": "every PVW parameter set with a modulus that Modulus::new accepts, every accepted message, every key, every adaptive program, both build profiles", "why_tests_cant": "a statement about all keys and about all programs that choose clues depending on earlier reactions", "anchors": ["src/pvw.rs:94-114 decrypt", "src/pvw.rs:40-52 gen_sk", "src/pvw.rs:19-29 PvwParams::default"]}
{"id": "C119", "title": "A server that sees only whether answers are accepted reads the key", "statement": "Let the owner of a BFV key accept exactly the ciphertexts that decrypt to a fixed vector. There is a program, depending on the parameters, the level, the vector and a bound B only, that offers N ceil(log2(2B+1)) ciphertexts, sees only which of them are accepted, and ends with the coefficients of the key, for every key with coefficients in [-B, B], without any panic, if 1 <= B <= 2^20 and 64 B t <= Q; for the keys of SecretKey::generate B is twice the variance. If a program finds out all keys with coefficients in [-B, B] with at most k ciphertexts, then (2B+1)^N <= 2^k. So a client must not let the server notice which answers it could use.", "quantifier": "every parameter set of BfvParameters::new with 2t at most the first modulus, every level, every accepted vector, every key, every adaptive program, both build profiles", "why_tests_cant": "a statement about all keys and about all programs that choose ciphertexts depending on earlier reactions", "anchors": ["src/bfv.rs:347 SecretKey::decrypt", "src/bfv.rs: SecretKey::generate"]}
{"id": "C120", "title": "What the branches of decryption show, exactly, and that they give the key away", "statement": "The trace of branches, slice accesses and division operands of decryption in the release build shows for every coefficient x of the phase one bit, the sign of the sum of the residues of x with fixed weights, and nothing else: for keys and ciphertexts of the same sizes two traces are equal exactly when these bits are. At a level the traces are all equal exactly when no weight is negative; at the last level, with one modulus, they are. With two moduli the bit tells which of the two residues of x is the larger one as soon as they differ by more than t. There is a program that chooses ceil(log2(2B+1)) ciphertexts with two moduli, sees only the traces of their decryptions, and ends with all coefficients of the key, for every key with coefficients in [-B, B] (generated keys: B is twice the variance). No program that has well-formed ciphertexts decrypted does with k decryptions if 2^k < 2B+1, so this number is optimal.", "quantifier": "every parameter set of BfvParameters::new, all keys, all ciphertexts, every level; every adaptive program", "why_tests_cant": "a statement about side channels for all pairs of keys and all programs that choose ciphertexts depending on earlier traces", "anchors": ["src/rns.rs:384 RnsScaler::scale", "src/rns.rs:413 RnsScaler::scale", "src/bfv.rs:347 SecretKey::decrypt"]}
{"id": "C121", "title": "The server's branches, accesses and divisions depend on sizes only", "statement": "The trace of branches, slice accesses and division operands of the server in the release build is the same for all well-formed queries, all well-formed evaluation keys and all databases whose rows have the same lengths, whatever residues they are made of. This holds for Server::new, for key switching, the Galois relinearization and the external product, for the expansion loops of unpack given the monomials, and for the corrected copy of the whole of decode, which moreover answers every query of the right length. The code's own decode stops in the first expansion (C41, C44); what it did until then is four events that depend only on the length of the query.", "quantifier": "every parameter set of BfvParameters::new up to degree 2^31, all pairs of queries, evaluation keys and databases", "why_tests_cant": "a statement about side channels for all pairs of secret inputs", "anchors": ["src/evaluations.rs:109 Server::decode", "src/evaluations.rs:73 Server::new", "src/evaluations.rs:254 Evaluation::unpack", "src/ksk.rs:102 Ksk::key_switch", "src/rgsw.rs:63 RgswCt::external_product"]}
{"id": "C122", "title": "Masks in place of two branches close the leak of decryption", "statement": "C120 shows that the two branches on the sign of w in the scaling give a key away. A copy of the scaling that selects by masks at these two places, and is the same elsewhere, returns what the code returns wherever the code returns, in both builds, for any scaler, key and ciphertext. In the release build the copy of decrypt has the same trace of branches, slice accesses and division operands for all keys with the same number of coefficients and all well-formed ciphertexts of the same level and length, and decrypts all of them.", "quantifier": "every parameter set of BfvParameters::new, all pairs of keys and ciphertexts", "why_tests_cant": "a statement about side channels for all pairs of secret inputs", "anchors": ["src/rns.rs:384 RnsScaler::scale", "src/rns.rs:415 RnsScaler::scale", "src/bfv.rs:347 SecretKey::decrypt"]}
{"id": "C123", "title": "The noise of the oblivious expansion is sub-Gaussian", "statement": "Whatever the secret key, the masks of the evaluation keys and the ciphertext, of all choices of the random words of the errors of the log2 N Galois keys that build makes, at most the fraction 2 N^2 exp(-3 T^2 / (2 variance N sum(q^2) (N^2-1))) give an expansion (with the intended monomials) some of whose N outputs differs from the constant it stands for by an error with a coefficient of T or more; so if the room left by the noise of the query allows it, all N outputs decrypt to the coefficients of the message for all but one in 2^b of the choices, with an explicit T that grows with N^(3/2) instead of the N^2 of the worst case of C41.", "quantifier": "every parameter set of BfvParameters::new, all keys, masks, ciphertexts and thresholds, counting over all words of the errors", "why_tests_cant": "a statement about probabilities of 2^-100 and about all keys and ciphertexts", "anchors": ["src/evaluations.rs:235 build", "src/evaluations.rs:254 unpack", "src/ksk.rs:102 Ksk::key_switch"]}
{"id": "C124", "title": "The PIR answer is right with overwhelming probability over the errors of the Galois keys", "statement": "For every database, coordinates, secret key, query of the client and masks of the evaluation keys, of all choices of the random words of the errors of the Galois keys that build makes, at most the fraction (n+1) 2 N^2 exp(-3 T^2 / (2 variance N sum(q^2) (N^2-1))) (n moduli) give an answer of the corrected server (C80) that does not decrypt to the addressed row, if the noise of an answer whose expanded ciphertexts have errors T fits a quarter of Q; with an explicit T at most (n+1)/2^b of the choices. The room needed grows with N^(3/2) for the expansion instead of the N^2 of the worst case of C44 and C80.", "quantifier": "every parameter set of BfvParameters::new, all databases, coordinates, keys, queries, masks and thresholds, counting over all words of the errors", "why_tests_cant": "a statement about probabilities of 2^-100 and about all databases, keys and queries", "anchors": ["src/evaluations.rs:109 decode", "src/evaluations.rs:235 build", "src/evaluations.rs:254 unpack", "src/evaluations.rs:36 encode"]}
{"id": "C125", "title": "The work of the server is a closed formula in the sizes", "statement": "Let N be the degree, n the number of moduli, r the number of rows. A transform of a row takes N/2 log N butterflies. The application of a Galois key transforms n^2+n rows, an external product twice as many, an expansion 2n + (N-1)(n^2+2n), the preparation of the database r n. The answer of the corrected server (C80) with k further dimensions of size dim makes exactly n+1 expansions, dim k n + sum over j<k of ceil(r/(fd dim^j)) external products and r products of a ciphertext by a polynomial: the numbers of butterflies and of modular products are functions of (N, n, r, fd, dim, k) alone, for all contents of database, query and keys, in both builds. The code transforms each monomial again in every iteration of the inner loop of unpack (src/evaluations.rs:285-286); transforming it once gives the same ciphertexts with (N-1-log N) n transforms of rows fewer.", "quantifier": "every parameter set of BfvParameters::new, all databases, block sizes, queries and evaluation keys of the right shape, both builds", "why_tests_cant": "a benchmark measures one size on one machine; it neither gives the exact count nor shows that the contents do not matter", "anchors": ["src/evaluations.rs:109 decode", "src/evaluations.rs:254 unpack", "src/evaluations.rs:73 new", "src/ntt.rs forward", "src/ksk.rs:102 key_switch", "src/rgsw.rs:63 external_product"]}
{"id": "C126", "title": "The expansion may stop early: less noise and less work for the same answer", "statement": "The query uses only the first fd + dim k of the N coefficients, but unpack computes N ciphertexts (src/evaluations.rs:117, 127, 254-299). Stop after e stages, fd + dim k <= 2^e <= N, multiplying by the inverse of 2^e in place of N. Then: (1) the result is 2^e ciphertexts, the j-th of which holds the coefficients j, j + 2^e, j + 2*2^e, ... of the phase of the argument up to an error of (2^e - 1) B; if the message ends below 2^e it encodes the constant m_j, with error (2^e - 1) B in place of (N - 1) B. (2) With all stages it is the corrected unpack of C80. (3) An expansion transforms 2n + (2^e - 1)(n^2 + 2n) rows. (4) The server with such expansions answers every honest query with the addressed row, if a noise bound with 2^e - 1 in place of N - 1 holds, with an exact amount of work. (5) If at least half of the coefficients are unused, at least N/2 of the N - 1 steps of each of the n + 1 expansions are saved.", "quantifier": "every parameter set of BfvParameters::new, all secret keys, random tapes, databases, coordinates, and all e with fd + dim k <= 2^e <= N; (1) for every ciphertext and all evaluation keys with bounded errors; both builds", "why_tests_cant": "the tests run one size with all stages; the claim is about every number of stages and all randomness", "anchors": ["src/evaluations.rs:254 unpack", "src/evaluations.rs:109 decode"]}
{"id": "C127", "title": "The tail of the noise of the stopped expansion, and of the answers that use it", "statement": "For the expansion stopped after e stages (C126), 1 <= e <= log2 N, and uniformly random 64-bit words behind the errors of the Galois keys that build makes: (1) at most the fraction 2*2^e*N*exp(-3 T^2 / (2 variance N sum q_j^2 (4^e - 1))) of the choices of the words gives an expansion some of whose 2^e outputs differs from the coefficients j, j + 2^e, ... of the phase of its argument by an error with a coefficient of T or more; (2) if the message ends below 2^e and V + t T leaves room, all outputs decrypt to their coefficients except for that fraction; (3) an answer of the corrected server with expansions of e stages, fd + dim k <= 2^e <= N, decrypts to the addressed row except for n + 1 times that fraction, n the number of moduli, if the noise of an answer expanded with errors T fits; (4) for 3 T^2 >= 2 variance N sum q_j^2 (4^e - 1) (b + log2 N + e + 1) at most (n + 1) in 2^b choices give a wrong answer. The room T needed is about 2^e sqrt(N) q in place of the N sqrt(N) q of C124.", "quantifier": "every parameter set of BfvParameters::new with 1 <= variance <= 16, all secret keys, masks, databases, coordinates, queries, numbers of stages e, bounds T and sets of bad choices; both builds", "why_tests_cant": "a probability over 2^(64 W n log N) choices of words", "anchors": ["src/evaluations.rs:235 build", "src/evaluations.rs:254 unpack", "src/evaluations.rs:109 decode"]}
{"id": "C128", "title": "The work of the client is a closed formula in the sizes", "statement": "Counting copies of the functions of the client return what the functions return, for all arguments. With degree N and n moduli left at the level used, counted in transforms of rows (N/2 log N butterflies each) and products of rows (N products modulo a prime each): encrypt 3n and 2n; decrypt of m components 2n and (2m-1)n; Ksk::new 2n^2+n and 2n^2; RelinearizationKey::new 2n^2+2n and 2n^2+n; GaliosKey::new 2n^2+2n and 2n^2; RGSW encrypt_poly 4n^2+3n and 4n^2+n; Evaluation::build log N (2n^2+2n) + 4n^2+4n and log N 2n^2 + 4n^2+n; the ciphertexts of a query 3n^2+4n and 2n^2+2n. The numbers depend on nothing else: not on the key, the message, the masks, the errors or the build. The scaling of decrypt, the samplers and the products modulo t of to_poly are not counted.", "quantifier": "every parameter set of BfvParameters::new with 1 <= variance <= 16, every level, secret key, message, ciphertext of the right shape, mask and error; both builds", "why_tests_cant": "tests do not count operations; timing one run shows nothing about other contents", "anchors": ["src/bfv.rs:299 encrypt_poly", "src/bfv.rs:347 decrypt", "src/ksk.rs:47 Ksk::new", "src/bfv.rs:707 GaliosKey::new", "src/rgsw.rs:28 encrypt_poly", "src/evaluations.rs:235 build"]}
{"id": "C129", "title": "The work of multiplications of ciphertexts; two transforms of every third component are superfluous", "statement": "Counting copies of scale, relinearize_poly, multiply_with_strategy, Mul<&Plaintext> and inner_product return what the functions return, for all arguments. With n moduli left at the level, e = n + ceil((bits of the moduli + 60)/62) moduli in the wide basis and counted in rows: multiply_with_strategy transforms n^2+8n+7e and multiplies 2n^2+5n+7e; the multiplication by a plaintext n and 2n; the inner product of m pairs 0 and 2mn; whatever the ciphertexts and keys contain. multiply_with_strategy scales the third component back into the NTT representation and relinearize_poly undoes that at once: a variant that stays in the power basis returns the same ciphertext for all operands with exactly 2n transforms and n products of rows less. The arithmetic inside the scalers is not counted.", "quantifier": "every parameter set of BfvParameters::new, every level, ciphertext, key and plaintext of the right shape, whatever the contents; both builds", "why_tests_cant": "tests do not count operations; that another order of the steps gives the same ciphertext for all operands needs the scaler on every coefficient", "anchors": ["src/rq.rs:107 scale", "src/bfv.rs:516 Mul<&Plaintext>", "src/bfv.rs:657 multiply_with_strategy", "src/bfv.rs:762 relinearize_poly", "src/omr.rs:9 inner_product"]}
{"id": "C130", "title": "The worst-case bounds on the noise are attained", "statement": "Every list of integers of size at most twice the variance is what sample_vec_cbd returns for some random words, so every such noise occurs in a fresh encryption, for every key, message and mask. For key switching, Galois keys and external products: for every secret key and all masks there are errors of the key and an input such that every noise explaining the result has a coefficient of size at least topNoise = N * 2 variance * sum of (q - 1) over the moduli (twice that for the external product), which misses the bound of C36, C37 and C39 by exactly N * 2 variance * number of moduli (twice that for the external product). If t * topNoise is above half of the modulus, a Galois key with such errors turns an encryption of zero without noise into a ciphertext that does not decrypt to zero.", "quantifier": "every parameter set of BfvParameters::new with 1 <= variance <= 16, every level, secret key, mask, odd exponent; both builds; the lower bound where topNoise does not exceed half of the modulus", "why_tests_cant": "the extreme errors have probability about 2^(-4 variance N) per key polynomial, no run of the tests will meet them", "anchors": ["src/utils.rs:54 sample_vec_cbd", "src/bfv.rs:299 encrypt_poly", "src/ksk.rs:47 Ksk::new", "src/ksk.rs:102 key_switch", "src/bfv.rs:725 relinearize", "src/rgsw.rs:63 external_product"]}
{"id": "C131", "title": "Which laws multiplication and key switching satisfy word for word, and which only up to noise", "statement": "multiply_with_strategy is commutative word for word for all ciphertexts of two components, whatever they and the key contain. key_switch(f) + key_switch(g) equals key_switch(f + g) word for word if no sum of two residues exceeds its modulus. In general the difference is an encryption of zero under the target key with the noise sum over j of q_j * carry_j * e_j, where carry_j has a 1 where the sum of the residues modulo q_j is reduced and e_j is the j-th error of the key. For every secret key, source and all masks there are errors for which key_switch(1) + key_switch(-1) differs from key_switch(0).", "quantifier": "every parameter set of BfvParameters::new (for the last two 1 <= variance <= 16), every level, all contents; the last statement where 2 variance times the sum of the moduli is below their product", "why_tests_cant": "equality word for word for all contents, and an exact formula for the difference, are statements about all inputs and all keys", "anchors": ["src/bfv.rs:657 multiply_with_strategy", "src/ksk.rs:102 key_switch", "src/ksk.rs:47 Ksk::new"]}
{"id": "C132", "title": "Which vectors SIMD encoding accepts, and what comes back for every vector", "statement": "Plaintext::new with Encoding::SIMD panics for fewer values than the degree and ignores values beyond it. For every vector of values below twice the plaintext modulus t, new and then decode return at position i the residue of the value at the last position with the same evaluation point as i. The debug build of new accepts a vector exactly if the values that stay, those at last positions, are below 2t. The debug build of decode accepts a plaintext of degree many values exactly if they are below 4t; the result is then that for their residues in both builds.", "quantifier": "every parameter set of BfvParameters::new, all vectors, all levels, both builds", "why_tests_cant": "acceptance and the result are stated for all vectors and all degrees", "anchors": ["src/bfv.rs:583 Plaintext::new", "src/bfv.rs:611 decode", "src/bfv.rs:147 matrix_reps_index_map"]}
{"id": "C133", "title": "Masks must not be used twice: what two equal masks give away", "statement": "If two encryptions use the same mask, the difference of the ciphertexts decrypts to the difference of the messages with every key whatsoever. If two pairs of a key-switching key have the same mask, a program that sees only the key-switching key (subtract the two first components, take the residues near zero modulo the two moduli, halve their difference) returns the coefficients of the source polynomial; for a Galois key these are the coefficients of the secret key in another order and with other signs, which are undone. Two clues (pvw.rs) for one public key with the same selector agree in the first part and, in the second part, exactly where their messages agree. So the fresh 32-byte seed of every mask (Ksk::new draws one for every pair, from which a whole mask is expanded) is not only sufficient for privacy (C77, C79) but necessary.", "quantifier": "every parameter set of BfvParameters::new with 1 <= variance <= 16, all keys, messages, errors and masks; 16 t (variance + 1) <= Q for encryptions, 8 variance + 2 S below the two moduli for keys with source coefficients in [-S, S]", "why_tests_cant": "a test compares outputs; that they give the key away is a statement about a program run on all outputs", "anchors": ["src/ksk.rs:53 c1s", "src/bfv.rs:299 encrypt_poly", "src/bfv.rs:707 GaliosKey::new", "src/pvw.rs:120 encrypt"]}
{"id": "C134", "title": "Laws of substitution and modulus switching on stored polynomials", "statement": "For every canonically stored polynomial: substituting X^k and then X^k' gives the same words as substituting X^(k k'), and the same polynomial back if k k' = 1 mod 2N; substituting commutes with add, sub, mul and with the change of representation; substituting and then mod_switch_to any context of the chain gives the same words as mod_switch_to and then substituting, with the same Substitution (the rounding is symmetric because all moduli are odd); adding and then switching differs from switching both and adding by coefficients in [-1, 1] however many moduli are dropped; and in every context with at least two moduli switching is not additive: the constant (q-1)/2 becomes 0 and twice that constant 1.", "quantifier": "every context of RqContext::new with degree at most 2^31, every polynomial with canonical rows in it, all odd exponents, all contexts of the chain, both build profiles", "why_tests_cant": "the laws hold for all polynomials, all odd exponents and all chains; a sample cannot exclude a rounding tie broken to one side", "anchors": ["src/rq.rs:343 substitute", "src/rq.rs:388 mod_switch_down_next", "src/rq.rs:427 mod_switch_to"]}
{"id": "C135", "title": "Which masks are invertible, and that a known error gives the key away", "statement": "A canonically stored polynomial in NTT form without a zero word has an inverse, which Poly::inverse returns in both builds; with a zero word the debug build panics and no polynomial is an inverse. Of the prod q^N masks exactly prod (q-1)^N are invertible, so the fraction that is not is at most N sum 1/q. A program that sees one ciphertext with an invertible mask and knows its message and the words from which its error was sampled (samples the error again with Poly::random_small, subtracts, divides with Poly::inverse, takes residues near zero) returns the coefficients of the secret key. A program that sees one clue of Pvw encrypt and the public key and knows the selector returns the message of the clue. So the words behind the error of every single encryption are as secret as the key.", "quantifier": "every context of RqContext::new and every polynomial with canonical rows in it; for the key every parameter set of BfvParameters::new with 1 <= variance <= 16, all keys with coefficients in [-S, S] with 2 S below the first modulus, all messages, errors and masks without zero words, all pairs of builds; for clues every modulus accepted by Modulus::new, every public key of the right shape, all selectors and messages of bits", "why_tests_cant": "a test compares outputs; that an output and one known input give the key away is a statement about a program run on all outputs", "anchors": ["src/rq.rs:444 inverse", "src/bfv.rs:299 encrypt_poly", "src/rq.rs:501 random_small", "src/pvw.rs:120 encrypt"]}
{"id": "C136", "title": "What a ciphertext fixes: encryption binds for one key but does not commit across keys", "statement": "A ciphertext returned by SecretKey::encrypt fixes the words of its mask, whatever the keys, messages and errors. For one key it fixes the message modulo t: two encryptions that are word for word equal are encryptions of the same message, whatever masks and errors. It does not fix the message across keys: for two keys whose difference is invertible modulo Q, all pairs of messages and all pairs of errors there is exactly one mask with which the encryption of the one message under the one key is word for word the encryption of the other message under the other key; so there is a ciphertext that decrypts to any given message under the one key and to any other under the other, and a whole query that asks for any vector under the one key and for any other under the other. Keys with small coefficients are fixed by what they decrypt a single ciphertext to that depends on the parameters only.", "quantifier": "every parameter set of BfvParameters::new with 1 <= variance <= 16 (for the message 2 t <= q_0 and 8 t (variance+1) <= Q), all keys, messages, masks and error tapes, all pairs of builds", "why_tests_cant": "uniqueness and existence are over all masks, messages and keys", "anchors": ["src/bfv.rs:299 encrypt_poly", "src/bfv.rs:331 encrypt", "src/bfv.rs:347 decrypt"]}
{"id": "C137", "title": "Which laws the external product satisfies word for word, and which only up to noise", "statement": "RgswCt::external_product is additive in the RGSW ciphertext word for word: if the pairs of c are the sums of the pairs of a and b, the product of c with a ciphertext is the sum of the products of a and b, whatever they contain. The product with the zero ciphertext is zero. In the ciphertext it is additive word for word if no sum of two stored residues is reduced in either component; in general it is not: for every key, message and all masks there are errors for which the products with (1, 0) and (-1, 0) do not sum to the product with their sum.", "quantifier": "every parameter set of BfvParameters::new, all levels, RGSW ciphertexts of arbitrary canonical contents, all ciphertexts of two components, both builds; the last part for 1 <= variance <= 16 and 2 variance sum q < Q", "why_tests_cant": "the laws hold for all contents of keys and ciphertexts; the test of the crate decrypts one product", "anchors": ["src/rgsw.rs:63 external_product", "src/ksk.rs:102 key_switch"]}
{"id": "C138", "title": "What random ciphertexts decrypt to: almost uniform values, for every key", "statement": "For every key, every second component and every vector of values below t, the fraction of the first components with which SecretKey::decrypt returns these values lies between ((1 - 2^-31)/t - 2/Q)^N and ((1 + 2^-31)/t + 1/Q)^N. So decryption of random ciphertexts is almost uniform whatever the key, every second component can be completed to a ciphertext of given values, and no decrypted vector is a sign of a ciphertext that was made up.", "quantifier": "every parameter set of BfvParameters::new with 2 t <= q_0, all levels with 4 t <= Q, all keys, all second components of canonical shape, all vectors of N values below t, both builds", "why_tests_cant": "a fraction of all Q^N first components", "anchors": ["src/bfv.rs:347 decrypt"]}
{"id": "C139", "title": "Sums of clues, refreshed clues, and what random clues decrypt to", "statement": "The entrywise sum modulo q of two clues is a clue, and for every key its values are the sums of theirs. The sum of two clues made by PvwPk::encrypt for one key decrypts to the exclusive or of their messages if the sums of their accumulated errors lie in (-floor(q/4), floor(q/2) - floor(q/4)). Adding a clue of zeros made with other columns of the public key gives word for word the clue that encrypt makes of the message with the columns of both selectors. For every key and every first part, exactly the product of the numbers of values decided as each bit of a message is the number of second parts that make a clue which decrypts to it.", "quantifier": "all parameters Modulus::new and the sampler accept, all keys, public keys of canonical words, clues, messages, selectors and random tapes, both builds", "why_tests_cant": "all clues and keys, and an exact count over the q^ell second parts", "anchors": ["src/pvw.rs:94 decrypt", "src/pvw.rs:120 encrypt"]}
{"id": "C140", "title": "A PVW public key fixes its secret key, and a clue its message but not its selector", "statement": "For a prime q the fraction of the public matrices with which PvwSk::gen_pk makes the same public key of two different secret keys, for some random words, is at most q^n ((8 variance + 1)/q)^m. With the default parameters it is at most 2^-160000. The count is not zero: the zero matrix leaves the key open. A clue fixes its message: two messages with the same clue, whatever the selectors, are equal if the accumulated errors are within the decision interval. It does not fix its selector if q^(n + ell) < 2^m, as for the default parameters: for every public key two different selectors make the same clue of every message.", "quantifier": "all parameters with a prime q that Modulus::new accepts and a variance the sampler accepts, all pairs of secret keys, all random words, both builds", "why_tests_cant": "a count over all q^(n m) matrices and all pairs of secret keys", "anchors": ["src/pvw.rs:40 gen_sk", "src/pvw.rs:56 gen_pk", "src/pvw.rs:120 encrypt"]}
{"id": "C141", "title": "What is left of a ciphertext when a fresh encryption is added to it: its phase, and nothing else", "statement": "Adding a fresh encryption to a ciphertext makes its second component uniform: for every ciphertext and every error it takes every value for exactly one mask. Two ciphertexts of equal phase give word for word the same refreshed ciphertexts, for every error: to every mask for the one there is exactly one for the other. So nothing but the phase (the message and the noise) is left. The phase is left: with the same error, ciphertexts of different phase never give the same refreshed ciphertext, whatever the masks. The refreshed ciphertext decrypts to the sum of the messages while the noise leaves room for that of a fresh encryption.", "quantifier": "every parameter set of BfvParameters::new with a variance the sampler accepts, all keys, all ciphertexts of two components at level 0, all plaintexts of 64-bit words, all random tapes, both builds", "why_tests_cant": "a bijection between all masks, for every pair of ciphertexts of equal phase", "anchors": ["src/bfv.rs:331 encrypt", "src/bfv.rs:424 Add for BfvCipherText"]}
{"id": "C142", "title": "Who reads a clue without the secret key: whoever knows its selector, and everyone if the public key is badly made", "statement": "For every public key of canonical values, honest or not, whoever knows the public key and the selector of a clue reads the message exactly: taking the chosen columns away leaves nothing for a zero bit and something for a one bit, whatever the noise. encrypt does not look at the public key: if the second parts of its columns are zero, the second part of every clue is the message times q / 2, for every selector. A public key with powers of two in one position reads the message bit of that position, and the choices of k columns, off every clue, if 2^k is at most q / 2.", "quantifier": "every modulus accepted by Modulus::new, all public keys of canonical values, all messages of bits, all selectors, both builds", "why_tests_cant": "all public keys, including those that no key generation makes, and all selectors", "anchors": ["src/pvw.rs:120 encrypt"]}
