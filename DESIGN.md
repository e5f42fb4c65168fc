# Formal model of Onion-PIR in Lean 4 — design

`/repo` (Rust) is modelled function by function in `lean/Verif/Model`, the properties of `properties.jsonl`
are stated in `lean/Verif/Props` against a separate vocabulary in `lean/Verif/Spec`, and proved through the
lemmas of `lean/Verif/Proofs`. `MANIFEST.json` (generated by `tools/manifest.py`) maps every property to its
theorems; a theorem `cNN_name` belongs to property `CNN`.

## Trusted base

* Lean's kernel (4.33.0) and Mathlib's definitions used in statements (`Nat`, `Int`, `List`, `Finset.sum`,
  `Nat.Prime`, `Nat.Coprime`, `Polynomial`, `AdjoinRoot`, `Nat.size`, …).
* Axioms: every theorem depends on at most `propext`, `Classical.choice`, `Quot.sound`. No axiom is added, there is
  no `sorry`, `admit`, `native_decide`, `bv_decide` or `implemented_by`.
* That the Lean model says what the Rust source says. This is by reading; each definition cites the file and lines.
* The semantics given below to external crates.
* The statements themselves (`Spec/*` and `Props/*`): the definitions of `Spec` are what must be read to trust a
  theorem, those of `Proofs` need not be.

## Modelling conventions

* Machine integers are `Nat`s (`i64` are `Int`s). Every operation that can overflow is explicit (`addW`, `mulW`,
  `subW`, `fit`, `powW`) and takes the build `Profile`: `debug` panics, `release` wraps. `debug_assert!` is checked
  in `debug` only. `assert!`, indexing, slice lengths, `unwrap`, `todo!`, division by zero, capacity overflow are
  panics in both. Results live in `Res α = Except Panic α`. A theorem `f pr … = .ok v` *for every* `pr` says: no
  overflow, no failed assertion, no out-of-bounds access, in either profile. `get_unchecked` is modelled as a checked
  access, so the same theorems exclude the undefined behaviour.
* Loops that may not terminate carry fuel and return `Panic.diverge` when it runs out; "diverges" statements are for
  every fuel.
* `&mut` functions return the new value; loops are folds/recursions over the index ranges of the code.
* Randomness is an explicit argument (the tape). Statements quantify over all tapes, uniform words being restricted
  only by their range (`TapeAt`: entry `i j` below the `i`-th modulus).
* `Arc<T>` is `T`. `BigUint` (both crates) is `Nat`. `Array2` is the list of its rows; rows are contiguous, so
  `as_slice().unwrap()` does not fail.
* External crates: `probably_prime(_, 0)` is primality. It is in fact the Baillie–PSW test: Model/Prime models it and C98 proves that
  it rejects no prime (provided that some number up to 10002 is a non-residue); that it accepts no composite below 2^64 is assumed, on the searches in the literature; `mod_inverse` is the inverse in `[0,m)` if the arguments are coprime, else `None`; ChaCha8, SHA-256
  and `thread_rng` produce arbitrary tapes (Model/Rand models the rejection sampling of `rand` 0.8.5, `seed_from_u64` and the ChaCha8
  block function from their published source, for C88 and later; Model/Sha adds SHA-256 and `from_seed` and proves them equal to the standards, C96); `HashMap` insert/get is the association of a key with its last value.
* The chain `next_ctx` of contexts is stored as a list; `PartialEq` on contexts is equality of all fields.

## Layers

| source | model | spec | proofs | properties |
|---|---|---|---|---|
| modulus.rs | Model/Modulus | Spec/Basic | Proofs/Modulus | Props/Modulus C01–C07, Props/Contracts C91 |
| utils.rs (+ generate_moduli) | Model/Utils | Spec/Basic | Proofs/Utils | Props/Utils C08–C13 |
| ntt.rs | Model/Ntt | Spec/Poly | Proofs/Ntt, Bitrev | Props/Ntt C14–C17, Props/NttContracts C92 |
| rns.rs | Model/Rns | Spec/Rns | Proofs/Rns, RnsScaler | Props/Rns C18, C19, C52 |
| rq.rs | Model/Rq | Spec/Rq, Ring | Proofs/Rq*, Ring | Props/Rq, RqIff, RqExtra C20–C26, C56, C58 |
| bfv.rs | Model/Bfv | Spec/Bfv | Proofs/Bfv* | Props/BfvParams, SimdCapacity, Bfv, BfvMul, BfvExtra C27–C35, C48, C50, C51, C55, C57 |
| ksk.rs, rgsw.rs, keys of bfv.rs | Model/Ksk, Rgsw | Spec/Ksk | Proofs/Ksk, KskBridge, Levels | Props/Ksk, Levels C36–C40, C59 |
| evaluations.rs | Model/Pir | Spec/Pir | Proofs/Expand, Unpack, Select | Props/Pir, Unpack, Server C41–C45, C53 |
| circuits of the operations above | — | Spec/Circuit | — | Props/Circuit C60 |
| modulus switching of ciphertexts (composed from rq.rs) | — | Spec/Switch | — | Props/Switch C61 |
| generate_moduli, default (bfv.rs) | Model/Utils, Bfv | Spec/Moduli | Proofs/Moduli | Props/Default C62, C63 |
| the protocol of the test `query` (evaluations.rs) | — | Spec/Pir | — | Props/Protocol C64 |
| decryption threshold (bfv.rs) | Model/Bfv | Spec/Bfv | — | Props/Decrypt C65, C97 |
| the `unsafe` blocks (ntt.rs, rns.rs) | Model/Ntt, Rns | — | Proofs/Unsafe | Props/Unsafe C66 |
| mismatched operands (rq.rs, bfv.rs, ksk.rs, rgsw.rs, omr.rs) | — | — | — | Props/Reject C67 |
| distribution of the sampler (utils.rs) | Model/Utils | Spec/Sampling | — | Props/Sampling C68 |
| failure probability (pvw.rs) | Model/Pvw | Spec/Sampling | Proofs/Tail | Props/PvwFailure C69 |
| stored fields, small constructors (all files) | Model/Accessors | — | — | Props/Misc, Accessors C70 |
| tests of the repository | Model/Tests | — | — | Props/Tests C71 |
| SIMD slots under the operations (bfv.rs, ksk.rs) | — | Spec/Simd | — | Props/Simd C72, C73 |
| programs with modulus switching | — | Spec/Leveled | — | Props/Leveled C74 |
| bfv.rs `measure_noise` | Model/Bfv | — | Proofs/BfvNoise | Props/Noise C75 |
| machine integers, assertions, loops | Model/Machine | Lean's `BitVec` | Proofs/Machine | Props/Machine C76 |
| encryptions and keys as RLWE samples (bfv.rs, ksk.rs, rgsw.rs) | — | Spec/Rlwe | Proofs/Rlwe | Props/Rlwe C77 |
| tails of the key-switching noise | — | Spec/Rlwe | Proofs/TailRows | Props/NoiseTail C78 |
| pvw.rs, omr.rs | Model/Pvw, Omr | — | Proofs/Pvw, Omr | Props/Pvw, Omr C46, C47, C49, C54 |
| privacy of queries (evaluations.rs:438-453, bfv.rs `encrypt_poly`) | Model/Tests `queryCts` | Spec/Privacy | — | Props/Privacy C79 |
| corrected copies of the functions with defects (not repository code) | Model/Repair | — | Proofs/Repair | Props/Repair, Props/RepairPir, Props/RepairSimd, Props/RepairMore, Props/RepairBits C80 |
| privacy of PVW encryption (pvw.rs:40-148) | Model/Pvw | Spec/PvwPrivacy | Proofs/Leftover | Props/PvwPrivacy C81 |
| privacy of RGSW ciphertexts (rgsw.rs:28-61, ksk.rs:47-100) | Model/Rgsw | Spec/RgswPrivacy | — | Props/RgswPrivacy C82 |
| composition of omr.rs, pvw.rs and bfv.rs | — | Props/OmrDetect `omrRun` | — | Props/OmrDetect C83 |
| all modelled functions, both builds | — | — | Proofs/Agree | Props/Builds C84 |
| compositions of polynomial operations | — | Spec/RingIso | Proofs/RingIso | Props/RingIso C85 |
| `primitive_root`, the sampling loop | Model/Ntt | — | — | Props/NttSampler C86 |
| `Server::decode` for databases whose size is not a full block | Model/Pir | Spec/Pir | Proofs/SelectAny | Props/AnySize C87 |
| the samplers of the crates rand, rand_chacha as called by modulus.rs, rq.rs, pvw.rs, ntt.rs | Model/Rand | Spec/Random | Proofs/Random | Props/Random C88 |
| construction of the parameters used by the tests, with the generator of the code | Model/Rand | Spec/Seed | Proofs/Seed, Certify | Props/Concrete C89 |
| tests that print | Model/Prints | Spec/Prints | Proofs/Scatter | Props/Prints C90 |
| constant time | Model/Leak, LeakKeys | – | Proofs/Leak, LeakSim, LeakRelease, LeakKeys | Props/Leak, Props/LeakKeys, Props/Traces C93 |
| expansion tests, corrected | Model/RepairTests | – | – | Props/RepairTests C94 |
| `Debug` implementations | Model/Debug | – | Proofs/Debug | Props/Debug C95 |
| seed expansion (rq.rs, crates sha2 and rand_chacha) | Model/Sha | Spec/Sha | Proofs/Sha | Props/SeedExpansion C96 |
| utils.rs `is_prime` (crate num-bigint-dig) | Model/Prime | Spec/Prime | Proofs/Prime | Props/PrimeTest, Props/PrimeRuns C98 |
| all operations, on arbitrary residues | — | Spec/Shape | — | Props/Robust C99 |
| privacy of adaptively chosen queries | Model/Tests `queryCts` | Spec/Privacy, Spec/Adaptive | — | Props/Adaptive C100 |
| `decrypt` on chosen ciphertexts | Model/Bfv | Spec/Bfv, Spec/Shape | — | Props/Attack C101 |
| `Server::decode` with weighted selectors | Model/Pir | Spec/Weighted | Proofs/Weighted | Props/Weighted C102 |
| `Server::decode`, noise of the answer | Model/Pir | Props/FunctionPrivacy (`HasNoise`) | Proofs/Weighted | Props/FunctionPrivacy C103 |
| Sizes of keys, queries, answers | Model/Pir, Model/Ksk, Model/Rgsw | Spec/Sizes | Props/Sizes | Props/Sizes C104 |
| Rows with large entries | Model/Pir | Spec/Pir | Props/AnySize | Props/AnyEntries C105 |
| When generation succeeds | Model/Bfv, Model/Ksk, Model/Rgsw, Model/Pir | Spec/Bfv | Props/Succeeds | Props/Succeeds C106 |
| Forged and shifted answers | Model/Bfv | Spec/Forge, Spec/Shape | Props/Bfv, Props/Sizes | Props/Integrity C107 |
| Answers at a smaller level | Model/Pir, Model/Rq, Model/Repair | Spec/Switch, Spec/Pir, Spec/Sizes | Props/AnySize, Props/Switch | Props/Compressed C108 |
| Clues under other keys | Model/Pvw | Spec/Detect, Spec/PvwPrivacy | Proofs/Pvw | Props/Detect C109 |
| Readme procedures | Model/Pir | Spec/Readme | Proofs/Readme | Props/Readme C110 |
| Clue lengths | Model/Pvw | Spec/ClueLength | Proofs/ClueLength | Props/ClueLength C111 |
| Recipients of clues | Model/Pvw | Spec/Recipients | Proofs/Hybrid | Props/Recipients C112 |
| Accepted parameters | Model/Bfv | Spec/Accept | Proofs/BfvAccept | Props/Accept C113 |
| Clues and other recipients | Model/Pvw | Spec/Insiders | Proofs/Hybrid | Props/Insiders C114 |
| Reading PVW keys | Model/Pvw | Spec/Oracle | in the property file | Props/Oracle C115 |
| Decrypting with another key | Model/Bfv | Spec/Privacy | in the property file | Props/WrongKey C116 |
| Laws of the linear operators | Model/Bfv, Model/Omr | Spec/Linear | in the property file | Props/Linear C117 |
| Reading PVW keys from acceptance | Model/Pvw | Spec/Reaction | in the property file | Props/Reaction C118 |
| Reading BFV keys from acceptance | Model/Bfv | Spec/ClientReaction | in the property file | Props/ClientReaction C119 |
| Reading BFV keys from the branches | Model/Leak | Spec/Watch | LeakExact, LeakSign | Props/Watch C120 |
| What the server's trace shows | Model/LeakServer, LeakKeys, Repair | Spec/Shape | LeakServer | Props/LeakServer C121 |
| Masks in place of the branches on the sign | Model/RepairLeak | | LeakRelease, RepairLeak | Props/Mask C122 |
| Tail of the noise of the expansion | | | TailRows, ExpandTail | Props/ExpandTail C123 |
| Tail of the noise of the answer | | | AnswerTail | Props/AnswerTail C124 |
| The work of the server | Model/Cost (counting copies), Repair | Cost | Cost, CostServer | Props/Cost C125 |
| Expansion stopped early (not in the code) | Model/Stop | Stop | Stop, AnswerTail | Props/Stop C126 |
| Tail of the stopped expansion (not in the code) | Model/Stop | Stop | StopTail | Props/StopTail C127 |
| The work of the client | Model/CostClient (counting copies) | Cost | CostClient | Props/CostClient C128 |
| The work of multiplications | Model/CostMul (counting copies, a variant) | Cost, Props/CostMul `wide` | CostMul | Props/CostMul C129 |
| The bounds on the noise are attained | Utils, Ksk, Bfv, Rgsw | Attained | Attained | Props/Attained C130 |
| Laws of multiplication and key switching | Bfv, Ksk | Laws | (in Props/Laws) | Props/Laws C131 |
| What SIMD encoding accepts and returns | Bfv | SimdExact | Scatter, NttContracts | Props/SimdExact C132 |
| Masks used twice | Bfv, Ksk, Pvw | Reuse | (in Props/Reuse) | Props/Reuse C133 |
| Laws of substitution and modulus switching | Rq | Rq | (in Props/SwitchLaws) | Props/SwitchLaws C134 |
| Invertible masks and known errors | Bfv, Rq | KnownErrors | (in Props/KnownErrors) | Props/KnownErrors C135 |
| What a ciphertext fixes | Bfv | Rlwe | (in Props/Committing) | Props/Committing C136 |
| Laws of the external product | Rgsw, Ksk | External, Laws | (in Props/External) | Props/External C137 |
| What random ciphertexts decrypt to | Bfv | Privacy, Rlwe | (in Props/RandomCt) | Props/RandomCt C138 |
| Sums of clues and random clues | Pvw | AddClue, Detect | (in Props/AddClue) | Props/AddClue C139 |
| A public key fixes its secret key | Pvw | KeyFix | (in Props/KeyFix) | Props/KeyFix C140 |
| Refreshed ciphertexts | Bfv | Refresh, Rlwe | (in Props/Refresh) | Props/Refresh C141 |
| Clues read without the key | Pvw | OpenClue | (in Props/OpenClue) | Props/OpenClue C142 |

`Proofs/Machine.lean` has the lemmas about checked arithmetic and folds. `Proofs/BfvExists.lean` builds concrete
parameters (degree 8, three 20-bit primes, t = 17) used by the non-vacuity examples. Examples stand beside the theorems; `Props/Examples.lean` holds
those for theorems that no example in their own file uses.

## Ring semantics

The mathematical ring is `Rg N = ℤ[X]/(X^N+1)` (`AdjoinRoot`). `enc c rep f` is the polynomial the code would store for
`f : Rg N` in context `c`; `PolyAt`/`PowerAt` say that a stored polynomial denotes `f` modulo the product of the
moduli; `phase s fs = Σ f_i s^i`; `Encodes t Q m phi V` says that `phi` is `Δ·m` (rounded scaling of the message) plus
an error of size at most `V` modulo `Q`. All BFV statements are identities or bounds on phases; decryption
correctness is then `2 t V < Q`-type bound (C30). Noise bounds are explicit and hold for every tape (worst case).

## What is not modelled

* `println!`/`dbg!`, the indented format `{:#?}`, `Debug` of types with an `ndarray` field (the other `Debug` implementations are in Model/Debug). The bodies of the tests with assertions are modelled in Model/Tests, those of the tests that print in Model/Prints, where what is printed is the result.
* `client.rs` is not part of the crate (no `mod client`), it contains documentation and `fn g() {}`.
* `struct BfvCiphertext` (bfv.rs:413) and `struct RGSW` (rgsw.rs:17): unused types.
* `Poly.coefficients_decomp`: always `None`.
* Distributions are treated by counting tapes: C68 and C69 (errors, failure probabilities), C77 (uniform masks), C78 (key-switching noise), C123 (the noise of the expansion), C124 (the answer) and
  C79, C81, C82 (privacy of queries, PVW encryptions and RGSW ciphertexts). The generator `thread_rng` itself is not modelled: its words are assumed uniform where these theorems count them.
  That RLWE and LWE are hard is not a theorem; C79, C81 and C82 reduce privacy to it. The evaluation keys depend on the secret key, so the server's
  view is covered with the keys as auxiliary information of the RLWE distinguisher, not by RLWE alone. Timing is modelled only as the trace of branches, slice
  accesses and division operands of the source text (Model/Leak, Model/LeakKeys and Model/LeakServer, C93, C121). C120 says exactly what the trace of decryption shows and C122 that masks at two places close it.
* Running time is not modelled. C125, C128 and C129 count butterflies and modular products (Model/Cost, Model/CostClient, Model/CostMul: copies of the functions with counters, proved to return the same values);
  additions, reductions of words, copies, allocations and debug assertions are not counted. Finding: `unpack` transforms the monomial of a
  stage again in every iteration of its inner loop (src/evaluations.rs:285-286), `N-1` times in place of `log N` times.
  Finding (C126): `unpack` computes `N` ciphertexts of which `decode` uses the first `fd`, or the first `dim k`; a copy that stops after `e` stages, `fd + dim k ≤ 2^e`, gives the
  same answers with less work and less noise. `q0` encrypts the whole encoded query and not only its first `fd` entries, so `2^e` must cover all `fd + dim k` entries.
  Finding (C129): `multiply_with_strategy` transforms the third component forward at the end of `scale` and `relinearize_poly` transforms it back at once;
  staying in the power basis gives the same ciphertext with `2n` transforms and `n` products of rows less.
* Memory exhaustion, other than the capacity checks of `vec![false; n]` in `bit_vector` and of `Array::zeros`. The only `vec![x; n]` with an absurd
  `n` that the model lets pass is the one of `Mul<&BfvCipherText>` (bfv.rs:493) for two ciphertexts without components in a release build, where
  `0 + 0 - 1` wraps; the code panics there with a capacity overflow, the model returns a value. No theorem is about that case.
* Sizes are not bounded by `usize` where the code never computes them; a list is assumed to have fewer than 2^64
  elements where it matters (stated as hypotheses).
* `omr.rs: process` hard-codes default parameters, `D = 64` and an empty list of clues; the model takes them as
  arguments.

## Where the code violates a property

For each, the negation is proved for the code as it is, and the part that does hold is proved with suffix `_partial`.
C80 shows for all of them that copies of the functions with only the defective lines corrected satisfy the unrestricted statements (for C56: if the digits have room for the moduli).

| property | what the code does |
|---|---|
| C07 | `Modulus::bits` is `u64::MAX - leading_zeros` instead of `64 - leading_zeros`: wrong for every modulus |
| C19 | `RnsScaler::scale` builds the 192/256-bit terms from truncated words and drops carries: wrong for e.g. fourteen 62-bit moduli with a generic factor. Right for every scaler the library builds (C52) and for every factor with at most eight moduli (`c19_scale_eight`). `c19_scale_error` bounds the error for every input |
| C26 | `RqScaler` counts equal *positions* and treats them as a common *prefix*; right exactly when the equal positions form a prefix (`c26_scale_one_iff`) |
| C28 | `matrix_reps_index_map`: second index lacks `>> 1`; several slots share an index and other indices are never used (for degree 8 the map is 0,4,1,5,3,1,3,1): Simd encoding does not round trip for any degree |
| C31 | `encrypt_poly` stores `level: 0`; decryption of ciphertexts at other levels panics |
| C33 | `ct + poly` adds the polynomial to both components |
| C35 | `ct * ct` overwrites `cs[i+j]` instead of accumulating: the cross term is lost |
| C41, C44 | `gen_x_pows` asks for substitution by the even exponent `n - 2^i`, which `Substitution::new` rejects: `unpack` and `decode` always panic. With the intended monomials `X^(-2^i)` they are right (proved) |
| C42 | `Client::encode` accepts databases that are too large for the cube |
| C45 | `no_of_cts` does not terminate for `dim = 1` |
| C47 | default PVW parameters do not exclude decryption failure |
| C53 | the dimension count `ilog2(..)/ilog2(dim)` is wrong when `dim` is not a power of two |
| C55 | `+` and `-` on ciphertexts keep two components only |
| C56 | `apply_bit_decomposition` panics; the corrected copy still panics with the shipped `BitDecomposition { base: 4, l: 8 }`, whose 32 bits are fewer than those of the moduli (`c80_bit_decomposition_shipped`) |
| C59 | a key whose level is above the level of the ciphertext has zero rows for the missing moduli: key switching gives a wrong phase |
| C63 | `default` panics for every degree other than 8, 16, 32 and 64: its plaintext modulus 1153 is not 1 modulo `2 degree` |
| C64 | as C44: `decode` panics, so the protocol fails as written |
| C66 | `RnsScaler::scale` is a safe public function, but its `get_unchecked` accesses are guarded by `debug_assert!` only; in release builds it reads out of bounds if the output extends past the target basis or there are too many rests. The library's own calls are in range |
| C67 | sums and products of polynomials do not compare contexts: 5 modulo 17·97 plus 7 modulo 17 is 12 modulo 17 and 5 modulo 97. `Mul`, `decrypt` and `external_product` ignore the parameters stored in a ciphertext |
| C73 | by C28, position `i` of the second row evaluates at the exponent `-(2·3^i+1)` instead of `-3^i`: Galois keys rotate the first row only |
| C97 | `decrypt` reduces the rounded value plus `t` modulo the first modulus `q0`, and `new` only has the debug assertion `t < q0`: with `t = 97` and `q0 = 113`, 20 decrypts to 4. All messages come back exactly when `3 t < 2 q0` (if `t n^2 < 2^64` for `n` moduli); the repair is that check in `new` |

Other observations: `Plaintext::new` with SIMD encoding ignores values beyond the degree (`c132_long`); `+ - *` on polynomials do not compare contexts (rows are zipped, the shorter wins);
`measure_noise` reads components 0 and 1 only; `PvwParams::new` is `todo!()`. The example in
Readme.md:80-98 and src/client.rs:9-27 expands the index 8 with the 1 at position 7 (`c110_doc_example`).
PVW `encrypt` does not compare the length of the message with `ell`: short messages are padded with zeros, long ones cut off (`c111_message`).
The release build of `BfvParameters::new` accepts a plaintext modulus above the ciphertext moduli (`c113_release`); coefficients from the first
modulus on are then lost (`c113_capped`).

## The tests of the repository

C71 models the bodies of the tests as programs over the model and proves what they assert for all inputs and all randomness.

C89 shows that the parameters of all these tests are constructed, with the primes and the generator of the code.

| Test | Outcome |
|---|---|
| bfv.rs `encrypt_decrypt` | the half with polynomial encoding passes; the half with SIMD encoding passes exactly if slots that share an index hold equal values, so it fails for almost all random values (`c71_encrypt_decrypt`, `_fails`; the cause is C28) |
| bfv.rs `mul_op` | result is the product of any two messages (`c71_mul_op`) |
| bfv.rs `galois_key` | passes for every odd exponent (`c71_galois_key`) |
| ksk.rs `ksk_with_pt` | result is the product (`c71_ksk_with_pt`) |
| ksk.rs `ksk` | passes with a limit of 71 bits (`c71_ksk_71`). The limit 70 of the code is below the worst case `8·20·(q₀+q₁) ≈ 2^70.3`, which random samples never reach: with the limit 70 at most one in `2^290` choices of the errors fails (`c78_ksk_test`) |
| rgsw.rs `external_product` | passes (`c71_external_product`) |
| rq.rs `change_representation`, `mod_switch` | pass for every context (`c71_change_representation`, `c71_mod_switch`) |
| ntt.rs `bijection` | passes (`c71_bijection`) |
| utils.rs `test_decompose_bits`, `test_bit_vector` | pass for every `u64` |
| pvw.rs `encrypt_decrypt` | passes exactly when decryption returns the message (`c71_pvw`); C46 says when, C69 how often not |
| bfv.rs `simd_slot_rotations` (prints) | shows `[0, v6, 0, 0, v1, 0, v1, 0]` for every vector `v` (`c90_slot_rotations_15`; the cause is C28) |
| ksk.rs `trial` (prints) | shows the product (`c90_trial`) |
| rgsw.rs `contruct_ksk_from_rgsw` (prints) | shows the product, 12 (`c90_construct_ksk`) |
| rgsw.rs `construct_full_from_half` (prints) | the two vectors shown differ by the sampled error of the encryption: `b` is scaled by `Q/t` in `new_with_pt`, the values are not in `encrypt_poly` (`c90_construct_full`, `c90_construct_full_one`) |
| rgsw.rs `encrypt_poly` (prints) | every line ends with a number up to 74 or with 183 (`c90_encrypt_poly_printed`) |
| rq.rs `substitute` (prints) | shows the same polynomial twice (`c90_substitute_inverse`) |
| evaluations.rs `unpack`, `client_encode`, `unpack_decomp`, `pack_and_construct_rgsw`, `query` | always panic, because of C41; with the corrected `gen_x_pows` they do what they are meant to (C94, `c80_query`) |

## Hypotheses that recur

* `IsParams N t l variance P`: `P` is what `BfvParameters::new` returns for degree `N = 2^d`, plaintext modulus `t`, ciphertext
  moduli `l` (C51 says exactly when it returns).
* at most 2^30 moduli where lazily reduced sums are accumulated; degree at most 2^31 for substitutions.
* `N * 2^(number of moduli) ≤ 2^57` in C50 (the tensor product must fit in the extended basis).

## Seeded bugs

`tools/mutate.py` applies edits to the model in a scratch copy and records in `seeded/LOG.jsonl` which proofs break.
Rounds: modulus/utils, NTT, RNS/Rq, BFV, key switching/RGSW, PIR/PVW/OMR, the corrected copies, the observed copies, and the definitions no earlier round had touched.
