import Verif.Proofs.Debug
/-
C95: what the `Debug` implementations show. Each theorem says which part of a value its printed form determines, and
that nothing else of the value influences it. In particular the printed form of a `SecretKey` contains the key.
-/
namespace OnionPIR
open Dbg

/-- A vector of words is printed without loss (src/evaluations.rs:585-586). -/
theorem c95_values (u v : List Nat) : Dbg.list nat u = Dbg.list nat v ↔ u = v := by
  refine ⟨fun h => ?_, fun h => by rw [h]⟩
  exact (delim_list delim_nat nat_head u v [] [] (by rw [h])).1

/-- The lines printed by the test `unpack` are equal exactly if the vectors compared are. -/
theorem c95_unpack_lines (values rValues : List Nat) (a b : List Char) (h : unpackLines values rValues = [a, b]) :
    a = b ↔ values = rValues := by
  simp only [unpackLines, List.cons.injEq, and_true] at h
  obtain ⟨rfl, rfl⟩ := h
  exact c95_values values rValues

example : unpackLines [3, 0] [3, 1] = ["[3, 0]".toList, "[3, 1]".toList] ∧ "[3, 0]".toList ≠ "[3, 1]".toList := by
  decide +kernel

/-- The printed form of parameters determines, and is determined by, the degree and the ciphertext moduli. -/
theorem c95_params (P P' : BfvParameters) :
    params P = params P' ↔ P.degree = P'.degree ∧ P.ciphertextModuli = P'.ciphertextModuli := by
  refine ⟨fun h => (params_inj (r := []) (r' := []) (by rw [h])).1, fun h => ?_⟩
  simp only [params, h.1, h.2]

/-- The printed form of an RNS context: moduli and product. -/
theorem c95_rns_context (c c' : RnsContext) :
    rnsContext c = rnsContext c' ↔ c.moduliU64 = c'.moduliU64 ∧ c.product = c'.product := by
  refine ⟨fun h => ?_, fun h => by simp only [rnsContext, h.1, h.2]⟩
  have h : rnsContext c ++ [] = rnsContext c' ++ [] := by rw [h]
  obtain ⟨e1, h⟩ := struct_inj delim_nats h
  obtain ⟨e2, h⟩ := field_inj delim_nat h
  exact ⟨e1, e2⟩

/-- The printed form of a ring context: only the moduli. -/
theorem c95_rq_context (c c' : RqContext) : rqContext c = rqContext c' ↔ c.moduli64 = c'.moduli64 := by
  refine ⟨fun h => ?_, fun h => by simp only [rqContext, h]⟩
  have h : rqContext c ++ [] = rqContext c' ++ [] := by rw [h]
  exact (struct_inj delim_nats h).1

/-- The degree is not printed: contexts that differ only in the degree print alike. -/
theorem c95_degree_hidden (c : RqContext) (n : Nat) :
    rqContext { c with degree := n } = rqContext c := (c95_rq_context _ _).2 rfl

/-- A secret key is printed with all its coefficients: two keys print alike exactly if the coefficients are equal and
the parameters print alike. Whoever sees the printed form has the key. -/
theorem c95_secret_key (sk sk' : SecretKey) :
    secretKey sk = secretKey sk' ↔
      sk.coeffs = sk'.coeffs ∧ sk.params.degree = sk'.params.degree ∧
        sk.params.ciphertextModuli = sk'.params.ciphertextModuli := by
  refine ⟨fun h => ?_, fun h => ?_⟩
  · have h : struct "SecretKey" [("params", paramsOf (sk.params.degree, sk.params.ciphertextModuli)),
          ("coeffs", Dbg.list int sk.coeffs)] ++ []
        = struct "SecretKey" [("params", paramsOf (sk'.params.degree, sk'.params.ciphertextModuli)),
          ("coeffs", Dbg.list int sk'.coeffs)] ++ [] := congrArg (· ++ []) h
    obtain ⟨e1, h⟩ := struct_inj delim_paramsOf h
    obtain ⟨e2, h⟩ := field_inj delim_ints h
    exact ⟨e2, congrArg Prod.fst e1, congrArg Prod.snd e1⟩
  · simp only [secretKey, params, h.1, h.2.1, h.2.2]

/-- Two different keys for the same parameters never print alike. -/
theorem c95_secret_key_leaks (P : BfvParameters) (s s' : List Int)
    (h : secretKey { params := P, coeffs := s } = secretKey { params := P, coeffs := s' }) : s = s' :=
  ((c95_secret_key _ _).1 h).1

/-- The printed form of a plaintext shows the values, the encoding and the level. -/
theorem c95_plaintext (p p' : Plaintext) :
    plaintext p = plaintext p' ↔
      p.values = p'.values ∧ p.encoding = p'.encoding ∧ p.level = p'.level ∧ p.params.degree = p'.params.degree ∧
        p.params.ciphertextModuli = p'.params.ciphertextModuli := by
  refine ⟨fun h => ?_, fun h => ?_⟩
  · have h : struct "Plaintext" [("params", paramsOf (p.params.degree, p.params.ciphertextModuli)),
          ("level", nat p.level), ("encoding", encoding p.encoding), ("values", Dbg.list nat p.values)] ++ []
        = struct "Plaintext" [("params", paramsOf (p'.params.degree, p'.params.ciphertextModuli)),
          ("level", nat p'.level), ("encoding", encoding p'.encoding), ("values", Dbg.list nat p'.values)] ++ [] :=
      congrArg (· ++ []) h
    obtain ⟨e1, h⟩ := struct_inj delim_paramsOf h
    obtain ⟨e2, h⟩ := field_inj delim_nat h
    obtain ⟨e3, h⟩ := field_inj delim_encoding h
    obtain ⟨e4, h⟩ := field_inj delim_nats h
    exact ⟨e4, e3, e2, congrArg Prod.fst e1, congrArg Prod.snd e1⟩
  · simp only [plaintext, params, h.1, h.2.1, h.2.2.1, h.2.2.2.1, h.2.2.2.2]

/-- Moduli, with their Barrett constants, are printed without loss. -/
theorem c95_modulus (m m' : Modulus) : modulus m = modulus m' ↔ m = m' :=
  ⟨fun h => (delim_modulus m m' [] [] sep_nil sep_nil (by rw [h])).1, fun h => by rw [h]⟩

/-- Scaling factors are printed without loss. -/
theorem c95_scaling_factor (s s' : ScalingFactor) : scalingFactor s = scalingFactor s' ↔ s = s' := by
  refine ⟨fun h => ?_, fun h => by rw [h]⟩
  have h : scalingFactor s ++ [] = scalingFactor s' ++ [] := by rw [h]
  obtain ⟨a1, a2, a3⟩ := s
  obtain ⟨b1, b2, b3⟩ := s'
  obtain ⟨e1, h⟩ := struct_inj delim_nat h
  obtain ⟨e2, h⟩ := field_inj delim_nat h
  obtain ⟨e3, h⟩ := field_inj delim_bool h
  subst e1 e2 e3; rfl

/-- The decomposition base and length are printed without loss. -/
theorem c95_bit_decomposition (b b' : BitDecomposition) : bitDecomposition b = bitDecomposition b' ↔ b = b' := by
  refine ⟨fun h => ?_, fun h => by rw [h]⟩
  have h : bitDecomposition b ++ [] = bitDecomposition b' ++ [] := by rw [h]
  obtain ⟨a1, a2⟩ := b
  obtain ⟨b1, b2⟩ := b'
  obtain ⟨e1, h⟩ := struct_inj delim_nat h
  obtain ⟨e2, h⟩ := field_inj delim_nat h
  subst e1 e2; rfl

/-- Substitutions are printed without loss. -/
theorem c95_substitution (s s' : Substitution) : substitution s = substitution s' ↔ s = s' := by
  refine ⟨fun h => ?_, fun h => by rw [h]⟩
  have h : substitution s ++ [] = substitution s' ++ [] := by rw [h]
  obtain ⟨a1, a2⟩ := s
  obtain ⟨b1, b2⟩ := s'
  obtain ⟨e1, h⟩ := struct_inj delim_nat h
  obtain ⟨e2, h⟩ := field_inj delim_nats h
  subst e1 e2; rfl

/-- The variants of the two enums are printed differently. -/
theorem c95_enums : (∀ e e', encoding e = encoding e' ↔ e = e') ∧
    ∀ r r', representation r = representation r' ↔ r = r' :=
  ⟨fun e e' => ⟨fun h => (delim_encoding e e' [] [] sep_nil sep_nil (by rw [h])).1, fun h => by rw [h]⟩,
   fun r r' => ⟨fun h => (delim_representation r r' [] [] sep_nil sep_nil (by rw [h])).1, fun h => by rw [h]⟩⟩

/-- 256-bit integers are printed without loss. -/
theorem c95_u256 (u v : U256) : u256 u = u256 v ↔ u = v := by
  refine ⟨fun h => ?_, fun h => by rw [h]⟩
  obtain ⟨a0, a1, a2, a3⟩ := u
  obtain ⟨b0, b1, b2, b3⟩ := v
  have h : u256 ⟨a0, a1, a2, a3⟩ ++ [] = u256 ⟨b0, b1, b2, b3⟩ ++ [] := by rw [h]
  obtain ⟨e0, h⟩ := tuple_inj delim_nat h
  obtain ⟨e1, h⟩ := component_inj delim_nat h
  obtain ⟨e2, h⟩ := component_inj delim_nat h
  obtain ⟨e3, h⟩ := component_inj delim_nat h
  subst e0 e1 e2 e3; rfl

/-- PVW parameters and ciphertexts are printed without loss. -/
theorem c95_pvw : (∀ p p', pvwParams p = pvwParams p' ↔ p = p') ∧
    ∀ c c', pvwCiphertext c = pvwCiphertext c' ↔ c = c' := by
  refine ⟨fun p p' => ⟨fun h => ?_, fun h => by rw [h]⟩, fun c c' => ⟨fun h => ?_, fun h => by rw [h]⟩⟩
  · have h : pvwParams p ++ [] = pvwParams p' ++ [] := by rw [h]
    obtain ⟨a1, a2, a3, a4, a5⟩ := p
    obtain ⟨b1, b2, b3, b4, b5⟩ := p'
    obtain ⟨e1, h⟩ := struct_inj delim_nat h
    obtain ⟨e2, h⟩ := field_inj delim_nat h
    obtain ⟨e3, h⟩ := field_inj delim_nat h
    obtain ⟨e4, h⟩ := field_inj delim_nat h
    obtain ⟨e5, h⟩ := field_inj delim_nat h
    subst e1 e2 e3 e4 e5; rfl
  · have h : pvwCiphertext c ++ [] = pvwCiphertext c' ++ [] := by rw [h]
    obtain ⟨a1, a2⟩ := c
    obtain ⟨b1, b2⟩ := c'
    obtain ⟨e1, h⟩ := struct_inj delim_nats h
    obtain ⟨e2, h⟩ := field_inj delim_nats h
    subst e1 e2; rfl

/-- NTT operators are printed without loss. -/
theorem c95_ntt_operator (o o' : NttOperator) : nttOperator o = nttOperator o' ↔ o = o' := by
  refine ⟨fun h => ?_, fun h => by rw [h]⟩
  have h : nttOperator o ++ [] = nttOperator o' ++ [] := by rw [h]
  obtain ⟨a0, a1, a2, a3, a4, a5, a6, a7, a8, a9⟩ := o
  obtain ⟨b0, b1, b2, b3, b4, b5, b6, b7, b8, b9⟩ := o'
  obtain ⟨e0, h⟩ := struct_inj delim_modulus h
  obtain ⟨e1, h⟩ := field_inj delim_nat h
  obtain ⟨e2, h⟩ := field_inj delim_nats h
  obtain ⟨e3, h⟩ := field_inj delim_nats h
  obtain ⟨e4, h⟩ := field_inj delim_nats h
  obtain ⟨e5, h⟩ := field_inj delim_nats h
  obtain ⟨e6, h⟩ := field_inj delim_nats h
  obtain ⟨e7, h⟩ := field_inj delim_nat h
  obtain ⟨e8, h⟩ := field_inj delim_nat h
  obtain ⟨e9, h⟩ := field_inj delim_nat h
  subst e0 e1 e2 e3 e4 e5 e6 e7 e8 e9; rfl

/-! The texts themselves. -/

example : modulus { p := 5, barretHi := 3, barretLo := 7 } = "Modulus { p: 5, barret_hi: 3, barret_lo: 7 }".toList := by
  decide +kernel

example : pvwParams .default = "PvwParams { n: 450, ell: 4, m: 16000, q: 65537, variance: 2 }".toList := by
  decide +kernel

example : u256 ⟨1, 0, 18446744073709551615, 4⟩ = "U256(1, 0, 18446744073709551615, 4)".toList := by decide +kernel

example (P : BfvParameters) (h : P.degree = 8) (hq : P.ciphertextModuli = [97, 193]) :
    secretKey { params := P, coeffs := [1, -10, 0] }
      = "SecretKey { params: BfvParameters { polynomial_degree: 8, moduli: [97, 193] }, coeffs: [1, -10, 0] }".toList := by
  simp only [secretKey, params, h, hq]
  decide +kernel

example (P : BfvParameters) (h : P.degree = 8) (hq : P.ciphertextModuli = []) :
    plaintext { params := P, level := 0, encoding := .simd, values := [] }
      = "Plaintext { params: BfvParameters { polynomial_degree: 8, moduli: [] }, level: 0, encoding: SIMD, values: [] }".toList := by
  simp only [plaintext, params, h, hq]
  decide +kernel

example : rnsContext { moduliU64 := [3, 5], moduli := [], qStar := [], qTilde := [], garner := [], product := 15 }
    = "RnsContext { moduli_u64: [3, 5], product: 15 }".toList := by decide +kernel

example : rqContext ⟨⟨[97, 193], [], ⟨[], [], [], [], [], 0⟩, [], 8, ⟨4, 2⟩, [], [], []⟩, []⟩ = "Context { moduli: [97, 193] }".toList := by
  decide +kernel

example : scalingFactor { numerator := 2, denominator := 3, isOne := false }
    = "ScalingFactor { numerator: 2, denominator: 3, is_one: false }".toList := by decide +kernel

example : substitution { exponent := 3, powersBitrev := [1, 2] } = "Substitution { exponent: 3, powers_bitrev: [1, 2] }".toList
    ∧ bitDecomposition { base := 4, l := 2 } = "BitDecomposition { base: 4, l: 2 }".toList
    ∧ pvwCiphertext { a := [1], b := [] } = "PvwCiphertext { a: [1], b: [] }".toList
    ∧ representation .nttShoup = "NttShoup".toList ∧ encoding .poly = "Poly".toList := by decide +kernel

example : nttOperator ⟨⟨5, 3, 7⟩, 10, [1], [2], [3], [4], [5], 1, 6, 8⟩
    = ("NttOperator { p: Modulus { p: 5, barret_hi: 3, barret_lo: 7 }, p_twice: 10, omegas: [1], omegas_inv: [2], " ++
      "omegas_shoup: [3], zetas_inv: [4], zetas_inv_shoup: [5], size: 1, size_inv: 6, size_inv_shoup: 8 }").toList := by
  decide +kernel

/-- Two keys that differ in the order of their coefficients print differently. -/
example (P : BfvParameters) : secretKey { params := P, coeffs := [1, 0, -1] } ≠ secretKey { params := P, coeffs := [1, -1, 0] } :=
  fun h => absurd (c95_secret_key_leaks P _ _ h) (by decide)

end OnionPIR
