import Verif.Proofs.Agree
/-
Property C84: the debug and the release build of a function behave alike on every input (same value or same panic), except that the
debug build may stop at an arithmetic overflow or a `debug_assert!`.
-/
namespace OnionPIR

/-- `f pr` is the outcome of one call in the build `pr`. If the debug build returns, the release build returns the same value. If the
debug build panics other than by an overflow or a `debug_assert!`, the release build panics in the same way. -/
def BuildsAgree {α : Type _} (f : Profile → Res α) : Prop :=
  (∀ v, f .debug = .ok v → f .release = .ok v) ∧
  (∀ e, f .debug = .error e → e ≠ .overflow → e ≠ .debugAssert → f .release = .error e)

theorem BuildsAgree.of {α : Type _} {f : Profile → Res α} (h : Agree (f .debug) (f .release)) : BuildsAgree f := by
  refine ⟨fun v hv => ?_, fun e he h1 h2 => ?_⟩
  · rcases h with h | h | h
    · rw [← h, hv]
    · rw [hv] at h; cases h
    · rw [hv] at h; cases h
  · rcases h with h | h | h
    · rw [← h, he]
    · rw [he] at h; cases h; exact absurd rfl h1
    · rw [he] at h; cases h; exact absurd rfl h2

/-- What fails in the release build fails in the debug build. -/
theorem c84_release_panics {α : Type _} {f : Profile → Res α} (h : BuildsAgree f) {e : Panic} (he : f .release = .error e) :
    f .debug = .error e ∨ f .debug = .error .overflow ∨ f .debug = .error .debugAssert := by
  cases hd : f .debug with
  | ok v => rw [h.1 v hd] at he; cases he
  | error e' =>
    by_cases h1 : e' = .overflow
    · exact .inr (.inl (by rw [h1]))
    · by_cases h2 : e' = .debugAssert
      · exact .inr (.inr (by rw [h2]))
      · rw [h.2 e' hd h1 h2] at he
        cases he
        exact .inl rfl

/-- C84: the arithmetic of `Modulus` (src/modulus.rs). -/
theorem c84_modulus :
    (∀ (m : Modulus) (a : Nat), BuildsAgree fun pr => Modulus.reduce pr m a) ∧
    (∀ (m : Modulus) (a : Nat), BuildsAgree fun pr => Modulus.reduceU128 pr m a) ∧
    (∀ (m : Modulus) (a : Nat), BuildsAgree fun pr => Modulus.lazyReduceU128 pr m a) ∧
    (∀ (m : Modulus) (a : Int), BuildsAgree fun pr => Modulus.reduceI64 pr m a) ∧
    (∀ (m : Modulus) (a : List Nat), BuildsAgree fun pr => Modulus.reduceVecU64 pr m a) ∧
    (∀ (m : Modulus) (a : List Int), BuildsAgree fun pr => Modulus.reduceVecI64 pr m a) ∧
    (∀ (m : Modulus) (a : Nat) (b : Nat), BuildsAgree fun pr => Modulus.mul pr m a b) ∧
    (∀ (m : Modulus) (a : Nat) (r : Nat), BuildsAgree fun pr => Modulus.pow pr m a r) ∧
    (∀ (m : Modulus) (a : Nat), BuildsAgree fun pr => Modulus.inv pr m a) ∧
    (∀ (m : Modulus) (a : List Nat), BuildsAgree fun pr => Modulus.invVec pr m a) ∧
    (∀ (m : Modulus) (a : Nat) (b : Nat), BuildsAgree fun pr => Modulus.add pr m a b) ∧
    (∀ (m : Modulus) (a : Nat) (b : Nat), BuildsAgree fun pr => Modulus.sub pr m a b) ∧
    (∀ (m : Modulus) (a : Nat), BuildsAgree fun pr => Modulus.neg pr m a) ∧
    (∀ (m : Modulus) (a : List Nat) (b : List Nat), BuildsAgree fun pr => Modulus.addVec pr m a b) ∧
    (∀ (m : Modulus) (a : List Nat) (b : List Nat), BuildsAgree fun pr => Modulus.subVec pr m a b) ∧
    (∀ (m : Modulus) (a : List Nat) (b : List Nat), BuildsAgree fun pr => Modulus.mulVec pr m a b) ∧
    (∀ (m : Modulus) (a : List Nat), BuildsAgree fun pr => Modulus.negVec pr m a) ∧
    (∀ (m : Modulus) (a : Nat), BuildsAgree fun pr => Modulus.shoup pr m a) ∧
    (∀ (m : Modulus) (a : List Nat), BuildsAgree fun pr => Modulus.shoupVec pr m a) ∧
    (∀ (m : Modulus) (a : Nat) (b : Nat) (bShoup : Nat), BuildsAgree fun pr => Modulus.lazyMulShoup pr m a b bShoup) ∧
    (∀ (m : Modulus) (a : Nat) (b : Nat) (bShoup : Nat), BuildsAgree fun pr => Modulus.mulShoup pr m a b bShoup) ∧
    (∀ (m : Modulus) (a : List Nat) (b : Nat), BuildsAgree fun pr => Modulus.scalarMulVec pr m a b) ∧
    (∀ (m : Modulus), BuildsAgree fun pr => Modulus.bits pr m) :=
  ⟨fun _ _ => .of (Modulus.reduce_agree _ _),
   fun _ _ => .of (Modulus.reduceU128_agree _ _),
   fun _ _ => .of (Modulus.lazyReduceU128_agree _ _),
   fun _ _ => .of (Modulus.reduceI64_agree _ _),
   fun _ _ => .of (Modulus.reduceVecU64_agree _ _),
   fun _ _ => .of (Modulus.reduceVecI64_agree _ _),
   fun _ _ _ => .of (Modulus.mul_agree _ _ _),
   fun _ _ _ => .of (Modulus.pow_agree _ _ _),
   fun _ _ => .of (Modulus.inv_agree _ _),
   fun _ _ => .of (Modulus.invVec_agree _ _),
   fun _ _ _ => .of (Modulus.add_agree _ _ _),
   fun _ _ _ => .of (Modulus.sub_agree _ _ _),
   fun _ _ => .of (Modulus.neg_agree _ _),
   fun _ _ _ => .of (Modulus.addVec_agree _ _ _),
   fun _ _ _ => .of (Modulus.subVec_agree _ _ _),
   fun _ _ _ => .of (Modulus.mulVec_agree _ _ _),
   fun _ _ => .of (Modulus.negVec_agree _ _),
   fun _ _ => .of (Modulus.shoup_agree _ _),
   fun _ _ => .of (Modulus.shoupVec_agree _ _),
   fun _ _ _ _ => .of (Modulus.lazyMulShoup_agree _ _ _ _),
   fun _ _ _ _ => .of (Modulus.mulShoup_agree _ _ _ _),
   fun _ _ _ => .of (Modulus.scalarMulVec_agree _ _ _),
   fun _ => .of (Modulus.bits_agree _)⟩

/-- C84: the helpers (src/utils.rs) and the generation of moduli. -/
theorem c84_utils :
    (∀ (m : Nat) (parentBits : Nat) (decompBits : Nat), BuildsAgree fun pr => decomposeBits pr m parentBits decompBits) ∧
    (∀ (rng : Nat → Nat) (vectorSize : Nat) (variance : Nat), BuildsAgree fun pr => sampleVecCbd pr rng vectorSize variance) ∧
    (∀ (w : Nat) (value : Nat), BuildsAgree fun pr => ilog2 w pr value) ∧
    (∀ (w : Nat) (a : Nat) (b : Nat), BuildsAgree fun pr => divCeil w pr a b) ∧
    (∀ (numBits : Nat) (modulo : Nat) (upperBound : Nat), BuildsAgree fun pr => generatePrime pr numBits modulo upperBound) ∧
    (∀ (x : U256), BuildsAgree fun pr => U256.toU128 pr x) ∧
    (∀ (x : U256), BuildsAgree fun pr => U256.toU128s pr x) ∧
    (∀ (x : U256) (rhs : Nat), BuildsAgree fun pr => U256.shr pr x rhs) ∧
    (∀ (sizes : List Nat) (degree : Nat), BuildsAgree fun pr => generateModuli pr sizes degree) :=
  ⟨fun _ _ _ => .of (decomposeBits_agree _ _ _),
   fun _ _ _ => .of (sampleVecCbd_agree _ _ _),
   fun _ _ => .of (ilog2_agree _ _),
   fun _ _ _ => .of (divCeil_agree _ _ _),
   fun _ _ _ => .of (generatePrime_agree _ _ _),
   fun _ => .of (U256.toU128_agree _),
   fun _ => .of (U256.toU128s_agree _),
   fun _ _ => .of (U256.shr_agree _ _),
   fun _ _ => .of (generateModuli_agree _ _)⟩

/-- C84: the number-theoretic transform (src/ntt.rs). -/
theorem c84_ntt :
    (∀ (v : Nat) (n : Nat) (p : Modulus), BuildsAgree fun pr => isPrimitiveRoot pr v n p) ∧
    (∀ (n : Nat) (p : Modulus) (sample : Nat → Nat), BuildsAgree fun pr => primitiveRoot pr n p sample) ∧
    (∀ (sample : Nat → Nat) (p : Modulus) (size : Nat), BuildsAgree fun pr => NttOperator.new pr sample p size) ∧
    (∀ (op : NttOperator) (a : List Nat), BuildsAgree fun pr => NttOperator.forward pr op a) ∧
    (∀ (op : NttOperator) (a : List Nat), BuildsAgree fun pr => NttOperator.backward pr op a) :=
  ⟨fun _ _ _ => .of (isPrimitiveRoot_agree _ _ _),
   fun _ _ _ => .of (primitiveRoot_agree _ _ _),
   fun _ _ _ => .of (NttOperator.new_agree _ _ _),
   fun _ _ => .of (NttOperator.forward_agree _ _),
   fun _ _ => .of (NttOperator.backward_agree _ _)⟩

/-- C84: residue number systems (src/rns.rs). -/
theorem c84_rns :
    (∀ (src : RnsContext) (dst : RnsContext) (sf : ScalingFactor), BuildsAgree fun pr => RnsScaler.new pr src dst sf) ∧
    (∀ (s : RnsScaler) (rests : List Nat) (outLen : Nat) (startingIndex : Nat), BuildsAgree fun pr => RnsScaler.scale pr s rests outLen startingIndex) :=
  ⟨fun _ _ _ => .of (RnsScaler.new_agree _ _ _),
   fun _ _ _ _ => .of (RnsScaler.scale_agree _ _ _ _)⟩

/-- C84: ring elements (src/rq.rs). -/
theorem c84_rq :
    (∀ (sample : Nat → Nat → Nat) (moduli64 : List Nat) (degree : Nat) (bd : BitDecomposition), BuildsAgree fun pr => RqContext.new pr sample moduli64 degree bd) ∧
    (∀ (ctx : RqContext) (exponent : Nat), BuildsAgree fun pr => Substitution.new pr ctx exponent) ∧
    (∀ (p : Poly) (tgt : Representation), BuildsAgree fun pr => Poly.changeRepresentation pr p tgt) ∧
    (∀ (p : Poly) (a : Substitution), BuildsAgree fun pr => Poly.substitute pr p a) ∧
    (∀ (p : Poly), BuildsAgree fun pr => Poly.modSwitchDownNext pr p) ∧
    (∀ (p : Poly) (ctx : RqContext), BuildsAgree fun pr => Poly.modSwitchTo pr p ctx) ∧
    (∀ (p : Poly), BuildsAgree fun pr => Poly.applyBitDecomposition pr p) ∧
    (∀ (p : Poly), BuildsAgree fun pr => Poly.inverse pr p) ∧
    (∀ (ctx : RqContext) (a : List Nat), BuildsAgree fun pr => Poly.tryFromVecU64 pr ctx a) ∧
    (∀ (ctx : RqContext) (a : List Int), BuildsAgree fun pr => Poly.tryFromVecI64 pr ctx a) ∧
    (∀ (ctx : RqContext) (rep : Representation) (variance : Nat) (rng : Nat → Nat), BuildsAgree fun pr => Poly.randomSmall pr ctx rep variance rng) ∧
    (∀ (a : Poly) (b : Poly), BuildsAgree fun pr => Poly.add pr a b) ∧
    (∀ (a : Poly) (b : Poly), BuildsAgree fun pr => Poly.sub pr a b) ∧
    (∀ (a : Poly) (b : Poly), BuildsAgree fun pr => Poly.mul pr a b) ∧
    (∀ (a : Poly) (b : Nat), BuildsAgree fun pr => Poly.mulBig pr a b) ∧
    (∀ (p : Poly), BuildsAgree fun pr => Poly.neg pr p) ∧
    (∀ (src : RqContext) (dst : RqContext) (sf : ScalingFactor), BuildsAgree fun pr => RqScaler.new pr src dst sf) ∧
    (∀ (s : RqScaler) (p : Poly), BuildsAgree fun pr => RqScaler.scale pr s p) :=
  ⟨fun _ _ _ _ => .of (RqContext.new_agree _ _ _ _),
   fun _ _ => .of (Substitution.new_agree _ _),
   fun _ _ => .of (Poly.changeRepresentation_agree _ _),
   fun _ _ => .of (Poly.substitute_agree _ _),
   fun _ => .of (Poly.modSwitchDownNext_agree _),
   fun _ _ => .of (Poly.modSwitchTo_agree _ _),
   fun _ => .of (Poly.applyBitDecomposition_agree _),
   fun _ => .of (Poly.inverse_agree _),
   fun _ _ => .of (Poly.tryFromVecU64_agree _ _),
   fun _ _ => .of (Poly.tryFromVecI64_agree _ _),
   fun _ _ _ _ => .of (Poly.randomSmall_agree _ _ _ _),
   fun _ _ => .of (Poly.add_agree _ _),
   fun _ _ => .of (Poly.sub_agree _ _),
   fun _ _ => .of (Poly.mul_agree _ _),
   fun _ _ => .of (Poly.mulBig_agree _ _),
   fun _ => .of (Poly.neg_agree _),
   fun _ _ _ => .of (RqScaler.new_agree _ _ _),
   fun _ _ => .of (RqScaler.scale_agree _ _)⟩

/-- C84: the encryption scheme (src/bfv.rs). -/
theorem c84_bfv :
    (∀ (sample : Nat → Nat → Nat) (degree : Nat) (t : Nat) (moduli : List Nat) (variance : Nat) (bd : BitDecomposition), BuildsAgree fun pr => BfvParameters.new pr sample degree t moduli variance bd) ∧
    (∀ (sample : Nat → Nat → Nat) (numOfModuli : Nat) (degree : Nat) (bd : BitDecomposition), BuildsAgree fun pr => BfvParameters.default pr sample numOfModuli degree bd) ∧
    (∀ (P : BfvParameters) (values : List Nat) (level : Nat) (encoding : Encoding), BuildsAgree fun pr => Plaintext.new pr P values level encoding) ∧
    (∀ (p : Plaintext), BuildsAgree fun pr => Plaintext.decode pr p) ∧
    (∀ (p : Plaintext), BuildsAgree fun pr => Plaintext.toPoly pr p) ∧
    (∀ (a : BfvCipherText) (b : BfvCipherText), BuildsAgree fun pr => BfvCipherText.add pr a b) ∧
    (∀ (a : BfvCipherText) (p : Poly), BuildsAgree fun pr => BfvCipherText.addPoly pr a p) ∧
    (∀ (a : BfvCipherText) (b : BfvCipherText), BuildsAgree fun pr => BfvCipherText.sub pr a b) ∧
    (∀ (a : BfvCipherText) (b : BfvCipherText), BuildsAgree fun pr => BfvCipherText.mul pr a b) ∧
    (∀ (a : BfvCipherText) (p : Poly), BuildsAgree fun pr => BfvCipherText.mulPoly pr a p) ∧
    (∀ (a : BfvCipherText) (p : Plaintext), BuildsAgree fun pr => BfvCipherText.mulPlain pr a p) ∧
    (∀ (a : BfvCipherText) (n : Nat), BuildsAgree fun pr => BfvCipherText.mulBig pr a n) ∧
    (∀ (P : BfvParameters) (rng : Nat → Nat), BuildsAgree fun pr => SecretKey.generate pr P rng) ∧
    (∀ (sk : SecretKey) (pt : Poly) (aTape : Nat → Nat → Nat) (rng : Nat → Nat), BuildsAgree fun pr => SecretKey.encryptPoly pr sk pt aTape rng) ∧
    (∀ (sk : SecretKey) (pt : Plaintext) (aTape : Nat → Nat → Nat) (rng : Nat → Nat), BuildsAgree fun pr => SecretKey.encrypt pr sk pt aTape rng) ∧
    (∀ (sk : SecretKey) (ct0 : Poly) (ct1 : Poly), BuildsAgree fun pr => SecretKey.decryptTrial pr sk ct0 ct1) ∧
    (∀ (sk : SecretKey) (ct : BfvCipherText), BuildsAgree fun pr => SecretKey.decrypt pr sk ct) ∧
    (∀ (sk : SecretKey) (ct : BfvCipherText), BuildsAgree fun pr => SecretKey.measureNoise pr sk ct) :=
  ⟨fun _ _ _ _ _ _ => .of (BfvParameters.new_agree _ _ _ _ _ _),
   fun _ _ _ _ => .of (BfvParameters.default_agree _ _ _ _),
   fun _ _ _ _ => .of (Plaintext.new_agree _ _ _ _),
   fun _ => .of (Plaintext.decode_agree _),
   fun _ => .of (Plaintext.toPoly_agree _),
   fun _ _ => .of (BfvCipherText.add_agree _ _),
   fun _ _ => .of (BfvCipherText.addPoly_agree _ _),
   fun _ _ => .of (BfvCipherText.sub_agree _ _),
   fun _ _ => .of (BfvCipherText.mul_agree _ _),
   fun _ _ => .of (BfvCipherText.mulPoly_agree _ _),
   fun _ _ => .of (BfvCipherText.mulPlain_agree _ _),
   fun _ _ => .of (BfvCipherText.mulBig_agree _ _),
   fun _ _ => .of (SecretKey.generate_agree _ _),
   fun _ _ _ _ => .of (SecretKey.encryptPoly_agree _ _ _ _),
   fun _ _ _ _ => .of (SecretKey.encrypt_agree _ _ _ _),
   fun _ _ _ => .of (SecretKey.decryptTrial_agree _ _ _),
   fun _ _ => .of (SecretKey.decrypt_agree _ _),
   fun _ _ => .of (SecretKey.measureNoise_agree _ _)⟩

/-- C84: key switching, Galois and relinearization keys and RGSW (src/ksk.rs, src/rgsw.rs). -/
theorem c84_keys :
    (∀ (sk : SecretKey) (src : Poly) (ctLevel : Nat) (kskLevel : Nat) (aTape : Nat → Nat → Nat → Nat) (rng : Nat → Nat → Nat), BuildsAgree fun pr => Ksk.new pr sk src ctLevel kskLevel aTape rng) ∧
    (∀ (sk : SecretKey) (src : Plaintext) (ctLevel : Nat) (kskLevel : Nat) (aTape : Nat → Nat → Nat → Nat) (rng : Nat → Nat → Nat), BuildsAgree fun pr => Ksk.newWithPt pr sk src ctLevel kskLevel aTape rng) ∧
    (∀ (k : Ksk) (p : Poly), BuildsAgree fun pr => Ksk.keySwitch pr k p) ∧
    (∀ (sk : SecretKey) (i : Substitution) (level : Nat) (aTape : Nat → Nat → Nat → Nat) (rng : Nat → Nat → Nat), BuildsAgree fun pr => GaliosKey.new pr sk i level aTape rng) ∧
    (∀ (g : GaliosKey) (ct : BfvCipherText), BuildsAgree fun pr => GaliosKey.relinearize pr g ct) ∧
    (∀ (sk : SecretKey) (level : Nat) (aTape : Nat → Nat → Nat → Nat) (rng : Nat → Nat → Nat), BuildsAgree fun pr => RelinearizationKey.new pr sk level aTape rng) ∧
    (∀ (k : RelinearizationKey) (p : Poly), BuildsAgree fun pr => RelinearizationKey.relinearizePoly pr k p) ∧
    (∀ (lhs : BfvCipherText) (rhs : BfvCipherText) (rlk : RelinearizationKey), BuildsAgree fun pr => multiplyWithStrategy pr lhs rhs rlk) ∧
    (∀ (sk : SecretKey) (m : Poly) (aTape0 : Nat → Nat → Nat → Nat) (aTape1 : Nat → Nat → Nat → Nat) (rng0 : Nat → Nat → Nat) (rng1 : Nat → Nat → Nat), BuildsAgree fun pr => RgswCt.encryptPoly pr sk m aTape0 aTape1 rng0 rng1) ∧
    (∀ (sk : SecretKey) (m : Plaintext) (aTape0 : Nat → Nat → Nat → Nat) (aTape1 : Nat → Nat → Nat → Nat) (rng0 : Nat → Nat → Nat) (rng1 : Nat → Nat → Nat), BuildsAgree fun pr => RgswCt.encrypt pr sk m aTape0 aTape1 rng0 rng1) ∧
    (∀ (g : RgswCt) (ct : BfvCipherText), BuildsAgree fun pr => RgswCt.externalProduct pr g ct) :=
  ⟨fun _ _ _ _ _ _ => .of (Ksk.new_agree _ _ _ _ _ _),
   fun _ _ _ _ _ _ => .of (Ksk.newWithPt_agree _ _ _ _ _ _),
   fun _ _ => .of (Ksk.keySwitch_agree _ _),
   fun _ _ _ _ _ => .of (GaliosKey.new_agree _ _ _ _ _),
   fun _ _ => .of (GaliosKey.relinearize_agree _ _),
   fun _ _ _ _ => .of (RelinearizationKey.new_agree _ _ _ _),
   fun _ _ => .of (RelinearizationKey.relinearizePoly_agree _ _),
   fun _ _ _ => .of (multiplyWithStrategy_agree _ _ _),
   fun _ _ _ _ _ _ => .of (RgswCt.encryptPoly_agree _ _ _ _ _ _),
   fun _ _ _ _ _ _ => .of (RgswCt.encrypt_agree _ _ _ _ _ _),
   fun _ _ => .of (RgswCt.externalProduct_agree _ _)⟩

/-- C84: the protocol (src/client.rs, src/evaluations.rs). -/
theorem c84_pir :
    (∀ (c : Client) (queryDims : List Nat) (dbRows : Nat), BuildsAgree fun pr => Client.encode pr c queryDims dbRows) ∧
    (∀ (sk : SecretKey) (params : BfvParameters) (aTape : Nat → Nat → Nat → Nat → Nat) (rng : Nat → Nat → Nat → Nat) (aTape0 : Nat → Nat → Nat → Nat) (aTape1 : Nat → Nat → Nat → Nat) (rng0 : Nat → Nat → Nat) (rng1 : Nat → Nat → Nat), BuildsAgree fun pr => Evaluation.build pr sk params aTape rng aTape0 aTape1 rng0 rng1) ∧
    (∀ (n : Nat) (ctx : RqContext), BuildsAgree fun pr => Evaluation.genXPows pr n ctx) ∧
    (∀ (ev : Evaluation) (ct : BfvCipherText), BuildsAgree fun pr => Evaluation.unpack pr ev ct) ∧
    (∀ (firstDim : Nat) (dim : Nat) (db : List Plaintext) (params : BfvParameters), BuildsAgree fun pr => Server.new pr firstDim dim db params) ∧
    (∀ (s : Server) (fuel : Nat), BuildsAgree fun pr => Server.noOfCts pr s fuel) ∧
    (∀ (s : Server), BuildsAgree fun pr => Server.dimensions pr s) ∧
    (∀ (s : Server) (queryCts : List BfvCipherText) (evalKey : Evaluation) (params : BfvParameters), BuildsAgree fun pr => Server.decode pr s queryCts evalKey params) :=
  ⟨fun _ _ _ => .of (Client.encode_agree _ _ _),
   fun _ _ _ _ _ _ _ _ => .of (Evaluation.build_agree _ _ _ _ _ _ _ _),
   fun _ _ => .of (Evaluation.genXPows_agree _ _),
   fun _ _ => .of (Evaluation.unpack_agree _ _),
   fun _ _ _ _ => .of (Server.new_agree _ _ _ _),
   fun _ _ => .of (Server.noOfCts_agree _ _),
   fun _ => .of (Server.dimensions_agree _),
   fun _ _ _ _ => .of (Server.decode_agree _ _ _ _)⟩

/-- C84: message retrieval (src/pvw.rs, src/omr.rs). -/
theorem c84_omr :
    (∀ (sk : PvwSk) (params : PvwParams) (aTape : Nat → Nat → Nat) (rng : Nat → Nat → Nat), BuildsAgree fun pr => Pvw.genPk pr sk params aTape rng) ∧
    (∀ (pk : PvwPk) (params : PvwParams) (msg : List Nat) (e : Nat → Nat), BuildsAgree fun pr => Pvw.encrypt pr pk params msg e) ∧
    (∀ (sk : PvwSk) (params : PvwParams) (ct : PvwCiphertext), BuildsAgree fun pr => Pvw.decrypt pr sk params ct) ∧
    (∀ (cts : List BfvCipherText) (polys : List Poly), BuildsAgree fun pr => Omr.innerProduct pr cts polys) ∧
    (∀ (sample : Nat → Nat → Nat) (params : PvwParams) (D : Nat) (clues : List PvwCiphertext), BuildsAgree fun pr => Omr.process pr sample params D clues) :=
  ⟨fun _ _ _ _ => .of (Pvw.genPk_agree _ _ _ _),
   fun _ _ _ _ => .of (Pvw.encrypt_agree _ _ _ _),
   fun _ _ _ => .of (Pvw.decrypt_agree _ _ _),
   fun _ _ => .of (Omr.innerProduct_agree _ _),
   fun _ _ _ _ => .of (Omr.process_agree _ _ _ _)⟩

/-- The same value in both builds. -/
example : Modulus.add .debug ⟨7, 0, 0⟩ 5 6 = .ok 4 ∧ Modulus.add .release ⟨7, 0, 0⟩ 5 6 = .ok 4 := by decide

/-- The same panic in both builds. -/
example : divCeil 64 .debug 5 0 = .error .assert ∧ divCeil 64 .release 5 0 = .error .assert := by decide

/-- The exception occurs: `ilog2(0)` overflows in the debug build and returns a wrong value in the release build. -/
example : ilog2 64 .debug 0 = .error .overflow ∧ ilog2 64 .release 0 = .ok (2 ^ 64 - 1) := by decide

/-- `c84_release_panics` for the division by zero of `div_ceil`. -/
example : divCeil 64 .debug 5 0 = .error .assert ∨ divCeil 64 .debug 5 0 = .error .overflow ∨ divCeil 64 .debug 5 0 = .error .debugAssert :=
  c84_release_panics (c84_utils.2.2.2.1 64 5 0) (e := .assert) rfl

end OnionPIR
