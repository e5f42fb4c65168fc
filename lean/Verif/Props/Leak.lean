import Verif.Proofs.LeakRelease
import Verif.Props.Bfv
import Verif.Props.Ntt
/-
C93: what the running time can depend on. The documentation calls `lazy_reduce_ct`, `reduce_ct` and `lazy_mul_shoup` constant time
(src/modulus.rs:31-32, 66-67, 227). Here the branches, the addresses and the operands of divisions are the trace of a run (Model/Leak), and the traces
of two runs with different secrets are compared.
-/
namespace OnionPIR
open Lk Rg Poly Spec

variable {N t variance : Nat} {l : List Nat} {P : BfvParameters}

/-- C93: the functions with a trace return what the functions of the model return, in both builds. -/
theorem c93_values (pr : Profile) (m : Modulus) (op : NttOperator) (P : BfvParameters) (sk : SecretKey) (s : RnsScaler) :
    (∀ a, (m.lazyReduceCtL pr a).val = m.lazyReduceCt pr a) ∧ (∀ x p, (Modulus.reduceCtL pr x p).val = Modulus.reduceCt pr x p) ∧
    (∀ a b bs, (m.lazyMulShoupL pr a b bs).val = m.lazyMulShoup pr a b bs) ∧ (∀ a b, (m.mulL pr a b).val = m.mul pr a b) ∧
    (∀ a r, (m.powL pr a r).val = m.pow pr a r) ∧ (∀ a, (op.forwardL pr a).val = op.forward pr a) ∧
    (∀ a, (op.backwardL pr a).val = op.backward pr a) ∧ (∀ rests n i, (s.scaleL pr rests n i).val = s.scale pr rests n i) ∧
    (∀ rng, (SecretKey.generateL pr P rng).val = SecretKey.generate pr P rng) ∧
    (∀ p a rng, (sk.encryptPolyL pr p a rng).val = sk.encryptPoly pr p a rng) ∧
    (∀ ct, (sk.decryptL pr ct).val = sk.decrypt pr ct) :=
  ⟨Modulus.lazyReduceCtL_val pr m, Modulus.reduceCtL_val pr, Modulus.lazyMulShoupL_val pr m, Modulus.mulL_val pr m, Modulus.powL_val pr m,
    NttOperator.forwardL_val pr op, NttOperator.backwardL_val pr op, RnsScaler.scaleL_val pr s, SecretKey.generateL_val pr P,
    SecretKey.encryptPolyL_val pr sk, SecretKey.decryptL_val pr sk⟩

/-- C93: in the release build, the modular arithmetic runs without a branch, an access or a division, on all words. -/
theorem c93_arithmetic (m : Modulus) (op : NttOperator) (a b c p : Nat) (i : Int) :
    (m.lazyReduceCtL .release a).trace = [] ∧ (m.lazyReduceU128L .release a).trace = [] ∧ (Modulus.reduceCtL .release a p).trace = [] ∧
    (m.reduceL .release a).trace = [] ∧ (m.reduceU128L .release a).trace = [] ∧ (m.reduceI64L .release i).trace = [] ∧
    (m.addL .release a b).trace = [] ∧ (m.subL .release a b).trace = [] ∧ (m.mulL .release a b).trace = [] ∧ (m.negL .release a).trace = [] ∧
    (m.lazyMulShoupL .release a b c).trace = [] ∧ (m.mulShoupL .release a b c).trace = [] ∧
    (op.butterflyL .release a b c p).trace = [] ∧ (op.butterflyInvL .release a b c p).trace = [] ∧
    (NttOperator.reduce4pL .release a m).trace = [] :=
  ⟨Modulus.lazyReduceCtL_silent m a, Modulus.lazyReduceU128L_silent m a, Modulus.reduceCtL_silent a p, Modulus.reduceL_silent m a,
    Modulus.reduceU128L_silent m a, Modulus.reduceI64L_silent m i, Modulus.addL_silent m a b, Modulus.subL_silent m a b, Modulus.mulL_silent m a b,
    Modulus.negL_silent m a, Modulus.lazyMulShoupL_silent m a b c, Modulus.mulShoupL_silent m a b c, NttOperator.butterflyL_silent op a b c p,
    NttOperator.butterflyInvL_silent op a b c p, NttOperator.reduce4pL_silent a m⟩

theorem dassert_pass {c : Prop} [Decidable c] (h : c) : (Lk.dassert .debug c).val = .ok () := by simp [Lk.dassert, dassert, h]

theorem mem_check (r x p : Nat) : Event.division x p ∈ (Modulus.reduceCtEndL .debug r x p).trace := mem_bind_left List.mem_cons_self

/-- C93: the debug build divides by the modulus in the assertion of `reduce_ct` (src/modulus.rs:85): the argument, a secret, is the operand of
a division. -/
theorem c93_debug {x p : Nat} (hp : p < 2 ^ 62) (hx : x < 2 * p) :
    Event.division x p ∈ (Modulus.reduceCtL .debug x p).trace := by
  have h1 : p >>> 63 = 0 := by rw [Nat.shiftRight_eq_div_pow]; omega
  unfold Modulus.reduceCtL
  exact mem_bind_right (dassert_pass h1) rfl (mem_bind_right (dassert_pass hx) rfl (mem_check _ _ _))

/-- C93: `shoup` divides its argument (src/modulus.rs:216) in both builds, so the precomputation is not constant time. -/
theorem c93_shoup (m : Modulus) (a : Nat) : (m.shoupL .release a).trace = [.division (a <<< 64) m.p] := by
  unfold Modulus.shoupL
  rw [bind_trace_ok (show (Lk.dassert .release (a < m.p)).val = .ok () from rfl)]
  exact bind_pure_trace _ _

/-- C93: the trace of `pow` and `inv` does not depend on the base. -/
theorem c93_pow (m : Modulus) (a a' r : Nat) {v v' : Nat} (h : m.pow .release a r = .ok v) (h' : m.pow .release a' r = .ok v') :
    (m.powL .release a r).trace = (m.powL .release a' r).trace :=
  (Modulus.powL_sim m a a' r v v' (by rw [Modulus.powL_val]; exact h) (by rw [Modulus.powL_val]; exact h')).1

/-- C93: it does depend on the exponent. -/
theorem c93_pow_exponent : ∃ m, Modulus.new 17 = .ok m ∧ ∀ pr, (m.powL pr 3 5).trace ≠ (m.powL pr 3 6).trace := by
  refine ⟨_, rfl, fun pr => ?_⟩
  cases pr <;> decide +kernel

/-- C93: the transforms leave the same trace for all vectors. -/
theorem c93_ntt (op : NttOperator) {a a' : List Nat} (hl : a.length = a'.length) :
    (∀ r r', op.forward .release a = .ok r → op.forward .release a' = .ok r' → (op.forwardL .release a).trace = (op.forwardL .release a').trace) ∧
    (∀ r r', op.backward .release a = .ok r → op.backward .release a' = .ok r' → (op.backwardL .release a).trace = (op.backwardL .release a').trace) := by
  refine ⟨fun r r' h h' => ?_, fun r r' h h' => ?_⟩
  · exact (NttOperator.forwardL_sim op hl r r' (by rw [NttOperator.forwardL_val]; exact h) (by rw [NttOperator.forwardL_val]; exact h')).1
  · exact (NttOperator.backwardL_sim op hl r r' (by rw [NttOperator.backwardL_val]; exact h) (by rw [NttOperator.backwardL_val]; exact h')).1

/-- C93: key generation leaves the same trace whatever the random words. -/
theorem c93_generate (h : IsParams N t l variance P) (hv1 : 1 ≤ variance) (hv2 : variance ≤ 16) {rng rng' : Nat → Nat} (hr : ∀ i, rng i < 2 ^ 64)
    (hr' : ∀ i, rng' i < 2 ^ 64) :
    ∃ sk sk' tr, SecretKey.generateL .release P rng = ⟨.ok sk, tr⟩ ∧ SecretKey.generateL .release P rng' = ⟨.ok sk', tr⟩ := by
  obtain ⟨sk, h1, -⟩ := c30_generate h .release hv1 hv2 hr
  obtain ⟨sk', h2, -⟩ := c30_generate h .release hv1 hv2 hr'
  rw [← SecretKey.generateL_val] at h1 h2
  exact ⟨sk, sk', _, by rw [← h1], by rw [← h2, (SecretKey.generateL_sim P rng rng' sk sk' h1 h2).1]⟩

/-- Polynomials of one level have the same shape. -/
theorem like_polyAt (h : IsParams N t l variance P) {i : Nat} {f g : Rg N} {p q : Poly} (hp : PolyAt P i f p) (hq : PolyAt P i g q) : Like p q := by
  obtain ⟨K, ext, rfl, hw, rfl, rfl, -⟩ := BfvP.params h
  obtain ⟨L, hL⟩ := hw.levels i (BfvP.level_lt hw hp)
  rw [(BfvP.polyAt_iff hL _ _).mp hp, (BfvP.polyAt_iff hL _ _).mp hq]
  refine ⟨rfl, rfl, ?_⟩
  show List.Forall₂ SameLen (encRows L.qCtx .ntt f) (encRows L.qCtx .ntt g)
  simp only [encRows]
  rw [List.forall₂_map_left_iff, List.forall₂_map_right_iff]
  exact List.forall₂_same.mpr fun op _ => by simp [SameLen, rowN]

theorem like_cts (h : IsParams N t l variance P) {i : Nat} {fs gs : List (Rg N)} {c d : List Poly} (hn : fs.length = gs.length)
    (hc : List.Forall₂ (PolyAt P i) fs c) (hd : List.Forall₂ (PolyAt P i) gs d) : List.Forall₂ Like c d := by
  induction hc generalizing gs d with
  | nil => cases hd with
    | nil => exact .nil
    | cons _ _ => simp at hn
  | cons hp _ ih => cases hd with
    | nil => simp at hn
    | cons hq hd => exact .cons (like_polyAt h hp hq) (ih (by simpa using hn) hd)

/-- C93: encryption leaves the same trace for all keys, messages and random numbers. -/
theorem c93_encrypt (h : IsParams N t l variance P) (hv1 : 1 ≤ variance) (hv2 : variance ≤ 16) {sk sk' : SecretKey} (hk : IsKey P sk)
    (hk' : IsKey P sk') (hl : sk.coeffs.length = sk'.coeffs.length) {M M' : Rg N} {p p' : Poly} (hp : PolyAt P 0 M p) (hp' : PolyAt P 0 M' p')
    {a a' : Nat → Nat → Nat} (ha : TapeAt l 0 a) (ha' : TapeAt l 0 a') {rng rng' : Nat → Nat} (hr : ∀ i, rng i < 2 ^ 64)
    (hr' : ∀ i, rng' i < 2 ^ 64) :
    ∃ ct ct' tr, sk.encryptPolyL .release p a rng = ⟨.ok ct, tr⟩ ∧ sk'.encryptPolyL .release p' a' rng' = ⟨.ok ct', tr⟩ := by
  obtain ⟨ct, -, -, -, h1, -⟩ := c30_encrypt_poly h hk .release hv1 hv2 hp ha hr
  obtain ⟨ct', -, -, -, h2, -⟩ := c30_encrypt_poly h hk' .release hv1 hv2 hp' ha' hr'
  rw [← SecretKey.encryptPolyL_val] at h1 h2
  exact ⟨ct, ct', _, by rw [← h1], by
    rw [← h2, (SecretKey.encryptPolyL_sim (hk.1.trans hk'.1.symm) hl (like_polyAt h hp hp') a a' rng rng' ct ct' h1 h2).1]⟩

/-- C93: the part of decryption that multiplies with the key leaves the same trace for all keys and ciphertexts of the same size. -/
theorem c93_phase (h : IsParams N t l variance P) {sk sk' : SecretKey} (hl : sk.coeffs.length = sk'.coeffs.length) {i : Nat} {fs gs : List (Rg N)}
    (hn : fs.length = gs.length) {ct ct' : BfvCipherText} (hct : IsCt P i fs ct) (hct' : IsCt P i gs ct') {m m' : Poly}
    (hm : sk.phase .release ct.cts = .ok m) (hm' : sk'.phase .release ct'.cts = .ok m') :
    (sk.phaseL .release ct.cts).trace = (sk'.phaseL .release ct'.cts).trace := by
  rw [← SecretKey.phaseL_val] at hm hm'
  exact (SecretKey.phaseL_sim hl (like_cts h hn hct.2.2 hct'.2.2) m m' hm hm').1

/-- C93: the trace of decryption depends on the key and the ciphertext only through the signs of `w`, one for each coefficient. -/
theorem c93_decrypt (h : IsParams N t l variance P) {sk sk' : SecretKey} (hk : IsKey P sk)
    (hk' : IsKey P sk') (hl : sk.coeffs.length = sk'.coeffs.length) {i : Nat} {fs gs : List (Rg N)} (hne : fs ≠ [])
    (hn : fs.length = gs.length) {ct ct' : BfvCipherText} (hct : IsCt P i fs ct) (hct' : IsCt P i gs ct') (hs : sk.signs ct = sk'.signs ct') :
    ∃ pt pt' tr, sk.decryptL .release ct = ⟨.ok pt, tr⟩ ∧ sk'.decryptL .release ct' = ⟨.ok pt', tr⟩ := by
  have hne' : gs ≠ [] := by rintro rfl; exact hne (List.length_eq_zero_iff.mp hn)
  obtain ⟨pt, h1, -⟩ := c30_decrypt_total h hk .release hne hct
  obtain ⟨pt', h2, -⟩ := c30_decrypt_total h hk' .release hne' hct'
  rw [← SecretKey.decryptL_val] at h1 h2
  exact ⟨pt, pt', _, by rw [← h1], by
    rw [← h2, (SecretKey.decryptL_sim (hk.1.trans hk'.1.symm) hl (hct.2.1.trans hct'.2.1.symm) (like_cts h hn hct.2.2 hct'.2.2) hs pt pt' h1 h2).1]⟩

/-- The scaler that `decrypt` uses for `t = 17` and `q = 97 * 193`. -/
def leakScaler : Res RnsScaler := do
  let src ← RnsContext.new [97, 193]
  let dst ← RnsContext.new [17]
  let sf ← ScalingFactor.new 17 (97 * 193)
  RnsScaler.new .release src dst sf

/-- C93: `scale` branches on the sign (src/rns.rs:384-393, 401-413), and the sign depends on the scaled number: the traces of the release build for the
residues `(0, 7)` and `(20, 7)` differ. So decryption is not constant time. -/
theorem c93_scale_leaks : ∃ s, leakScaler = .ok s ∧ s.signOf [0, 7] = some false ∧ s.signOf [20, 7] = some true ∧
    (s.scaleL .release [0, 7] 1 0).trace ≠ (s.scaleL .release [20, 7] 1 0).trace := by
  have : ∃ s, leakScaler = .ok s := by
    cases h : leakScaler with
    | ok s => exact ⟨s, rfl⟩
    | error e => exact absurd h (by
        have : (leakScaler.isOk) = true := by decide +kernel
        intro hh; rw [hh] at this; cases this)
  obtain ⟨s, hs⟩ := this
  refine ⟨s, hs, ?_⟩
  have : (do
    let s ← leakScaler
    pure (decide (s.signOf [0, 7] = some false ∧ s.signOf [20, 7] = some true ∧
    (s.scaleL .release [0, 7] 1 0).trace ≠ (s.scaleL .release [20, 7] 1 0).trace)) : Res Bool) = .ok true := by decide +kernel
  rw [hs] at this
  exact of_decide_eq_true (Except.ok.inj this)

/-- The hypotheses of `c93_pow` and `c93_ntt` hold for two different bases and two different vectors. -/
example : ∃ m, Modulus.new 17 = .ok m ∧ (m.powL .release 3 5).trace = (m.powL .release 16 5).trace :=
  ⟨_, rfl, c93_pow _ 3 16 5 (v := 5) (v' := 16) (by decide +kernel) (by decide +kernel)⟩

/-- Two encryptions under different keys, of different messages and with different random numbers, on the example parameters. -/
example : ∃ P sk sk' p p' ct ct' tr, IsParams 8 17 Ex.mods 10 P ∧ IsKey P sk ∧ IsKey P sk' ∧ PolyAt P 0 (0 : Rg 8) p ∧
    PolyAt P 0 (1 : Rg 8) p' ∧ sk.coeffs ≠ sk'.coeffs ∧
    sk.encryptPolyL .release p (fun _ _ => 5) (fun i => i % 1000) = ⟨.ok ct, tr⟩ ∧
    sk'.encryptPolyL .release p' (fun _ _ => 6) (fun i => i % 999) = ⟨.ok ct', tr⟩ := by
  obtain ⟨P, h⟩ := Ex.exists_params
  obtain ⟨p, hp⟩ := c33_exists_poly h (i := 0) (by simp [Ex.mods]) (0 : Rg 8)
  obtain ⟨p', hp'⟩ := c33_exists_poly h (i := 0) (by simp [Ex.mods]) (1 : Rg 8)
  have hd : P.degree = 8 := by
    obtain ⟨K, ext, hN, hw, -⟩ := BfvP.params h
    rw [hw.deg, hN]
  have hk : IsKey P ⟨P, [1, 0, -1]⟩ := ⟨rfl, by rw [hd]; simp, by simp⟩
  have hk' : IsKey P ⟨P, [0, 1, 1]⟩ := ⟨rfl, by rw [hd]; simp, by simp⟩
  have tape : ∀ c, c < 10 → TapeAt Ex.mods 0 fun _ _ => c := fun c hc k j hk => by
    have : ∀ k, k < (levelModuli Ex.mods 0).length → 10 < (levelModuli Ex.mods 0).getD k 1 := by decide
    exact hc.trans (this k hk)
  obtain ⟨ct, ct', tr, h1, h2⟩ := c93_encrypt h (by norm_num) (by norm_num) hk hk' rfl hp hp' (tape 5 (by norm_num)) (tape 6 (by norm_num))
    (rng := fun i => i % 1000) (rng' := fun i => i % 999) (fun i => by omega) (fun i => by omega)
  exact ⟨P, _, _, p, p', ct, ct', tr, h, hk, hk', hp, hp', by simp, h1, h2⟩

/-- `c93_debug`: the quotient of the debug assertion is visible. -/
example : Event.division 20 17 ∈ (Modulus.reduceCtL .debug 20 17).trace := c93_debug (by norm_num) (by norm_num)

/-- `c93_ntt` for an operator of size 8 and two different vectors. -/
example : ∃ p op, Modulus.new 17 = .ok p ∧ NttOperator.new .debug (fun _ => 3) p 8 = .ok op ∧
    (op.forwardL .release [1, 2, 3, 4, 5, 6, 7, 8]).trace = (op.forwardL .release [16, 0, 9, 9, 9, 0, 0, 1]).trace ∧
    (op.backwardL .release [1, 2, 3, 4, 5, 6, 7, 8]).trace = (op.backwardL .release [16, 0, 9, 9, 9, 0, 0, 1]).trace := by
  obtain ⟨p, op, hp, hop⟩ := Ex.ntt17
  have ev : ∀ a : List Nat, a.length = 8 → (∀ x ∈ a, x < 17) →
      (∃ r, op.forward .release a = .ok r) ∧ ∃ r, op.backward .release a = .ok r := by
    intro a h1 h2
    obtain ⟨r, hr, -⟩ := c16_backward_forward hp .release .debug (n := 8) (by norm_num) (sample := fun _ => 3) (fun _ => by norm_num) hop (a := a) ⟨h1, h2⟩
    obtain ⟨r', hr', -⟩ := c16_forward_backward hp .release .debug (n := 8) (by norm_num) (sample := fun _ => 3) (fun _ => by norm_num) hop (b := a) ⟨h1, h2⟩
    exact ⟨⟨r, hr⟩, r', hr'⟩
  obtain ⟨⟨r1, h1⟩, r2, h2⟩ := ev [1, 2, 3, 4, 5, 6, 7, 8] rfl (by decide)
  obtain ⟨⟨r3, h3⟩, r4, h4⟩ := ev [16, 0, 9, 9, 9, 0, 0, 1] rfl (by decide)
  have := c93_ntt op (a := [1, 2, 3, 4, 5, 6, 7, 8]) (a' := [16, 0, 9, 9, 9, 0, 0, 1]) rfl
  exact ⟨p, op, hp, hop, this.1 _ _ h1 h3, this.2 _ _ h2 h4⟩

/-- `c93_generate` for two streams of random words. -/
example : ∃ P sk sk' tr, IsParams 8 17 Ex.mods 10 P ∧ SecretKey.generateL .release P (fun i => i % 1000) = ⟨.ok sk, tr⟩ ∧
    SecretKey.generateL .release P (fun i => i % 999) = ⟨.ok sk', tr⟩ := by
  obtain ⟨P, h⟩ := Ex.exists_params
  obtain ⟨sk, sk', tr, h1, h2⟩ := c93_generate h (by norm_num) (by norm_num) (rng := fun i => i % 1000) (rng' := fun i => i % 999)
    (fun i => by omega) (fun i => by omega)
  exact ⟨P, sk, sk', tr, h, h1, h2⟩

/-- `c93_phase` and `c93_decrypt` on the same ciphertext under one key. -/
example : ∃ P sk ct pt pt' tr, IsParams 8 17 Ex.mods 10 P ∧ IsKey P sk ∧ sk.decryptL .release ct = ⟨.ok pt, tr⟩ ∧
    sk.decryptL .release ct = ⟨.ok pt', tr⟩ := by
  obtain ⟨P, sk, ct, f0, f1, h, hk, -, hct, -⟩ := Ex.setup
  obtain ⟨pt, pt', tr, h1, h2⟩ := c93_decrypt h hk hk rfl (by simp) rfl hct hct rfl
  exact ⟨P, sk, ct, pt, pt', tr, h, hk, h1, h2⟩

end OnionPIR
