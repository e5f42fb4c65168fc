/-
C67: operations whose operands do not belong together. The theorems say what a returned value implies about the operands,
in both profiles; the violations say which mismatches go unnoticed.
-/
import Verif.Props.Rq
import Verif.Props.BfvMul
import Verif.Props.Omr
import Verif.Model.Pir
import Verif.Model.Omr

namespace OnionPIR
open Rg Spec

variable {pr : Profile}

/-- Sums and differences of polynomials: both operands are in NTT form. Missing: the contexts are not compared
(`c67_contexts_not_compared`). -/
theorem c67_poly_partial {a b z : Poly} (h : a.add pr b = .ok z ∨ a.sub pr b = .ok z ∨ a.mul pr b = .ok z) :
    a.representation = .ntt ∧ b.representation = .ntt ∧ z.representation = .ntt ∧ z.context = a.context := by
  rcases h with h | h | h
  all_goals
    first | unfold Poly.add at h | unfold Poly.sub at h | unfold Poly.mul at h
    simp only [bind_eq_ok, rassert_eq_ok] at h
    obtain ⟨_, h1, _, h2, c, -, h3⟩ := h
    cases h3
    exact ⟨h1, h2, h1, rfl⟩

/-- Multiplication by an integer: the operand is in NTT form. -/
theorem c67_poly_big {a z : Poly} {n : Nat} (h : a.mulBig pr n = .ok z) : a.representation = .ntt := by
  unfold Poly.mulBig at h
  simp only [bind_eq_ok, rassert_eq_ok] at h
  obtain ⟨_, -, _, -, _, h, -⟩ := h
  exact h

/-- Scaling: the polynomial is in the source context of the scaler, the result in the target context. -/
theorem c67_scale {s : RqScaler} {p z : Poly} (h : s.scale pr p = .ok z) : p.context = s.src := by
  unfold RqScaler.scale at h
  simp only [bind_eq_ok, rassert_eq_ok] at h
  obtain ⟨_, h, -⟩ := h
  exact h

/-- A scaler connects contexts of equal degree. -/
theorem c67_scaler_new {src dst : RqContext} {sf : ScalingFactor} {s : RqScaler} (h : RqScaler.new pr src dst sf = .ok s) :
    src.degree = dst.degree ∧ s.src = src ∧ s.dst = dst := by
  unfold RqScaler.new at h
  simp only [bind_eq_ok, rassert_eq_ok] at h
  obtain ⟨_, h1, _, -, h2⟩ := h
  cases h2
  exact ⟨h1, rfl, rfl⟩

/-- Conversion to words is restricted to a single modulus. -/
theorem c67_to_u64 {p : Poly} {v : List Nat} (h : p.toU64s = .ok v) : p.context.moduli64.length = 1 := by
  unfold Poly.toU64s at h
  simp only [bind_eq_ok, rassert_eq_ok] at h
  obtain ⟨_, h, -⟩ := h
  exact h

/-- Sums and differences of ciphertexts: same parameters, same level, at least two components. -/
theorem c67_add_sub {x y z : BfvCipherText} (h : x.add pr y = .ok z ∨ x.sub pr y = .ok z) :
    x.params = y.params ∧ x.level = y.level ∧ 2 ≤ x.cts.length ∧ 2 ≤ y.cts.length ∧ z.params = x.params ∧ z.level = x.level := by
  rcases h with h | h
  all_goals
    first | unfold BfvCipherText.add at h | unfold BfvCipherText.sub at h
    simp only [bind_eq_ok, rassert_eq_ok, idx_eq_ok] at h
    obtain ⟨_, h1, _, h2, _, -, _, -, _, -, _, h3, _, h4, _, -, h5⟩ := h
    cases h5
    obtain ⟨h3, -⟩ := List.getElem?_eq_some_iff.1 h3
    obtain ⟨h4, -⟩ := List.getElem?_eq_some_iff.1 h4
    exact ⟨h1, h2, h3, h4, rfl, rfl⟩

/-- Addition of a polynomial to a ciphertext: the context of the first component, NTT form, at least two components. -/
theorem c67_add_poly {x z : BfvCipherText} {p : Poly} (h : x.addPoly pr p = .ok z) :
    ∃ c0 c1 cs, x.cts = c0 :: c1 :: cs ∧ c0.context = p.context ∧ c0.representation = .ntt ∧ c1.representation = .ntt ∧
      p.representation = .ntt := by
  unfold BfvCipherText.addPoly at h
  simp only [bind_eq_ok, rassert_eq_ok, idx_eq_ok] at h
  obtain ⟨c0, h1, _, h2, _, h3, c1, h4, _, h5, h6⟩ := h
  cases hx : x.cts with
  | nil => simp [hx] at h1
  | cons d ds =>
    cases hd : ds with
    | nil => simp [hx, hd] at h4
    | cons e es =>
      simp only [hx, hd, List.getElem?_cons_zero, List.getElem?_cons_succ, Option.some.injEq] at h1 h4
      subst h1 h4
      obtain ⟨a1, a2, -⟩ := c67_poly_partial (Or.inl h3)
      obtain ⟨a3, -, -⟩ := c67_poly_partial (Or.inl h5)
      exact ⟨_, _, _, rfl, h2, a1, a3, a2⟩

/-- Multiplication of a ciphertext by a polynomial: the same conditions. -/
theorem c67_mul_poly {x z : BfvCipherText} {p : Poly} (h : x.mulPoly pr p = .ok z) :
    ∃ c0 c1 cs, x.cts = c0 :: c1 :: cs ∧ c0.context = p.context ∧ c0.representation = .ntt ∧ c1.representation = .ntt ∧
      p.representation = .ntt := by
  unfold BfvCipherText.mulPoly at h
  simp only [bind_eq_ok, rassert_eq_ok, idx_eq_ok] at h
  obtain ⟨c0, h1, _, h2, _, h2', _, h3, c1, h4, _, h5, h6⟩ := h
  cases hx : x.cts with
  | nil => simp [hx] at h1
  | cons d ds =>
    cases hd : ds with
    | nil => simp [hx, hd] at h4
    | cons e es =>
      simp only [hx, hd, List.getElem?_cons_zero, List.getElem?_cons_succ, Option.some.injEq] at h1 h4
      subst h1 h4
      obtain ⟨a1, a2, -⟩ := c67_poly_partial (Or.inr (Or.inr h3))
      obtain ⟨a3, -, -⟩ := c67_poly_partial (Or.inr (Or.inr h5))
      exact ⟨_, _, _, rfl, h2.symm, a1, a3, a2⟩

/-- Multiplication of ciphertexts (`*`): same level, and all components in the context of that level. Missing: the
parameters are not compared (`c67_params_not_compared`). -/
theorem c67_mul_partial {x y z : BfvCipherText} (h : x.mul pr y = .ok z) :
    x.level = y.level ∧ ∃ mp, x.params.mulParams[x.level]? = some mp ∧ ∀ c ∈ x.cts ++ y.cts, c.context = mp.upScaler.src := by
  unfold BfvCipherText.mul at h
  simp only [bind_eq_ok, rassert_eq_ok, idx_eq_ok] at h
  obtain ⟨_, h1, mp, h2, xs, h3, ys, h4, -⟩ := h
  refine ⟨h1.symm, mp, h2, fun c hc => ?_⟩
  have key : ∀ {l : List Poly} {r : List Poly}, mapR (mp.upScaler.scale pr) l = .ok r → ∀ c ∈ l, c.context = mp.upScaler.src := by
    intro l
    induction l with
    | nil => intro r _ c hc; simp at hc
    | cons a as ih =>
      intro r h c hc
      simp only [mapR, bind_eq_ok] at h
      obtain ⟨_, h5, _, h6, -⟩ := h
      rcases List.mem_cons.1 hc with rfl | hc
      · exact c67_scale h5
      · exact ih h6 c hc
  rcases List.mem_append.1 hc with hc | hc
  · exact key h3 c hc
  · exact key h4 c hc

/-- `multiply_with_strategy`: same level and parameters, also those of the key, and two components each. -/
theorem c67_multiply {x y z : BfvCipherText} {k : RelinearizationKey} (h : multiplyWithStrategy pr x y k = .ok z) :
    x.level = y.level ∧ x.params = y.params ∧ x.params = k.params ∧ x.cts.length = 2 ∧ y.cts.length = 2 := by
  unfold multiplyWithStrategy at h
  simp only [bind_eq_ok, rassert_eq_ok] at h
  obtain ⟨_, h1, _, h2, _, h3, _, h4, _, h5, -⟩ := h
  exact ⟨h1, h2, h3, h4, h5⟩

/-- Key switching: a power-basis polynomial of the ciphertext context of the key. -/
theorem c67_key_switch {k : Ksk} {p : Poly} {z : Poly × Poly} (h : k.keySwitch pr p = .ok z) :
    p.context = k.ctContext ∧ p.representation = .powerBasis := by
  unfold Ksk.keySwitch at h
  simp only [bind_eq_ok, rassert_eq_ok] at h
  obtain ⟨_, h1, _, h2, -⟩ := h
  exact ⟨h1, h2⟩

/-- `GaliosKey::relinearize`: the level of the key. -/
theorem c67_galois {g : GaliosKey} {x z : BfvCipherText} (h : g.relinearize pr x = .ok z) :
    x.level = g.level ∧ z.level = g.level ∧ z.params = x.params := by
  unfold GaliosKey.relinearize at h
  simp only [bind_eq_ok, rassert_eq_ok] at h
  obtain ⟨_, h1, _, -, _, -, _, -, _, -, _, -, ⟨_, _⟩, -, _, -, _, -, h2⟩ := h
  cases h2
  exact ⟨h1, rfl, rfl⟩

/-- A key assembled from ciphertexts: all of them have the given parameters. -/
theorem c67_from_rlwes {P : BfvParameters} {cts : List BfvCipherText} {k : Ksk} (h : Ksk.tryFromDecomposedRlwes P cts = .ok k) :
    (∀ c ∈ cts, c.params = P ∧ 2 ≤ c.cts.length) ∧ k.params = P ∧ k.c0.length = cts.length ∧ k.c1.length = cts.length := by
  have key : ∀ (i : Nat) {l : List BfvCipherText} {r : List Poly}, mapR (Ksk.component P i) l = .ok r →
      r.length = l.length ∧ ∀ c ∈ l, c.params = P ∧ i < c.cts.length := by
    intro i l
    induction l with
    | nil =>
      intro r h
      cases h
      simp
    | cons a as ih =>
      intro r h
      simp only [mapR, bind_eq_ok, Ksk.component, rassert_eq_ok, idx_eq_ok] at h
      obtain ⟨_, ⟨_, h1, h2⟩, _, h3, h4⟩ := h
      cases h4
      obtain ⟨h2, -⟩ := List.getElem?_eq_some_iff.1 h2
      obtain ⟨i1, i2⟩ := ih h3
      refine ⟨by simp [i1], fun c hc => ?_⟩
      rcases List.mem_cons.1 hc with rfl | hc
      · exact ⟨h1, h2⟩
      · exact i2 c hc
  unfold Ksk.tryFromDecomposedRlwes at h
  simp only [bind_eq_ok] at h
  obtain ⟨c0, h0, c1, h1, _, -, h2⟩ := h
  cases h2
  obtain ⟨a1, -⟩ := key 0 h0
  obtain ⟨b1, b2⟩ := key 1 h1
  exact ⟨b2, rfl, a1, b1⟩

/-- RGSW encryption of a plaintext: the parameters of the key. -/
theorem c67_rgsw_encrypt {sk : SecretKey} {m : Plaintext} {a0 a1 : Nat → Nat → Nat → Nat} {r0 r1 : Nat → Nat → Nat} {z : RgswCt}
    (h : RgswCt.encrypt pr sk m a0 a1 r0 r1 = .ok z) : sk.params = m.params ∧ m.level < sk.params.qCtxs.length := by
  unfold RgswCt.encrypt at h
  simp only [bind_eq_ok, rassert_eq_ok, idx_eq_ok] at h
  obtain ⟨_, h1, _, h2, -⟩ := h
  exact ⟨h1, (List.getElem?_eq_some_iff.1 h2).1⟩

/-- RGSW encryption of a polynomial: NTT form and a context of the parameters of the key. -/
theorem c67_rgsw_encrypt_poly {sk : SecretKey} {m : Poly} {a0 a1 : Nat → Nat → Nat → Nat} {r0 r1 : Nat → Nat → Nat} {z : RgswCt}
    (h : RgswCt.encryptPoly pr sk m a0 a1 r0 r1 = .ok z) :
    m.representation = .ntt ∧ (sk.params.ctxLevel m.context).isSome := by
  unfold RgswCt.encryptPoly at h
  simp only [bind_eq_ok, rassert_eq_ok] at h
  obtain ⟨_, h1, lv, h2, -⟩ := h
  refine ⟨h1, ?_⟩
  cases hc : sk.params.ctxLevel m.context with
  | none => rw [hc] at h2; cases h2
  | some v => rfl

/-- `inner_product`: equally many ciphertexts and polynomials, at least one. -/
theorem c67_inner_product {cts : List BfvCipherText} {ps : List Poly} {z : BfvCipherText} (h : Omr.innerProduct pr cts ps = .ok z) :
    cts.length = ps.length ∧ cts ≠ [] := by
  unfold Omr.innerProduct at h
  simp only [bind_eq_ok, rassert_eq_ok, idx_eq_ok] at h
  obtain ⟨_, h1, _, h2, -⟩ := h
  refine ⟨h1, ?_⟩
  rintro rfl
  simp at h2

/-- `decode`, for any count of dimensions and any expansion in place of `unpack` (which always panics, C41): one query ciphertext more than
ciphertext moduli. -/
theorem c67_decode {s : Server} {q z : List BfvCipherText} {ev : Evaluation} {P : BfvParameters} {dims : Res Nat}
    {unpack : BfvCipherText → Res (List BfvCipherText)} (h : Server.decodeBy pr dims unpack s q ev P = .ok z) :
    ∃ ctx, P.qCtxs[0]? = some ctx ∧ q.length = ctx.moduli.length + 1 := by
  unfold Server.decodeBy at h
  simp only [bind_eq_ok, rassert_eq_ok, idx_eq_ok] at h
  obtain ⟨ctx, h1, _, h2, -⟩ := h
  exact ⟨ctx, h1, h2.symm⟩

/-- `decode`: another number of query ciphertexts is refused before anything is computed. -/
theorem c67_decode_refuses {s : Server} {q : List BfvCipherText} {ev : Evaluation} {P : BfvParameters} {ctx : RqContext}
    (hc : P.qCtxs[0]? = some ctx) (hq : q.length ≠ ctx.moduli.length + 1) : s.decode pr q ev P = .error .assert := by
  unfold Server.decode Server.decodeBy rassert
  rw [idx_of hc, res_ok_bind, if_neg (Ne.symm hq)]
  rfl

/-! ### What is not checked -/

/-- The parameters of the second factor, of a ciphertext to be decrypted or multiplied externally, and the level of the
latter are ignored: the result does not depend on them. So a mismatch is not noticed. -/
theorem c67_params_not_compared (x y : BfvCipherText) (sk : SecretKey) (g : RgswCt) (P : BfvParameters) (i : Nat) :
    x.mul pr { y with params := P } = x.mul pr y ∧ sk.decrypt pr { y with params := P } = sk.decrypt pr y ∧
      g.externalProduct pr { y with params := P, level := i } = g.externalProduct pr y := ⟨rfl, rfl, rfl⟩

/-- The run of the next counterexample: the constants 5 modulo `17 * 97` and 7 modulo 17 are added. -/
def mixedRun (pr : Profile) : Res (RqContext × RqContext × Poly × Poly × Poly) := do
  let c ← RqContext.new .debug exSample [17, 97] 8 ⟨1, 1⟩
  let d ← RqContext.new .debug exSample [17] 8 ⟨1, 1⟩
  let a ← Poly.tryFromVecU64 pr c [5]
  let a ← a.changeRepresentation pr .ntt
  let b ← Poly.tryFromVecU64 pr d [7]
  let b ← b.changeRepresentation pr .ntt
  let s ← a.add pr b
  let z ← s.changeRepresentation pr .powerBasis
  .ok (c, d, a, b, z)

def mixedCheck : Res (RqContext × RqContext × Poly × Poly × Poly) → Bool
  | .ok (c, _, _, _, z) => decide (z.coefficients = [[12, 0, 0, 0, 0, 0, 0, 0], [5, 0, 0, 0, 0, 0, 0, 0]]) &&
      decide (z.context = c)
  | .error _ => false

/-- The violation: polynomials of different contexts are added without a panic. The sum of 5 modulo `17 * 97` and 7 modulo
17 is 12 modulo 17 and 5 modulo 97. -/
theorem c67_contexts_not_compared (pr : Profile) : ∃ (c d : RqContext) (a b s z : Poly), IsContext 8 [17, 97] c ∧ IsContext 8 [17] d ∧
    a.context = c ∧ b.context = d ∧ a.add pr b = .ok s ∧ s.changeRepresentation pr .powerBasis = .ok z ∧
    z.coefficients = [[12, 0, 0, 0, 0, 0, 0, 0], [5, 0, 0, 0, 0, 0, 0, 0]] := by
  have hrun : mixedCheck (mixedRun pr) = true := by cases pr <;> decide +kernel
  have hex : ∃ v, mixedRun pr = .ok v := by
    cases h : mixedRun pr with
    | error e => rw [h] at hrun; simp [mixedCheck] at hrun
    | ok v => exact ⟨v, rfl⟩
  obtain ⟨⟨c, d, a, b, z⟩, hv⟩ := hex
  rw [hv] at hrun
  unfold mixedRun at hv
  simp only [bind_eq_ok] at hv
  obtain ⟨c', h1, d', h2, a1, h3, a', h4, b1, h5, b', h6, s, h7, z', h8, h9⟩ := hv
  cases h9
  simp only [mixedCheck, Bool.and_eq_true, decide_eq_true_eq] at hrun
  have hctx : ∀ {ctx : RqContext} {v : List Nat} {p q : Poly}, Poly.tryFromVecU64 pr ctx v = .ok p →
      p.changeRepresentation pr .ntt = .ok q → q.context = ctx := by
    intro ctx v p q hp hq
    unfold Poly.tryFromVecU64 Poly.fromRows at hp
    simp only [bind_eq_ok] at hp
    obtain ⟨_, -, hp⟩ := hp
    cases hp
    unfold Poly.changeRepresentation at hq
    simp only [Poly.zero, bind_eq_ok] at hq
    obtain ⟨_, -, hq⟩ := hq
    cases hq
    rfl
  exact ⟨c, d, a, b, s, z, ⟨by norm_num, _, exSample, _, exSample_lt, h1⟩, ⟨by norm_num, _, exSample, _, exSample_lt, h2⟩,
    hctx h3 h4, hctx h5 h6, h7, h8, hrun.1⟩

/-- Non-vacuity: sums of ciphertexts and of a ciphertext and a polynomial that return a value. The other operations return
values in the examples of C26, C34, C36-C39, C43, C49 and C50. -/
example : ∃ (x z z' : BfvCipherText) (p : Poly), x.add .debug x = .ok z ∧ x.addPoly .release p = .ok z' := by
  obtain ⟨P, sk, ct, f0, f1, h, hk, -, hct, he⟩ := Ex.setup
  obtain ⟨z, h1, -⟩ := c32_add h .debug hct hct (keyRing 8 sk)
  obtain ⟨p, hp⟩ := c33_exists_poly h (i := 0) (by simp [Ex.mods]) (1 : Rg 8)
  obtain ⟨z', h2, -⟩ := c33_add_poly_partial h .release hct hp (keyRing 8 sk)
  exact ⟨ct, z, z', p, h1, h2⟩

/-- Non-vacuity for the remaining operations: products, switches, encryptions and sums that return values, on actual ciphertexts and keys. -/
example : ∃ (P : BfvParameters) (sk : SecretKey) (x z1 z2 z3 z4 z5 : BfvCipherText) (p q : Poly) (rlk : RelinearizationKey) (k : Ksk) (g g' : RgswCt) (zz : Poly × Poly),
    (x.mulPoly .debug p = .ok z1 ∧ p.representation = .ntt) ∧ (x.mul .debug x = .ok z2 ∧ ∃ mp, P.mulParams[0]? = some mp) ∧
    (multiplyWithStrategy .debug x x rlk = .ok z3 ∧ x.cts.length = 2) ∧ (k.keySwitch .debug q = .ok zz ∧ q.context = k.ctContext) ∧
    (RgswCt.encrypt .debug sk ⟨P, 0, .poly, [0, 1]⟩ (fun _ _ _ => 0) (fun _ _ _ => 0) (fun _ i => i % 1000) (fun _ i => i % 1000) = .ok g ∧ 0 < P.qCtxs.length) ∧
    (RgswCt.encryptPoly .debug sk p (fun _ _ _ => 0) (fun _ _ _ => 0) (fun _ i => i % 1000) (fun _ i => i % 1000) = .ok g' ∧ (P.ctxLevel p.context).isSome) ∧
    (Omr.innerProduct .debug [x, x] [p, p] = .ok z4 ∧ [x, x] ≠ []) ∧ (x.sub .debug x = .ok z5 ∧ 2 ≤ x.cts.length) ∧
    (∃ y, p.add .debug p = .ok y ∧ y.representation = .ntt) ∧ ∃ y, p.mulBig .debug 5 = .ok y := by
  obtain ⟨P, sk, ct, f0, f1, h, hk, -, hct, he⟩ := Ex.setup
  obtain ⟨p, hp⟩ := c33_exists_poly h (i := 0) (by decide) (msgRing 8 [0, 1])
  obtain ⟨q, hq⟩ := Ex.exists_power h (i := 0) (by decide) (msgRing 8 [1, 1])
  obtain ⟨z1, a1, -⟩ := c34_mul_poly h .debug hct hp (keyRing 8 sk)
  obtain ⟨z2, -, -, -, -, -, -, -, a2, -⟩ := c35_mul_partial h (by norm_num [Ex.mods]) .debug hct hct
  obtain ⟨rlk, -, h2, h3, -⟩ := c38_relinearize h hk .debug .debug (by norm_num) (by norm_num) (i := 0) (by decide) Ex.tapes (fun _ => Ex.wordTape)
  obtain ⟨z3, -, -, a3, -⟩ := c50_multiply_total h .debug hct hct h2 h3
  obtain ⟨k, -, -, h4⟩ := c36_new h hk .debug (by norm_num) (by norm_num) hp Ex.tapes (fun _ => Ex.wordTape)
  obtain ⟨p0, p1, -, -, -, a4, -⟩ := c36_key_switch h .debug h4 hq
  obtain ⟨g, a5, -⟩ := c39_encrypt h hk .debug (by norm_num) (by norm_num) (pt := ⟨P, 0, .poly, [0, 1]⟩) rfl (by norm_num [Ex.mods])
    (by norm_num) (by dsimp only; decide) Ex.tapes Ex.tapes (fun _ => Ex.wordTape) (fun _ => Ex.wordTape)
  obtain ⟨g', a6, -⟩ := c39_encrypt_poly h hk .debug (by norm_num) (by norm_num) hp Ex.tapes Ex.tapes (fun _ => Ex.wordTape) (fun _ => Ex.wordTape)
  obtain ⟨z4, -, -, a7, -⟩ := c49_inner_product h .debug (fs := [(f0, f1), (f0, f1)]) (gs := [msgRing 8 [0, 1], msgRing 8 [0, 1]])
    (cts := [ct, ct]) (polys := [p, p]) (i := 0) (by simp [hct]) (by simp [hp]) rfl (by simp) (keyRing 8 sk)
  obtain ⟨z5, a8, -⟩ := c32_sub h .debug hct hct (keyRing 8 sk)
  obtain ⟨K, ext, e8, hw, -⟩ := BfvP.params h
  have hK : K = 3 := Nat.pow_right_injective le_rfl (e8.symm.trans (by norm_num : 8 = 2 ^ 3))
  subst hK
  obtain ⟨L, hL⟩ := hw.levels 0 (by rw [(c51_levels h).2.2.1]; decide)
  have hpe := (BfvP.polyAt_iff hL _ _).mp hp
  have b2 := c67_mul_partial a2
  rw [hct.1, hct.2.1] at b2
  obtain ⟨-, mp, b2, -⟩ := b2
  have hks := hk.1
  have b5 := (c67_rgsw_encrypt a5).2
  have b6 := (c67_rgsw_encrypt_poly a6).2
  rw [hks] at b5 b6
  have a9 := Poly.add_enc hL.wf.ctx .debug (msgRing 8 [0, 1]) (msgRing 8 [0, 1])
  have a10 := Poly.mulBig_enc hL.wf.ctx .debug (msgRing 8 [0, 1]) 5
  obtain ⟨-, -, -, -, -, -, -, b1⟩ := c67_mul_poly a1
  refine ⟨P, sk, ct, z1, z2, z3, z4, z5, p, q, rlk, k, g, g', _, ⟨a1, b1⟩, ⟨a2, mp, b2⟩, ⟨a3, (c67_multiply a3).2.2.2.1⟩,
    ⟨a4, (c67_key_switch a4).1⟩, ⟨a5, b5⟩, ⟨a6, b6⟩, ⟨a7, (c67_inner_product a7).2⟩, ⟨a8, (c67_add_sub (.inr a8)).2.2.1⟩,
    ⟨_, by rw [hpe]; exact a9, (c67_poly_partial (.inl a9)).2.2.1⟩, _, by rw [hpe]; exact a10⟩

/-- `c67_galois` and `c67_add_poly` on operations that return values. -/
example : ∃ (ct z z' : BfvCipherText) (g : GaliosKey) (p : Poly), g.relinearize .debug ct = .ok z ∧ z.level = g.level ∧
    ct.addPoly .release p = .ok z' ∧ 2 ≤ ct.cts.length := by
  obtain ⟨P, sk, ct, f0, f1, h, hk, -, hct, -⟩ := Ex.setup
  obtain ⟨p, hp⟩ := c33_exists_poly h (i := 0) (by decide) (1 : Rg 8)
  obtain ⟨c, hc, hd⟩ := id hp
  obtain ⟨sub, g, h3, h3', h4, -⟩ := c37_galois h hk .debug .debug (by norm_num) (by norm_num) (by decide) (by norm_num) hc (e := 9) (by decide)
    (aTape := fun _ _ _ => 0) Ex.tapes (rng := fun _ i => i % 1000) (fun _ => Ex.wordTape)
  obtain ⟨z, -, -, -, h5, -⟩ := h4 ct f0 f1 hct
  obtain ⟨z', h2, -⟩ := c33_add_poly_partial h .release hct hp (keyRing 8 sk)
  obtain ⟨c0, c1, cs, e, -⟩ := c67_add_poly h2
  exact ⟨ct, z, z', g, p, h5, (c67_galois h5).2.1, h2, by rw [e]; simp⟩

/-- The run of the next example: 25 modulo `17 * 97` is scaled by 1/1 to the context of 17. -/
def scaleRun (pr : Profile) : Res (RqContext × RqContext × ScalingFactor × RqScaler × Poly × Poly × List Nat) := do
  let c ← RqContext.new .debug exSample [17, 97] 8 ⟨1, 1⟩
  let d ← RqContext.new .debug exSample [17] 8 ⟨1, 1⟩
  let sf ← ScalingFactor.new 1 1
  let s ← RqScaler.new pr c d sf
  let a ← Poly.tryFromVecU64 pr c [25, 3]
  let z ← s.scale pr a
  let v ← z.toU64s
  .ok (c, d, sf, s, a, z, v)

/-- `c67_scaler_new`, `c67_scale` and `c67_to_u64` on a run that returns a value. -/
example : ∃ (c d : RqContext) (sf : ScalingFactor) (s : RqScaler) (a z : Poly) (v : List Nat), RqScaler.new .debug c d sf = .ok s ∧ s.src = c ∧ s.dst = d ∧
    s.scale .debug a = .ok z ∧ a.context = s.src ∧ z.toU64s = .ok v ∧ z.context.moduli64.length = 1 ∧ v = [8, 3, 0, 0, 0, 0, 0, 0] := by
  have hrun : (match scaleRun .debug with | .ok (_, _, _, _, _, _, v) => decide (v = [8, 3, 0, 0, 0, 0, 0, 0]) | .error _ => false) = true := by
    decide +kernel
  cases h : scaleRun .debug with
  | error e => rw [h] at hrun; simp at hrun
  | ok x =>
    obtain ⟨c, d, sf, s, a, z, v⟩ := x
    rw [h] at hrun
    unfold scaleRun at h
    simp only [bind_eq_ok] at h
    obtain ⟨c', h1, d', h2, sf', h3, s', h4, a', h5, z', h6, v', h7, h8⟩ := h
    cases h8
    exact ⟨c, d, sf, s, a, z, v, h4, (c67_scaler_new h4).2.1, (c67_scaler_new h4).2.2, h6, c67_scale h6, h7, c67_to_u64 h7, by simpa using hrun⟩

/-- `c67_from_rlwes` and `c67_poly_big` on operations that return values; `c67_decode_refuses` on a query with too few ciphertexts. -/
example : ∃ (P : BfvParameters) (ct : BfvCipherText) (k : Ksk) (p z : Poly), Ksk.tryFromDecomposedRlwes P [ct, ct] = .ok k ∧ k.c0.length = 2 ∧
    p.mulBig .debug 5 = .ok z ∧ p.representation = .ntt ∧
    ∀ (s : Server) (ev : Evaluation), s.decode .debug [ct, ct] ev P = .error .assert := by
  obtain ⟨P, sk, ct, f0, f1, h, hk, -, hct, he⟩ := Ex.setup
  obtain ⟨p, hp⟩ := c33_exists_poly h (i := 0) (by decide) (msgRing 8 [0, 1])
  obtain ⟨K, ext, e8, hw, -⟩ := BfvP.params h
  have hK : K = 3 := Nat.pow_right_injective le_rfl (e8.symm.trans (by norm_num : 8 = 2 ^ 3))
  subst hK
  have hm := (c51_levels h).2.2.1
  obtain ⟨L, hL⟩ := hw.levels 0 (by rw [hm]; decide)
  have hpe := (BfvP.polyAt_iff hL _ _).mp hp
  have a10 := Poly.mulBig_enc hL.wf.ctx .debug (msgRing 8 [0, 1]) 5
  rw [← hpe] at a10
  obtain ⟨x1, x2, x3⟩ := (BfvP.isCt_iff hL _ _).mp hct
  have hk : ∃ k, Ksk.tryFromDecomposedRlwes P [ct, ct] = .ok k := by
    have hc : ∀ i, i < 2 → ∃ q, Ksk.component P i ct = .ok q := by
      intro i hi
      unfold Ksk.component
      rw [rassert_ok x1, res_ok_bind, x3]
      interval_cases i <;> exact ⟨_, rfl⟩
    obtain ⟨q0, c0⟩ := hc 0 (by norm_num)
    obtain ⟨q1, c1⟩ := hc 1 (by norm_num)
    unfold Ksk.tryFromDecomposedRlwes
    simp only [mapR, c0, c1, res_ok_bind, idx_of hL.q]
    exact ⟨_, rfl⟩
  obtain ⟨k, hk⟩ := hk
  have hlen : L.qCtx.moduli.length = 3 := by
    rw [hL.wf.ctx.core.mods, Ksk.moduli_len hL.wf.ctx, BfvP.len_level hL, hm]
    simp [levelModuli, Ex.mods]
  exact ⟨P, ct, k, p, _, hk, (c67_from_rlwes hk).2.2.1, a10, c67_poly_big a10, fun s ev => c67_decode_refuses hL.q (by rw [hlen]; simp)⟩

end OnionPIR
