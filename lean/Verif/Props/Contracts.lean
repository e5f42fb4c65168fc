import Verif.Props.Modulus
/-
C91 (src/modulus.rs): what the operations do with every word, reduced or not. In the debug build they refuse exactly the arguments outside of
their contract; in the release build they return, and it is stated exactly when the result is right.
-/
namespace OnionPIR
open Spec

namespace Contracts

theorem dassert_fail {c : Prop} [Decidable c] (h : ¬ c) : dassert .debug c = .error .debugAssert := by simp [dassert, h]

theorem dassert_release (c : Prop) [Decidable c] : dassert .release c = .ok () := rfl

theorem addW_release (w a b : Nat) : addW w .release a b = .ok ((a + b) % 2 ^ w) := by
  unfold addW fit
  split_ifs with h
  · rw [Nat.mod_eq_of_lt h]
  · rfl

theorem subW_release {w a b : Nat} (ha : a < 2 ^ w) (hb : b < 2 ^ w) : subW w .release a b = .ok ((a + 2 ^ w - b) % 2 ^ w) := by
  unfold subW
  split_ifs with h
  · rw [show a + 2 ^ w - b = a - b + 2 ^ w by omega, Nat.add_mod_right, Nat.mod_eq_of_lt (by omega)]
  · rfl

/-- The release build of `reduce_ct` on every word. -/
theorem reduceCt_release {x p : Nat} (hx : x < 2 ^ 64) (hp : p < 2 ^ 63) :
    Modulus.reduceCt .release x p = .ok (if p ≤ x ∧ x < p + 2 ^ 63 then x - p else x) := by
  unfold Modulus.reduceCt
  rw [dassert_release, res_ok_bind, dassert_release, res_ok_bind]
  generalize hy : (x + 2 ^ 64 - p) % 2 ^ 64 = y
  have hylt : y < 2 ^ 64 := by rw [← hy]; exact Nat.mod_lt _ (by norm_num)
  have e : x ^^^ (x ^^^ p ^^^ (y ^^^ p)) = y := by
    rw [Nat.xor_comm y p, Nat.xor_assoc x p, ← Nat.xor_assoc p p y, Nat.xor_self, Nat.zero_xor, ← Nat.xor_assoc,
      Nat.xor_self, Nat.zero_xor]
  simp only [e, Nat.shiftRight_eq_div_pow, dassert_release, res_ok_bind]
  by_cases hc : p ≤ x ∧ x < p + 2 ^ 63
  · rw [if_pos hc]
    have h1 : y / 2 ^ 63 = 0 := by omega
    have e1 : (0 + 2 ^ 64 - 1) % 2 ^ 64 = 2 ^ 64 - 1 := by norm_num
    rw [h1, e1, Nat.sub_self, Nat.zero_and, Nat.or_zero, Modulus.and_all_ones hylt]
    congr 1; omega
  · rw [if_neg hc]
    have h1 : y / 2 ^ 63 = 1 := by omega
    have e1 : (1 + 2 ^ 64 - 1) % 2 ^ 64 = 0 := by norm_num
    rw [h1, e1, Nat.zero_and, Nat.zero_or, Nat.sub_zero, Modulus.and_all_ones hx]

/-- If the exact value `X` differs from the word `x` by a multiple of the word size, the reduction is right only without wrap-around. -/
theorem right_iff {x p : Nat} (hp2 : 2 ≤ p) (hp : p < 2 ^ 62) (hnd : ¬ p ∣ 2 ^ 64) {X k : ℤ} (hX : X = x + k * 2 ^ 64)
    (hk : k = -1 ∨ k = 0 ∨ k = 1) : IsResidue p X (if p ≤ x ∧ x < p + 2 ^ 63 then x - p else x) ↔ k = 0 ∧ x < 2 * p := by
  set r := if p ≤ x ∧ x < p + 2 ^ 63 then x - p else x with hr
  have hmod : (r : ℤ) ≡ x [ZMOD p] := by
    rw [hr]
    split_ifs with h
    · rw [Nat.cast_sub h.1]
      exact Int.modEq_iff_dvd.mpr ⟨1, by ring⟩
    · rfl
  constructor
  · rintro ⟨h1, h2⟩
    have h3 : ((x : ℤ)) ≡ x + k * 2 ^ 64 [ZMOD p] := hX ▸ hmod.symm.trans h2
    have h4 : (p : ℤ) ∣ k * 2 ^ 64 := by
      have := Int.modEq_iff_dvd.mp h3
      simpa using this
    have hk0 : k = 0 := by
      rcases hk with rfl | rfl | rfl
      · exact absurd (show (p : ℤ) ∣ 2 ^ 64 by rw [neg_one_mul, dvd_neg] at h4; exact h4) (fun h => hnd (by exact_mod_cast h))
      · rfl
      · exact absurd h4 (fun h => hnd (by rw [one_mul] at h; exact_mod_cast h))
    refine ⟨hk0, ?_⟩
    rw [hr] at h1
    split_ifs at h1 with h
    · omega
    · omega
  · rintro ⟨rfl, hx⟩
    refine ⟨?_, by rw [hX]; simpa using hmod⟩
    rw [hr]
    split_ifs with h <;> omega

theorem zipMutM_exact {α β : Type} {f : α → β → Res α} {P : α → β → Prop} {e : Panic} (h1 : ∀ a b, P a b → ∃ v, f a b = .ok v)
    (h2 : ∀ a b, ¬ P a b → f a b = .error e) (as : List α) (bs : List β) :
    ((∀ ab ∈ as.zip bs, P ab.1 ab.2) → ∃ r, zipMutM f as bs = .ok r) ∧
      ((∃ ab ∈ as.zip bs, ¬ P ab.1 ab.2) → zipMutM f as bs = .error e) := by
  induction as generalizing bs with
  | nil => exact ⟨fun _ => ⟨[], rfl⟩, fun ⟨_, h, _⟩ => by simp at h⟩
  | cons a as ih =>
    cases bs with
    | nil => exact ⟨fun _ => ⟨a :: as, rfl⟩, fun ⟨_, h, _⟩ => by simp at h⟩
    | cons b bs =>
      unfold zipMutM
      constructor
      · intro h
        obtain ⟨v, hv⟩ := h1 a b (h (a, b) (by simp))
        obtain ⟨r, hr⟩ := (ih bs).1 fun ab hab => h ab (by simp [hab])
        rw [hv, res_ok_bind, hr]
        exact ⟨_, rfl⟩
      · rintro ⟨ab, hab, hP⟩
        by_cases hab0 : P a b
        · obtain ⟨v, hv⟩ := h1 a b hab0
          rw [hv, res_ok_bind]
          rw [List.zip_cons_cons, List.mem_cons] at hab
          rcases hab with rfl | hab
          · exact absurd hab0 hP
          · rw [(ih bs).2 ⟨ab, hab, hP⟩]; rfl
        · rw [h2 a b hab0]; rfl

theorem mapR_exact {α β : Type} {f : α → Res β} {P : α → Prop} {e : Panic} (h1 : ∀ a, P a → ∃ v, f a = .ok v)
    (h2 : ∀ a, ¬ P a → f a = .error e) (as : List α) :
    ((∀ a ∈ as, P a) → ∃ r, mapR f as = .ok r) ∧ ((∃ a ∈ as, ¬ P a) → mapR f as = .error e) := by
  induction as with
  | nil => exact ⟨fun _ => ⟨[], rfl⟩, fun ⟨_, h, _⟩ => by simp at h⟩
  | cons a as ih =>
    unfold mapR
    constructor
    · intro h
      obtain ⟨v, hv⟩ := h1 a (h a (by simp))
      obtain ⟨r, hr⟩ := ih.1 fun b hb => h b (by simp [hb])
      rw [hv, res_ok_bind, hr]
      exact ⟨_, rfl⟩
    · rintro ⟨b, hb, hP⟩
      by_cases ha : P a
      · obtain ⟨v, hv⟩ := h1 a ha
        rw [hv, res_ok_bind]
        rcases List.mem_cons.mp hb with rfl | hb
        · exact absurd ha hP
        · rw [ih.2 ⟨b, hb, hP⟩]; rfl
      · rw [h2 a ha]; rfl

theorem mul_release {m : Modulus} (h : m.WF) {a b : Nat} (ha : a < 2 ^ 64) (hb : b < 2 ^ 64) : m.mul .release a b = .ok (a * b % m.p) := by
  have : a * b < 2 ^ 128 := by
    calc a * b < 2 ^ 64 * 2 ^ 64 := Nat.mul_lt_mul'' ha hb
      _ = 2 ^ 128 := by norm_num
  unfold Modulus.mul
  rw [dassert_release, res_ok_bind, dassert_release, res_ok_bind, mulW_ok this, res_ok_bind, Modulus.reduceU128_ok h _ this]

theorem powLoop_release {m : Modulus} (h : m.WF) {a r : Nat} (ha : a < 2 ^ 64) (n val e : Nat) (hv : val < 2 ^ 64)
    (hval : val % m.p = a ^ e % m.p) (he : e = r / 2 ^ (n + 1)) : Modulus.powLoop .release m a r (n + 1) val = .ok (a ^ r % m.p) := by
  have hl := h.lt
  induction n generalizing val e with
  | zero =>
    have hsq : val * val % m.p = a ^ (2 * e) % m.p := by rw [Nat.mul_mod, hval, ← Nat.mul_mod, ← pow_add, two_mul]
    have hlt := Nat.mod_lt (val * val) h.pos
    unfold Modulus.powLoop
    rw [mul_release h hv hv, res_ok_bind]
    by_cases hb : (r >>> 0) % 2 = 1
    · rw [if_pos hb, mul_release h (by omega) ha, res_ok_bind]
      simp only [Nat.shiftRight_zero] at hb
      unfold Modulus.powLoop
      rw [hsq, Nat.mod_mul_mod, ← pow_succ, show 2 * e + 1 = r by omega]
    · rw [if_neg hb, res_ok_bind]
      simp only [Nat.shiftRight_zero] at hb
      unfold Modulus.powLoop
      rw [hsq, show 2 * e = r by omega]
  | succ n ih =>
    have hsq : val * val % m.p = a ^ (2 * e) % m.p := by rw [Nat.mul_mod, hval, ← Nat.mul_mod, ← pow_add, two_mul]
    have hlt := Nat.mod_lt (val * val) h.pos
    have e2 : r / 2 ^ (n + 1) = 2 * e + (r / 2 ^ (n + 1)) % 2 := by
      rw [he, pow_succ _ (n + 1), ← Nat.div_div_eq_div_mul]; omega
    unfold Modulus.powLoop
    rw [mul_release h hv hv, res_ok_bind]
    by_cases hb : (r >>> (n + 1)) % 2 = 1
    · rw [if_pos hb, mul_release h (by omega) ha, res_ok_bind]
      rw [Nat.shiftRight_eq_div_pow] at hb
      have hlt2 := Nat.mod_lt (val * val % m.p * a) h.pos
      refine ih _ (2 * e + 1) (by omega) ?_ (by omega)
      rw [Nat.mod_mod, hsq, Nat.mod_mul_mod, pow_succ]
    · rw [if_neg hb, res_ok_bind]
      rw [Nat.shiftRight_eq_div_pow] at hb
      exact ih _ (2 * e) (by omega) (by rw [Nat.mod_mod, hsq]) (by omega)

theorem pow_release {m : Modulus} (h : m.WF) {a r : Nat} (ha : a < 2 ^ 64) (hr : r < 2 ^ 64) :
    m.pow .release a r = .ok (if r = 0 then 1 else if r = 1 then a else a ^ r % m.p) := by
  unfold Modulus.pow
  rw [dassert_release, res_ok_bind]
  split_ifs with h0 h1
  · rfl
  · rfl
  · have hlog : r.log2 < 64 := (Nat.log2_lt h0).mpr (by omega)
    have hlog1 : 1 ≤ r.log2 := (Nat.le_log2 h0).mpr (by omega)
    have hlz : leadingZeros 64 r = 63 - r.log2 := by simp [leadingZeros, h0]
    rw [hlz, subW_ok (by omega), res_ok_bind]
    have g1 := Nat.log2_self_le h0
    have g2 := (Nat.log2_lt h0 (k := r.log2 + 1)).mp (by omega)
    refine powLoop_release h ha _ _ 1 ha (by simp) ?_
    rw [show 62 - (63 - r.log2) + 1 = r.log2 by omega]
    symm
    rw [Nat.div_eq_iff (by positivity)]
    rw [pow_succ] at g2
    omega

end Contracts

open Contracts

variable {p : Nat} {m : Modulus}

/-- C91, `reduce_ct`, debug build: refused exactly if `p` has 64 bits or `x` is not below `2p`. -/
theorem c91_reduce_ct_debug (x p : Nat) : (p < 2 ^ 63 ∧ x < 2 * p → ∃ r, Modulus.reduceCt .debug x p = .ok r ∧ IsResidue p x r) ∧
    (¬ (p < 2 ^ 63 ∧ x < 2 * p) → Modulus.reduceCt .debug x p = .error .debugAssert) := by
  refine ⟨fun h => c03_reduce_ct .debug h.1 h.2, fun h => ?_⟩
  unfold Modulus.reduceCt
  by_cases hp : p < 2 ^ 63
  · rw [dassert_ok (by rw [Nat.shiftRight_eq_div_pow]; exact Nat.div_eq_of_lt hp), res_ok_bind, dassert_fail fun hx => h ⟨hp, hx⟩]; rfl
  · rw [dassert_fail (by rw [Nat.shiftRight_eq_div_pow, Nat.div_eq_zero_iff]; omega)]; rfl

/-- C91, `reduce_ct`, release build: one subtraction, or none; the residue comes out exactly below `2p`. -/
theorem c91_reduce_ct_release {x p : Nat} (hx : x < 2 ^ 64) (hp2 : 2 ≤ p) (hp : p < 2 ^ 62) :
    ∃ r, Modulus.reduceCt .release x p = .ok r ∧ (r = x ∨ x = r + p) ∧ (IsResidue p x r ↔ x < 2 * p) := by
  refine ⟨_, reduceCt_release hx (by omega), by split_ifs <;> omega, ?_⟩
  constructor
  · rintro ⟨h, -⟩
    split_ifs at h <;> omega
  · intro h
    split_ifs with hc
    · refine ⟨by omega, ?_⟩
      rw [Nat.cast_sub hc.1]
      exact Int.modEq_iff_dvd.mpr ⟨1, by ring⟩
    · exact ⟨by omega, rfl⟩

/-- C91, debug build: addition, subtraction, multiplication and negation refuse exactly the arguments that are not reduced. -/
theorem c91_debug (h : Modulus.new p = .ok m) (a b : Nat) :
    (¬ (a < p ∧ b < p) → m.add .debug a b = .error .debugAssert ∧ m.sub .debug a b = .error .debugAssert ∧ m.mul .debug a b = .error .debugAssert) ∧
    (¬ a < p → m.neg .debug a = .error .debugAssert) ∧ (¬ a < p → m.shoup .debug a = .error .debugAssert) ∧
    (¬ (a < p ∧ b < p) → m.pow .debug a b = .error .debugAssert) ∧ (¬ (a < p ∧ a ≠ 0) → m.inv .debug a = .error .debugAssert) := by
  obtain ⟨h2, hlt, rfl, hw⟩ := Modulus.new_inv h
  refine ⟨fun hab => ?_, fun ha => ?_, fun ha => ?_, fun hab => ?_, fun ha => ?_⟩
  · unfold Modulus.add Modulus.sub Modulus.mul
    by_cases ha : a < m.p
    · have hb : ¬ b < m.p := fun hb => hab ⟨ha, hb⟩
      simp only [dassert_ok ha, dassert_fail hb, res_ok_bind, res_error_bind, and_self]
    · simp only [dassert_fail ha, res_error_bind, and_self]
  · unfold Modulus.neg; rw [dassert_fail ha]; rfl
  · unfold Modulus.shoup; rw [dassert_fail ha]; rfl
  · unfold Modulus.pow; rw [dassert_fail hab]; rfl
  · unfold Modulus.inv; rw [dassert_fail ha]; rfl

/-- C91, debug build: Shoup multiplication refuses exactly a factor that is not reduced or a wrong Shoup representation. The other factor is any word. -/
theorem c91_debug_shoup (h : Modulus.new p = .ok m) {a : Nat} (ha : a < 2 ^ 64) (b bs : Nat) :
    (b < p ∧ bs = b * 2 ^ 64 / p → ∃ r, m.lazyMulShoup .debug a b bs = .ok r ∧ IsLazyResidue p (a * b) r) ∧
    (¬ (b < p ∧ bs = b * 2 ^ 64 / p) → m.lazyMulShoup .debug a b bs = .error .debugAssert ∧ m.mulShoup .debug a b bs = .error .debugAssert) := by
  obtain ⟨h2, hlt, rfl, hw⟩ := Modulus.new_inv h
  refine ⟨?_, fun hb => ?_⟩
  · rintro ⟨hb, rfl⟩
    obtain ⟨bs, h1, -, h3⟩ := c05_shoup h .debug ha hb
    rw [Modulus.shoup_ok hw .debug hb] at h1
    rw [Except.ok.inj h1]
    exact h3
  · have key : m.lazyMulShoup .debug a b bs = .error .debugAssert := by
      unfold Modulus.lazyMulShoup
      by_cases hb1 : b < m.p
      · rw [dassert_ok hb1, res_ok_bind]
        unfold dassertEqR
        simp only [Modulus.shoup_ok hw .debug hb1, res_ok_bind]
        rw [dassert_fail fun hbs => hb ⟨hb1, hbs⟩]; rfl
      · rw [dassert_fail hb1]; rfl
    refine ⟨key, ?_⟩
    unfold Modulus.mulShoup
    rw [key]; rfl

/-- C91, debug build: the vector operations refuse exactly the vectors with an entry, among those that meet, that is not reduced. -/
theorem c91_debug_vec (h : Modulus.new p = .ok m) (a b : List Nat) :
    ((∀ xy ∈ a.zip b, xy.1 < p ∧ xy.2 < p) →
      (∃ r, m.addVec .debug a b = .ok r) ∧ (∃ r, m.subVec .debug a b = .ok r) ∧ ∃ r, m.mulVec .debug a b = .ok r) ∧
    ((∃ xy ∈ a.zip b, ¬ (xy.1 < p ∧ xy.2 < p)) →
      m.addVec .debug a b = .error .debugAssert ∧ m.subVec .debug a b = .error .debugAssert ∧ m.mulVec .debug a b = .error .debugAssert) := by
  have e1 := zipMutM_exact (f := m.add .debug) (P := fun x y => x < p ∧ y < p) (e := .debugAssert)
    (fun x y hxy => (c04_add h .debug hxy.1 hxy.2).imp fun _ h => h.1) (fun x y hxy => ((c91_debug h x y).1 hxy).1) a b
  have e2 := zipMutM_exact (f := m.sub .debug) (P := fun x y => x < p ∧ y < p) (e := .debugAssert)
    (fun x y hxy => (c04_sub h .debug hxy.1 hxy.2).imp fun _ h => h.1) (fun x y hxy => ((c91_debug h x y).1 hxy).2.1) a b
  have e3 := zipMutM_exact (f := m.mul .debug) (P := fun x y => x < p ∧ y < p) (e := .debugAssert)
    (fun x y hxy => (c04_mul h .debug hxy.1 hxy.2).imp fun _ h => h.1) (fun x y hxy => ((c91_debug h x y).1 hxy).2.2) a b
  exact ⟨fun hh => ⟨e1.1 hh, e2.1 hh, e3.1 hh⟩, fun hh => ⟨e1.2 hh, e2.2 hh, e3.2 hh⟩⟩

/-- C91, debug build: the same for negation, Shoup representation and inversion of vectors. -/
theorem c91_debug_map (h : Modulus.new p = .ok m) (a : List Nat) :
    ((∃ x ∈ a, ¬ x < p) → m.negVec .debug a = .error .debugAssert ∧ m.shoupVec .debug a = .error .debugAssert) ∧
    ((∀ x ∈ a, x < p) → (∃ r, m.negVec .debug a = .ok r) ∧ ∃ r, m.shoupVec .debug a = .ok r) ∧
    ((∃ x ∈ a, ¬ (x < p ∧ x ≠ 0)) → m.invVec .debug a = .error .debugAssert) ∧
    ((∀ x ∈ a, x < p ∧ x ≠ 0) → ∃ r, m.invVec .debug a = .ok r) := by
  obtain ⟨h2, hlt, hm, hw⟩ := Modulus.new_inv h
  have e1 := mapR_exact (f := m.neg .debug) (P := fun x => x < p) (e := .debugAssert)
    (fun x hx => (c04_neg h .debug hx).imp fun _ h => h.1) (fun x hx => (c91_debug h x 0).2.1 hx) a
  have e2 := mapR_exact (f := m.shoup .debug) (P := fun x => x < p) (e := .debugAssert)
    (fun x hx => ⟨_, Modulus.shoup_ok hw .debug (hm ▸ hx)⟩) (fun x hx => (c91_debug h x 0).2.2.1 hx) a
  have e3 := mapR_exact (f := m.inv .debug) (P := fun x => x < p ∧ x ≠ 0) (e := .debugAssert)
    (fun x hx => ⟨_, Modulus.inv_ok hw .debug (hm ▸ hx.1) hx.2⟩) (fun x hx => (c91_debug h x 0).2.2.2.2 hx) a
  exact ⟨fun hh => ⟨e1.2 hh, e2.2 hh⟩, fun hh => ⟨e1.1 hh, e2.1 hh⟩, e3.2, e3.1⟩

/-- C91, debug build: multiplying a vector by a scalar refuses exactly a scalar that is not reduced. The entries are any words. -/
theorem c91_debug_scalar (h : Modulus.new p = .ok m) (a : List Nat) {b : Nat} (hb : ¬ b < p) :
    m.scalarMulVec .debug a b = .error .debugAssert := by
  unfold Modulus.scalarMulVec
  rw [(c91_debug h b 0).2.2.1 hb]; rfl

/-- C91, release build, addition: right exactly if the sum is below `2p`, reduced or not. -/
theorem c91_add_release (h : Modulus.new p = .ok m) (hnd : ¬ p ∣ 2 ^ 64) {a b : Nat} (ha : a < 2 ^ 64) (hb : b < 2 ^ 64) :
    ∃ r, m.add .release a b = .ok r ∧ r < 2 ^ 64 ∧ (IsResidue p (a + b) r ↔ a + b < 2 * p) := by
  obtain ⟨h2, hlt, rfl, hw⟩ := Modulus.new_inv h
  unfold Modulus.add
  rw [dassert_release, res_ok_bind, dassert_release, res_ok_bind, addW_release, res_ok_bind,
    reduceCt_release (Nat.mod_lt _ (by norm_num)) (by omega)]
  refine ⟨_, rfl, by split_ifs <;> omega, ?_⟩
  by_cases hs : a + b < 2 ^ 64
  · rw [right_iff h2 hlt hnd (k := 0) (by rw [Nat.mod_eq_of_lt hs]; push_cast; ring) (by simp), Nat.mod_eq_of_lt hs]
    simp
  · have e : (a + b) % 2 ^ 64 = a + b - 2 ^ 64 := by omega
    rw [right_iff h2 hlt hnd (k := 1) (by rw [e, Nat.cast_sub (by omega)]; push_cast; ring) (by simp)]
    constructor
    · rintro ⟨h, -⟩; exact absurd h (by norm_num)
    · intro h; omega

/-- C91, release build, subtraction: right exactly if `a + p - b` lies in `[0, 2p)`. -/
theorem c91_sub_release (h : Modulus.new p = .ok m) (hnd : ¬ p ∣ 2 ^ 64) {a b : Nat} (ha : a < 2 ^ 64) (hb : b < 2 ^ 64) :
    ∃ r, m.sub .release a b = .ok r ∧ r < 2 ^ 64 ∧ (IsResidue p (a - b) r ↔ b ≤ a + p ∧ a < b + p) := by
  obtain ⟨h2, hlt, rfl, hw⟩ := Modulus.new_inv h
  unfold Modulus.sub
  rw [dassert_release, res_ok_bind, dassert_release, res_ok_bind, subW_release (by omega) hb, res_ok_bind, addW_release, res_ok_bind,
    reduceCt_release (Nat.mod_lt _ (by norm_num)) (by omega)]
  refine ⟨_, rfl, by split_ifs <;> omega, ?_⟩
  have hc : ∀ r, IsResidue m.p ((a : ℤ) - b) r ↔ IsResidue m.p ((a : ℤ) - b + m.p) r := fun r =>
    and_congr_right fun _ => ⟨fun hh => hh.trans (Int.modEq_iff_dvd.mpr ⟨1, by ring⟩), fun hh => hh.trans (Int.modEq_iff_dvd.mpr ⟨-1, by ring⟩)⟩
  rw [hc]
  generalize hx : (a + (m.p + 2 ^ 64 - b) % 2 ^ 64) % 2 ^ 64 = x
  by_cases h1 : a + m.p < b
  · rw [right_iff h2 hlt hnd (k := -1) (by omega) (by simp)]
    constructor
    · rintro ⟨h, -⟩; exact absurd h (by norm_num)
    · intro h; omega
  · by_cases h3 : a + m.p - b < 2 ^ 64
    · rw [right_iff h2 hlt hnd (k := 0) (by omega) (by simp)]
      omega
    · rw [right_iff h2 hlt hnd (k := 1) (by omega) (by simp)]
      constructor
      · rintro ⟨h, -⟩; exact absurd h (by norm_num)
      · intro h; omega

/-- C91, release build, negation: right exactly up to `p` (included). -/
theorem c91_neg_release (h : Modulus.new p = .ok m) (hnd : ¬ p ∣ 2 ^ 64) {a : Nat} (ha : a < 2 ^ 64) :
    ∃ r, m.neg .release a = .ok r ∧ r < 2 ^ 64 ∧ (IsResidue p (-a) r ↔ a ≤ p) := by
  obtain ⟨h2, hlt, rfl, hw⟩ := Modulus.new_inv h
  unfold Modulus.neg
  rw [dassert_release, res_ok_bind, subW_release (by omega) ha, res_ok_bind, reduceCt_release (Nat.mod_lt _ (by norm_num)) (by omega)]
  refine ⟨_, rfl, by split_ifs <;> omega, ?_⟩
  have hc : ∀ r, IsResidue m.p (-(a : ℤ)) r ↔ IsResidue m.p (-(a : ℤ) + m.p) r := fun r =>
    and_congr_right fun _ => ⟨fun hh => hh.trans (Int.modEq_iff_dvd.mpr ⟨1, by ring⟩), fun hh => hh.trans (Int.modEq_iff_dvd.mpr ⟨-1, by ring⟩)⟩
  rw [hc]
  generalize hx : (m.p + 2 ^ 64 - a) % 2 ^ 64 = x
  by_cases h1 : m.p < a
  · rw [right_iff h2 hlt hnd (k := -1) (by omega) (by simp)]
    constructor
    · rintro ⟨h, -⟩; exact absurd h (by norm_num)
    · intro h; omega
  · rw [right_iff h2 hlt hnd (k := 0) (by omega) (by simp)]
    omega

/-- C91, release build, negation: the word returned. The sign bit of the difference decides about the correction. -/
theorem c91_neg_value (h : Modulus.new p = .ok m) {a : Nat} (ha : a < 2 ^ 64) :
    m.neg .release a = .ok (if a = 0 then 0 else if a ≤ p then p - a else if a ≤ 2 ^ 63 then 2 ^ 64 + p - a else 2 ^ 64 - a) := by
  obtain ⟨h2, hlt, rfl, hw⟩ := Modulus.new_inv h
  unfold Modulus.neg
  rw [dassert_release, res_ok_bind, subW_release (by omega) ha, res_ok_bind, reduceCt_release (Nat.mod_lt _ (by norm_num)) (by omega)]
  congr 1
  split_ifs <;> omega

/-- C91, release build, multiplication: right for all words. -/
theorem c91_mul_release (h : Modulus.new p = .ok m) {a b : Nat} (ha : a < 2 ^ 64) (hb : b < 2 ^ 64) :
    ∃ r, m.mul .release a b = .ok r ∧ IsResidue p (a * b) r := by
  obtain ⟨h2, hlt, rfl, hw⟩ := Modulus.new_inv h
  exact ⟨_, mul_release hw ha hb, isResidue_mod hw.pos (by push_cast; rfl)⟩

/-- C91, release build, powers: right for all words, except that the first power of a word that is not reduced is returned as it is. -/
theorem c91_pow_release (h : Modulus.new p = .ok m) {a r : Nat} (ha : a < 2 ^ 64) (hr : r < 2 ^ 64) :
    ∃ v, m.pow .release a r = .ok v ∧ (v : ℤ) ≡ a ^ r [ZMOD p] ∧ (v < p ↔ r ≠ 1 ∨ a < p) := by
  obtain ⟨h2, hlt, rfl, hw⟩ := Modulus.new_inv h
  refine ⟨_, pow_release hw ha hr, ?_, ?_⟩
  · split_ifs with h0 h1
    · subst h0; simp
    · subst h1; simp
    · push_cast; exact Int.mod_modEq _ _
  · split_ifs with h0 h1
    · subst h0; simp; omega
    · subst h1; simp
    · simp [h1, Nat.mod_lt _ hw.pos]

/-- C91, release build, inversion, for every modulus, prime or not: the result times the argument is one exactly if `a^(p-1)` is one. -/
theorem c91_inv_release (h : Modulus.new p = .ok m) {a : Nat} (ha : a < 2 ^ 64) :
    ∃ v, m.inv .release a = .ok v ∧ ((v * a : ℤ) ≡ 1 [ZMOD p] ↔ (a ^ (p - 1) : ℤ) ≡ 1 [ZMOD p]) ∧ (v < p ↔ p ≠ 3 ∨ a < p) := by
  obtain ⟨h2, hlt, rfl, hw⟩ := Modulus.new_inv h
  obtain ⟨v, v1, v2, v3⟩ := c91_pow_release h ha (r := m.p - 2) (by omega)
  refine ⟨v, ?_, ?_, ?_⟩
  · unfold Modulus.inv
    rw [dassert_release, res_ok_bind, subW_ok h2, res_ok_bind, v1]
  · have e : (v * a : ℤ) ≡ a ^ (m.p - 1) [ZMOD m.p] := by
      rw [show m.p - 1 = m.p - 2 + 1 by omega, pow_succ]
      exact v2.mul_right _
    exact ⟨fun hh => e.symm.trans hh, fun hh => e.trans hh⟩
  · rw [v3, show m.p - 2 ≠ 1 ↔ m.p ≠ 3 by omega]

/-- C91, release build, inversion modulo a prime: right for every word that is not divisible by it. -/
theorem c91_inv_prime (h : Modulus.new p = .ok m) (hp : p.Prime) {a : Nat} (ha : a < 2 ^ 64) (hd : ¬ p ∣ a) :
    ∃ v, m.inv .release a = .ok v ∧ (v * a : ℤ) ≡ 1 [ZMOD p] := by
  obtain ⟨v, h1, h2, -⟩ := c91_inv_release h ha
  refine ⟨v, h1, h2.mpr ?_⟩
  have := Fact.mk hp
  have hne : (a : ZMod p) ≠ 0 := fun hz => hd ((ZMod.natCast_eq_zero_iff _ _).mp hz)
  have := ZMod.pow_card_sub_one_eq_one hne
  have h3 : ((a ^ (p - 1) : ℤ) : ZMod p) = ((1 : ℤ) : ZMod p) := by push_cast; exact this
  exact (ZMod.intCast_eq_intCast_iff _ _ _).mp h3

/-- C91: the modulus of `inv` must be prime: modulo 15, the word 2 has the inverse 8, but both builds return 2. -/
theorem c91_inv_composite : ∃ m, Modulus.new 15 = .ok m ∧ (∀ pr, m.inv pr 2 = .ok 2) ∧ (8 * 2 : ℤ) ≡ 1 [ZMOD 15] :=
  ⟨_, rfl, fun pr => by cases pr <;> decide, by decide⟩

/-- C91, release build, Shoup representation: that of the residue, for all words. -/
theorem c91_shoup_release (h : Modulus.new p = .ok m) (a : Nat) : m.shoup .release a = .ok (a % p * 2 ^ 64 / p) := by
  obtain ⟨h2, hlt, rfl, hw⟩ := Modulus.new_inv h
  have hp := hw.pos
  unfold Modulus.shoup
  rw [dassert_release, res_ok_bind, divR_ok (by omega), res_ok_bind, Nat.shiftLeft_eq]
  congr 1
  have e : a * 2 ^ 64 = a % m.p * 2 ^ 64 + m.p * (a / m.p * 2 ^ 64) := by
    conv_lhs => rw [← Nat.mod_add_div a m.p]
    ring
  have hlt2 : a % m.p * 2 ^ 64 / m.p < 2 ^ 64 := by
    rw [Nat.div_lt_iff_lt_mul hp, Nat.mul_comm]
    exact Nat.mul_lt_mul_of_pos_left (Nat.mod_lt _ hp) (by norm_num)
  rw [e, Nat.add_mul_div_left _ _ hp, Nat.add_mul_mod_self_right, Nat.mod_eq_of_lt hlt2]

/-- C91, release build, lazy Shoup multiplication of any three words: the exact difference modulo the word size. -/
theorem c91_lazy_mul_shoup_release (h : Modulus.new p = .ok m) {a b bs : Nat} (ha : a < 2 ^ 64) (hb : b < 2 ^ 64) (hbs : bs < 2 ^ 64) :
    ∃ r, m.lazyMulShoup .release a b bs = .ok r ∧ r < 2 ^ 64 ∧ (r : ℤ) ≡ a * b - a * bs / 2 ^ 64 * p [ZMOD 2 ^ 64] := by
  obtain ⟨h2, hlt, rfl, hw⟩ := Modulus.new_inv h
  have e128 : (2 : Nat) ^ 128 = 2 ^ 64 * 2 ^ 64 := by norm_num
  have b1 : a * bs < 2 ^ 128 := by rw [e128]; exact Nat.mul_lt_mul'' ha hbs
  have b2 : a * b < 2 ^ 128 := by rw [e128]; exact Nat.mul_lt_mul'' ha hb
  have b3 : a * bs / 2 ^ 64 < 2 ^ 64 := by omega
  have b4 : a * bs / 2 ^ 64 * m.p < 2 ^ 128 := by rw [e128]; exact Nat.mul_lt_mul'' b3 (by omega)
  unfold Modulus.lazyMulShoup
  rw [dassert_release, res_ok_bind, show dassertEqR .release bs (m.shoup .release b) = .ok () from rfl, res_ok_bind, mulW_ok b1, res_ok_bind]
  simp only [Nat.shiftRight_eq_div_pow]
  rw [mulW_ok b2, res_ok_bind, mulW_ok b4, res_ok_bind, subW_release b2 b4, res_ok_bind, dassert_release, res_ok_bind]
  refine ⟨_, rfl, Nat.mod_lt _ (by norm_num), ?_⟩
  have hz : ((a * bs / 2 ^ 64 * m.p : Nat) : ℤ) = (a : ℤ) * bs / 2 ^ 64 * m.p := by push_cast; rfl
  rw [← hz, ← Nat.cast_mul a b]
  generalize a * bs / 2 ^ 64 * m.p = z at b4
  generalize a * b = y at b2
  rw [Int.modEq_iff_dvd]
  omega

/-- C91, release build: with a factor that is not reduced, Shoup multiplication is wrong in general, even with the representation computed for it. -/
theorem c91_mul_shoup_unreduced : ∃ m bs r, Modulus.new 17 = .ok m ∧ m.shoup .release 18 = .ok bs ∧ m.mulShoup .release 2 18 bs = .ok r ∧
    ¬ IsResidue 17 (2 * 18) r :=
  ⟨_, _, _, rfl, rfl, rfl, fun h => absurd h.1 (by decide)⟩

example : ∃ m r s, Modulus.new 17 = .ok m ∧ m.add .release 20 13 = .ok r ∧ IsResidue 17 ((20 : Nat) + (13 : Nat)) r ∧
    m.add .release 20 14 = .ok s ∧ ¬ IsResidue 17 ((20 : Nat) + (14 : Nat)) s ∧ m.add .debug 20 13 = .error .debugAssert := by
  obtain ⟨m, h⟩ := (c01_modulus_new 17).2 (by norm_num)
  obtain ⟨r, h1, -, h2⟩ := c91_add_release h (by norm_num) (a := 20) (b := 13) (by norm_num) (by norm_num)
  obtain ⟨s, h3, -, h4⟩ := c91_add_release h (by norm_num) (a := 20) (b := 14) (by norm_num) (by norm_num)
  exact ⟨m, r, s, h, h1, h2.mpr (by norm_num), h3, fun hh => absurd (h4.mp hh) (by norm_num), ((c91_debug h 20 13).1 (by norm_num)).1⟩

example : ∃ m r s, Modulus.new 17 = .ok m ∧ m.sub .release 20 30 = .ok r ∧ IsResidue 17 ((20 : Nat) - (30 : Nat)) r ∧
    m.sub .release 20 40 = .ok s ∧ ¬ IsResidue 17 ((20 : Nat) - (40 : Nat)) s ∧ m.sub .debug 20 30 = .error .debugAssert := by
  obtain ⟨m, h⟩ := (c01_modulus_new 17).2 (by norm_num)
  obtain ⟨r, h1, -, h2⟩ := c91_sub_release h (by norm_num) (a := 20) (b := 30) (by norm_num) (by norm_num)
  obtain ⟨s, h3, -, h4⟩ := c91_sub_release h (by norm_num) (a := 20) (b := 40) (by norm_num) (by norm_num)
  exact ⟨m, r, s, h, h1, h2.mpr (by norm_num), h3, fun hh => absurd (h4.mp hh) (by norm_num), ((c91_debug h 20 30).1 (by norm_num)).2.1⟩

example : ∃ m r s, Modulus.new 17 = .ok m ∧ m.neg .release 17 = .ok r ∧ IsResidue 17 (-(17 : Nat)) r ∧ m.neg .release 18 = .ok s ∧
    ¬ IsResidue 17 (-(18 : Nat)) s := by
  obtain ⟨m, h⟩ := (c01_modulus_new 17).2 (by norm_num)
  obtain ⟨r, h1, -, h2⟩ := c91_neg_release h (by norm_num) (a := 17) (by norm_num)
  obtain ⟨s, h3, -, h4⟩ := c91_neg_release h (by norm_num) (a := 18) (by norm_num)
  exact ⟨m, r, s, h, h1, h2.mpr (by norm_num), h3, fun hh => absurd (h4.mp hh) (by norm_num)⟩

example : ∃ m r v w u, Modulus.new 17 = .ok m ∧ m.mul .release (2 ^ 64 - 1) (2 ^ 64 - 1) = .ok r ∧ IsResidue 17 ((2 ^ 64 - 1 : Nat) * (2 ^ 64 - 1 : Nat)) r ∧
    m.pow .release 20 (2 ^ 64 - 1) = .ok v ∧ v < 17 ∧ m.pow .release 20 1 = .ok w ∧ ¬ w < 17 ∧ m.inv .release 20 = .ok u ∧
    (u * (20 : Nat) : ℤ) ≡ 1 [ZMOD (17 : Nat)] := by
  obtain ⟨m, h⟩ := (c01_modulus_new 17).2 (by norm_num)
  obtain ⟨r, h1, h2⟩ := c91_mul_release h (a := 2 ^ 64 - 1) (b := 2 ^ 64 - 1) (by norm_num) (by norm_num)
  obtain ⟨v, h3, -, h4⟩ := c91_pow_release h (a := 20) (r := 2 ^ 64 - 1) (by norm_num) (by norm_num)
  obtain ⟨w, h5, -, h6⟩ := c91_pow_release h (a := 20) (r := 1) (by norm_num) (by norm_num)
  obtain ⟨u, h7, h8⟩ := c91_inv_prime h (by norm_num) (a := 20) (by norm_num) (by norm_num)
  exact ⟨m, r, v, w, u, h, h1, h2, h3, h4.mpr (by norm_num), h5, fun hh => absurd (h6.mp hh) (by norm_num), h7, h8⟩

example : ∃ m r, Modulus.new 17 = .ok m ∧ m.shoup .release 20 = .ok (3 * 2 ^ 64 / 17) ∧ m.lazyMulShoup .release (2 ^ 64 - 1) 20 5 = .ok r ∧ r < 2 ^ 64 ∧
    m.addVec .debug [1, 2, 30] [3, 16] = .ok [4, 1, 30] ∧ m.addVec .debug [1, 2] [3, 17] = .error .debugAssert ∧
    m.invVec .debug [1, 0] = .error .debugAssert ∧ m.scalarMulVec .debug [1, 40] 17 = .error .debugAssert := by
  obtain ⟨m, h⟩ := (c01_modulus_new 17).2 (by norm_num)
  obtain ⟨r, h1, h2, -⟩ := c91_lazy_mul_shoup_release h (a := 2 ^ 64 - 1) (b := 20) (bs := 5) (by norm_num) (by norm_num) (by norm_num)
  refine ⟨m, r, h, c91_shoup_release h 20, h1, h2, ?_, ((c91_debug_vec h [1, 2] [3, 17]).2 ⟨(2, 17), by simp, by norm_num⟩).1,
    (c91_debug_map h [1, 0]).2.2.1 ⟨0, by simp, by norm_num⟩, c91_debug_scalar h _ (by norm_num)⟩
  rw [← Except.ok.inj (show Modulus.new 17 = .ok _ from rfl |>.symm.trans h)]
  rfl

/-- `reduce_ct` and the Shoup product: accepted and rejected arguments in both builds, and an element without inverse modulo 15. -/
example : ∃ m r s r' u, Modulus.new 15 = .ok m ∧ (Modulus.reduceCt .debug 20 15 = .ok r ∧ IsResidue 15 (20 : Nat) r) ∧
    Modulus.reduceCt .debug 30 15 = .error .debugAssert ∧ (Modulus.reduceCt .release 30 15 = .ok s ∧ ¬ IsResidue 15 (30 : Nat) s) ∧
    (m.lazyMulShoup .debug 100 4 (4 * 2 ^ 64 / 15) = .ok r' ∧ IsLazyResidue 15 ((100 : Nat) * (4 : Nat)) r') ∧
    m.mulShoup .debug 100 4 5 = .error .debugAssert ∧ (m.inv .release 3 = .ok u ∧ ¬ (u * (3 : Nat) : ℤ) ≡ 1 [ZMOD (15 : Nat)]) := by
  obtain ⟨m, h⟩ := (c01_modulus_new 15).2 (by norm_num)
  obtain ⟨r, h1⟩ := (c91_reduce_ct_debug 20 15).1 (by norm_num)
  obtain ⟨s, h2, -, h3⟩ := c91_reduce_ct_release (x := 30) (p := 15) (by norm_num) (by norm_num) (by norm_num)
  obtain ⟨r', h4⟩ := (c91_debug_shoup h (a := 100) (by norm_num) 4 (4 * 2 ^ 64 / 15)).1 ⟨by norm_num, rfl⟩
  obtain ⟨u, h5, h6, -⟩ := c91_inv_release h (a := 3) (by norm_num)
  exact ⟨m, r, s, r', u, h, h1, (c91_reduce_ct_debug 30 15).2 (by norm_num), ⟨h2, fun hh => absurd (h3.mp hh) (by norm_num)⟩, h4,
    ((c91_debug_shoup h (a := 100) (by norm_num) 4 5).2 (by norm_num)).2, h5, fun hh => absurd (h6.mp hh) (by decide)⟩

/-- The negation of 18 modulo 17 in the release build. -/
example : ∃ m, Modulus.new 17 = .ok m ∧ m.neg .release 18 = .ok (2 ^ 64 - 1) ∧ m.neg .release (2 ^ 63 + 1) = .ok (2 ^ 63 - 1) ∧
    m.neg .release 17 = .ok 0 ∧ m.neg .release 0 = .ok 0 := by
  obtain ⟨m, h⟩ := (c01_modulus_new 17).2 (by norm_num)
  exact ⟨m, h, c91_neg_value h (by norm_num), c91_neg_value h (by norm_num), c91_neg_value h (by norm_num), c91_neg_value h (by norm_num)⟩

end OnionPIR
