import Verif.Model.Modulus
import Verif.Proofs.Machine
import Mathlib.Algebra.Order.Group.Nat
import Mathlib.FieldTheory.Finite.Basic
/- Lemmas about the Modulus model. -/
namespace OnionPIR
namespace Modulus

/-- The state produced by `Modulus::new`. -/
structure WF (m : Modulus) : Prop where
  two_le : 2 ≤ m.p
  lt : m.p < 2 ^ 62
  barret : m.barretHi * 2 ^ 64 + m.barretLo = 2 ^ 128 / m.p
  lo_lt : m.barretLo < 2 ^ 64

theorem WF.pos {m : Modulus} (h : m.WF) : 0 < m.p := by have := h.two_le; omega

theorem new_ok {p : Nat} (h2 : 2 ≤ p) (hp : p < 2 ^ 62) :
    ∃ m, Modulus.new p = .ok m ∧ m.p = p ∧ m.WF := by
  have hr : 2 ^ 128 / p < 2 ^ 128 := Nat.div_lt_self (by norm_num) (by omega)
  have hs : p >>> 62 = 0 := by
    rw [Nat.shiftRight_eq_div_pow]; exact Nat.div_eq_of_lt hp
  have hhi : (2 ^ 128 / p) / 2 ^ 64 < 2 ^ 64 := by
    apply Nat.div_lt_of_lt_mul; norm_num at hr ⊢; omega
  refine ⟨{ p := p, barretHi := ((2 ^ 128 / p) >>> 64) % 2 ^ 64, barretLo := (2 ^ 128 / p) % 2 ^ 64 }, ?_, rfl, ?_⟩
  · unfold new
    rw [rassert_ok (Or.inr hs), res_ok_bind, divR_ok (by omega), res_ok_bind, if_pos hr]
    rfl
  · refine ⟨h2, hp, ?_, Nat.mod_lt _ (by norm_num)⟩
    simp only [Nat.shiftRight_eq_div_pow]
    rw [Nat.mod_eq_of_lt hhi]
    have := Nat.div_add_mod (2 ^ 128 / p) (2 ^ 64)
    rw [Nat.mul_comm]; exact this

theorem new_inv {p : Nat} {m : Modulus} (h : Modulus.new p = .ok m) : 2 ≤ p ∧ p < 2 ^ 62 ∧ m.p = p ∧ m.WF := by
  have key : 2 ≤ p ∧ p < 2 ^ 62 := by
    unfold new at h
    simp only [bind_eq_ok, rassert_eq_ok, unwrapR_eq_ok] at h
    obtain ⟨_, h1, r, hr, r', hr', -⟩ := h
    have hp0 : p ≠ 0 := by rintro rfl; simp [divR] at hr
    rw [divR_ok hp0] at hr
    cases hr
    have hp1 : p ≠ 1 := by rintro rfl; simp at hr'
    refine ⟨by omega, ?_⟩
    rcases h1 with h1 | h1
    · omega
    · rw [Nat.shiftRight_eq_div_pow] at h1
      have := Nat.div_eq_zero_iff.mp h1
      rcases this with h | h
      · norm_num at h
      · exact h
  obtain ⟨m', hm', h1, h2⟩ := new_ok key.1 key.2
  rw [h] at hm'
  cases hm'
  exact ⟨key.1, key.2, h1, h2⟩

/-- Barrett quotient: `q = ⌊a*r / 2^128⌋` with `r = ⌊2^128/p⌋` satisfies `q*p ≤ a < q*p + 2p`. -/
theorem barrett {p r a : Nat} (hp : 0 < p) (hr : r = 2 ^ 128 / p) (ha : a < 2 ^ 128) :
    (a * r / 2 ^ 128) * p ≤ a ∧ a < (a * r / 2 ^ 128) * p + 2 * p := by
  have h1 : r * p ≤ 2 ^ 128 := by rw [hr]; exact Nat.div_mul_le_self _ _
  have h2 : 2 ^ 128 < r * p + p := by
    rw [hr]; have := Nat.lt_div_mul_add (a := 2 ^ 128) hp; linarith
  generalize hq : a * r / 2 ^ 128 = q
  have h3 : q * 2 ^ 128 ≤ a * r := by rw [← hq]; exact Nat.div_mul_le_self _ _
  have h4 : a * r < q * 2 ^ 128 + 2 ^ 128 := by
    rw [← hq]; exact Nat.lt_div_mul_add (by norm_num)
  generalize (2 : Nat) ^ 128 = M at *
  have hM : 0 < M := by omega
  constructor
  · have : q * p * M ≤ a * M := by
      calc q * p * M = (q * M) * p := by ring
        _ ≤ (a * r) * p := Nat.mul_le_mul_right _ h3
        _ = a * (r * p) := by ring
        _ ≤ a * M := Nat.mul_le_mul_left _ h1
    exact Nat.le_of_mul_le_mul_right this hM
  · -- a*M ≤ a*(r p + p) = a r p + a p < (q M + M) p + M p
    by_contra hcon
    have hc : q * p + 2 * p ≤ a := by omega
    have e1 : a * M ≤ a * (r * p + p) := Nat.mul_le_mul_left _ h2.le
    have e2 : (a * r) * p < (q * M + M) * p := Nat.mul_lt_mul_of_pos_right h4 hp
    have e3 : a * p ≤ M * p := Nat.mul_le_mul_right _ ha.le
    have e4 : (q * p + 2 * p) * M ≤ a * M := Nat.mul_le_mul_right _ hc
    nlinarith

theorem WF.hi_lo {m : Modulus} (h : m.WF) : m.barretHi + m.barretLo < 2 ^ 64 := by
  have hp := h.pos
  have hb := h.barret
  have hlo := h.lo_lt
  have h1 : (m.barretHi * 2 ^ 64 + m.barretLo) * m.p ≤ 2 ^ 128 := by rw [hb]; exact Nat.div_mul_le_self _ _
  by_contra hcon
  have hc : 2 ^ 64 ≤ m.barretHi + m.barretLo := by omega
  generalize m.barretHi = hi at *
  generalize m.barretLo = lo at *
  have hp2 := h.two_le
  generalize m.p = p at *
  -- hi * p ≤ 2^64 - ... ; 
  have h3 : hi * p ≤ 2 ^ 64 := by
    by_contra hx
    have : 2 ^ 64 + 1 ≤ hi * p := by omega
    nlinarith
  -- lo * p ≤ 2^128 - hi p 2^64
  have h4 : lo * p ≤ (2 ^ 64 - hi * p) * 2 ^ 64 := by
    zify [h3]; zify at h1; nlinarith
  obtain ⟨s, hs⟩ : ∃ s, hi * p + s = 2 ^ 64 := ⟨2 ^ 64 - hi * p, by omega⟩
  have h5 : lo * p ≤ s * 2 ^ 64 := by
    have : 2 ^ 64 - hi * p = s := by omega
    rwa [this] at h4
  have h6 : s < p := by
    by_contra hx
    have hx : p ≤ s := by omega
    have e : 2 ^ 128 < (hi * 2 ^ 64 + lo) * p + p := by
      rw [hb]; have := Nat.lt_div_mul_add (a := 2 ^ 128) hp; linarith
    -- (hi*2^64 + lo + 1) * p > 2^128 = (hi p + s) 2^64
    have : lo + 1 ≤ 2 ^ 64 := hlo
    have : (lo + 1) * p ≤ 2 ^ 64 * p := Nat.mul_le_mul_right _ this
    nlinarith
  -- (hi + lo) p ≥ 2^64 p ; hi p = 2^64 - s ; lo p ≤ s 2^64
  have h7 : 2 ^ 64 * p ≤ (hi + lo) * p := Nat.mul_le_mul_right _ hc
  have h8 : (hi + lo) * p ≤ 2 ^ 64 - s + s * 2 ^ 64 := by
    have : hi * p = 2 ^ 64 - s := by omega
    rw [Nat.add_mul, this]; omega
  have h9 : s + 1 ≤ p := h6
  have : 2 ^ 64 * (s + 1) ≤ 2 ^ 64 * p := Nat.mul_le_mul_left _ h9
  rcases Nat.eq_zero_or_pos s with h0 | h0
  · subst h0
    have : 2 ^ 64 * 2 ≤ 2 ^ 64 * p := Nat.mul_le_mul_left _ hp2
    omega
  · omega

theorem lazyReduceCt_ok {m : Modulus} (h : m.WF) (pr : Profile) {a : Nat} (ha : a < 2 ^ 64) :
    ∃ v, m.lazyReduceCt pr a = .ok v ∧ v < 2 * m.p ∧ v % m.p = a % m.p := by
  have hp := h.pos
  have hb := h.barret
  have hlo := h.lo_lt
  have hl := h.lt
  have hhl := h.hi_lo
  have hhi : m.barretHi < 2 ^ 64 := by omega
  unfold lazyReduceCt
  generalize m.barretHi = hi at *
  generalize m.barretLo = lo at *
  have b1 : a * lo < 2 ^ 128 := by
    calc a * lo < 2 ^ 64 * 2 ^ 64 := Nat.mul_lt_mul'' ha hlo
      _ = 2 ^ 128 := by norm_num
  have b2 : a * hi < 2 ^ 128 := by
    calc a * hi < 2 ^ 64 * 2 ^ 64 := Nat.mul_lt_mul'' ha hhi
      _ = 2 ^ 128 := by norm_num
  have b3 : a * hi ≤ (2 ^ 64 - 1) * (2 ^ 64 - 1) := Nat.mul_le_mul (by omega) (by omega)
  have b4 : a * lo / 2 ^ 64 < 2 ^ 64 := by
    apply Nat.div_lt_of_lt_mul; rw [← pow_add]; exact b1
  have hnum : (a * hi + a * lo / 2 ^ 64) / 2 ^ 64 = a * (2 ^ 128 / m.p) / 2 ^ 128 := by
    rw [← hb]
    have : a * (hi * 2 ^ 64 + lo) = a * lo + (a * hi) * 2 ^ 64 := by ring
    rw [this]
    have e : (2 : Nat) ^ 128 = 2 ^ 64 * 2 ^ 64 := by norm_num
    rw [e, ← Nat.div_div_eq_div_mul, Nat.add_mul_div_right _ _ (by norm_num), Nat.add_comm]
  obtain ⟨q1, q2⟩ := barrett hp rfl (show a < 2 ^ 128 by omega)
  rw [← hnum] at q1 q2
  rw [mulW_ok b1, res_ok_bind, mulW_ok b2, res_ok_bind]
  simp only [Nat.shiftRight_eq_div_pow]
  rw [addW_ok (by norm_num at b3 b4 ⊢; omega), res_ok_bind]
  generalize hN : (a * hi + a * lo / 2 ^ 64) / 2 ^ 64 = num at *
  have hd : a - num * m.p < 2 ^ 64 := by omega
  rw [mulW_ok (by omega), res_ok_bind, subW_ok q1, res_ok_bind, Nat.mod_eq_of_lt hd]
  refine ⟨_, rfl, ?_, ?_⟩
  · omega
  · conv_rhs => rw [← Nat.sub_add_cancel q1]
    simp

theorem lazyReduceU128_ok {m : Modulus} (h : m.WF) (pr : Profile) {a : Nat} (ha : a < 2 ^ 128) :
    ∃ v, m.lazyReduceU128 pr a = .ok v ∧ v < 2 * m.p ∧ v % m.p = a % m.p := by
  have hp := h.pos
  have hb := h.barret
  have hlo := h.lo_lt
  have hl := h.lt
  have hhl := h.hi_lo
  have hhi : m.barretHi < 2 ^ 64 := by omega
  unfold lazyReduceU128
  have e128 : (2 : Nat) ^ 128 = 2 ^ 64 * 2 ^ 64 := by norm_num
  obtain ⟨x, y, hx, hy, hxy⟩ : ∃ x y, x < 2 ^ 64 ∧ y < 2 ^ 64 ∧ a = y * 2 ^ 64 + x :=
    ⟨a % 2 ^ 64, a / 2 ^ 64, Nat.mod_lt _ (by norm_num), by apply Nat.div_lt_of_lt_mul; rw [← e128]; exact ha,
      by rw [Nat.mul_comm]; exact (Nat.div_add_mod _ _).symm⟩
  have ea : a % 2 ^ 64 = x := by rw [hxy]; omega
  have eb : a / 2 ^ 64 = y := by rw [hxy]; omega
  generalize m.barretHi = hi at *
  generalize m.barretLo = lo at *
  simp only [Nat.shiftRight_eq_div_pow, ea, eb, Nat.mod_eq_of_lt hy]
  have b1 : x * lo < 2 ^ 128 := by rw [e128]; exact Nat.mul_lt_mul'' hx hlo
  have b2 : x * hi < 2 ^ 128 := by rw [e128]; exact Nat.mul_lt_mul'' hx hhi
  have b3 : y * lo < 2 ^ 128 := by rw [e128]; exact Nat.mul_lt_mul'' hy hlo
  have b4 : y * hi < 2 ^ 128 := by rw [e128]; exact Nat.mul_lt_mul'' hy hhi
  have b5 : x * lo / 2 ^ 64 < 2 ^ 64 := by apply Nat.div_lt_of_lt_mul; rw [← e128]; exact b1
  have b6 : x * hi + y * lo ≤ (2 ^ 64 - 1) * (2 ^ 64 - 1) := by
    have c1 : x * hi ≤ (2 ^ 64 - 1) * hi := Nat.mul_le_mul_right _ (by omega)
    have c2 : y * lo ≤ (2 ^ 64 - 1) * lo := Nat.mul_le_mul_right _ (by omega)
    have c3 : (2 ^ 64 - 1) * (hi + lo) ≤ (2 ^ 64 - 1) * (2 ^ 64 - 1) := Nat.mul_le_mul_left _ (by omega)
    rw [Nat.mul_add] at c3
    omega
  have hnum : (x * hi + y * lo + x * lo / 2 ^ 64) / 2 ^ 64 + y * hi = a * (2 ^ 128 / m.p) / 2 ^ 128 := by
    rw [← hb, hxy]
    have : (y * 2 ^ 64 + x) * (hi * 2 ^ 64 + lo) = x * lo + (x * hi + y * lo + (y * hi) * 2 ^ 64) * 2 ^ 64 := by ring
    rw [this, e128, ← Nat.div_div_eq_div_mul, Nat.add_mul_div_right _ _ (by norm_num), ← Nat.add_assoc,
      Nat.add_mul_div_right _ _ (by norm_num), Nat.add_comm (x * lo / 2 ^ 64)]
  obtain ⟨q1, q2⟩ := barrett hp rfl ha
  rw [← hnum] at q1 q2
  rw [mulW_ok b1, res_ok_bind, mulW_ok b2, res_ok_bind, mulW_ok b3, res_ok_bind, mulW_ok b4, res_ok_bind,
    addW_ok (by norm_num at b6 ⊢; omega), res_ok_bind, addW_ok (by norm_num at b5 b6 ⊢; omega), res_ok_bind]
  have hnp : (x * hi + y * lo + x * lo / 2 ^ 64) / 2 ^ 64 + y * hi ≤ a :=
    le_trans (Nat.le_mul_of_pos_right _ hp) q1
  rw [addW_ok (by omega), res_ok_bind]
  generalize hN : (x * hi + y * lo + x * lo / 2 ^ 64) / 2 ^ 64 + y * hi = num at *
  have hd : a - num * m.p < 2 ^ 64 := by omega
  rw [mulW_ok (by omega), res_ok_bind, subW_ok q1, res_ok_bind, Nat.mod_eq_of_lt hd]
  refine ⟨_, rfl, ?_, ?_⟩
  · omega
  · conv_rhs => rw [← Nat.sub_add_cancel q1]
    simp

theorem and_all_ones {y : Nat} (hy : y < 2 ^ 64) : (2 ^ 64 - 1) &&& y = y := by
  rw [Nat.and_comm, Nat.and_two_pow_sub_one_eq_mod, Nat.mod_eq_of_lt hy]

theorem reduceCt_ok (pr : Profile) {x p : Nat} (hp : p < 2 ^ 63) (hx : x < 2 * p) :
    reduceCt pr x p = .ok (x % p) := by
  have hs : p >>> 63 = 0 := by rw [Nat.shiftRight_eq_div_pow]; exact Nat.div_eq_of_lt hp
  unfold reduceCt
  rw [dassert_ok hs, res_ok_bind, dassert_ok hx, res_ok_bind]
  generalize hy : (x + 2 ^ 64 - p) % 2 ^ 64 = y
  have hylt : y < 2 ^ 64 := by rw [← hy]; exact Nat.mod_lt _ (by norm_num)
  have e : x ^^^ (x ^^^ p ^^^ (y ^^^ p)) = y := by
    rw [Nat.xor_comm y p, Nat.xor_assoc x p, ← Nat.xor_assoc p p y, Nat.xor_self, Nat.zero_xor, ← Nat.xor_assoc,
      Nat.xor_self, Nat.zero_xor]
  simp only [e, Nat.shiftRight_eq_div_pow]
  by_cases hxp : x < p
  · have hy' : y = x + 2 ^ 64 - p := by rw [← hy]; exact Nat.mod_eq_of_lt (by omega)
    have h1 : y / 2 ^ 63 = 1 := by omega
    rw [h1]
    have h2 : ((1 + 2 ^ 64 - 1) % 2 ^ 64 &&& y ||| (2 ^ 64 - 1 - (1 + 2 ^ 64 - 1) % 2 ^ 64) &&& x) = x := by
      have e1 : (1 + 2 ^ 64 - 1) % 2 ^ 64 = 0 := by norm_num
      rw [e1, Nat.zero_and, Nat.zero_or, Nat.sub_zero, and_all_ones (by omega)]
    rw [h2, Nat.mod_eq_of_lt hxp, dassert_ok rfl]; rfl
  · have hy' : y = x - p := by rw [← hy]; omega
    have h1 : y / 2 ^ 63 = 0 := by omega
    rw [h1]
    have h2 : ((0 + 2 ^ 64 - 1) % 2 ^ 64 &&& y ||| (2 ^ 64 - 1 - (0 + 2 ^ 64 - 1) % 2 ^ 64) &&& x) = y := by
      have e1 : (0 + 2 ^ 64 - 1) % 2 ^ 64 = 2 ^ 64 - 1 := by norm_num
      rw [e1, Nat.sub_self, Nat.zero_and, Nat.or_zero, and_all_ones hylt]
    have h3 : x % p = y := by
      rw [hy', Nat.mod_eq_sub_mod (by omega), Nat.mod_eq_of_lt (by omega)]
    rw [h2, h3, dassert_ok rfl]; rfl

theorem reduce_ok {m : Modulus} (h : m.WF) (pr : Profile) {a : Nat} (ha : a < 2 ^ 64) :
    m.reduce pr a = .ok (a % m.p) := by
  obtain ⟨v, h1, h2, h3⟩ := lazyReduceCt_ok h pr ha
  have := h.lt
  unfold reduce
  rw [h1, res_ok_bind, reduceCt_ok pr (by omega) h2, h3]

theorem reduceU128_ok {m : Modulus} (h : m.WF) (pr : Profile) {a : Nat} (ha : a < 2 ^ 128) :
    m.reduceU128 pr a = .ok (a % m.p) := by
  obtain ⟨v, h1, h2, h3⟩ := lazyReduceU128_ok h pr ha
  have := h.lt
  unfold reduceU128
  rw [h1, res_ok_bind, reduceCt_ok pr (by omega) h2, h3]

theorem reduceBigUint_ok {m : Modulus} (h : m.WF) (a : Nat) : m.reduceBigUint a = .ok (a % m.p) := by
  have h1 := h.pos
  have h2 := h.lt
  have h3 := Nat.mod_lt a h1
  unfold reduceBigUint
  rw [modR_ok (by omega), res_ok_bind, if_pos (by omega)]; rfl

theorem reduceI64_ok {m : Modulus} (h : m.WF) (pr : Profile) {a : Int} (h1 : -2 ^ 63 ≤ a) (h2 : a < 2 ^ 63) :
    m.reduceI64 pr a = .ok (a % m.p).toNat := by
  have hp := h.two_le
  have hl := h.lt
  unfold reduceI64
  have e : ((((m.p <<< 64 : Nat) : Int) + a) % (2 ^ 128 : Int)).toNat = (m.p * 2 ^ 64 + a : Int).toNat := by
    rw [Nat.shiftLeft_eq]; push_cast; rw [Int.emod_eq_of_lt] <;> omega
  rw [e, reduceU128_ok h pr (by omega)]
  congr 1
  have hnn : 0 ≤ (m.p * 2 ^ 64 + a : Int) := by omega
  zify
  rw [Int.toNat_of_nonneg hnn, Int.toNat_of_nonneg (Int.emod_nonneg _ (by omega))]
  rw [Int.add_comm, Int.add_mul_emod_self_left]

theorem mul_ok {m : Modulus} (h : m.WF) (pr : Profile) {a b : Nat} (ha : a < m.p) (hb : b < m.p) :
    m.mul pr a b = .ok (a * b % m.p) := by
  have hl := h.lt
  have : a * b < 2 ^ 128 := by
    calc a * b < 2 ^ 64 * 2 ^ 64 := Nat.mul_lt_mul'' (by omega) (by omega)
      _ = 2 ^ 128 := by norm_num
  unfold mul
  rw [dassert_ok ha, res_ok_bind, dassert_ok hb, res_ok_bind, mulW_ok this, res_ok_bind, reduceU128_ok h pr this]

theorem add_ok {m : Modulus} (h : m.WF) (pr : Profile) {a b : Nat} (ha : a < m.p) (hb : b < m.p) :
    m.add pr a b = .ok ((a + b) % m.p) := by
  have hl := h.lt
  unfold add
  rw [dassert_ok ha, res_ok_bind, dassert_ok hb, res_ok_bind, addW_ok (by omega), res_ok_bind,
    reduceCt_ok pr (by omega) (by omega)]

theorem sub_ok {m : Modulus} (h : m.WF) (pr : Profile) {a b : Nat} (ha : a < m.p) (hb : b < m.p) :
    m.sub pr a b = .ok ((a + (m.p - b)) % m.p) := by
  have hl := h.lt
  unfold sub
  rw [dassert_ok ha, res_ok_bind, dassert_ok hb, res_ok_bind, subW_ok (by omega), res_ok_bind,
    addW_ok (by omega), res_ok_bind, reduceCt_ok pr (by omega) (by omega)]

theorem neg_ok {m : Modulus} (h : m.WF) (pr : Profile) {a : Nat} (ha : a < m.p) :
    m.neg pr a = .ok ((m.p - a) % m.p) := by
  have hl := h.lt
  unfold neg
  rw [dassert_ok ha, res_ok_bind, subW_ok (by omega), res_ok_bind, reduceCt_ok pr (by omega) (by omega)]

theorem shoup_ok {m : Modulus} (h : m.WF) (pr : Profile) {a : Nat} (ha : a < m.p) :
    m.shoup pr a = .ok (a * 2 ^ 64 / m.p) := by
  have hp := h.pos
  unfold shoup
  rw [dassert_ok ha, res_ok_bind, divR_ok (by omega), res_ok_bind, Nat.shiftLeft_eq]
  have : a * 2 ^ 64 / m.p < 2 ^ 64 := by
    apply Nat.div_lt_of_lt_mul; nlinarith
  rw [Nat.mod_eq_of_lt this]

theorem lazyMulShoup_ok {m : Modulus} (h : m.WF) (pr : Profile) {a b : Nat} (ha : a < 2 ^ 64) (hb : b < m.p) :
    ∃ v, m.lazyMulShoup pr a b (b * 2 ^ 64 / m.p) = .ok v ∧ v < 2 * m.p ∧ v % m.p = a * b % m.p := by
  have hp := h.pos
  have hl := h.lt
  have hs : b * 2 ^ 64 / m.p < 2 ^ 64 := by
    apply Nat.div_lt_of_lt_mul; nlinarith
  have e128 : (2 : Nat) ^ 128 = 2 ^ 64 * 2 ^ 64 := by norm_num
  have g1 : b * 2 ^ 64 / m.p * m.p ≤ b * 2 ^ 64 := Nat.div_mul_le_self _ _
  have g2 : b * 2 ^ 64 < b * 2 ^ 64 / m.p * m.p + m.p := Nat.lt_div_mul_add hp
  have b1 : a * (b * 2 ^ 64 / m.p) < 2 ^ 128 := by rw [e128]; exact Nat.mul_lt_mul'' ha hs
  have b2 : a * b < 2 ^ 128 := by rw [e128]; exact Nat.mul_lt_mul'' ha (by omega)
  have h1 := dassertEqR_ok (pr := pr) (shoup_ok h pr hb)
  unfold lazyMulShoup
  rw [dassert_ok hb, res_ok_bind]
  generalize hbs : b * 2 ^ 64 / m.p = bs at *
  have q1 : a * bs / 2 ^ 64 * m.p ≤ a * b := by
    have c1 : a * bs / 2 ^ 64 * 2 ^ 64 ≤ a * bs := Nat.div_mul_le_self _ _
    generalize a * bs / 2 ^ 64 = q at *
    have : q * m.p * 2 ^ 64 ≤ a * b * 2 ^ 64 := by
      calc q * m.p * 2 ^ 64 = (q * 2 ^ 64) * m.p := by ring
        _ ≤ (a * bs) * m.p := Nat.mul_le_mul_right _ c1
        _ = a * (bs * m.p) := by ring
        _ ≤ a * (b * 2 ^ 64) := Nat.mul_le_mul_left _ g1
        _ = a * b * 2 ^ 64 := by ring
    exact Nat.le_of_mul_le_mul_right this (by norm_num)
  have q2 : a * b < a * bs / 2 ^ 64 * m.p + 2 * m.p := by
    have c1 : a * bs < a * bs / 2 ^ 64 * 2 ^ 64 + 2 ^ 64 := Nat.lt_div_mul_add (by norm_num)
    generalize a * bs / 2 ^ 64 = q at *
    by_contra hcon
    have hc : q * m.p + 2 * m.p ≤ a * b := by omega
    have e1 : (q * m.p + 2 * m.p) * 2 ^ 64 ≤ a * b * 2 ^ 64 := Nat.mul_le_mul_right _ hc
    have e2 : a * (b * 2 ^ 64) ≤ a * (bs * m.p + m.p) := Nat.mul_le_mul_left _ g2.le
    have e3 : (a * bs) * m.p < (q * 2 ^ 64 + 2 ^ 64) * m.p := Nat.mul_lt_mul_of_pos_right c1 hp
    have e4 : a * m.p ≤ 2 ^ 64 * m.p := Nat.mul_le_mul_right _ ha.le
    nlinarith
  have hd : a * b - a * bs / 2 ^ 64 * m.p < 2 ^ 64 := by omega
  rw [h1, res_ok_bind, mulW_ok b1, res_ok_bind]
  simp only [Nat.shiftRight_eq_div_pow]
  rw [mulW_ok b2, res_ok_bind, mulW_ok (by omega), res_ok_bind, subW_ok q1, res_ok_bind,
    Nat.mod_eq_of_lt hd, dassert_ok (by omega), res_ok_bind]
  refine ⟨_, rfl, by omega, ?_⟩
  conv_rhs => rw [← Nat.sub_add_cancel q1]
  simp

theorem mulShoup_ok {m : Modulus} (h : m.WF) (pr : Profile) {a b : Nat} (ha : a < 2 ^ 64) (hb : b < m.p) :
    m.mulShoup pr a b (b * 2 ^ 64 / m.p) = .ok (a * b % m.p) := by
  obtain ⟨v, h1, h2, h3⟩ := lazyMulShoup_ok h pr ha hb
  have := h.lt
  unfold mulShoup
  rw [h1, res_ok_bind, reduceCt_ok pr (by omega) h2, h3]

theorem powLoop_ok {m : Modulus} (h : m.WF) (pr : Profile) {a r : Nat} (ha : a < m.p) (n val e : Nat)
    (hval : val = a ^ e % m.p) (he : e = r / 2 ^ n) : powLoop pr m a r n val = .ok (a ^ r % m.p) := by
  induction n generalizing val e with
  | zero => simp [powLoop, hval, he]
  | succ n ih =>
    have hv : val < m.p := by rw [hval]; exact Nat.mod_lt _ h.pos
    have hsq : val * val % m.p = a ^ (2 * e) % m.p := by
      rw [hval, ← Nat.mul_mod, ← pow_add, two_mul]
    have e2 : r / 2 ^ n = 2 * e + (r / 2 ^ n) % 2 := by
      rw [he, pow_succ, ← Nat.div_div_eq_div_mul]; omega
    unfold powLoop
    rw [mul_ok h pr hv hv, res_ok_bind]
    have hlt := Nat.mod_lt (val * val) h.pos
    by_cases hb : (r >>> n) % 2 = 1
    · rw [if_pos hb, mul_ok h pr hlt ha, res_ok_bind]
      rw [Nat.shiftRight_eq_div_pow] at hb
      refine ih _ (2 * e + 1) ?_ (by omega)
      rw [hsq, Nat.mod_mul_mod, pow_succ]
    · rw [if_neg hb, res_ok_bind]
      rw [Nat.shiftRight_eq_div_pow] at hb
      exact ih _ (2 * e) hsq (by omega)

theorem pow_ok {m : Modulus} (h : m.WF) (pr : Profile) {a r : Nat} (ha : a < m.p) (hr : r < m.p) :
    m.pow pr a r = .ok (a ^ r % m.p) := by
  have hl := h.lt
  have h2 := h.two_le
  unfold pow
  rw [dassert_ok ⟨ha, hr⟩, res_ok_bind]
  by_cases h0 : r = 0
  · subst h0; simp [Nat.mod_eq_of_lt h2]
  · rw [if_neg h0]
    by_cases h1 : r = 1
    · subst h1; simp [Nat.mod_eq_of_lt ha]
    · rw [if_neg h1]
      have hlog : r.log2 < 62 := (Nat.log2_lt h0).mpr (by omega)
      have hlog1 : 1 ≤ r.log2 := (Nat.le_log2 h0).mpr (by omega)
      have hlz : leadingZeros 64 r = 63 - r.log2 := by simp [leadingZeros, h0]
      rw [hlz, subW_ok (by omega), res_ok_bind]
      have e1 : 62 - (63 - r.log2) + 1 = r.log2 := by omega
      rw [e1]
      refine powLoop_ok h pr ha _ _ 1 (by simp [Nat.mod_eq_of_lt ha]) ?_
      have g1 := Nat.log2_self_le h0
      have g2 := (Nat.log2_lt h0 (k := r.log2 + 1)).mp (by omega)
      symm
      rw [Nat.div_eq_iff (by positivity)]
      rw [pow_succ] at g2
      omega

theorem inv_ok {m : Modulus} (h : m.WF) (pr : Profile) {a : Nat} (ha : a < m.p) (h0 : a ≠ 0) :
    m.inv pr a = .ok (a ^ (m.p - 2) % m.p) := by
  have h2 := h.two_le
  unfold inv
  rw [dassert_ok ⟨ha, h0⟩, res_ok_bind, subW_ok h2, res_ok_bind, pow_ok h pr ha (by omega)]

theorem inv_spec {p a : Nat} (hp : p.Prime) (ha : a < p) (h0 : a ≠ 0) : a ^ (p - 2) % p * a % p = 1 := by
  have := Fact.mk hp
  have h2 := hp.two_le
  have hne : (a : ZMod p) ≠ 0 := by
    intro hz
    rw [ZMod.natCast_eq_zero_iff] at hz
    exact h0 (Nat.eq_zero_of_dvd_of_lt hz ha)
  have hf := ZMod.pow_card_sub_one_eq_one hne
  have e : p - 1 = (p - 2) + 1 := by omega
  have : ((a ^ (p - 2) % p * a : Nat) : ZMod p) = ((1 : Nat) : ZMod p) := by
    push_cast
    rw [ZMod.natCast_mod]; push_cast
    rw [← pow_succ, ← e, hf]
  rw [ZMod.natCast_eq_natCast_iff] at this
  unfold Nat.ModEq at this
  rwa [Nat.mod_eq_of_lt (show 1 < p by omega)] at this

end Modulus
end OnionPIR
