import Verif.Proofs.Modulus
import Verif.Spec.Basic
import Mathlib.Data.Nat.Size
import Mathlib.Tactic.NormNum.Prime
/-
Properties C01–C07 (src/modulus.rs).
All statements take a modulus `m` *returned by* `Modulus.new p`, and hold for both build profiles `pr`:
`f pr … = .ok v` for all `pr` means no overflow and no failed (debug) assertion in either profile.
-/
namespace OnionPIR
open Spec

theorem isResidue_mod {p : Nat} (hp : 0 < p) {x : Int} {n : Nat} (h : (n : Int) ≡ x [ZMOD p]) :
    IsResidue p x (n % p) := by
  refine ⟨Nat.mod_lt _ hp, ?_⟩
  push_cast
  exact (Int.mod_modEq _ _).trans h

/-- C01. `Modulus::new` succeeds exactly on `[2, 2^62)`; the result reports `p`. -/
theorem c01_modulus_new (p : Nat) :
    (∃ m, Modulus.new p = .ok m) ↔ (2 ≤ p ∧ p < 2 ^ 62) := by
  constructor
  · rintro ⟨m, h⟩; exact ⟨(Modulus.new_inv h).1, (Modulus.new_inv h).2.1⟩
  · rintro ⟨h1, h2⟩; obtain ⟨m, h, -⟩ := Modulus.new_ok h1 h2; exact ⟨m, h⟩

theorem c01_modulus_value {p : Nat} {m : Modulus} (h : Modulus.new p = .ok m) : m.modulus = p :=
  (Modulus.new_inv h).2.2.1

example : (⟨17, 2 ^ 128 / 17 / 2 ^ 64, 2 ^ 128 / 17 % 2 ^ 64⟩ : Modulus).modulus = 17 := c01_modulus_value (p := 17) rfl

/-- C01, panic side: which panic. -/
theorem c01_modulus_panics (p : Nat) :
    (p = 0 → Modulus.new p = .error .divZero) ∧ (p = 1 → Modulus.new p = .error .unwrap) ∧
    (2 ^ 62 ≤ p → Modulus.new p = .error .assert) := by
  refine ⟨by rintro rfl; rfl, by rintro rfl; rfl, fun h => ?_⟩
  unfold Modulus.new
  rw [rassert_fail]
  · rfl
  · rintro (h1 | h1)
    · omega
    · rw [Nat.shiftRight_eq_div_pow, Nat.div_eq_zero_iff] at h1; omega

example : Modulus.new (2 ^ 63) = .error .assert := (c01_modulus_panics _).2.2 (by norm_num)

example : ∃ m, Modulus.new 4611686018427387761 = .ok m := (c01_modulus_new _).2 (by norm_num)
example : ¬ ∃ m, Modulus.new (2 ^ 62) = .ok m := fun h => by simpa using (c01_modulus_new _).1 h

/-- C02. All reductions return the canonical residue, in both profiles. -/
theorem c02_reduce {p : Nat} {m : Modulus} (h : Modulus.new p = .ok m) (pr : Profile) {a : Nat} (ha : a < 2 ^ 64) :
    ∃ r, m.reduce pr a = .ok r ∧ IsResidue p a r := by
  obtain ⟨_, _, rfl, hw⟩ := Modulus.new_inv h
  exact ⟨_, Modulus.reduce_ok hw pr ha, isResidue_mod hw.pos rfl⟩

example : ∃ m r, Modulus.new 17 = .ok m ∧ m.reduce .debug (2 ^ 64 - 1) = .ok r ∧ IsResidue 17 (2 ^ 64 - 1 : Nat) r := by
  obtain ⟨m, h⟩ := (c01_modulus_new 17).2 (by norm_num)
  obtain ⟨r, hr⟩ := c02_reduce h .debug (a := 2 ^ 64 - 1) (by norm_num)
  exact ⟨m, r, h, hr⟩

theorem c02_reduce_u128 {p : Nat} {m : Modulus} (h : Modulus.new p = .ok m) (pr : Profile) {a : Nat}
    (ha : a < 2 ^ 128) : ∃ r, m.reduceU128 pr a = .ok r ∧ IsResidue p a r := by
  obtain ⟨_, _, rfl, hw⟩ := Modulus.new_inv h
  exact ⟨_, Modulus.reduceU128_ok hw pr ha, isResidue_mod hw.pos rfl⟩

theorem c02_reduce_i64 {p : Nat} {m : Modulus} (h : Modulus.new p = .ok m) (pr : Profile) {a : Int}
    (h1 : -2 ^ 63 ≤ a) (h2 : a < 2 ^ 63) : ∃ r, m.reduceI64 pr a = .ok r ∧ IsResidue p a r := by
  obtain ⟨_, _, rfl, hw⟩ := Modulus.new_inv h
  have hp := hw.pos
  refine ⟨_, Modulus.reduceI64_ok hw pr h1 h2, ?_, ?_⟩
  · have := Int.emod_lt_of_pos a (show (0 : Int) < m.p by omega)
    have := Int.emod_nonneg a (show (m.p : Int) ≠ 0 by omega)
    omega
  · rw [Int.toNat_of_nonneg (Int.emod_nonneg a (by omega))]
    exact Int.mod_modEq _ _

theorem c02_reduce_biguint {p : Nat} {m : Modulus} (h : Modulus.new p = .ok m) (a : Nat) :
    ∃ r, m.reduceBigUint a = .ok r ∧ IsResidue p a r := by
  obtain ⟨_, _, rfl, hw⟩ := Modulus.new_inv h
  exact ⟨_, Modulus.reduceBigUint_ok hw a, isResidue_mod hw.pos rfl⟩

example : ∃ m r, Modulus.new 17 = .ok m ∧ m.reduceBigUint (10 ^ 100) = .ok r ∧ IsResidue 17 (10 ^ 100 : Nat) r := by
  obtain ⟨m, h⟩ := (c01_modulus_new 17).2 (by norm_num)
  obtain ⟨r, hr⟩ := c02_reduce_biguint h (10 ^ 100)
  exact ⟨m, r, h, hr⟩

/-- C02, vector form for `u64` slices: each element is reduced. -/
theorem c02_reduce_vec_u64 {p : Nat} {m : Modulus} (h : Modulus.new p = .ok m) (pr : Profile) {a : List Nat}
    (ha : ∀ x ∈ a, x < 2 ^ 64) : m.reduceVecU64 pr a = .ok (a.map (· % p)) := by
  obtain ⟨_, _, rfl, hw⟩ := Modulus.new_inv h
  exact mapR_ok fun x hx => Modulus.reduce_ok hw pr (ha x hx)

example : ∃ m, Modulus.new 17 = .ok m ∧ m.reduceVecU64 .debug [5, 17, 40] = .ok [5, 0, 6] := by
  obtain ⟨m, h⟩ := (c01_modulus_new 17).2 (by norm_num)
  exact ⟨m, h, c02_reduce_vec_u64 h _ (by simp)⟩

theorem c02_reduce_vec_i64 {p : Nat} {m : Modulus} (h : Modulus.new p = .ok m) (pr : Profile) {a : List Int}
    (ha : ∀ x ∈ a, -2 ^ 63 ≤ x ∧ x < 2 ^ 63) : m.reduceVecI64 pr a = .ok (a.map fun x : Int => (x % (p : Int)).toNat) := by
  obtain ⟨_, _, rfl, hw⟩ := Modulus.new_inv h
  exact mapR_ok fun x hx => Modulus.reduceI64_ok hw pr (ha x hx).1 (ha x hx).2

example : ∃ m, Modulus.new 17 = .ok m ∧ m.reduceVecI64 .debug [5, -1, -40] = .ok [5, 16, 11] := by
  obtain ⟨m, h⟩ := (c01_modulus_new 17).2 (by norm_num)
  exact ⟨m, h, c02_reduce_vec_i64 h _ (by simp)⟩

theorem c02_reduce_vec_biguint {p : Nat} {m : Modulus} (h : Modulus.new p = .ok m) (a : List Nat) :
    m.reduceVecBigUint a = .ok (a.map (· % p)) := by
  obtain ⟨_, _, rfl, hw⟩ := Modulus.new_inv h
  exact mapR_ok fun x _ => Modulus.reduceBigUint_ok hw x

example : ∃ m, Modulus.new 17 = .ok m ∧ m.reduceVecBigUint [2 ^ 100, 16] = .ok [16, 16] := by
  obtain ⟨m, h⟩ := (c01_modulus_new 17).2 (by norm_num)
  exact ⟨m, h, c02_reduce_vec_biguint h _⟩

/-- The canonical residue is unique, so C02 determines the results. -/
theorem c02_unique {p : Nat} {x : Int} {r s : Nat} (hr : IsResidue p x r) (hs : IsResidue p x s) : r = s := by
  have h := (hr.2.trans hs.2.symm).eq
  rw [Int.emod_eq_of_lt (by omega) (by have := hr.1; omega), Int.emod_eq_of_lt (by omega) (by have := hs.1; omega)] at h
  omega

example {s : Nat} (h : IsResidue 17 (-1) s) : 16 = s := c02_unique (p := 17) (x := -1) (r := 16) ⟨by norm_num, by decide⟩ h

example : ∃ m, Modulus.new 17 = .ok m ∧ (∃ r, m.reduceU128 .debug (2 ^ 128 - 1) = .ok r ∧ IsResidue 17 (2 ^ 128 - 1 : Nat) r) ∧
    (∃ r, m.reduceI64 .debug (-2 ^ 63) = .ok r ∧ IsResidue 17 (-2 ^ 63) r) := by
  obtain ⟨m, h⟩ := (c01_modulus_new 17).2 (by norm_num)
  exact ⟨m, h, c02_reduce_u128 h _ (by norm_num), c02_reduce_i64 h _ (by norm_num) (by norm_num)⟩

/-- C03. Lazy reductions: congruent and below `2p`, for every input of the type. -/
theorem c03_lazy_reduce_ct {p : Nat} {m : Modulus} (h : Modulus.new p = .ok m) (pr : Profile) {a : Nat}
    (ha : a < 2 ^ 64) : ∃ r, m.lazyReduceCt pr a = .ok r ∧ IsLazyResidue p a r := by
  obtain ⟨_, _, rfl, hw⟩ := Modulus.new_inv h
  obtain ⟨v, h1, h2, h3⟩ := Modulus.lazyReduceCt_ok hw pr ha
  exact ⟨v, h1, h2, Int.natCast_modEq_iff.mpr h3⟩

example : ∃ m r, Modulus.new 17 = .ok m ∧ m.lazyReduceCt .debug (2 ^ 64 - 1) = .ok r ∧ IsLazyResidue 17 (2 ^ 64 - 1 : Nat) r := by
  obtain ⟨m, h⟩ := (c01_modulus_new 17).2 (by norm_num)
  obtain ⟨r, hr⟩ := c03_lazy_reduce_ct h .debug (a := 2 ^ 64 - 1) (by norm_num)
  exact ⟨m, r, h, hr⟩

theorem c03_lazy_reduce_u128 {p : Nat} {m : Modulus} (h : Modulus.new p = .ok m) (pr : Profile) {a : Nat}
    (ha : a < 2 ^ 128) : ∃ r, m.lazyReduceU128 pr a = .ok r ∧ IsLazyResidue p a r := by
  obtain ⟨_, _, rfl, hw⟩ := Modulus.new_inv h
  obtain ⟨v, h1, h2, h3⟩ := Modulus.lazyReduceU128_ok hw pr ha
  exact ⟨v, h1, h2, Int.natCast_modEq_iff.mpr h3⟩

/-- `reduce_ct`, used with `p` and with `2p` as second argument. -/
theorem c03_reduce_ct (pr : Profile) {x p : Nat} (hp : p < 2 ^ 63) (hx : x < 2 * p) :
    ∃ r, Modulus.reduceCt pr x p = .ok r ∧ IsResidue p x r :=
  ⟨_, Modulus.reduceCt_ok pr hp hx, isResidue_mod (by omega) rfl⟩

example : ∃ r, Modulus.reduceCt .debug 33 17 = .ok r ∧ IsResidue 17 (33 : Nat) r := c03_reduce_ct _ (by norm_num) (by norm_num)

example : ∃ m, Modulus.new 3 = .ok m ∧ ∃ r, m.lazyReduceU128 .debug (2 ^ 128 - 1) = .ok r ∧ IsLazyResidue 3 (2 ^ 128 - 1 : Nat) r := by
  obtain ⟨m, h⟩ := (c01_modulus_new 3).2 (by norm_num)
  exact ⟨m, h, c03_lazy_reduce_u128 h _ (by norm_num)⟩

/-- C04. Exactness of the modular operations on canonical operands. -/
theorem c04_add {p : Nat} {m : Modulus} (h : Modulus.new p = .ok m) (pr : Profile) {a b : Nat}
    (ha : a < p) (hb : b < p) : ∃ r, m.add pr a b = .ok r ∧ IsResidue p (a + b) r := by
  obtain ⟨_, _, rfl, hw⟩ := Modulus.new_inv h
  exact ⟨_, Modulus.add_ok hw pr ha hb, isResidue_mod hw.pos (by push_cast; rfl)⟩

example : ∃ m r, Modulus.new 17 = .ok m ∧ m.add .debug 16 16 = .ok r ∧ IsResidue 17 ((16 : Nat) + (16 : Nat)) r := by
  obtain ⟨m, h⟩ := (c01_modulus_new 17).2 (by norm_num)
  obtain ⟨r, hr⟩ := c04_add h .debug (a := 16) (b := 16) (by norm_num) (by norm_num)
  exact ⟨m, r, h, hr⟩

theorem c04_sub {p : Nat} {m : Modulus} (h : Modulus.new p = .ok m) (pr : Profile) {a b : Nat}
    (ha : a < p) (hb : b < p) : ∃ r, m.sub pr a b = .ok r ∧ IsResidue p (a - b) r := by
  obtain ⟨_, _, rfl, hw⟩ := Modulus.new_inv h
  refine ⟨_, Modulus.sub_ok hw pr ha hb, isResidue_mod hw.pos ?_⟩
  push_cast [hb.le]
  rw [show (a + (m.p - b) : Int) = (a - b) + m.p by ring]
  exact Int.add_modEq_right

example : ∃ m r, Modulus.new 17 = .ok m ∧ m.sub .debug 3 16 = .ok r ∧ IsResidue 17 ((3 : Nat) - (16 : Nat)) r := by
  obtain ⟨m, h⟩ := (c01_modulus_new 17).2 (by norm_num)
  obtain ⟨r, hr⟩ := c04_sub h .debug (a := 3) (b := 16) (by norm_num) (by norm_num)
  exact ⟨m, r, h, hr⟩

theorem c04_mul {p : Nat} {m : Modulus} (h : Modulus.new p = .ok m) (pr : Profile) {a b : Nat}
    (ha : a < p) (hb : b < p) : ∃ r, m.mul pr a b = .ok r ∧ IsResidue p (a * b) r := by
  obtain ⟨_, _, rfl, hw⟩ := Modulus.new_inv h
  exact ⟨_, Modulus.mul_ok hw pr ha hb, isResidue_mod hw.pos (by push_cast; rfl)⟩

example : ∃ m r, Modulus.new 4611686018427387761 = .ok m ∧ m.mul .debug 4611686018427387760 4611686018427387760 = .ok r ∧
    IsResidue 4611686018427387761 ((4611686018427387760 : Nat) * (4611686018427387760 : Nat)) r := by
  obtain ⟨m, h⟩ := (c01_modulus_new 4611686018427387761).2 (by norm_num)
  obtain ⟨r, hr⟩ := c04_mul h .debug (a := 4611686018427387760) (b := 4611686018427387760) (by norm_num) (by norm_num)
  exact ⟨m, r, h, hr⟩

theorem c04_neg {p : Nat} {m : Modulus} (h : Modulus.new p = .ok m) (pr : Profile) {a : Nat}
    (ha : a < p) : ∃ r, m.neg pr a = .ok r ∧ IsResidue p (-a) r := by
  obtain ⟨_, _, rfl, hw⟩ := Modulus.new_inv h
  refine ⟨_, Modulus.neg_ok hw pr ha, isResidue_mod hw.pos ?_⟩
  push_cast [ha.le]
  rw [show (m.p - a : Int) = -a + m.p by ring]
  exact Int.add_modEq_right

example : ∃ m r, Modulus.new 17 = .ok m ∧ m.neg .debug 5 = .ok r ∧ IsResidue 17 (-(5 : Nat)) r := by
  obtain ⟨m, h⟩ := (c01_modulus_new 17).2 (by norm_num)
  obtain ⟨r, hr⟩ := c04_neg h .debug (a := 5) (by norm_num)
  exact ⟨m, r, h, hr⟩

/-- Elementwise action of an in-place vector operation: positions present in both slices get a canonical
result of `op`, the other positions of the destination keep their value. -/
def Spec.Elementwise (p : Nat) (op : Int → Int → Int) (a b r : List Nat) : Prop :=
  r.length = a.length ∧
  (∀ (i x y : Nat), a[i]? = some x → b[i]? = some y → ∃ v, r[i]? = some v ∧ IsResidue p (op x y) v) ∧
  (∀ (i : Nat), b.length ≤ i → r[i]? = a[i]?)

theorem elementwise_of {f : Nat → Nat → Res Nat} {p : Nat} {op : Int → Int → Int}
    (hf : ∀ a b, a < p → b < p → ∃ r, f a b = .ok r ∧ IsResidue p (op a b) r) :
    ∀ (a b : List Nat), (∀ x ∈ a, x < p) → (∀ x ∈ b, x < p) → ∃ r, zipMutM f a b = .ok r ∧ Spec.Elementwise p op a b r
  | [], b, _, _ => ⟨[], by simp [zipMutM], by simp [Spec.Elementwise]⟩
  | a :: as, [], _, _ => ⟨a :: as, by simp [zipMutM], by simp [Spec.Elementwise]⟩
  | a :: as, b :: bs, ha, hb => by
    obtain ⟨v, h1, h2⟩ := hf a b (ha _ (by simp)) (hb _ (by simp))
    obtain ⟨r, h3, h4, h5, h6⟩ := elementwise_of hf as bs (fun x hx => ha x (by simp [hx])) (fun x hx => hb x (by simp [hx]))
    refine ⟨v :: r, by simp [zipMutM, h1, h3], by simp [h4], ?_, ?_⟩
    · intro i x y hx hy
      cases i with
      | zero => simp at hx hy; subst hx hy; exact ⟨v, by simp, h2⟩
      | succ i => simpa using h5 i x y (by simpa using hx) (by simpa using hy)
    · intro i hi
      cases i with
      | zero => simp at hi
      | succ i => simpa using h6 i (by simpa using hi)

theorem c04_vec {p : Nat} {m : Modulus} (h : Modulus.new p = .ok m) (pr : Profile) {a b : List Nat}
    (ha : ∀ x ∈ a, x < p) (hb : ∀ x ∈ b, x < p) :
    (∃ r, m.addVec pr a b = .ok r ∧ Spec.Elementwise p (· + ·) a b r) ∧
    (∃ r, m.subVec pr a b = .ok r ∧ Spec.Elementwise p (· - ·) a b r) ∧
    (∃ r, m.mulVec pr a b = .ok r ∧ Spec.Elementwise p (· * ·) a b r) :=
  ⟨elementwise_of (fun _ _ => c04_add h pr) a b ha hb, elementwise_of (fun _ _ => c04_sub h pr) a b ha hb,
    elementwise_of (fun _ _ => c04_mul h pr) a b ha hb⟩

example : ∃ m r, Modulus.new 17 = .ok m ∧ m.mulVec .debug [16, 3, 5] [16, 6] = .ok r ∧ Spec.Elementwise 17 (· * ·) [16, 3, 5] [16, 6] r := by
  obtain ⟨m, h⟩ := (c01_modulus_new 17).2 (by norm_num)
  obtain ⟨-, -, r, hr⟩ := c04_vec h .debug (a := [16, 3, 5]) (b := [16, 6]) (by simp) (by simp)
  exact ⟨m, r, h, hr⟩

theorem c04_neg_vec {p : Nat} {m : Modulus} (h : Modulus.new p = .ok m) (pr : Profile) {a : List Nat}
    (ha : ∀ x ∈ a, x < p) : ∃ r, m.negVec pr a = .ok r ∧ r.length = a.length ∧
      ∀ (i x : Nat), a[i]? = some x → ∃ v, r[i]? = some v ∧ IsResidue p (-x) v := by
  obtain ⟨_, _, hm, hw⟩ := Modulus.new_inv h
  refine ⟨_, mapR_ok (g := fun x => (m.p - x) % m.p) fun x hx => Modulus.neg_ok hw pr (hm ▸ ha x hx), by simp, ?_⟩
  intro i x hx
  refine ⟨_, by rw [List.getElem?_map, hx]; rfl, ?_⟩
  obtain ⟨r, h1, h2⟩ := c04_neg h pr (ha x (List.mem_of_getElem? hx))
  rw [Modulus.neg_ok hw pr (hm ▸ ha x (List.mem_of_getElem? hx))] at h1
  cases h1; exact h2

example : ∃ m r, Modulus.new 17 = .ok m ∧ m.negVec .debug [0, 16, 5] = .ok r ∧ r.length = 3 := by
  obtain ⟨m, h⟩ := (c01_modulus_new 17).2 (by norm_num)
  obtain ⟨r, h1, h2, -⟩ := c04_neg_vec h .debug (a := [0, 16, 5]) (by simp)
  exact ⟨m, r, h, h1, h2⟩

example : ∃ m, Modulus.new 17 = .ok m ∧ m.sub .debug 3 16 = .ok 4 ∧ m.neg .debug 0 = .ok 0 ∧ m.addVec .debug [16, 16, 5] [16, 1] = .ok [15, 0, 5] := by
  refine ⟨_, rfl, ?_, ?_, ?_⟩ <;> decide +kernel

/-- C05. Shoup multiplication, with the precomputed `b_shoup = shoup(b)`. -/
theorem c05_shoup {p : Nat} {m : Modulus} (h : Modulus.new p = .ok m) (pr : Profile) {a b : Nat}
    (ha : a < 2 ^ 64) (hb : b < p) :
    ∃ bs, m.shoup pr b = .ok bs ∧
      (∃ r, m.mulShoup pr a b bs = .ok r ∧ IsResidue p (a * b) r) ∧
      (∃ r, m.lazyMulShoup pr a b bs = .ok r ∧ IsLazyResidue p (a * b) r) := by
  obtain ⟨_, _, rfl, hw⟩ := Modulus.new_inv h
  refine ⟨_, Modulus.shoup_ok hw pr hb, ⟨_, Modulus.mulShoup_ok hw pr ha hb, isResidue_mod hw.pos (by push_cast; rfl)⟩, ?_⟩
  obtain ⟨v, h1, h2, h3⟩ := Modulus.lazyMulShoup_ok hw pr ha hb
  refine ⟨v, h1, h2, ?_⟩
  have := Int.natCast_modEq_iff.mpr (show v ≡ a * b [MOD m.p] from h3)
  push_cast at this; exact this

example : ∃ m bs r, Modulus.new 17 = .ok m ∧ m.shoup .debug 16 = .ok bs ∧ m.mulShoup .debug (2 ^ 64 - 1) 16 bs = .ok r ∧
    IsResidue 17 ((2 ^ 64 - 1 : Nat) * (16 : Nat)) r := by
  obtain ⟨m, h⟩ := (c01_modulus_new 17).2 (by norm_num)
  obtain ⟨bs, h1, ⟨r, hr⟩, -⟩ := c05_shoup h .debug (a := 2 ^ 64 - 1) (b := 16) (by norm_num) (by norm_num)
  exact ⟨m, bs, r, h, h1, hr⟩

theorem c05_scalar_mul_vec {p : Nat} {m : Modulus} (h : Modulus.new p = .ok m) (pr : Profile) {a : List Nat} {b : Nat}
    (ha : ∀ x ∈ a, x < 2 ^ 64) (hb : b < p) :
    ∃ r, m.scalarMulVec pr a b = .ok r ∧ r.length = a.length ∧
      ∀ (i x : Nat), a[i]? = some x → ∃ v, r[i]? = some v ∧ IsLazyResidue p (x * b) v := by
  induction a with
  | nil => 
    obtain ⟨bs, h1, -⟩ := c05_shoup h pr (a := 0) (by norm_num) hb
    exact ⟨[], by simp [Modulus.scalarMulVec, h1, mapR], by simp⟩
  | cons x xs ih =>
    obtain ⟨bs, h1, -, v, h2, h3⟩ := c05_shoup h pr (ha x (by simp)) hb
    obtain ⟨r, h4, h5, h6⟩ := ih (fun y hy => ha y (by simp [hy]))
    simp only [Modulus.scalarMulVec, h1, res_ok_bind] at h4
    refine ⟨v :: r, by simp [Modulus.scalarMulVec, h1, mapR, h2, h4], by simp [h5], ?_⟩
    intro i y hy
    cases i with
    | zero => simp at hy; subst hy; exact ⟨v, by simp, h3⟩
    | succ i => simpa using h6 i y (by simpa using hy)

example : ∃ m r, Modulus.new 17 = .ok m ∧ m.scalarMulVec .debug [2 ^ 64 - 1, 3] 16 = .ok r ∧ r.length = 2 := by
  obtain ⟨m, h⟩ := (c01_modulus_new 17).2 (by norm_num)
  obtain ⟨r, h1, h2, -⟩ := c05_scalar_mul_vec h .debug (a := [2 ^ 64 - 1, 3]) (b := 16) (by simp) (by norm_num)
  exact ⟨m, r, h, h1, h2⟩

example : ∃ m, Modulus.new 17 = .ok m ∧ m.shoup .debug 5 = .ok 5425512962855750475 ∧
    m.mulShoup .debug (2 ^ 64 - 1) 5 5425512962855750475 = .ok 0 := by
  refine ⟨_, rfl, ?_, ?_⟩ <;> decide +kernel

/-- C06. Exponentiation and inversion. -/
theorem c06_pow {p : Nat} {m : Modulus} (h : Modulus.new p = .ok m) (pr : Profile) {a r : Nat}
    (ha : a < p) (hr : r < p) : ∃ v, m.pow pr a r = .ok v ∧ IsResidue p (a ^ r) v := by
  obtain ⟨_, _, rfl, hw⟩ := Modulus.new_inv h
  exact ⟨_, Modulus.pow_ok hw pr ha hr, isResidue_mod hw.pos (by push_cast; rfl)⟩

example : ∃ m v, Modulus.new 17 = .ok m ∧ m.pow .debug 3 13 = .ok v ∧ IsResidue 17 ((3 : Nat) ^ 13) v := by
  obtain ⟨m, h⟩ := (c01_modulus_new 17).2 (by norm_num)
  obtain ⟨v, hv⟩ := c06_pow h .debug (a := 3) (r := 13) (by norm_num) (by norm_num)
  exact ⟨m, v, h, hv⟩

theorem c06_inv {p : Nat} {m : Modulus} (h : Modulus.new p = .ok m) (pr : Profile) (hp : p.Prime) {a : Nat}
    (ha : a < p) (h0 : a ≠ 0) : ∃ v, m.inv pr a = .ok v ∧ v < p ∧ (v * a : Int) ≡ 1 [ZMOD p] := by
  obtain ⟨_, _, rfl, hw⟩ := Modulus.new_inv h
  refine ⟨_, Modulus.inv_ok hw pr ha h0, Nat.mod_lt _ hw.pos, ?_⟩
  have h1 := Modulus.inv_spec hp ha h0
  have h2 : a ^ (m.p - 2) % m.p * a ≡ 1 [MOD m.p] := by
    unfold Nat.ModEq; rw [h1, Nat.mod_eq_of_lt hp.one_lt]
  have := Int.natCast_modEq_iff.mpr h2
  push_cast at this
  exact_mod_cast this

example : ∃ m v, Modulus.new 17 = .ok m ∧ m.inv .debug 5 = .ok v ∧ v < 17 ∧ (v * (5 : Nat) : Int) ≡ 1 [ZMOD (17 : Nat)] := by
  obtain ⟨m, h⟩ := (c01_modulus_new 17).2 (by norm_num)
  obtain ⟨v, hv⟩ := c06_inv h .debug (by norm_num) (a := 5) (by norm_num) (by norm_num)
  exact ⟨m, v, h, hv⟩

theorem c06_inv_vec {p : Nat} {m : Modulus} (h : Modulus.new p = .ok m) (pr : Profile) (hp : p.Prime) {a : List Nat}
    (ha : ∀ x ∈ a, x < p ∧ x ≠ 0) : ∃ r, m.invVec pr a = .ok r ∧ r.length = a.length ∧
      ∀ (i x : Nat), a[i]? = some x → ∃ v, r[i]? = some v ∧ v < p ∧ (v * x : Int) ≡ 1 [ZMOD p] := by
  obtain ⟨_, _, hm, hw⟩ := Modulus.new_inv h
  subst hm
  refine ⟨_, mapR_ok fun x hx => Modulus.inv_ok hw pr (ha x hx).1 (ha x hx).2, by simp, ?_⟩
  intro i x hx
  have hx' := ha x (List.mem_of_getElem? hx)
  refine ⟨_, by rw [List.getElem?_map, hx]; rfl, ?_⟩
  obtain ⟨v, h1, h2⟩ := c06_inv h pr hp hx'.1 hx'.2
  rw [Modulus.inv_ok hw pr hx'.1 hx'.2] at h1
  cases h1; exact h2

example : ∃ m r, Modulus.new 17 = .ok m ∧ m.invVec .debug [1, 5, 16] = .ok r ∧ r.length = 3 := by
  obtain ⟨m, h⟩ := (c01_modulus_new 17).2 (by norm_num)
  obtain ⟨r, h1, h2, -⟩ := c06_inv_vec h .debug (by norm_num) (a := [1, 5, 16]) (by simp)
  exact ⟨m, r, h, h1, h2⟩

example : ∃ m, Modulus.new 17 = .ok m ∧ m.pow .debug 3 16 = .ok 1 ∧ m.pow .debug 3 8 = .ok 16 ∧ m.inv .debug 3 = .ok 6 := by
  refine ⟨_, rfl, ?_, ?_, ?_⟩ <;> decide +kernel

/-- C07 is false of the code: `bits()` never returns the bit length of the modulus
(it returns `2^64 - 1 - leading_zeros`), for *every* modulus and both profiles. -/
theorem c07_bits_wrong {p : Nat} {m : Modulus} (h : Modulus.new p = .ok m) (pr : Profile) :
    m.bits pr ≠ .ok (Nat.size p) := by
  obtain ⟨h2, hlt, rfl, hw⟩ := Modulus.new_inv h
  have hs : Nat.size m.p ≤ 62 := Nat.size_le.mpr hlt
  have hlz : leadingZeros 64 m.p ≤ 63 := by
    unfold leadingZeros; rw [if_neg (by omega)]; omega
  unfold Modulus.bits
  rw [subW_ok (by omega)]
  intro hc
  injection hc with hc
  omega

/-- C07, what the code does return. -/
theorem c07_bits_partial {p : Nat} {m : Modulus} (h : Modulus.new p = .ok m) (pr : Profile) :
    m.bits pr = .ok (2 ^ 64 - 65 + Nat.size p) := by
  obtain ⟨h2, hlt, rfl, hw⟩ := Modulus.new_inv h
  have hs : Nat.size m.p = m.p.log2 + 1 := by
    apply le_antisymm
    · exact Nat.size_le.mpr Nat.lt_log2_self
    · exact Nat.lt_size.mpr (Nat.log2_self_le (by omega))
  have hlog : m.p.log2 < 62 := (Nat.log2_lt (by omega)).mpr hlt
  unfold Modulus.bits leadingZeros
  rw [if_neg (by omega), subW_ok (by omega), hs]
  congr 1; omega

example : ∃ m, Modulus.new 1153 = .ok m ∧ m.bits .debug = .ok (2 ^ 64 - 65 + Nat.size 1153) := by
  obtain ⟨m, h⟩ := (c01_modulus_new 1153).2 (by norm_num)
  exact ⟨m, h, c07_bits_partial h _⟩

example : ∃ m, Modulus.new 17 = .ok m ∧ m.bits .debug = .ok 18446744073709551556 := by
  refine ⟨_, rfl, ?_⟩; decide +kernel

end OnionPIR
