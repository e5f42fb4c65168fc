import Verif.Model.Bfv
import Verif.Model.Pir
/-
Property C76: the machine operations of the model are those of Lean's fixed-width bit vectors (the semantics of the Rust integer types),
and its loops are the monadic loops of Lean's library.
-/
namespace OnionPIR

variable {w : Nat}

/-- C76: `+` panics on overflow in the debug profile and wraps in the release profile. -/
theorem c76_add (pr : Profile) (x y : BitVec w) : addW w pr x.toNat y.toNat =
    if pr = .debug ∧ BitVec.uaddOverflow x y then .error .overflow else .ok (x + y).toNat := by
  unfold addW fit BitVec.uaddOverflow
  rw [BitVec.toNat_add]
  by_cases h : x.toNat + y.toNat < 2 ^ w
  · simp [h, Nat.mod_eq_of_lt h, not_le.mpr h]
  · cases pr <;> simp [h, not_lt.mp h]

/-- C76: `*` panics on overflow in the debug profile and wraps in the release profile. -/
theorem c76_mul (pr : Profile) (x y : BitVec w) : mulW w pr x.toNat y.toNat =
    if pr = .debug ∧ BitVec.umulOverflow x y then .error .overflow else .ok (x * y).toNat := by
  unfold mulW fit BitVec.umulOverflow
  rw [BitVec.toNat_mul]
  by_cases h : x.toNat * y.toNat < 2 ^ w
  · simp [h, Nat.mod_eq_of_lt h, not_le.mpr h]
  · cases pr <;> simp [h, not_lt.mp h]

/-- C76: `-` panics below zero in the debug profile and wraps in the release profile. -/
theorem c76_sub (pr : Profile) (x y : BitVec w) : subW w pr x.toNat y.toNat =
    if pr = .debug ∧ BitVec.usubOverflow x y then .error .overflow else .ok (x - y).toNat := by
  unfold subW BitVec.usubOverflow
  rw [BitVec.toNat_sub]
  have hx := x.isLt
  have hy := y.isLt
  have e : 2 ^ w - y.toNat + x.toNat = x.toNat + 2 ^ w - y.toNat := by omega
  by_cases h : y.toNat ≤ x.toNat
  · have : 2 ^ w - y.toNat + x.toNat = (x.toNat - y.toNat) + 2 ^ w := by omega
    rw [this, Nat.add_mod_right, Nat.mod_eq_of_lt (show x.toNat - y.toNat < 2 ^ w by omega)]
    simp [h, not_lt.mpr h]
  · cases pr <;> simp [h, not_le.mp h, e]

/-- C76: `/` panics for a zero divisor. -/
theorem c76_div (x y : BitVec w) : divR x.toNat y.toNat = if y = 0 then .error .divZero else .ok (x / y).toNat := by
  unfold divR
  simp only [BitVec.toNat_udiv, ← BitVec.toNat_inj (y := (0 : BitVec w))]
  simp

/-- C76: `%` panics for a zero divisor. -/
theorem c76_mod (x y : BitVec w) : modR x.toNat y.toNat = if y = 0 then .error .divZero else .ok (x % y).toNat := by
  unfold modR
  simp only [BitVec.toNat_umod, ← BitVec.toNat_inj (y := (0 : BitVec w))]
  simp

/-- C76: `leading_zeros`. -/
theorem c76_leading_zeros (x : BitVec w) : leadingZeros w x.toNat = x.clz.toNat := by
  unfold leadingZeros
  by_cases h : x = 0#w
  · subst h
    have : (0#w).clz = w := BitVec.clz_eq_iff_eq_zero.mpr rfl
    rw [this]
    simp [Nat.mod_eq_of_lt Nat.lt_two_pow_self]
  · have hx : x.toNat ≠ 0 := fun h0 => h (by apply BitVec.eq_of_toNat_eq; simpa using h0)
    have hw : 0 < w := by
      rcases Nat.eq_zero_or_pos w with rfl | h0
      · exact absurd (BitVec.eq_of_zero_length rfl) h
      · exact h0
    rw [if_neg hx]
    have h1 := @BitVec.toNat_lt_two_pow_sub_clz w x
    have h2 := BitVec.two_pow_sub_clz_le_toNat_of_ne_zero hw h
    have h3 : x.clz.toNat < w := by
      by_contra h3
      rw [Nat.sub_eq_zero_of_le (not_lt.mp h3)] at h1
      omega
    have h4 : x.toNat.log2 < w - x.clz.toNat := (Nat.log2_lt hx).mpr h1
    have h5 : w - 1 - x.clz.toNat ≤ x.toNat.log2 := (Nat.le_log2 hx).mpr h2
    omega

theorem Machine.concat {w : Nat} (x : BitVec (w + 1)) : ∃ (y : BitVec w) (b : Bool), x = y.concat b ∧ x.toNat / 2 = y.toNat ∧ x.toNat % 2 = b.toNat := by
  have hx := x.isLt
  have hy : x.toNat / 2 < 2 ^ w := by rw [pow_succ] at hx; omega
  have e : (decide (x.toNat % 2 = 1)).toNat = x.toNat % 2 := by
    rcases Nat.mod_two_eq_zero_or_one x.toNat with h | h <;> simp [h]
  refine ⟨BitVec.ofNat w (x.toNat / 2), decide (x.toNat % 2 = 1), BitVec.eq_of_toNat_eq ?_, ?_, e.symm⟩
  · rw [BitVec.toNat_concat, BitVec.toNat_ofNat, Nat.mod_eq_of_lt hy, e]; omega
  · rw [BitVec.toNat_ofNat, Nat.mod_eq_of_lt hy]

theorem Machine.reverse_concat {w : Nat} (y : BitVec w) (b : Bool) : (y.concat b).reverse = BitVec.cons b y.reverse := by
  apply BitVec.eq_of_getLsbD_eq
  intro i hi
  rw [BitVec.getLsbD_reverse, BitVec.getLsbD_cons, BitVec.getMsbD_concat, BitVec.getLsbD_reverse]
  by_cases h : i = w
  · subst h; simp
  · have h1 : i < w := by omega
    simp [h, h1]

/-- C76: `reverse_bits`. -/
theorem c76_reverse_bits : ∀ {w : Nat} (x : BitVec w), reverseBits w x.toNat = x.reverse.toNat
  | 0, x => by rw [BitVec.eq_nil x.reverse]; rfl
  | w + 1, x => by
    obtain ⟨y, b, rfl, h1, h2⟩ := Machine.concat x
    rw [reverseBits, h1, h2, c76_reverse_bits y, Machine.reverse_concat, BitVec.toNat_cons', Nat.shiftLeft_eq]

/-- C76: `count_ones`. -/
theorem c76_count_ones : ∀ {w : Nat} (x : BitVec w), countOnes w x.toNat = x.cpop.toNat
  | 0, x => by rw [BitVec.eq_nil x.cpop]; rfl
  | w + 1, x => by
    obtain ⟨y, b, rfl, h1, h2⟩ := Machine.concat x
    rw [countOnes, h1, h2, c76_count_ones y, BitVec.toNat_cpop_concat]

theorem Machine.toNat_pow (x : BitVec w) (e : Nat) : (x ^ e).toNat = x.toNat ^ e % 2 ^ w := by
  induction e with
  | zero => simp
  | succ e ih => rw [BitVec.pow_succ, BitVec.toNat_mul, ih, pow_succ, Nat.mod_mul_mod]

/-- C76: `pow`. -/
theorem c76_pow (pr : Profile) (x : BitVec w) {e : Nat} (he : e < 2 ^ 32) : powW w pr x.toNat e =
    if pr = .debug ∧ 2 ^ w ≤ x.toNat ^ e then .error .overflow else .ok (x ^ e).toNat := by
  unfold powW fit
  rw [Nat.mod_eq_of_lt he, Machine.toNat_pow]
  by_cases h : x.toNat ^ e < 2 ^ w
  · simp [h, Nat.mod_eq_of_lt h, not_le.mpr h]
  · cases pr <;> simp [h, not_lt.mp h]

/-- C76: assertions. -/
theorem c76_assert (c : Prop) [Decidable c] (pr : Profile) : (rassert c = .ok () ↔ c) ∧ (rassert c = .error .assert ↔ ¬ c) ∧
    (dassert pr c = .ok () ↔ pr = .release ∨ c) ∧ (dassert pr c = .error .debugAssert ↔ pr = .debug ∧ ¬ c) := by
  unfold rassert dassert
  by_cases h : c <;> cases pr <;> simp [h]

/-- C76: assertions that compare with a computed value, which is computed in the debug profile only. -/
theorem c76_assert_eq (x : Nat) (y : Res Nat) : dassertEqR .release x y = .ok () ∧ (dassertEqR .debug x y = .ok () ↔ y = .ok x) ∧
    (dassertEqR .debug x y = .error .debugAssert ↔ y = .error .debugAssert ∨ ∃ v, y = .ok v ∧ v ≠ x) := by
  unfold dassertEqR dassert
  refine ⟨rfl, ?_⟩
  cases y with
  | error e => simp
  | ok v => by_cases h : x = v <;> simp [h, eq_comm]

/-- C76: `unwrap`. -/
theorem c76_unwrap {α : Type _} (o : Option α) (a : α) : (unwrapR o = .ok a ↔ o = some a) ∧ (unwrapR o = .error .unwrap ↔ o = none) := by
  cases o <;> simp [unwrapR]

/-- C76: indexing. -/
theorem c76_index {α : Type _} (l : List α) (i : Nat) : idx l i = if h : i < l.length then .ok l[i] else .error .bounds := by
  unfold idx
  by_cases h : i < l.length <;> simp [h]

/-- C76: assignment to an index changes that entry only. -/
theorem c76_set {α : Type _} (l : List α) (i : Nat) (x : α) :
    (i < l.length → ∃ l', setR l i x = .ok l' ∧ l'.length = l.length ∧ ∀ j, l'[j]? = if j = i then some x else l[j]?) ∧
    (l.length ≤ i → setR l i x = .error .bounds) := by
  unfold setR
  refine ⟨fun h => ⟨l.set i x, if_pos h, List.length_set, fun j => ?_⟩, fun h => if_neg (not_lt.mpr h)⟩
  rw [List.getElem?_set]
  by_cases hj : j = i
  · subst hj; simp [h]
  · simp [hj, Ne.symm hj]

/-- C76: `for` loops. -/
theorem c76_for {α σ : Type _} (f : σ → α → Res σ) (s : σ) (l : List α) : foldR f s l = l.foldlM f s := by
  induction l generalizing s with
  | nil => rfl
  | cons a l ih => simp only [foldR, List.foldlM_cons, ih]

/-- C76: `map(f).collect()`. -/
theorem c76_map {α β : Type _} (f : α → Res β) (l : List α) : mapR f l = l.mapM f := by
  induction l with
  | nil => rfl
  | cons a l ih => simp only [mapR, List.mapM_cons, ih]; rfl

/-- C76: `izip!(as, bs).map(f).collect()`. -/
theorem c76_zip {α β γ : Type _} (f : α → β → Res γ) (as : List α) (bs : List β) : zipR f as bs = (as.zip bs).mapM fun p => f p.1 p.2 := by
  induction as generalizing bs with
  | nil => rfl
  | cons a as ih =>
    cases bs with
    | nil => rfl
    | cons b bs => simp only [zipR, List.zip_cons_cons, List.mapM_cons, ih]; rfl

/-- C76: `izip!(as.iter_mut(), bs).for_each(|(a, b)| *a = f(a, b))`. -/
theorem c76_zip_mut {α β : Type _} (f : α → β → Res α) (as : List α) (bs : List β) : zipMutM f as bs =
    (do let r ← (as.zip bs).mapM (fun p => f p.1 p.2); pure (r ++ as.drop bs.length)) := by
  induction as generalizing bs with
  | nil => simp [zipMutM]
  | cons a as ih =>
    cases bs with
    | nil => rfl
    | cons b bs =>
      simp only [zipMutM, List.zip_cons_cons, List.mapM_cons, ih, List.length_cons, List.drop_succ_cons, bind_assoc, pure_bind]
      rfl

example : addW 64 .release (2 ^ 64 - 1) 5 = .ok 4 ∧ addW 64 .debug (2 ^ 64 - 1) 5 = .error .overflow ∧ subW 64 .release 3 5 = .ok (2 ^ 64 - 2) ∧
    mulW 64 .release (2 ^ 63 + 1) 6 = .ok 6 ∧ leadingZeros 64 5 = 61 ∧ reverseBits 8 5 = 160 ∧ countOnes 8 0b1011 = 3 := by
  decide

/-- `c76_pow`, `c76_set`, `c76_for`, `c76_map` and `c76_zip` on small data. -/
example : powW 64 .debug (3#64).toNat 5 = .ok 243 ∧ powW 64 .debug (2#64).toNat 64 = .error .overflow ∧ powW 64 .release (2#64).toNat 64 = .ok 0 ∧
    setR [1, 2, 3] 1 7 = .ok [1, 7, 3] ∧ setR [1, 2, 3] 3 7 = .error .bounds ∧ foldR (addW 8 .debug) 1 [2, 3, 4] = .ok 10 ∧
    mapR (addW 8 .debug 250) [2, 3, 6] = .error .overflow ∧ zipR (addW 8 .release) [250, 1] [6, 2, 9] = .ok [0, 3] := by
  refine ⟨?_, ?_, ?_, by decide, (c76_set [1, 2, 3] 3 7).2 (by decide), by rw [c76_for]; decide, by rw [c76_map]; decide, by rw [c76_zip]; decide⟩
  · rw [c76_pow _ _ (by decide)]; decide +kernel
  · rw [c76_pow _ _ (by decide)]; decide +kernel
  · rw [c76_pow _ _ (by decide)]; decide +kernel

end OnionPIR
