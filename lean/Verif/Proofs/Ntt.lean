import Verif.Proofs.Bitrev
import Verif.Proofs.Modulus
import Mathlib.Algebra.BigOperators.Ring.Finset
import Mathlib.Algebra.BigOperators.Intervals
/- Lemmas about the NTT model. -/
namespace OnionPIR
namespace NttOperator

/-! ### Pair loops -/

theorem updatePair_ok {a : List Nat} {j l : Nat} {f : Nat → Nat → Res (Nat × Nat)} {r : Nat × Nat} (hl : 0 < l)
    (hj : j + l < a.length) (hf : f (a.getD j 0) (a.getD (j + l) 0) = .ok r) :
    ∃ a', updatePair a j l f = .ok a' ∧ a'.length = a.length ∧ a'.getD j 0 = r.1 ∧ a'.getD (j + l) 0 = r.2 ∧
      ∀ x, x ≠ j → x ≠ j + l → a'.getD x 0 = a.getD x 0 := by
  refine ⟨(a.set j r.1).set (j + l) r.2, ?_, by simp, ?_, ?_, ?_⟩
  · unfold updatePair
    rw [idx_getD 0 (by omega), res_ok_bind, idx_getD 0 hj, res_ok_bind, hf, res_ok_bind]
  · rw [List.getD, List.getElem?_set_ne (by omega), List.getElem?_set_self (by omega)]; rfl
  · rw [List.getD, List.getElem?_set_self (by simpa using hj)]; rfl
  · intro x h1 h2
    rw [List.getD, List.getElem?_set_ne (by omega), List.getElem?_set_ne (by omega)]; rfl

theorem blockLoop_ok {n l i : Nat} (hl : 0 < l) (hi : 2 * i * l + 2 * l ≤ n) (a : List Nat) (ha : a.length = n)
    (f : Nat → Nat → Res (Nat × Nat)) (Q : Nat → Nat → Prop)
    (hf : ∀ j, j < l → ∃ r, f (a.getD (2 * i * l + j) 0) (a.getD (2 * i * l + j + l) 0) = .ok r ∧
      Q (2 * i * l + j) r.1 ∧ Q (2 * i * l + j + l) r.2) :
    ∃ a', foldR (fun a j => updatePair a (2 * i * l + j) l f) a (List.range l) = .ok a' ∧ a'.length = n ∧
      (∀ x, x < 2 * i * l ∨ 2 * i * l + 2 * l ≤ x → a'.getD x 0 = a.getD x 0) ∧
      (∀ x, 2 * i * l ≤ x → x < 2 * i * l + 2 * l → Q x (a'.getD x 0)) := by
  obtain ⟨a', h1, h2, h3, h4⟩ := foldR_range_ok (f := fun a j => updatePair a (2 * i * l + j) l f) (n := l) (s := a)
    (fun j b => b.length = n ∧
      (∀ x, (x < 2 * i * l ∨ (2 * i * l + j ≤ x ∧ x < 2 * i * l + l) ∨ 2 * i * l + l + j ≤ x) → b.getD x 0 = a.getD x 0) ∧
      (∀ y, y < j → Q (2 * i * l + y) (b.getD (2 * i * l + y) 0) ∧ Q (2 * i * l + y + l) (b.getD (2 * i * l + y + l) 0)))
    ⟨ha, fun _ _ => rfl, fun y hy => by omega⟩
    (by
      rintro j b hj ⟨g1, g2, g3⟩
      obtain ⟨r, hr, q1, q2⟩ := hf j hj
      rw [← g2 (2 * i * l + j) (by omega), ← g2 (2 * i * l + j + l) (by omega)] at hr
      obtain ⟨b', e1, e2, e3, e4, e5⟩ := updatePair_ok (a := b) hl (by omega) hr
      refine ⟨b', e1, by omega, ?_, ?_⟩
      · intro x hx
        rw [e5 x (by omega) (by omega)]
        exact g2 x (by omega)
      · intro y hy
        by_cases hyj : y = j
        · subst hyj; rw [e3, e4]; exact ⟨q1, q2⟩
        · rw [e5 _ (by omega) (by omega), e5 _ (by omega) (by omega)]
          exact g3 y (by omega))
  refine ⟨a', h1, h2, fun x hx => h3 x (by omega), ?_⟩
  intro x hx1 hx2
  by_cases hx : x < 2 * i * l + l
  · have := (h4 (x - 2 * i * l) (by omega)).1
    rwa [show 2 * i * l + (x - 2 * i * l) = x by omega] at this
  · have := (h4 (x - 2 * i * l - l) (by omega)).2
    rwa [show 2 * i * l + (x - 2 * i * l - l) + l = x by omega] at this

/-- A layer: `m` blocks processed in order, the twiddle counter advancing by one per block. -/
theorem layerLoop_ok {n l m k : Nat} (hn : 2 * m * l ≤ n) (a : List Nat) (ha : a.length = n)
    (body : List Nat → Nat → Nat → Res (List Nat)) (Q : Nat → Nat → Prop)
    (hb : ∀ i b, i < m → b.length = n → (∀ x, 2 * i * l ≤ x → b.getD x 0 = a.getD x 0) →
      ∃ b', body b (k + i) i = .ok b' ∧ b'.length = n ∧
        (∀ x, x < 2 * i * l ∨ 2 * i * l + 2 * l ≤ x → b'.getD x 0 = b.getD x 0) ∧
        (∀ x, 2 * i * l ≤ x → x < 2 * i * l + 2 * l → Q x (b'.getD x 0))) :
    ∃ a', foldR (fun (st : List Nat × Nat) i => do
        let b ← body st.1 st.2 i
        .ok (b, st.2 + 1)) (a, k) (List.range m) = .ok (a', k + m) ∧ a'.length = n ∧
      (∀ x, x < 2 * m * l → Q x (a'.getD x 0)) := by
  obtain ⟨⟨a', k'⟩, h1, h2, h3, h4, h5⟩ := foldR_range_ok (f := fun (st : List Nat × Nat) i => do
        let b ← body st.1 st.2 i
        .ok (b, st.2 + 1)) (n := m) (s := (a, k))
    (fun i st => st.2 = k + i ∧ st.1.length = n ∧ (∀ x, 2 * i * l ≤ x → st.1.getD x 0 = a.getD x 0) ∧
      (∀ x, x < 2 * i * l → Q x (st.1.getD x 0)))
    ⟨rfl, ha, fun _ _ => rfl, fun x hx => by simp at hx⟩
    (by
      rintro i ⟨b, k'⟩ hi ⟨g1, g2, g3, g4⟩
      simp only at g1 g2 g3 g4
      subst g1
      obtain ⟨b', e1, e2, e3, e4⟩ := hb i b hi g2 g3
      have hstep : 2 * (i + 1) * l = 2 * i * l + 2 * l := by ring
      refine ⟨(b', k + i + 1), by simp only [e1, res_ok_bind], by simp only; omega, e2, ?_, ?_⟩
      · intro x hx
        rw [hstep] at hx
        simp only
        rw [e3 x (by omega)]; exact g3 x (by omega)
      · intro x hx
        rw [hstep] at hx
        simp only
        by_cases hx1 : x < 2 * i * l
        · rw [e3 x (by omega)]; exact g4 x hx1
        · exact e4 x (by omega) hx)
  simp only at h2 h3 h4 h5
  subst h2
  exact ⟨a', h1, h3, h5⟩

/-! ### Well-formed operators -/

/-- What `NttOperator::new` establishes; `psi` is the primitive `2n`-th root, `psiInv` its inverse. -/
structure WF (op : NttOperator) (K psi psiInv : Nat) : Prop where
  mod : op.p.WF
  prime : op.p.p.Prime
  size : op.size = 2 ^ K
  three_le : 3 ≤ K
  K_le : K ≤ 62
  twice : op.pTwice = 2 * op.p.p
  cong : op.p.p % (2 * 2 ^ K) = 1
  psi_lt : psi < op.p.p
  psiInv_lt : psiInv < op.p.p
  psi_inv : (psi : ZMod op.p.p) * (psiInv : ZMod op.p.p) = 1
  psi_pow : (psi : ZMod op.p.p) ^ 2 ^ K = -1
  om_len : op.omegas.length = 2 ^ K
  om : ∀ i, i < 2 ^ K → op.omegas.getD i 0 = psi ^ reverseBits K i % op.p.p
  oms : op.omegasShoup = op.omegas.map (fun w => w * 2 ^ 64 / op.p.p)
  omInv_len : op.omegasInv.length = 2 ^ K
  omInv : ∀ i, i < 2 ^ K → op.omegasInv.getD i 0 = psiInv ^ reverseBits K i % op.p.p
  ze_len : op.zetasInv.length = 2 ^ K
  ze : ∀ i, i < 2 ^ K → op.zetasInv.getD i 0 = psiInv ^ (reverseBits K i + 1) % op.p.p
  zes : op.zetasInvShoup = op.zetasInv.map (fun w => w * 2 ^ 64 / op.p.p)
  sInv_lt : op.sizeInv < op.p.p
  sInv : (op.sizeInv : ZMod op.p.p) * (2 ^ K : ZMod op.p.p) = 1
  sInvs : op.sizeInvShoup = op.sizeInv * 2 ^ 64 / op.p.p

/-! ### Butterflies -/

theorem cast_of_mod {p a b : Nat} (h : a % p = b % p) : (a : ZMod p) = (b : ZMod p) :=
  (ZMod.natCast_eq_natCast_iff _ _ _).mpr h

theorem butterfly_ok {op : NttOperator} {K psi psiInv : Nat} (h : op.WF K psi psiInv) (pr : Profile) {x y w : Nat}
    (hx : x < 4 * op.p.p) (hy : y < 4 * op.p.p) (hw : w < op.p.p) :
    ∃ r, op.butterfly pr x y w (w * 2 ^ 64 / op.p.p) = .ok r ∧ r.1 < 4 * op.p.p ∧ r.2 < 4 * op.p.p ∧
      (r.1 : ZMod op.p.p) = x + w * y ∧ (r.2 : ZMod op.p.p) = x - w * y := by
  have hl := h.mod.lt
  have hp := h.mod.pos
  have hx2 : x % (2 * op.p.p) < 2 * op.p.p := Nat.mod_lt _ (by omega)
  obtain ⟨t, ht, ht2, ht3⟩ := Modulus.lazyMulShoup_ok h.mod pr (show y < 2 ^ 64 by omega) hw
  have hcx : ((x % (2 * op.p.p) : Nat) : ZMod op.p.p) = x := by
    apply cast_of_mod
    rw [Nat.mul_comm, Nat.mod_mul_right_mod]
  have hct : (t : ZMod op.p.p) = w * y := by
    rw [cast_of_mod ht3]; push_cast; ring
  unfold butterfly
  rw [dassert_ok (by omega), res_ok_bind, dassert_ok (by omega), res_ok_bind, dassert_ok hw, res_ok_bind,
    dassertEqR_ok (Modulus.shoup_ok h.mod pr hw), res_ok_bind, h.twice, Modulus.reduceCt_ok pr (by omega) (by omega),
    res_ok_bind, ht, res_ok_bind, addW_ok (by omega), res_ok_bind, subW_ok (by omega), res_ok_bind,
    addW_ok (by omega), res_ok_bind, dassert_ok (by omega), res_ok_bind, dassert_ok (by omega), res_ok_bind]
  refine ⟨_, rfl, by simp only; omega, by simp only; omega, ?_, ?_⟩
  · simp only; rw [Nat.cast_add, hcx, hct]
  · simp only
    have e : x % (2 * op.p.p) + 2 * op.p.p - t + t = x % (2 * op.p.p) + 2 * op.p.p := by omega
    have := congrArg (Nat.cast (R := ZMod op.p.p)) e
    rw [Nat.cast_add, Nat.cast_add (x % (2 * op.p.p)), hcx, hct] at this
    rw [eq_sub_iff_add_eq, this]
    push_cast; simp

theorem butterflyInv_ok {op : NttOperator} {K psi psiInv : Nat} (h : op.WF K psi psiInv) (pr : Profile) {x y z : Nat}
    (hx : x < 2 * op.p.p) (hy : y < 2 * op.p.p) (hz : z < op.p.p) :
    ∃ r, op.butterflyInv pr x y z (z * 2 ^ 64 / op.p.p) = .ok r ∧ r.1 < 2 * op.p.p ∧ r.2 < 2 * op.p.p ∧
      (r.1 : ZMod op.p.p) = x + y ∧ (r.2 : ZMod op.p.p) = (x - y) * z := by
  have hl := h.mod.lt
  have hp := h.mod.pos
  obtain ⟨t, ht, ht2, ht3⟩ := Modulus.lazyMulShoup_ok h.mod pr (show 2 * op.p.p + x - y < 2 ^ 64 by omega) hz
  have hxy : (y + x) % (2 * op.p.p) < 2 * op.p.p := Nat.mod_lt _ (by omega)
  unfold butterflyInv
  rw [h.twice, dassert_ok hx, res_ok_bind, dassert_ok hy, res_ok_bind, dassert_ok hz, res_ok_bind,
    dassertEqR_ok (Modulus.shoup_ok h.mod pr hz), res_ok_bind]
  simp only []
  rw [addW_ok (by omega), res_ok_bind,
    Modulus.reduceCt_ok pr (by omega) (by omega), res_ok_bind, addW_ok (by omega), res_ok_bind, subW_ok (by omega),
    res_ok_bind, ht, res_ok_bind, dassert_ok hxy, res_ok_bind, dassert_ok ht2, res_ok_bind]
  refine ⟨_, rfl, hxy, ht2, ?_, ?_⟩
  · simp only
    rw [cast_of_mod (show (y + x) % (2 * op.p.p) % op.p.p = (x + y) % op.p.p by
      rw [Nat.mul_comm, Nat.mod_mul_right_mod, Nat.add_comm])]
    push_cast; rfl
  · simp only
    rw [cast_of_mod ht3, Nat.cast_mul]
    congr 1
    have e : 2 * op.p.p + x - y + y = 2 * op.p.p + x := by omega
    have := congrArg (Nat.cast (R := ZMod op.p.p)) e
    rw [Nat.cast_add] at this
    rw [eq_sub_iff_add_eq, this]; push_cast; simp

theorem reduce4p_ok {p : Modulus} (h : p.WF) (pr : Profile) {a : Nat} (ha : a < 4 * p.p) :
    reduce4p pr a p = .ok (a % p.p) := by
  have hl := h.lt
  have hp := h.pos
  have h2 : a % (2 * p.p) < 2 * p.p := Nat.mod_lt _ (by omega)
  unfold reduce4p
  rw [dassert_ok (by omega), res_ok_bind, mulW_ok (by omega), res_ok_bind, Modulus.reduceCt_ok pr (by omega) (by omega),
    res_ok_bind, Modulus.reduceCt_ok pr (by omega) h2]
  rw [Nat.mul_comm 2, Nat.mod_mul_right_mod]

/-! ### Exact layers -/

variable {R : Type*} [CommRing R]

/-- Exact forward layer with half-block length `l`, twiddle `w i` for block `i`. -/
def fl (l : Nat) (w : Nat → R) (v : Nat → R) (x : Nat) : R :=
  if (x / l) % 2 = 0 then v x + w (x / (2 * l)) * v (x + l) else v (x - l) - w (x / (2 * l)) * v x

/-- Exact backward layer. -/
def bl (l : Nat) (z : Nat → R) (v : Nat → R) (x : Nat) : R :=
  if (x / l) % 2 = 0 then v x + v (x + l) else (v (x - l) - v x) * z (x / (2 * l))

theorem idx_lo {l i j : Nat} (hl : 0 < l) (hj : j < l) :
    (2 * i * l + j) / l % 2 = 0 ∧ (2 * i * l + j) / (2 * l) = i := by
  constructor
  · rw [show 2 * i * l + j = j + l * (2 * i) by ring, Nat.add_mul_div_left _ _ hl, Nat.div_eq_of_lt hj]; omega
  · rw [show 2 * i * l + j = j + (2 * l) * i by ring, Nat.add_mul_div_left _ _ (by omega), Nat.div_eq_of_lt (by omega)]; omega

theorem idx_hi {l i j : Nat} (hl : 0 < l) (hj : j < l) :
    (2 * i * l + j + l) / l % 2 = 1 ∧ (2 * i * l + j + l) / (2 * l) = i := by
  constructor
  · rw [show 2 * i * l + j + l = j + l * (2 * i + 1) by ring, Nat.add_mul_div_left _ _ hl, Nat.div_eq_of_lt hj]; omega
  · rw [show 2 * i * l + j + l = (j + l) + (2 * l) * i by ring, Nat.add_mul_div_left _ _ (by omega), Nat.div_eq_of_lt (by omega)]; omega

theorem fl_lo {l i j : Nat} (hl : 0 < l) (hj : j < l) (w v : Nat → R) :
    fl l w v (2 * i * l + j) = v (2 * i * l + j) + w i * v (2 * i * l + j + l) := by
  obtain ⟨h1, h2⟩ := idx_lo (i := i) hl hj
  rw [fl, if_pos h1, h2]
theorem fl_hi {l i j : Nat} (hl : 0 < l) (hj : j < l) (w v : Nat → R) :
    fl l w v (2 * i * l + j + l) = v (2 * i * l + j) - w i * v (2 * i * l + j + l) := by
  obtain ⟨h1, h2⟩ := idx_hi (i := i) hl hj
  rw [fl, if_neg (by omega), h2, Nat.add_sub_cancel]
theorem bl_lo {l i j : Nat} (hl : 0 < l) (hj : j < l) (w v : Nat → R) :
    bl l w v (2 * i * l + j) = v (2 * i * l + j) + v (2 * i * l + j + l) := by
  obtain ⟨h1, _⟩ := idx_lo (i := i) hl hj
  rw [bl, if_pos h1]
theorem bl_hi {l i j : Nat} (hl : 0 < l) (hj : j < l) (w v : Nat → R) :
    bl l w v (2 * i * l + j + l) = (v (2 * i * l + j) - v (2 * i * l + j + l)) * w i := by
  obtain ⟨h1, h2⟩ := idx_hi (i := i) hl hj
  rw [bl, if_neg (by omega), h2, Nat.add_sub_cancel]

/-- Every index is a low or a high index of some block. -/
theorem idx_cases {l : Nat} (hl : 0 < l) (x : Nat) :
    ∃ i j, j < l ∧ (x = 2 * i * l + j ∨ x = 2 * i * l + j + l) := by
  have h1 := Nat.div_add_mod x l
  have h2 := Nat.mod_lt x hl
  have h3 := Nat.div_add_mod (x / l) 2
  rcases Nat.mod_two_eq_zero_or_one (x / l) with h | h
  · refine ⟨x / l / 2, x % l, h2, Or.inl ?_⟩
    rw [h, Nat.add_zero] at h3
    conv_lhs => rw [← h1, ← h3]
    ring
  · refine ⟨x / l / 2, x % l, h2, Or.inr ?_⟩
    rw [h] at h3
    conv_lhs => rw [← h1, ← h3]
    ring

theorem bl_fl {l : Nat} (hl : 0 < l) (w z v : Nat → R) (x : Nat) (hz : w (x / (2 * l)) * z (x / (2 * l)) = 1) :
    bl l z (fl l w v) x = 2 * v x := by
  obtain ⟨i, j, hj, rfl | rfl⟩ := idx_cases hl x
  · rw [bl_lo hl hj, fl_lo hl hj, fl_hi hl hj]; ring
  · rw [(idx_hi hl hj).2] at hz
    rw [bl_hi hl hj, fl_lo hl hj, fl_hi hl hj]
    linear_combination 2 * v (2 * i * l + j + l) * hz

theorem fl_bl {l : Nat} (hl : 0 < l) (w z v : Nat → R) (x : Nat) (hz : w (x / (2 * l)) * z (x / (2 * l)) = 1) :
    fl l w (bl l z v) x = 2 * v x := by
  obtain ⟨i, j, hj, rfl | rfl⟩ := idx_cases hl x
  · rw [(idx_lo hl hj).2] at hz
    rw [fl_lo hl hj, bl_lo hl hj, bl_hi hl hj]
    linear_combination (v (2 * i * l + j) - v (2 * i * l + j + l)) * hz
  · rw [(idx_hi hl hj).2] at hz
    rw [fl_hi hl hj, bl_lo hl hj, bl_hi hl hj]
    linear_combination -(v (2 * i * l + j) - v (2 * i * l + j + l)) * hz

theorem fl_congr {l m : Nat} (hl : 0 < l) (w v v' : Nat → R) (h : ∀ x, x < 2 * m * l → v x = v' x) :
    ∀ x, x < 2 * m * l → fl l w v x = fl l w v' x := by
  intro x hx
  obtain ⟨i, j, hj, rfl | rfl⟩ := idx_cases hl x
  · have hi : i < m := by
      by_contra hc
      have : 2 * m * l ≤ 2 * i * l := Nat.mul_le_mul_right _ (by omega)
      omega
    have : 2 * i * l + 2 * l ≤ 2 * m * l := by
      have : 2 * (i + 1) * l ≤ 2 * m * l := Nat.mul_le_mul_right _ (by omega)
      rw [show 2 * (i + 1) * l = 2 * i * l + 2 * l by ring] at this; exact this
    rw [fl_lo hl hj, fl_lo hl hj, h _ (by omega), h _ (by omega)]
  · rw [fl_hi hl hj, fl_hi hl hj, h _ (by omega), h _ (by omega)]

theorem bl_congr {l m : Nat} (hl : 0 < l) (w v v' : Nat → R) (h : ∀ x, x < 2 * m * l → v x = v' x) :
    ∀ x, x < 2 * m * l → bl l w v x = bl l w v' x := by
  intro x hx
  obtain ⟨i, j, hj, rfl | rfl⟩ := idx_cases hl x
  · have hi : i < m := by
      by_contra hc
      have : 2 * m * l ≤ 2 * i * l := Nat.mul_le_mul_right _ (by omega)
      omega
    have : 2 * i * l + 2 * l ≤ 2 * m * l := by
      have : 2 * (i + 1) * l ≤ 2 * m * l := Nat.mul_le_mul_right _ (by omega)
      rw [show 2 * (i + 1) * l = 2 * i * l + 2 * l by ring] at this; exact this
    rw [bl_lo hl hj, bl_lo hl hj, h _ (by omega), h _ (by omega)]
  · rw [bl_hi hl hj, bl_hi hl hj, h _ (by omega), h _ (by omega)]

theorem bl_smul (l : Nat) (w v : Nat → R) (c : R) (x : Nat) : bl l w (fun y => c * v y) x = c * bl l w v x := by
  unfold bl; split_ifs <;> ring
theorem fl_smul (l : Nat) (w v : Nat → R) (c : R) (x : Nat) : fl l w (fun y => c * v y) x = c * fl l w v x := by
  unfold fl; split_ifs <;> ring

/-! ### Exact transforms -/

/-- The first `t` exact forward layers. -/
def fwdE (K : Nat) (ψ : R) (v : Nat → R) : Nat → Nat → R
  | 0 => v
  | t + 1 => fl (2 ^ (K - 1 - t)) (fun i => ψ ^ (2 ^ (K - 1 - t) * (2 * reverseBits t i + 1))) (fwdE K ψ v t)

/-- The first `s` exact backward layers. -/
def bwdE (K : Nat) (φ : R) (v : Nat → R) : Nat → Nat → R
  | 0 => v
  | s + 1 => bl (2 ^ s) (fun i => φ ^ (2 ^ s * (2 * reverseBits (K - 1 - s) i + 1))) (bwdE K φ v s)

theorem bwdE_fwdE (K : Nat) (ψ φ : R) (h : ψ * φ = 1) (v : Nat → R) (s : Nat) (hs : s ≤ K) :
    ∀ x, bwdE K φ (fwdE K ψ v K) s x = 2 ^ s * fwdE K ψ v (K - s) x := by
  induction s with
  | zero => intro x; simp [bwdE]
  | succ s ih =>
    intro x
    have ih := ih (by omega)
    have hf : bwdE K φ (fwdE K ψ v K) s = fun y => 2 ^ s * fwdE K ψ v (K - s) y := funext ih
    rw [bwdE, hf, bl_smul]
    obtain ⟨t, rfl⟩ : ∃ t, K = s + 1 + t := ⟨K - (s + 1), by omega⟩
    rw [show s + 1 + t - (s + 1) = t by omega, show s + 1 + t - s = t + 1 by omega, fwdE,
      show s + 1 + t - 1 - t = s by omega, show s + 1 + t - 1 - s = t by omega, bl_fl (by positivity)]
    · ring
    · rw [← mul_pow, h, one_pow]

theorem fwdE_bwdE (K : Nat) (ψ φ : R) (h : ψ * φ = 1) (v : Nat → R) (t : Nat) (ht : t ≤ K) :
    ∀ x, fwdE K ψ (bwdE K φ v K) t x = 2 ^ t * bwdE K φ v (K - t) x := by
  induction t with
  | zero => intro x; simp [fwdE]
  | succ t ih =>
    intro x
    have ih := ih (by omega)
    have hf : fwdE K ψ (bwdE K φ v K) t = fun y => 2 ^ t * bwdE K φ v (K - t) y := funext ih
    rw [fwdE, hf, fl_smul]
    obtain ⟨s, rfl⟩ : ∃ s, K = s + 1 + t := ⟨K - (t + 1), by omega⟩
    rw [show s + 1 + t - (t + 1) = s by omega, show s + 1 + t - t = s + 1 by omega, bwdE,
      show s + 1 + t - 1 - t = s by omega, show s + 1 + t - 1 - s = t by omega, fl_bl (by positivity)]
    · ring
    · rw [← mul_pow, h, one_pow]

theorem sum_even_odd (m : Nat) (f : Nat → R) :
    ∑ r ∈ Finset.range (2 * m), f r = ∑ r ∈ Finset.range m, f (2 * r) + ∑ r ∈ Finset.range m, f (2 * r + 1) := by
  induction m with
  | zero => simp
  | succ m ih =>
    rw [show 2 * (m + 1) = 2 * m + 1 + 1 by ring, Finset.sum_range_succ, Finset.sum_range_succ, ih,
      Finset.sum_range_succ, Finset.sum_range_succ]
    ring

/-- Block `i` after `t` layers holds the polynomial reduced modulo `X^L - ψ^(L(2·rev i + 1))`. -/
theorem fwdE_eval (K : Nat) (ψ : R) (hψ : ψ ^ 2 ^ K = -1) (v : Nat → R) (t : Nat) (ht : t ≤ K) :
    ∀ i j, i < 2 ^ t → j < 2 ^ (K - t) → fwdE K ψ v t (i * 2 ^ (K - t) + j) =
      ∑ r ∈ Finset.range (2 ^ t), v (j + r * 2 ^ (K - t)) * (ψ ^ (2 ^ (K - t) * (2 * reverseBits t i + 1))) ^ r := by
  induction t with
  | zero => intro i j hi hj; simp at hi; subst hi; simp [fwdE]
  | succ t ih =>
    intro i j hi hj
    have ih := ih (by omega)
    have hl : 0 < 2 ^ (K - 1 - t) := by positivity
    rw [show K - (t + 1) = K - 1 - t by omega] at hj ⊢
    have hL : 2 ^ (K - t) = 2 * 2 ^ (K - 1 - t) := by rw [show K - t = K - 1 - t + 1 by omega, pow_succ]; ring
    rw [hL] at ih
    have hK : 2 * 2 ^ (K - 1 - t) * 2 ^ t = 2 ^ K := by
      rw [← hL, ← pow_add]; congr 1; omega
    generalize 2 ^ (K - 1 - t) = l at hl hL hj ih hK ⊢
    have hhalf : i / 2 < 2 ^ t := by rw [pow_succ] at hi; omega
    have e1 := ih (i / 2) j hhalf (by omega)
    have e2 := ih (i / 2) (j + l) hhalf (by omega)
    rw [fwdE, show (2:ℕ) ^ (t + 1) = 2 * 2 ^ t by rw [pow_succ]; ring, sum_even_odd]
    have hl' : 2 ^ (K - 1 - t) = l := by
      have : 2 * 2 ^ (K - 1 - t) = 2 * l := by
        rw [← hL, show K - t = K - 1 - t + 1 by omega, pow_succ]; ring
      omega
    rw [hl']
    generalize hw : (fun i => ψ ^ (l * (2 * reverseBits t i + 1))) = w
    have hwi : w (i / 2) = ψ ^ (l * (2 * reverseBits t (i / 2) + 1)) := by rw [← hw]
    have hζ : ψ ^ (2 * l * (2 * reverseBits t (i / 2) + 1)) = w (i / 2) * w (i / 2) := by
      rw [hwi, ← pow_add]; congr 1; ring
    rw [hζ] at e1 e2
    rw [show i / 2 * (2 * l) + j = 2 * (i / 2) * l + j by ring] at e1
    rw [show i / 2 * (2 * l) + (j + l) = 2 * (i / 2) * l + j + l by ring] at e2
    rcases Nat.mod_two_eq_zero_or_one i with h | h
    · obtain ⟨c, rfl⟩ : ∃ c, i = 2 * c := ⟨i / 2, by omega⟩
      rw [show 2 * c / 2 = c by omega] at e1 e2 hwi
      rw [fl_lo hl hj, e1, e2, Finset.mul_sum, reverseBits_two_mul, ← hwi]
      congr 1
      · apply Finset.sum_congr rfl; intro r _
        rw [show j + 2 * r * l = j + r * (2 * l) by ring, pow_mul, sq]
      · apply Finset.sum_congr rfl; intro r _
        rw [show j + (2 * r + 1) * l = j + l + r * (2 * l) by ring, pow_succ, pow_mul, sq]; ring
    · obtain ⟨c, rfl⟩ : ∃ c, i = 2 * c + 1 := ⟨i / 2, by omega⟩
      rw [show (2 * c + 1) / 2 = c by omega] at e1 e2 hwi
      have hneg : ψ ^ (l * (2 * reverseBits (t + 1) (2 * c + 1) + 1)) = - w c := by
        rw [reverseBits_two_mul_add_one, show l * (2 * (2 ^ t + reverseBits t c) + 1) =
          2 * l * 2 ^ t + l * (2 * reverseBits t c + 1) by ring, hK, pow_add, hψ, ← hwi]; ring
      rw [show (2 * c + 1) * l + j = 2 * c * l + j + l by ring, fl_hi hl hj, e1, e2, Finset.mul_sum, hneg, sub_eq_add_neg,
        ← Finset.sum_neg_distrib]
      congr 1
      · apply Finset.sum_congr rfl; intro r _
        rw [show j + 2 * r * l = j + r * (2 * l) by ring, pow_mul, sq]; ring
      · apply Finset.sum_congr rfl; intro r _
        rw [show j + (2 * r + 1) * l = j + l + r * (2 * l) by ring, pow_succ, pow_mul, sq]; ring

/-! ### The modelled layers refine the exact ones -/

variable {op : NttOperator} {K psi psiInv : Nat}

/-- The vector as a function to the field. -/
def vals (p : Nat) (a : List Nat) (x : Nat) : ZMod p := (a.getD x 0 : Nat)

theorem getD_map_of_lt {α β : Type*} (f : α → β) (l : List α) (i : Nat) (d : α) (e : β) (h : i < l.length) :
    (l.map f).getD i e = f (l.getD i d) := by
  simp [List.getD, h]

theorem layer_arith {K t : Nat} (ht : t < K) : 2 * 2 ^ t * 2 ^ (K - 1 - t) = 2 ^ K := by
  rw [show 2 * 2 ^ t = 2 ^ (t + 1) by rw [pow_succ]; ring, ← pow_add]; congr 1; omega

theorem forwardBlock_ok (h : op.WF K psi psiInv) (pr : Profile) {l i w : Nat} (hl : 0 < l) (hw : w < op.p.p)
    (b : List Nat) (hb : b.length = 2 ^ K) (hi : 2 * i * l + 2 * l ≤ 2 ^ K)
    (hr : ∀ x, 2 * i * l ≤ x → x < 2 * i * l + 2 * l → b.getD x 0 < 4 * op.p.p) (W : Nat → ZMod op.p.p) (hW : W i = (w : Nat)) :
    ∃ b', op.forwardBlock pr l i w (w * 2 ^ 64 / op.p.p) b = .ok b' ∧ b'.length = 2 ^ K ∧
        (∀ x, x < 2 * i * l ∨ 2 * i * l + 2 * l ≤ x → b'.getD x 0 = b.getD x 0) ∧
        (∀ x, 2 * i * l ≤ x → x < 2 * i * l + 2 * l →
          b'.getD x 0 < (if l = 1 then op.p.p else 4 * op.p.p) ∧ vals op.p.p b' x = fl l W (vals op.p.p b) x) := by
  have hp := h.mod.pos
  unfold forwardBlock
  simp only []
  by_cases h1 : l = 1
  · subst h1
    simp only [if_pos]
    obtain ⟨r, hr1, hr2, hr3, hr4, hr5⟩ := butterfly_ok h pr (hr (2 * i * 1) (by omega) (by omega))
      (hr (2 * i * 1 + 1) (by omega) (by omega)) hw
    obtain ⟨b', e1, e2, e3, e4, e5⟩ := updatePair_ok (a := b) (j := 2 * i * 1) (l := 1)
      (f := fun x y => do
        let r ← op.butterfly pr x y w (w * 2 ^ 64 / op.p.p)
        let x ← reduce4p pr r.1 op.p
        let y ← reduce4p pr r.2 op.p
        .ok (x, y)) (r := (r.1 % op.p.p, r.2 % op.p.p)) (by norm_num) (by omega)
      (by rw [hr1, res_ok_bind, reduce4p_ok h.mod pr hr2, res_ok_bind, reduce4p_ok h.mod pr hr3, res_ok_bind])
    refine ⟨b', e1, by omega, fun x hx => e5 x (by omega) (by omega), ?_⟩
    intro x hx1 hx2
    have hm1 := Nat.mod_lt r.1 hp
    have hm2 := Nat.mod_lt r.2 hp
    have hlo := fl_lo (l := 1) (i := i) (j := 0) (by norm_num) (by norm_num) W (vals op.p.p b)
    have hhi := fl_hi (l := 1) (i := i) (j := 0) (by norm_num) (by norm_num) W (vals op.p.p b)
    simp only [Nat.add_zero] at hlo hhi
    have hc : x = 2 * i * 1 ∨ x = 2 * i * 1 + 1 := by omega
    rcases hc with rfl | rfl
    · rw [hlo, hW, vals, e3]
      refine ⟨hm1, ?_⟩
      simp only
      rw [ZMod.natCast_mod, hr4]; rfl
    · rw [hhi, hW, vals, e4]
      refine ⟨hm2, ?_⟩
      simp only
      rw [ZMod.natCast_mod, hr5]; rfl
  · rw [if_neg h1, if_neg h1]
    exact blockLoop_ok hl hi b hb (fun x y => op.butterfly pr x y w (w * 2 ^ 64 / op.p.p))
      (fun x v => v < 4 * op.p.p ∧ (v : ZMod op.p.p) = fl l W (vals op.p.p b) x)
      (by
        intro j hj
        obtain ⟨r, hr1, hr2, hr3, hr4, hr5⟩ := butterfly_ok h pr (hr (2 * i * l + j) (by omega) (by omega))
          (hr (2 * i * l + j + l) (by omega) (by omega)) hw
        refine ⟨r, hr1, ⟨hr2, ?_⟩, ⟨hr3, ?_⟩⟩
        · rw [hr4, fl_lo hl hj, hW]; rfl
        · rw [hr5, fl_hi hl hj, hW]; rfl)

theorem fl_local {l i : Nat} (hl : 0 < l) (w v v' : Nat → R) (h : ∀ x, 2 * i * l ≤ x → x < 2 * i * l + 2 * l → v x = v' x) :
    ∀ x, 2 * i * l ≤ x → x < 2 * i * l + 2 * l → fl l w v x = fl l w v' x := by
  intro x hx1 hx2
  by_cases hc : x < 2 * i * l + l
  · obtain ⟨j, rfl⟩ : ∃ j, x = 2 * i * l + j := ⟨x - 2 * i * l, by omega⟩
    rw [fl_lo hl (by omega), fl_lo hl (by omega), h _ (by omega) (by omega), h _ (by omega) (by omega)]
  · obtain ⟨j, rfl⟩ : ∃ j, x = 2 * i * l + j + l := ⟨x - 2 * i * l - l, by omega⟩
    rw [fl_hi hl (by omega), fl_hi hl (by omega), h _ (by omega) (by omega), h _ (by omega) (by omega)]

theorem bl_local {l i : Nat} (hl : 0 < l) (w v v' : Nat → R) (h : ∀ x, 2 * i * l ≤ x → x < 2 * i * l + 2 * l → v x = v' x) :
    ∀ x, 2 * i * l ≤ x → x < 2 * i * l + 2 * l → bl l w v x = bl l w v' x := by
  intro x hx1 hx2
  by_cases hc : x < 2 * i * l + l
  · obtain ⟨j, rfl⟩ : ∃ j, x = 2 * i * l + j := ⟨x - 2 * i * l, by omega⟩
    rw [bl_lo hl (by omega), bl_lo hl (by omega), h _ (by omega) (by omega), h _ (by omega) (by omega)]
  · obtain ⟨j, rfl⟩ : ∃ j, x = 2 * i * l + j + l := ⟨x - 2 * i * l - l, by omega⟩
    rw [bl_hi hl (by omega), bl_hi hl (by omega), h _ (by omega) (by omega), h _ (by omega) (by omega)]

theorem block_bound {i m l : Nat} (hi : i < m) : 2 * i * l + 2 * l ≤ 2 * m * l := by
  have : 2 * (i + 1) * l ≤ 2 * m * l := Nat.mul_le_mul_right _ (by omega)
  rw [show 2 * (i + 1) * l = 2 * i * l + 2 * l by ring] at this; exact this

theorem forwardLayer_ok (h : op.WF K psi psiInv) (pr : Profile) {t : Nat} (ht : t < K) (a : List Nat)
    (ha : a.length = 2 ^ K) (hr : ∀ x, x < 2 ^ K → a.getD x 0 < 4 * op.p.p) :
    ∃ a', op.forwardLayer pr (2 ^ (K - 1 - t)) (2 ^ t) (2 ^ t) a = .ok (a', 2 ^ t + 2 ^ t) ∧ a'.length = 2 ^ K ∧
      ∀ x, x < 2 ^ K → a'.getD x 0 < (if 2 ^ (K - 1 - t) = 1 then op.p.p else 4 * op.p.p) ∧
        vals op.p.p a' x = fl (2 ^ (K - 1 - t))
          (fun i => (psi : ZMod op.p.p) ^ (2 ^ (K - 1 - t) * (2 * reverseBits t i + 1))) (vals op.p.p a) x := by
  have hN := layer_arith ht
  have hl : 0 < 2 ^ (K - 1 - t) := by positivity
  have htK : 2 ^ t + 2 ^ t ≤ 2 ^ K := by
    rw [← two_mul, Nat.mul_comm, ← pow_succ]; exact Nat.pow_le_pow_right (by norm_num) (by omega)
  generalize hlv : 2 ^ (K - 1 - t) = l at *
  obtain ⟨a', h1, h2, h3⟩ := layerLoop_ok (n := 2 ^ K) (l := l) (m := 2 ^ t) (k := 2 ^ t) hN.le a ha
    (fun b k i => do
      let omega ← idx op.omegas k
      let omegaShoup ← idx op.omegasShoup k
      op.forwardBlock pr l i omega omegaShoup b)
    (fun x v => v < (if l = 1 then op.p.p else 4 * op.p.p) ∧ (v : ZMod op.p.p) = fl l
          (fun i => (psi : ZMod op.p.p) ^ (l * (2 * reverseBits t i + 1))) (vals op.p.p a) x)
    (by
      intro i b hi hb hba
      have hk : 2 ^ t + i < 2 ^ K := by omega
      have hw : op.omegas.getD (2 ^ t + i) 0 < op.p.p := by rw [h.om _ hk]; exact Nat.mod_lt _ h.mod.pos
      have hbb := block_bound (l := l) hi
      have hbb' : 2 * i * l + 2 * l ≤ 2 ^ K := by omega
      rw [idx_getD 0 (by rw [h.om_len]; omega), res_ok_bind,
        idx_getD 0 (by rw [h.oms, List.length_map, h.om_len]; omega), res_ok_bind, h.oms,
        getD_map_of_lt _ _ _ 0 _ (by rw [h.om_len]; omega)]
      obtain ⟨b', e1, e2, e3, e4⟩ := forwardBlock_ok h pr hl hw b hb hbb'
        (fun x hx1 hx2 => by rw [hba x hx1]; exact hr x (by omega))
        (fun i => (psi : ZMod op.p.p) ^ (l * (2 * reverseBits t i + 1)))
        (by
          rw [h.om _ hk, ZMod.natCast_mod, Nat.cast_pow, reverseBits_twiddle K t i ht hi, hlv])
      refine ⟨b', e1, e2, e3, fun x hx1 hx2 => ⟨(e4 x hx1 hx2).1, ?_⟩⟩
      refine Eq.trans (e4 x hx1 hx2).2 ?_
      exact fl_local hl _ _ _ (fun y hy1 hy2 => by rw [vals, vals, hba y hy1]) x hx1 hx2)
  refine ⟨a', ?_, h2, fun x hx => h3 x (by omega)⟩
  rw [← h1]
  unfold forwardLayer
  congr 1
  funext st i
  cases idx op.omegas st.2 with
  | error e => rfl
  | ok w =>
    cases idx op.omegasShoup st.2 with
    | error e => rfl
    | ok w => rfl

theorem forwardLoop_ok (h : op.WF K psi psiInv) (pr : Profile) (v : Nat → ZMod op.p.p) (d : Nat) :
    ∀ (t : Nat) (a : List Nat), t + d = K → 0 < d → a.length = 2 ^ K → (∀ x, x < 2 ^ K → a.getD x 0 < 4 * op.p.p) →
      (∀ x, x < 2 ^ K → vals op.p.p a x = fwdE K (psi : ZMod op.p.p) v t x) →
    ∃ a', op.forwardLoop pr (2 ^ (K - 1 - t)) (2 ^ t) (2 ^ t) a = .ok a' ∧ a'.length = 2 ^ K ∧
      (∀ x, x < 2 ^ K → a'.getD x 0 < op.p.p) ∧
      (∀ x, x < 2 ^ K → vals op.p.p a' x = fwdE K (psi : ZMod op.p.p) v K x) := by
  induction d with
  | zero => intro t a _ h0; omega
  | succ d ih =>
    intro t a htd _ ha hr hv
    have ht : t < K := by omega
    have hp := h.mod.pos
    obtain ⟨a', e1, e2, e3⟩ := forwardLayer_ok h pr ht a ha hr
    have hl : 2 ^ (K - 1 - t) ≠ 0 := by positivity
    have hv' : ∀ x, x < 2 ^ K → vals op.p.p a' x = fwdE K (psi : ZMod op.p.p) v (t + 1) x := by
      intro x hx
      rw [(e3 x hx).2, fwdE]
      have hN := layer_arith ht
      exact fl_congr (m := 2 ^ t) (by positivity) _ _ _ (fun y hy => hv y (by omega)) x (by omega)
    rw [forwardLoop, dif_neg hl, e1, res_ok_bind]
    simp only
    rw [Nat.shiftLeft_eq, pow_one, Nat.shiftRight_eq_div_pow, pow_one, ← two_mul, Nat.mul_comm 2, ← pow_succ]
    by_cases hd : d = 0
    · subst hd
      have : K - 1 - t = 0 := by omega
      rw [this] at e3 ⊢
      rw [forwardLoop, dif_pos (by norm_num)]
      refine ⟨a', rfl, e2, fun x hx => by simpa using (e3 x hx).1, fun x hx => ?_⟩
      rw [hv' x hx, show t + 1 = K by omega]
    · rw [show 2 ^ (K - 1 - t) / 2 = 2 ^ (K - 1 - (t + 1)) by
        rw [show K - 1 - t = K - 1 - (t + 1) + 1 by omega, pow_succ]; omega]
      exact ih (t + 1) a' (by omega) (by omega) e2 (fun x hx => by
        have := (e3 x hx).1; split_ifs at this <;> omega) hv'

/-- `forward` computes the exact transform. -/
theorem forward_ok (h : op.WF K psi psiInv) (pr : Profile) {a : List Nat} (ha : a.length = 2 ^ K)
    (hr : ∀ x ∈ a, x < 4 * op.p.p) :
    ∃ a', op.forward pr a = .ok a' ∧ a'.length = 2 ^ K ∧ (∀ x ∈ a', x < op.p.p) ∧
      ∀ x, x < 2 ^ K → vals op.p.p a' x = fwdE K (psi : ZMod op.p.p) (vals op.p.p a) K x := by
  have h3 := h.three_le
  obtain ⟨a', e1, e2, e3, e4⟩ := forwardLoop_ok h pr (vals op.p.p a) K 0 a (by omega) (by omega) ha
    (fun x hx => by
      rw [List.getD, List.getElem?_eq_getElem (by omega)]
      exact hr _ (List.getElem_mem _)) (fun x _ => rfl)
  refine ⟨a', ?_, e2, ?_, e4⟩
  · unfold forward
    rw [rassert_ok (by rw [ha, h.size]), res_ok_bind, h.size, Nat.shiftRight_eq_div_pow, pow_one,
      show 2 ^ K / 2 = 2 ^ (K - 1 - 0) by rw [Nat.sub_zero]; conv_lhs => rw [show K = K - 1 + 1 by omega, pow_succ]
                                          omega]
    exact e1
  · intro x hx
    obtain ⟨i, hi, rfl⟩ := List.getElem_of_mem hx
    have := e3 i (by omega)
    rwa [List.getD, List.getElem?_eq_getElem hi] at this

theorem backwardLayer_ok (h : op.WF K psi psiInv) (pr : Profile) {s : Nat} (hs : s < K) (a : List Nat)
    (ha : a.length = 2 ^ K) (hr : ∀ x, x < 2 ^ K → a.getD x 0 < 2 * op.p.p) :
    ∃ a', op.backwardLayer pr (2 ^ s) (2 ^ (K - 1 - s)) (2 ^ K - 2 ^ (K - s)) a = .ok (a', 2 ^ K - 2 ^ (K - (s + 1))) ∧
      a'.length = 2 ^ K ∧
      ∀ x, x < 2 ^ K → a'.getD x 0 < 2 * op.p.p ∧
        vals op.p.p a' x = bl (2 ^ s)
          (fun i => (psiInv : ZMod op.p.p) ^ (2 ^ s * (2 * reverseBits (K - 1 - s) i + 1))) (vals op.p.p a) x := by
  have ht : K - 1 - s < K := by omega
  have hN := layer_arith ht
  rw [show K - 1 - (K - 1 - s) = s by omega] at hN
  have hl : 0 < 2 ^ s := by positivity
  have htK : 2 ^ (K - s) = 2 ^ (K - 1 - s) + 2 ^ (K - 1 - s) := by
    rw [← two_mul, Nat.mul_comm, ← pow_succ]; congr 1; omega
  have htK2 : 2 ^ (K - s) ≤ 2 ^ K := Nat.pow_le_pow_right (by norm_num) (by omega)
  have hK' : 2 ^ K - 2 ^ (K - (s + 1)) = 2 ^ K - 2 ^ (K - s) + 2 ^ (K - 1 - s) := by
    rw [show K - (s + 1) = K - 1 - s by omega]; omega
  have htw : ∀ i, i < 2 ^ (K - 1 - s) → reverseBits K (2 ^ K - 2 ^ (K - s) + i) + 1 =
      2 ^ s * (2 * reverseBits (K - 1 - s) i + 1) := by
    intro i hi
    have := reverseBits_twiddle_inv K (K - 1 - s) i ht hi
    rwa [show K - 1 - s + 1 = K - s by omega, show K - 1 - (K - 1 - s) = s by omega] at this
  rw [hK']
  generalize hlv : 2 ^ s = l at *
  obtain ⟨a', h1, h2, h3⟩ := layerLoop_ok (n := 2 ^ K) (l := l) (m := 2 ^ (K - 1 - s)) (k := 2 ^ K - 2 ^ (K - s)) hN.le a ha
    (fun b k i => do
      let z ← idx op.zetasInv k
      let zs ← idx op.zetasInvShoup k
      foldR (fun a j => updatePair a (2 * i * l + j) l (fun x y => op.butterflyInv pr x y z zs)) b (List.range l))
    (fun x v => v < 2 * op.p.p ∧ (v : ZMod op.p.p) = bl l
          (fun i => (psiInv : ZMod op.p.p) ^ (l * (2 * reverseBits (K - 1 - s) i + 1))) (vals op.p.p a) x)
    (by
      intro i b hi hb hba
      have hk : 2 ^ K - 2 ^ (K - s) + i < 2 ^ K := by omega
      have hw : op.zetasInv.getD (2 ^ K - 2 ^ (K - s) + i) 0 < op.p.p := by rw [h.ze _ hk]; exact Nat.mod_lt _ h.mod.pos
      have hbb := block_bound (l := l) hi
      have hbb' : 2 * i * l + 2 * l ≤ 2 ^ K := by omega
      rw [idx_getD 0 (by rw [h.ze_len]; omega), res_ok_bind,
        idx_getD 0 (by rw [h.zes, List.length_map, h.ze_len]; omega), res_ok_bind, h.zes,
        getD_map_of_lt _ _ _ 0 _ (by rw [h.ze_len]; omega)]
      have hz : (op.zetasInv.getD (2 ^ K - 2 ^ (K - s) + i) 0 : ZMod op.p.p) =
          (psiInv : ZMod op.p.p) ^ (l * (2 * reverseBits (K - 1 - s) i + 1)) := by
        rw [h.ze _ hk, ZMod.natCast_mod, Nat.cast_pow, htw i hi]
      exact blockLoop_ok hl hbb' b hb _
        (fun x v => v < 2 * op.p.p ∧ (v : ZMod op.p.p) = bl l
          (fun i => (psiInv : ZMod op.p.p) ^ (l * (2 * reverseBits (K - 1 - s) i + 1))) (vals op.p.p a) x)
        (by
          intro j hj
          rw [hba _ (by omega), hba _ (by omega)]
          obtain ⟨r, hr1, hr2, hr3, hr4, hr5⟩ := butterflyInv_ok h pr (hr (2 * i * l + j) (by omega))
            (hr (2 * i * l + j + l) (by omega)) hw
          refine ⟨r, hr1, ⟨hr2, ?_⟩, ⟨hr3, ?_⟩⟩
          · rw [hr4, bl_lo hl hj]; rfl
          · rw [hr5, bl_hi hl hj, hz]; rfl))
  refine ⟨a', ?_, h2, fun x hx => h3 x (by omega)⟩
  rw [← h1]
  unfold backwardLayer
  congr 1
  funext st i
  cases idx op.zetasInv st.2 with
  | error e => rfl
  | ok w =>
    cases idx op.zetasInvShoup st.2 with
    | error e => rfl
    | ok w => rfl

theorem backwardLoop_ok (h : op.WF K psi psiInv) (pr : Profile) (v : Nat → ZMod op.p.p) (d : Nat) :
    ∀ (s : Nat) (a : List Nat), s + d = K → 0 < d → a.length = 2 ^ K → (∀ x, x < 2 ^ K → a.getD x 0 < 2 * op.p.p) →
      (∀ x, x < 2 ^ K → vals op.p.p a x = bwdE K (psiInv : ZMod op.p.p) v s x) →
    ∃ a', op.backwardLoop pr (2 ^ s) (2 ^ (K - 1 - s)) (2 ^ K - 2 ^ (K - s)) a = .ok a' ∧ a'.length = 2 ^ K ∧
      (∀ x, x < 2 ^ K → a'.getD x 0 < 2 * op.p.p) ∧
      (∀ x, x < 2 ^ K → vals op.p.p a' x = bwdE K (psiInv : ZMod op.p.p) v K x) := by
  induction d with
  | zero => intro t a _ h0; omega
  | succ d ih =>
    intro s a hsd _ ha hr hv
    have hs : s < K := by omega
    obtain ⟨a', e1, e2, e3⟩ := backwardLayer_ok h pr hs a ha hr
    have hl : 2 ^ (K - 1 - s) ≠ 0 := by positivity
    have hv' : ∀ x, x < 2 ^ K → vals op.p.p a' x = bwdE K (psiInv : ZMod op.p.p) v (s + 1) x := by
      intro x hx
      rw [(e3 x hx).2, bwdE]
      have hN := layer_arith (show K - 1 - s < K by omega)
      rw [show K - 1 - (K - 1 - s) = s by omega] at hN
      exact bl_congr (m := 2 ^ (K - 1 - s)) (by positivity) _ _ _ (fun y hy => hv y (by omega)) x (by omega)
    rw [backwardLoop, dif_neg hl, e1, res_ok_bind]
    simp only
    rw [Nat.shiftLeft_eq, pow_one, Nat.shiftRight_eq_div_pow, pow_one, ← pow_succ]
    by_cases hd : d = 0
    · subst hd
      have : K - 1 - s = 0 := by omega
      rw [this, backwardLoop, dif_pos (by norm_num)]
      refine ⟨a', rfl, e2, fun x hx => (e3 x hx).1, fun x hx => ?_⟩
      rw [hv' x hx, show s + 1 = K by omega]
    · rw [show 2 ^ (K - 1 - s) / 2 = 2 ^ (K - 1 - (s + 1)) by
        rw [show K - 1 - s = K - 1 - (s + 1) + 1 by omega, pow_succ]; omega]
      exact ih (s + 1) a' (by omega) (by omega) e2 (fun x hx => (e3 x hx).1) hv'

/-- `backward` computes the exact inverse layers followed by the scaling. -/
theorem backward_ok (h : op.WF K psi psiInv) (pr : Profile) {a : List Nat} (ha : a.length = 2 ^ K)
    (hr : ∀ x ∈ a, x < 2 * op.p.p) :
    ∃ a', op.backward pr a = .ok a' ∧ a'.length = 2 ^ K ∧ (∀ x ∈ a', x < op.p.p) ∧
      ∀ x, x < 2 ^ K → vals op.p.p a' x = (op.sizeInv : ZMod op.p.p) * bwdE K (psiInv : ZMod op.p.p) (vals op.p.p a) K x := by
  have h3 := h.three_le
  have hlt := h.mod.lt
  obtain ⟨b, e1, e2, e3, e4⟩ := backwardLoop_ok h pr (vals op.p.p a) K 0 a (by omega) (by omega) ha
    (fun x hx => by
      rw [List.getD, List.getElem?_eq_getElem (by omega)]
      exact hr _ (List.getElem_mem _)) (fun x _ => rfl)
  have hb : ∀ x ∈ b, x < 2 * op.p.p := by
    intro x hx
    obtain ⟨i, hi, rfl⟩ := List.getElem_of_mem hx
    have := e3 i (by omega)
    rwa [List.getD, List.getElem?_eq_getElem hi] at this
  refine ⟨b.map (fun x => x * op.sizeInv % op.p.p), ?_, by simpa using e2, ?_, ?_⟩
  · unfold backward
    rw [rassert_ok (by rw [ha, h.size]), res_ok_bind, h.size, Nat.shiftRight_eq_div_pow, pow_one,
      show 2 ^ K / 2 = 2 ^ (K - 1 - 0) by rw [Nat.sub_zero]; conv_lhs => rw [show K = K - 1 + 1 by omega, pow_succ]
                                          omega]
    rw [Nat.sub_zero K, Nat.sub_self, pow_zero] at e1
    rw [e1, res_ok_bind]
    apply mapR_ok
    intro x hx
    have := hb x hx
    rw [h.sInvs, Modulus.mulShoup_ok h.mod pr (by omega) h.sInv_lt]
  · intro x hx
    obtain ⟨y, -, rfl⟩ := List.mem_map.mp hx
    exact Nat.mod_lt _ h.mod.pos
  · intro x hx
    rw [vals, getD_map_of_lt _ _ _ 0 _ (by omega), ZMod.natCast_mod, Nat.cast_mul, ← e4 x hx, vals]; ring

/-- Canonical vectors are determined by their field values. -/
theorem eq_of_vals {p n : Nat} {a b : List Nat} (ha : a.length = n) (hb : b.length = n) (h1 : ∀ x ∈ a, x < p)
    (h2 : ∀ x ∈ b, x < p) (h : ∀ x, x < n → vals p a x = vals p b x) : a = b := by
  apply List.ext_getElem (by omega)
  intro i hi hi'
  have := h i (by omega)
  rw [vals, vals, List.getD, List.getD, List.getElem?_eq_getElem hi, List.getElem?_eq_getElem hi'] at this
  simp only [Option.getD_some] at this
  rw [ZMod.natCast_eq_natCast_iff'] at this
  rwa [Nat.mod_eq_of_lt (h1 _ (List.getElem_mem _)), Nat.mod_eq_of_lt (h2 _ (List.getElem_mem _))] at this

theorem fwdE_congr (K : Nat) (ψ : R) (v v' : Nat → R) (h : ∀ x, x < 2 ^ K → v x = v' x) (t : Nat) (ht : t ≤ K) :
    ∀ x, x < 2 ^ K → fwdE K ψ v t x = fwdE K ψ v' t x := by
  induction t with
  | zero => exact h
  | succ t ih =>
    intro x hx
    have hN := layer_arith (show t < K by omega)
    exact fl_congr (m := 2 ^ t) (by positivity) _ _ _ (fun y hy => ih (by omega) y (by omega)) x (by omega)

theorem bwdE_congr (K : Nat) (ψ : R) (v v' : Nat → R) (h : ∀ x, x < 2 ^ K → v x = v' x) (s : Nat) (hs : s ≤ K) :
    ∀ x, x < 2 ^ K → bwdE K ψ v s x = bwdE K ψ v' s x := by
  induction s with
  | zero => exact h
  | succ s ih =>
    intro x hx
    have hN := layer_arith (show K - 1 - s < K by omega)
    rw [show K - 1 - (K - 1 - s) = s by omega] at hN
    exact bl_congr (m := 2 ^ (K - 1 - s)) (by positivity) _ _ _ (fun y hy => ih (by omega) y (by omega)) x (by omega)

theorem fwdE_smul (K : Nat) (ψ : R) (v : Nat → R) (c : R) (t : Nat) :
    ∀ x, fwdE K ψ (fun y => c * v y) t x = c * fwdE K ψ v t x := by
  induction t with
  | zero => intro x; rfl
  | succ t ih =>
    intro x
    rw [fwdE, show fwdE K ψ (fun y => c * v y) t = fun y => c * fwdE K ψ v t y from funext ih, fl_smul]; rfl

theorem backward_forward (h : op.WF K psi psiInv) (pr : Profile) {a : List Nat} (ha : a.length = 2 ^ K)
    (hr : ∀ x ∈ a, x < op.p.p) :
    ∃ b, op.forward pr a = .ok b ∧ b.length = 2 ^ K ∧ (∀ x ∈ b, x < op.p.p) ∧ op.backward pr b = .ok a := by
  obtain ⟨b, e1, e2, e3, e4⟩ := forward_ok h pr ha (fun x hx => by have := hr x hx; omega)
  obtain ⟨c, f1, f2, f3, f4⟩ := backward_ok h pr e2 (fun x hx => by have := e3 x hx; omega)
  refine ⟨b, e1, e2, e3, ?_⟩
  rw [f1]
  congr 1
  refine eq_of_vals f2 ha f3 hr (fun x hx => ?_)
  rw [f4 x hx, bwdE_congr K _ _ _ e4 K le_rfl x hx, bwdE_fwdE K _ _ h.psi_inv _ K le_rfl, Nat.sub_self, fwdE, ← mul_assoc,
    h.sInv, one_mul]

theorem forward_backward (h : op.WF K psi psiInv) (pr : Profile) {a : List Nat} (ha : a.length = 2 ^ K)
    (hr : ∀ x ∈ a, x < op.p.p) :
    ∃ b, op.backward pr a = .ok b ∧ b.length = 2 ^ K ∧ (∀ x ∈ b, x < op.p.p) ∧ op.forward pr b = .ok a := by
  obtain ⟨b, e1, e2, e3, e4⟩ := backward_ok h pr ha (fun x hx => by have := hr x hx; omega)
  obtain ⟨c, f1, f2, f3, f4⟩ := forward_ok h pr e2 (fun x hx => by have := e3 x hx; omega)
  refine ⟨b, e1, e2, e3, ?_⟩
  rw [f1]
  congr 1
  refine eq_of_vals f2 ha f3 hr (fun x hx => ?_)
  rw [f4 x hx, fwdE_congr K _ _ _ e4 K le_rfl x hx, fwdE_smul, fwdE_bwdE K _ _ h.psi_inv _ K le_rfl, Nat.sub_self, bwdE,
    ← mul_assoc, h.sInv, one_mul]

/-- Entry `i` of the forward transform is the value of the polynomial at `ψ^(2·rev(i)+1)`. -/
theorem forward_eval (h : op.WF K psi psiInv) (pr : Profile) {a : List Nat} (ha : a.length = 2 ^ K)
    (hr : ∀ x ∈ a, x < 4 * op.p.p) :
    ∃ a', op.forward pr a = .ok a' ∧ a'.length = 2 ^ K ∧ (∀ x ∈ a', x < op.p.p) ∧
      ∀ i, i < 2 ^ K → vals op.p.p a' i =
        ∑ j ∈ Finset.range (2 ^ K), vals op.p.p a j * ((psi : ZMod op.p.p) ^ (2 * reverseBits K i + 1)) ^ j := by
  obtain ⟨a', e1, e2, e3, e4⟩ := forward_ok h pr ha hr
  refine ⟨a', e1, e2, e3, fun i hi => ?_⟩
  rw [e4 i hi]
  have := fwdE_eval K (psi : ZMod op.p.p) h.psi_pow (vals op.p.p a) K le_rfl i 0 hi (by positivity)
  simpa using this

/-! ### Construction -/

theorem powersLoop_ok {p : Modulus} (h : p.WF) (pr : Profile) {w : Nat} (hw : w < p.p) (count e : Nat) :
    powersLoop pr p w count (w ^ e % p.p) = .ok ((List.range count).map (fun i => w ^ (e + i) % p.p)) := by
  induction count generalizing e with
  | zero => rfl
  | succ c ih =>
    rw [powersLoop, Modulus.mul_ok h pr (Nat.mod_lt _ h.pos) hw, res_ok_bind,
      show w ^ e % p.p * w % p.p = w ^ (e + 1) % p.p by rw [Nat.mod_mul_mod, pow_succ], ih, res_ok_bind,
      List.range_succ_eq_map, List.map_cons, List.map_map]
    congr 2
    apply List.map_congr_left
    intro i _
    simp only [Function.comp]
    congr 2; omega

theorem supportsNtt_inv {p n : Nat} (hn : n < 2 ^ 64) (h : supportsNtt p n = .ok true) :
    ∃ K, 3 ≤ K ∧ K ≤ 62 ∧ n = 2 ^ K ∧ p.Prime ∧ p % (2 * 2 ^ K) = 1 := by
  unfold supportsNtt at h
  split_ifs at h with hc
  · simp at h
  · push Not at hc
    obtain ⟨h1, h2⟩ := hc
    simp only [bind_eq_ok] at h
    obtain ⟨r, hr, h⟩ := h
    rw [Nat.shiftLeft_eq, pow_one] at hr
    have hne : n * 2 % 2 ^ 64 ≠ 0 := by
      intro h0; rw [h0] at hr; simp [modR] at hr
    rw [modR_ok hne] at hr
    simp only [Except.ok.injEq] at hr h
    rw [Bool.and_eq_true, decide_eq_true_eq] at h
    obtain ⟨h3, h4⟩ := h
    have h3K : 3 ≤ n.log2 := by
      by_contra hc
      have : n.log2 ≤ 2 := by omega
      have := Nat.pow_le_pow_right (show 0 < 2 by norm_num) this
      omega
    have hK64 : n.log2 < 64 := by
      by_contra hc
      have := Nat.pow_le_pow_right (show 0 < 2 by norm_num) (show 64 ≤ n.log2 by omega)
      omega
    have hK62 : n.log2 ≠ 63 := by
      intro h63; rw [h63] at h1; rw [h1] at hne; norm_num at hne
    have hlt : n * 2 < 2 ^ 64 := by
      have := Nat.pow_le_pow_right (show 0 < 2 by norm_num) (show n.log2 ≤ 62 by omega)
      omega
    rw [Nat.mod_eq_of_lt hlt] at hr
    refine ⟨n.log2, h3K, by omega, h1, by simpa [isPrime] using h4, ?_⟩
    rw [← h1, Nat.mul_comm, hr, h3]

theorem primitiveRootLoop_inv {p : Modulus} (h : p.WF) (pr : Profile) {n lam : Nat} (sample : Nat → Nat)
    (hs : ∀ i, sample i < p.p) (hn : 2 * n < p.p) (hlam : lam < p.p) (fuel i r : Nat)
    (hr : primitiveRootLoop pr p n lam sample fuel i = .ok r) :
    r < p.p ∧ r ^ (2 * n) % p.p = 1 ∧ r ^ n % p.p ≠ 1 := by
  have hl := h.lt
  have hmod := Nat.mod_lt ((sample i) ^ lam) h.pos
  induction fuel generalizing i with
  | zero => simp [primitiveRootLoop] at hr
  | succ f ih =>
    have hmod := Nat.mod_lt ((sample i) ^ lam) h.pos
    rw [primitiveRootLoop, Modulus.pow_ok h pr (hs i) hlam, res_ok_bind, mulW_ok (by omega), res_ok_bind, isPrimitiveRoot,
      dassert_ok hmod, res_ok_bind, Modulus.pow_ok h pr hmod hn, res_ok_bind] at hr
    by_cases hc : (sample i ^ lam % p.p) ^ (2 * n) % p.p = 1
    · rw [if_pos hc, Modulus.pow_ok h pr hmod (by omega), res_ok_bind, res_ok_bind] at hr
      rw [show 2 * n / 2 = n by omega] at hr
      by_cases hc2 : (sample i ^ lam % p.p) ^ n % p.p = 1
      · rw [if_neg (by simp [hc2])] at hr
        exact ih _ hr (Nat.mod_lt _ h.pos)
      · rw [if_pos (by simpa using hc2)] at hr
        simp only [Except.ok.injEq] at hr
        subst hr
        exact ⟨hmod, hc, hc2⟩
    · rw [if_neg hc, res_ok_bind, if_neg (by simp)] at hr
      exact ih _ hr (Nat.mod_lt _ h.pos)

theorem mapR_idx_ok (l : List Nat) (g : Nat → Nat) (n : Nat) (hg : ∀ i, i < n → g i < l.length) :
    mapR (fun i => idx l (g i)) (List.range n) = .ok ((List.range n).map (fun i => l.getD (g i) 0)) := by
  apply mapR_ok
  intro x hx
  exact idx_getD 0 (hg x (List.mem_range.mp hx))

theorem getD_range_map (f : Nat → Nat) (n i : Nat) (h : i < n) : ((List.range n).map f).getD i 0 = f i := by
  rw [getD_map_of_lt f _ i 0 0 (by simpa using h)]
  simp [List.getD, h]

theorem new_wf {p : Modulus} (h : p.WF) (pr : Profile) {n : Nat} (hn : n < 2 ^ 64) (sample : Nat → Nat)
    (hs : ∀ i, sample i < p.p) {op : NttOperator} (hop : new pr sample p n = .ok op) :
    ∃ K psi psiInv, op.WF K psi psiInv ∧ op.p = p ∧ op.size = n := by
  have hl := h.lt
  have h2 := h.two_le
  unfold new at hop
  simp only [bind_eq_ok] at hop
  obtain ⟨sb, hsb, _, has, omega, homega, hop⟩ := hop
  rw [rassert_eq_ok] at has
  subst has
  obtain ⟨K, hK3, hK62, rfl, hprime, hmod⟩ := supportsNtt_inv hn hsb
  have hdm := Nat.div_add_mod p.p (2 * 2 ^ K)
  have hKpos : 0 < 2 ^ K := by positivity
  have hq0 : p.p / (2 * 2 ^ K) ≠ 0 := by
    intro h0; rw [h0, hmod] at hdm; omega
  have h2n : 2 * 2 ^ K < p.p := by
    have : 2 * 2 ^ K * 1 ≤ 2 * 2 ^ K * (p.p / (2 * 2 ^ K)) := Nat.mul_le_mul_left _ (Nat.one_le_iff_ne_zero.mpr hq0)
    omega
  unfold primitiveRoot at homega
  rw [subW_ok (by omega), res_ok_bind, mulW_ok (by omega), res_ok_bind, divR_ok (by positivity), res_ok_bind] at homega
  have hlam : (p.p - 1) / (2 * 2 ^ K) < p.p := lt_of_le_of_lt (Nat.div_le_self _ _) (by omega)
  obtain ⟨w1, w2, w3⟩ := primitiveRootLoop_inv h pr sample hs h2n hlam _ _ _ homega
  have hF := Fact.mk hprime
  have hpow2 : ((omega : ZMod p.p) ^ 2 ^ K) ^ 2 = 1 := by
    have : ((omega ^ (2 * 2 ^ K) : Nat) : ZMod p.p) = (1 : Nat) := by
      rw [ZMod.natCast_eq_natCast_iff', w2, Nat.mod_eq_of_lt (by omega)]
    rw [← pow_mul, Nat.mul_comm]; simpa using this
  have hpow1 : (omega : ZMod p.p) ^ 2 ^ K ≠ 1 := by
    intro hc
    apply w3
    have : ((omega ^ (2 ^ K) : Nat) : ZMod p.p) = (1 : Nat) := by simpa using hc
    rw [ZMod.natCast_eq_natCast_iff'] at this
    rw [this, Nat.mod_eq_of_lt (by omega)]
  have hpow : (omega : ZMod p.p) ^ 2 ^ K = -1 := by
    rcases sq_eq_one_iff.mp hpow2 with h | h
    · exact absurd h hpow1
    · exact h
  have hw0 : omega ≠ 0 := by
    rintro rfl
    rw [Nat.cast_zero, zero_pow (by positivity)] at hpow
    rw [zero_pow (by positivity)] at w2
    simp at w2
  rw [Modulus.inv_ok h pr w1 hw0] at hop
  have hinv := Modulus.inv_spec hprime w1 hw0
  have hinvlt := Nat.mod_lt (omega ^ (p.p - 2)) h.pos
  generalize omega ^ (p.p - 2) % p.p = oinv at *
  obtain ⟨oi, hoi, powers, hpowers, powersInv, hpowersInv, hop⟩ := hop
  cases hoi
  have hpl : ∀ w, w < p.p → powersLoop pr p w (2 ^ K + 1) 1 = .ok ((List.range (2 ^ K + 1)).map (fun i => w ^ i % p.p)) := by
    intro w hw
    have := powersLoop_ok h pr hw (2 ^ K + 1) 0
    simpa [Nat.mod_eq_of_lt h2] using this
  rw [hpl _ w1] at hpowers
  rw [hpl _ hinvlt] at hpowersInv
  simp only [Except.ok.injEq] at hpowers hpowersInv
  obtain ⟨om, hom, omI, homI, ze, hze, oms, homs, zes, hzes, si, hsi, sis, hsis, p2, hp2, hop⟩ := hop
  have hbr : ∀ i, i < 2 ^ K → bitrevIndex (2 ^ K) i < 2 ^ K := by
    intro i hi
    rw [bitrevIndex_eq K i (by omega) hi]; exact reverseBits_lt _ _
  have hlp : powers.length = 2 ^ K + 1 := by rw [← hpowers, List.length_map, List.length_range]
  have hlpi : powersInv.length = 2 ^ K + 1 := by rw [← hpowersInv, List.length_map, List.length_range]
  rw [mapR_idx_ok _ _ _ (fun i hi => by have := hbr i hi; omega)] at hom homI
  rw [mapR_idx_ok _ (fun i => bitrevIndex (2 ^ K) i + 1) _ (fun i hi => by have := hbr i hi; omega)] at hze
  simp only [Except.ok.injEq] at hom homI hze
  have hom' : ∀ i, i < 2 ^ K → om.getD i 0 = omega ^ reverseBits K i % p.p := by
    intro i hi
    have := hbr i hi
    rw [← hom, getD_range_map _ _ _ hi, ← hpowers, getD_range_map _ _ _ (by omega), bitrevIndex_eq K i (by omega) hi]
  have homI' : ∀ i, i < 2 ^ K → omI.getD i 0 = oinv ^ reverseBits K i % p.p := by
    intro i hi
    have := hbr i hi
    rw [← homI, getD_range_map _ _ _ hi, ← hpowersInv, getD_range_map _ _ _ (by omega), bitrevIndex_eq K i (by omega) hi]
  have hze' : ∀ i, i < 2 ^ K → ze.getD i 0 = oinv ^ (reverseBits K i + 1) % p.p := by
    intro i hi
    have := hbr i hi
    rw [← hze, getD_range_map _ _ _ hi, ← hpowersInv, getD_range_map _ _ _ (by omega), bitrevIndex_eq K i (by omega) hi]
  have hlom : om.length = 2 ^ K := by rw [← hom]; simp
  have hlomI : omI.length = 2 ^ K := by rw [← homI]; simp
  have hlze : ze.length = 2 ^ K := by rw [← hze]; simp
  have hmem : ∀ (l : List Nat) (f : Nat → Nat), l.length = 2 ^ K → (∀ i, i < 2 ^ K → l.getD i 0 = f i % p.p) →
      Modulus.shoupVec pr p l = .ok (l.map (fun w => w * 2 ^ 64 / p.p)) := by
    intro l f hl hf
    apply mapR_ok
    intro x hx
    obtain ⟨i, hi, rfl⟩ := List.getElem_of_mem hx
    apply Modulus.shoup_ok h pr
    have := hf i (by omega)
    rw [List.getD, List.getElem?_eq_getElem hi, Option.getD_some] at this
    rw [this]; exact Nat.mod_lt _ h.pos
  rw [hmem om _ hlom hom'] at homs
  rw [hmem ze _ hlze hze'] at hzes
  rw [Modulus.inv_ok h pr (show 2 ^ K < p.p by omega) (by omega)] at hsi
  have hsinv := Modulus.inv_spec hprime (show 2 ^ K < p.p by omega) (by omega)
  have hsilt := Nat.mod_lt ((2 ^ K) ^ (p.p - 2)) h.pos
  simp only [Except.ok.injEq] at homs hzes hsi
  rw [hsi] at hsinv hsilt
  rw [Modulus.shoup_ok h pr hsilt] at hsis
  rw [mulW_ok (by omega)] at hp2
  simp only [Except.ok.injEq] at hsis hp2 hop
  subst hop
  refine ⟨K, omega, oinv, ?_, rfl, rfl⟩
  constructor
  · exact h
  · exact hprime
  · rfl
  · exact hK3
  · exact hK62
  · simp only; omega
  · exact hmod
  · exact w1
  · exact hinvlt
  · rw [mul_comm, ← Nat.cast_mul, ← Nat.cast_one, ZMod.natCast_eq_natCast_iff', hinv, Nat.mod_eq_of_lt h2]
  · exact hpow
  · exact hlom
  · exact hom'
  · exact homs.symm
  · exact hlomI
  · exact homI'
  · exact hlze
  · exact hze'
  · exact hzes.symm
  · exact hsilt
  · simp only
    have := (ZMod.natCast_eq_natCast_iff' (si * 2 ^ K) 1 p.p).mpr (by rw [hsinv, Nat.mod_eq_of_lt (by omega)])
    push_cast at this
    exact this
  · exact hsis.symm

end NttOperator
end OnionPIR
