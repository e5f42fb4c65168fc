import Verif.Props.Rq
import Verif.Props.Utils
import Verif.Spec.Bfv
import Mathlib.FieldTheory.Finite.Basic
/-
Properties C56 and C58: `apply_bit_decomposition` and `inverse` of polynomials.
-/
namespace OnionPIR
open Rg Spec

/-! ### C56: `apply_bit_decomposition`

The number of bits passed to `decompose_bits` is `Modulus::bits`, which is about `2^64` (C07). -/

/-- One step of `apply_bit_decomposition` never succeeds, for any coefficient and modulus. -/
theorem c56_step_panics (pr : Profile) (bd : BitDecomposition) (q : Modulus) (cv : Nat × Nat) :
    Poly.bitDecompStep pr bd q cv = .error .capacity := by
  have hlz : leadingZeros 64 q.p ≤ 64 := by unfold leadingZeros; split <;> omega
  unfold Poly.bitDecompStep Modulus.bits
  rw [subW_ok (by omega), res_ok_bind, (c08_capacity_panics pr (by omega)).2]
  rfl

/-- C56 is violated: `apply_bit_decomposition` panics for every polynomial of every context. -/
theorem c56_panics {N : Nat} {l : List Nat} {c : RqContext} (hc : IsContext N l c) (pr : Profile) {p : Poly} (h1 : p.context = c)
    (h2 : ValidRows c p.coefficients) : p.applyBitDecomposition pr = .error .capacity := by
  obtain ⟨K, rfl, hw, rfl⟩ := RqP.ctx hc
  subst h1
  obtain ⟨hl, hrow⟩ := h2
  have hne : p.context.moduli64 ≠ [] := hw.core.ne
  have hpos : 0 < p.context.moduli64.length := List.length_pos_iff.mpr hne
  have hr := (hrow 0 hpos).1
  have hm : p.context.moduli.length = p.context.moduli64.length := by rw [hw.core.m64_ops, hw.moduli_eq]; simp
  unfold Poly.applyBitDecomposition Poly.zeros3
  split
  · rw [res_ok_bind]
    cases hco : p.coefficients with
    | nil => rw [hco] at hl; simp at hl; omega
    | cons r rs =>
      cases hmo : p.context.moduli with
      | nil => rw [hmo] at hm; simp at hm; omega
      | cons q qs =>
        rw [hco, List.getD_cons_zero, hw.core.deg] at hr
        cases hr' : r with
        | nil => rw [hr'] at hr; exact absurd hr (by rw [List.length_nil]; positivity)
        | cons x xs =>
          rw [List.zip_cons_cons, foldR_cons, List.length_cons, List.range_succ_eq_map, List.zip_cons_cons, foldR_cons, c56_step_panics]
          rfl
  · rfl

/-- What is left of C56: the call returns, without effect, exactly when there is no coefficient at all. Missing: every other case. -/
theorem c56_returns_partial (pr : Profile) (p p' : Poly) :
    p.applyBitDecomposition pr = .ok p' → p' = p ∧ ∀ rq ∈ p.coefficients.zip p.context.moduli, rq.1 = [] := by
  unfold Poly.applyBitDecomposition Poly.zeros3
  intro h
  obtain ⟨_, -, h⟩ := bind_eq_ok.mp h
  obtain ⟨_, h1, h2⟩ := bind_eq_ok.mp h
  refine ⟨(Except.ok.inj h2).symm, ?_⟩
  clear h2 h
  revert h1
  generalize p.coefficients.zip p.context.moduli = rows
  intro h1
  induction rows with
  | nil => simp
  | cons rq l ih =>
    rw [foldR_cons] at h1
    obtain ⟨_, h2, h3⟩ := bind_eq_ok.mp h1
    intro x hx
    rcases List.mem_cons.mp hx with rfl | hx
    · obtain ⟨r, q⟩ := x
      cases r with
      | nil => rfl
      | cons y ys =>
        rw [List.length_cons, List.range_succ_eq_map, List.zip_cons_cons, foldR_cons, c56_step_panics] at h2
        cases h2
    · exact ih h3 x hx

/-! ### C58: `inverse` -/

namespace RqP
variable {K : Nat} {c : RqContext}

theorem inv_release {m : Modulus} (h : m.WF) {a : Nat} (ha : a < m.p) : m.inv .release a = .ok (a ^ (m.p - 2) % m.p) := by
  have h2 := h.two_le
  unfold Modulus.inv
  rw [show dassert .release (a < m.p ∧ a ≠ 0) = .ok () from rfl, res_ok_bind, subW_ok h2, res_ok_bind, Modulus.pow_ok h .release ha (by omega)]

theorem inv_debug_zero (m : Modulus) : m.inv .debug 0 = .error .debugAssert := by
  unfold Modulus.inv dassert
  simp

theorem mapR_mem {α β : Type _} {f : α → Res β} {l : List α} {r : List β} (h : mapR f l = .ok r) {x : α} (hx : x ∈ l) : ∃ y, f x = .ok y := by
  induction l generalizing r with
  | nil => cases hx
  | cons a l ih =>
    unfold mapR at h
    obtain ⟨y, h1, h2⟩ := bind_eq_ok.mp h
    obtain ⟨ys, h3, -⟩ := bind_eq_ok.mp h2
    rcases List.mem_cons.mp hx with rfl | hx
    · exact ⟨y, h1⟩
    · exact ih h3 hx

/-- Values that `inverse` computes: `x^(q-2)` at every point. -/
theorem exists_powers (h : c.WF K) (f : Rg (2 ^ K)) : ∃ g : Rg (2 ^ K), ∀ op ∈ c.nttOps, ∀ j, j < 2 ^ K →
    ev (ptOf K op j) g = ev (ptOf K op j) f ^ (op.p.p - 2) := by
  have hv : (Poly.mk c .ntt (c.nttOps.map fun op => (List.range (2 ^ K)).map fun j => (ev (ptOf K op j) f ^ (op.p.p - 2)).val)).Valid := by
    refine ⟨by simp [h.core.m64_ops], fun i hi => ?_⟩
    have hi' : i < c.nttOps.length := by simpa [h.core.m64_ops] using hi
    have hw := h.opp_wf (List.getElem_mem hi')
    have e1 : c.moduli64.getD i 1 = (c.nttOps[i]).p.p := by simp [h.core.m64_ops, List.getD, hi']
    simp only [e1, h.core.deg]
    rw [show ((c.nttOps.map fun op => (List.range (2 ^ K)).map fun j => (ev (ptOf K op j) f ^ (op.p.p - 2)).val).getD i []) =
      (List.range (2 ^ K)).map fun j => (ev (ptOf K (c.nttOps[i]) j) f ^ ((c.nttOps[i]).p.p - 2)).val by simp [List.getD, hi']]
    have := NeZero.mk (Nat.pos_iff_ne_zero.mp hw.pos)
    refine ⟨by simp, fun x hx => ?_⟩
    obtain ⟨j, -, rfl⟩ := List.mem_map.mp hx
    exact ZMod.val_lt _
  obtain ⟨g, hg, -⟩ := exists_enc (K := K) h (by simp) hv
  refine ⟨g, fun op hop j hj => ?_⟩
  have := NeZero.mk (Nat.pos_iff_ne_zero.mp (h.opp_wf hop).pos)
  have h1 := congrArg Poly.coefficients hg
  simp only [enc, encRows] at h1
  have h2 := List.map_inj_left.mp h1 op hop
  have h3 := List.map_inj_left.mp h2 j (List.mem_range.mpr hj)
  exact (ZMod.val_injective _ h3).symm

theorem inverse_of_powers (h : c.WF K) (pr : Profile) {f g : Rg (2 ^ K)}
    (hg : ∀ op ∈ c.nttOps, ∀ j, j < 2 ^ K → ev (ptOf K op j) g = ev (ptOf K op j) f ^ (op.p.p - 2))
    (hf : pr = .release ∨ ∀ op ∈ c.nttOps, ∀ j, j < 2 ^ K → ev (ptOf K op j) f ≠ 0) :
    (enc c .ntt f).inverse pr = .ok (enc c .ntt g) := by
  unfold Poly.inverse
  have hz : (Poly.zero (enc c .ntt f).context (enc c .ntt f).representation).coefficients = _ := Poly.zero_coeffs h .ntt
  rw [hz]
  have hm : (enc c .ntt f).context.moduli = c.nttOps.map (·.p) := h.moduli_eq
  rw [hm]
  simp only [enc, encRows]
  rw [zip3MutM_map (d := fun op => rowN g op)]
  · rfl
  · intro op hop
    have hw := h.opp_wf hop
    have := NeZero.mk (Nat.pos_iff_ne_zero.mp hw.pos)
    have hi : op.p.invVec pr (rowN f op) = .ok (rowN g op) := by
      unfold Modulus.invVec rowN
      have hx : ∀ j, j < 2 ^ K → op.p.inv pr (ev (ptOf K op j) f).val = .ok (ev (ptOf K op j) g).val := by
        intro j hj
        have hlt := ZMod.val_lt (ev (ptOf K op j) f)
        have hval : (ev (ptOf K op j) f).val ^ (op.p.p - 2) % op.p.p = (ev (ptOf K op j) g).val := by
          rw [hg op hop j hj, ← ZMod.val_natCast, Nat.cast_pow, ZMod.natCast_zmod_val]
        rcases hf with rfl | hf
        · rw [inv_release hw hlt, hval]
        · rw [Modulus.inv_ok hw pr hlt (fun h0 => hf op hop j hj ((ZMod.val_eq_zero _).mp h0)), hval]
      have hmm := mapR_ok (f := op.p.inv pr) (l := (List.range (2 ^ K)).map fun j => (ev (ptOf K op j) f).val)
        (g := fun a => a ^ (op.p.p - 2) % op.p.p) (fun a ha => by
          obtain ⟨j, hj, rfl⟩ := List.mem_map.mp ha
          rw [hx j (List.mem_range.mp hj), hg op hop j (List.mem_range.mp hj), ← ZMod.val_natCast, Nat.cast_pow, ZMod.natCast_zmod_val])
      rw [hmm, List.map_map]
      congr 1
      refine List.map_congr_left fun j hj => ?_
      rw [Function.comp, hg op hop j (List.mem_range.mp hj), ← ZMod.val_natCast, Nat.cast_pow, ZMod.natCast_zmod_val]
    rw [hi, res_ok_bind, Poly.copyFromSlice_ok (by rw [length_rowN, List.length_replicate])]

/-- Congruence modulo `Q` is equality of the values at all points. -/
theorem cong_iff_values (h : c.WF K) (f g : Rg (2 ^ K)) :
    Cong c.Q f g ↔ ∀ op ∈ c.nttOps, ∀ j, j < 2 ^ K → ev (ptOf K op j) f = ev (ptOf K op j) g := by
  unfold Cong
  rw [← enc_eq_iff h (r := .ntt)]
  constructor
  · intro he op hop j hj
    have := NeZero.mk (Nat.pos_iff_ne_zero.mp (h.opp_wf hop).pos)
    have h1 := congrArg Poly.coefficients he
    simp only [enc, encRows] at h1
    exact ZMod.val_injective _ (List.map_inj_left.mp (List.map_inj_left.mp h1 op hop) j (List.mem_range.mpr hj))
  · intro he
    simp only [enc, encRows]
    congr 1
    refine List.map_congr_left fun op hop => List.map_congr_left fun j hj => ?_
    rw [he op hop j (List.mem_range.mp hj)]

end RqP

variable {N : Nat} {l : List Nat} {c : RqContext}

theorem RqP.context_Q (hc : IsContext N l c) : ∃ K, N = 2 ^ K ∧ c.WF K ∧ c.Q = l.prod := by
  obtain ⟨K, h1, h2, h3⟩ := RqP.ctx hc
  exact ⟨K, h1, h2, by rw [RqContext.Q, h3]⟩

/-- C58: the inverse of a polynomial in NTT form that is invertible modulo `Q` is its inverse modulo `X^N + 1` and `Q`, in both builds. -/
theorem c58_inverse (hc : IsContext N l c) (pr : Profile) {f g : Rg N} (hfg : Cong l.prod (f * g) 1) {p : Poly}
    (hp : Denotes c .ntt (cf f) p) : ∃ p', p.inverse pr = .ok p' ∧ Denotes c .ntt (cf g) p' := by
  obtain ⟨K, rfl, hw, hQ⟩ := RqP.context_Q hc
  have hN : 0 < 2 ^ K := by positivity
  rw [RqP.denotes_iff hw (by simp), ofCoeffs_cf hN] at hp
  rw [← hQ, RqP.cong_iff_values hw] at hfg
  have h1 : ∀ op ∈ c.nttOps, ∀ j, j < 2 ^ K → ev (ptOf K op j) f * ev (ptOf K op j) g = 1 := by
    intro op hop j hj
    obtain ⟨_, _, ho⟩ := hw.op_wf hop
    rw [← ev_mul hN _ (ptOf_pow ho j), hfg op hop j hj, ev_one hN _ (ptOf_pow ho j)]
  refine ⟨enc c .ntt g, ?_, RqP.denotes_enc hw (by simp) g fun _ _ => rfl⟩
  rw [hp]
  refine RqP.inverse_of_powers hw pr (fun op hop j hj => ?_) (Or.inr fun op hop j hj h0 => ?_)
  · obtain ⟨_, _, ho⟩ := hw.op_wf hop
    have := Fact.mk ho.prime
    have h2 := h1 op hop j hj
    have hne : ev (ptOf K op j) f ≠ 0 := left_ne_zero_of_mul_eq_one h2
    have h3 := ZMod.pow_card_sub_one_eq_one hne
    have h4 : ev (ptOf K op j) f * ev (ptOf K op j) f ^ (op.p.p - 2) = 1 := by
      rw [← pow_succ', show op.p.p - 2 + 1 = op.p.p - 1 by have := ho.prime.two_le; omega, h3]
    exact mul_left_cancel₀ hne (h2.trans h4.symm)
  · obtain ⟨_, _, ho⟩ := hw.op_wf hop
    have := Fact.mk ho.prime
    have h2 := h1 op hop j hj
    rw [h0, zero_mul] at h2
    exact zero_ne_one h2

/-- C58: in the debug build a polynomial that is not invertible panics. -/
theorem c58_not_invertible (hc : IsContext N l c) {f : Rg N} (hf : ¬ ∃ g, Cong l.prod (f * g) 1) {p : Poly}
    (hp : Denotes c .ntt (cf f) p) : ∃ e, p.inverse .debug = .error e := by
  obtain ⟨K, rfl, hw, hQ⟩ := RqP.context_Q hc
  have hN : 0 < 2 ^ K := by positivity
  rw [RqP.denotes_iff hw (by simp), ofCoeffs_cf hN] at hp
  rw [← hQ] at hf
  have h0 : ∃ op ∈ c.nttOps, ∃ j, j < 2 ^ K ∧ ev (ptOf K op j) f = 0 := by
    by_contra hcon
    push Not at hcon
    obtain ⟨g, hg⟩ := RqP.exists_powers hw f
    refine hf ⟨g, (RqP.cong_iff_values hw _ _).mpr fun op hop j hj => ?_⟩
    obtain ⟨_, _, ho⟩ := hw.op_wf hop
    have := Fact.mk ho.prime
    rw [ev_mul hN _ (ptOf_pow ho j), ev_one hN _ (ptOf_pow ho j), hg op hop j hj, ← pow_succ',
      show op.p.p - 2 + 1 = op.p.p - 1 by have := ho.prime.two_le; omega, ZMod.pow_card_sub_one_eq_one (hcon op hop j hj)]
  cases hr : p.inverse .debug with
  | error e => exact ⟨e, rfl⟩
  | ok p' =>
    exfalso
    obtain ⟨op, hop, j, hj, hz⟩ := h0
    rw [hp] at hr
    unfold Poly.inverse at hr
    obtain ⟨rows, h1, -⟩ := bind_eq_ok.mp hr
    have hzc : (Poly.zero (enc c .ntt f).context (enc c .ntt f).representation).coefficients = _ := Poly.zero_coeffs hw .ntt
    have hm : (enc c .ntt f).context.moduli = c.nttOps.map (·.p) := hw.moduli_eq
    rw [hzc, hm] at h1
    simp only [enc, encRows] at h1
    have key : ∀ (ops : List NttOperator) (rows : List (List Nat)), op ∈ ops →
        zip3MutM (fun inv row (q : Modulus) => do
          let v ← q.invVec .debug row
          copyFromSlice inv v) (ops.map fun _ => List.replicate (2 ^ K) 0) (ops.map fun op => rowN f op) (ops.map (·.p)) ≠ .ok rows := by
      intro ops
      induction ops with
      | nil => intro _ h; cases h
      | cons o ops ih =>
        intro rows ho h
        simp only [List.map_cons, zip3MutM] at h
        obtain ⟨x, h2, h3⟩ := bind_eq_ok.mp h
        obtain ⟨y, h4, -⟩ := bind_eq_ok.mp h3
        rcases List.mem_cons.mp ho with rfl | ho
        · obtain ⟨v, h5, -⟩ := bind_eq_ok.mp h2
          have hmem : (0 : Nat) ∈ rowN f op := by
            unfold rowN
            refine List.mem_map.mpr ⟨j, List.mem_range.mpr hj, ?_⟩
            rw [hz, ZMod.val_zero]
          obtain ⟨w, hw⟩ := RqP.mapR_mem h5 hmem
          rw [RqP.inv_debug_zero] at hw
          cases hw
        · exact ih _ ho h4
    exact key _ _ hop h1

/-- C58: in the release build `inverse` never panics and returns a pseudo-inverse `g`: `f g f = f` and `g f g = g` modulo `Q`. -/
theorem c58_release (hc : IsContext N l c) {f : Rg N} {p : Poly} (hp : Denotes c .ntt (cf f) p) :
    ∃ p' g, p.inverse .release = .ok p' ∧ Denotes c .ntt (cf g) p' ∧ Cong l.prod (f * g * f) f ∧ Cong l.prod (g * f * g) g := by
  obtain ⟨K, rfl, hw, hQ⟩ := RqP.context_Q hc
  have hN : 0 < 2 ^ K := by positivity
  rw [RqP.denotes_iff hw (by simp), ofCoeffs_cf hN] at hp
  obtain ⟨g, hg⟩ := RqP.exists_powers hw f
  have hz : ∀ op ∈ c.nttOps, ∀ j, j < 2 ^ K → ev (ptOf K op j) f * ev (ptOf K op j) g * ev (ptOf K op j) f = ev (ptOf K op j) f ∧
      ev (ptOf K op j) g * ev (ptOf K op j) f * ev (ptOf K op j) g = ev (ptOf K op j) g := by
    intro op hop j hj
    obtain ⟨_, _, ho⟩ := hw.op_wf hop
    have := Fact.mk ho.prime
    have h3 : 3 ≤ op.p.p := by
      have := ho.cong
      have := ho.prime.two_le
      have h8 : 2 ^ 3 ≤ 2 ^ K := Nat.pow_le_pow_right (by norm_num) ho.three_le
      by_contra hlt
      rw [Nat.mod_eq_of_lt (by omega)] at *
      omega
    rw [hg op hop j hj]
    by_cases h0 : ev (ptOf K op j) f = 0
    · rw [h0, zero_pow (by omega)]; simp
    · have h1 : ev (ptOf K op j) f * ev (ptOf K op j) f ^ (op.p.p - 2) = 1 := by
        rw [← pow_succ', show op.p.p - 2 + 1 = op.p.p - 1 by omega, ZMod.pow_card_sub_one_eq_one h0]
      constructor
      · rw [h1, one_mul]
      · rw [mul_comm (_ ^ _), h1, one_mul]
  refine ⟨enc c .ntt g, g, ?_, RqP.denotes_enc hw (by simp) g fun _ _ => rfl, ?_, ?_⟩
  · rw [hp]
    exact RqP.inverse_of_powers hw .release hg (Or.inl rfl)
  · rw [← hQ, RqP.cong_iff_values hw]
    intro op hop j hj
    obtain ⟨_, _, ho⟩ := hw.op_wf hop
    rw [ev_mul hN _ (ptOf_pow ho j), ev_mul hN _ (ptOf_pow ho j)]
    exact (hz op hop j hj).1
  · rw [← hQ, RqP.cong_iff_values hw]
    intro op hop j hj
    obtain ⟨_, _, ho⟩ := hw.op_wf hop
    rw [ev_mul hN _ (ptOf_pow ho j), ev_mul hN _ (ptOf_pow ho j)]
    exact (hz op hop j hj).2

/-- C58 does not extend to power basis, where `inverse` does not check the representation: for every context the polynomial
`1 + X + … + X^(N-1)` is returned unchanged, and it is not its own inverse. -/
theorem c58_power_basis (hc : IsContext N l c) (pr : Profile) :
    ∃ f : Rg N, ∃ p, Denotes c .powerBasis (cf f) p ∧ p.inverse pr = .ok p ∧ ¬ Cong l.prod (f * f) 1 := by
  obtain ⟨K, rfl, hw, hQ⟩ := RqP.context_Q hc
  have hN : 0 < 2 ^ K := by positivity
  set f : Rg (2 ^ K) := ofCoeffs (2 ^ K) fun _ => 1 with hf
  refine ⟨f, enc c .powerBasis f, RqP.denotes_enc hw (by simp) f fun _ _ => rfl, ?_, ?_⟩
  · unfold Poly.inverse
    have hz : (Poly.zero (enc c .powerBasis f).context (enc c .powerBasis f).representation).coefficients = _ := Poly.zero_coeffs hw .powerBasis
    have hm : (enc c .powerBasis f).context.moduli = c.nttOps.map (·.p) := hw.moduli_eq
    rw [hz, hm]
    simp only [enc, encRows]
    rw [zip3MutM_map (d := fun op => rowP f op.p.p)]
    · rfl
    · intro op hop
      have ho := hw.opp_wf hop
      have h2 := ho.two_le
      have hrow : rowP f op.p.p = List.replicate (2 ^ K) 1 := by
        unfold rowP
        rw [show List.replicate (2 ^ K) 1 = (List.range (2 ^ K)).map fun _ => 1 by rw [List.map_const', List.length_range]]
        refine List.map_congr_left fun k hk => ?_
        rw [hf, cf_ofCoeffs hN _ (List.mem_range.mp hk), Int.emod_eq_of_lt (by omega) (by omega)]; rfl
      have hi : op.p.invVec pr (rowP f op.p.p) = .ok (rowP f op.p.p) := by
        rw [hrow]
        unfold Modulus.invVec
        rw [mapR_ok (g := fun _ => 1) (fun x hx => ?_), List.map_const', List.length_replicate]
        rw [List.eq_of_mem_replicate hx, Modulus.inv_ok ho pr (by omega) (by omega), one_pow, Nat.mod_eq_of_lt (by omega)]
      rw [hi, res_ok_bind, Poly.copyFromSlice_ok (by rw [length_rowP, List.length_replicate])]
  · rintro ⟨w, hw1⟩
    have h8 : 2 ^ 3 ≤ 2 ^ K := Nat.pow_le_pow_right (by norm_num) hw.core.three
    have hgeo : f * (xx - 1) = ((-2 : ℤ) : Rg (2 ^ K)) := by
      have h1 : f = ∑ k ∈ Finset.range (2 ^ K), (xx : Rg (2 ^ K)) ^ k := by
        rw [hf]; unfold ofCoeffs; simp
      rw [h1, geom_sum_mul, xx_pow]
      push_cast; ring
    have hsq : ((3 : ℤ) : Rg (2 ^ K)) - xx ^ 2 + ((2 : ℤ) : Rg (2 ^ K)) * xx ^ 1 = ((l.prod : ℤ) : Rg (2 ^ K)) * (w * (xx - 1) ^ 2) := by
      calc ((3 : ℤ) : Rg (2 ^ K)) - xx ^ 2 + ((2 : ℤ) : Rg (2 ^ K)) * xx ^ 1
          = ((-2 : ℤ) : Rg (2 ^ K)) * ((-2 : ℤ) : Rg (2 ^ K)) - (xx - 1) ^ 2 := by push_cast; ring
        _ = (f * (xx - 1)) * (f * (xx - 1)) - (xx - 1) ^ 2 := by rw [hgeo]
        _ = (f * f - 1) * (xx - 1) ^ 2 := by ring
        _ = _ := by rw [hw1]; ring
    obtain ⟨q0, hq0⟩ : ∃ q0 : ℤ, q0 = l.prod := ⟨_, rfl⟩
    rw [← hq0] at hsq
    have hc1 := congrArg (fun x => cf x 1) hsq
    simp only [cf_add hN, cf_sub hN, cf_int_mul hN, cf_int hN, cf_xx_pow hN (show 2 < 2 ^ K by omega), cf_xx_pow hN (show 1 < 2 ^ K by omega)] at hc1
    norm_num at hc1
    have hd : (l.prod : ℤ) ∣ 2 := by rw [← hq0]; exact Dvd.intro _ hc1.symm
    have hd' : c.Q ∣ 2 := by rw [hQ]; exact_mod_cast hd
    obtain ⟨q, hq⟩ := List.exists_mem_of_ne_nil _ hw.core.ne
    have hqQ : q ∣ c.Q := List.dvd_prod hq
    have hq2 : q ≤ 2 := Nat.le_of_dvd (by norm_num) (hqQ.trans hd')
    rw [hw.core.m64_ops, List.mem_map] at hq
    obtain ⟨op, hop, rfl⟩ := hq
    obtain ⟨_, _, ho⟩ := hw.op_wf hop
    have h1 := ho.cong
    have h2 := ho.prime.two_le
    rw [Nat.mod_eq_of_lt (by omega)] at h1
    omega

theorem RqP.exists_denotes (hc : IsContext N l c) (f : Rg N) : ∃ p, Denotes c .ntt (cf f) p := by
  obtain ⟨K, rfl, hw, -⟩ := RqP.ctx hc
  exact ⟨_, RqP.denotes_enc hw (by simp) f fun _ _ => rfl⟩

/-- `X` has the inverse `-X^7`; `17` has no inverse modulo `17 * 97`: the debug build panics, the release build returns. Both polynomials panic
in `apply_bit_decomposition`. -/
example : ∃ c, IsContext 8 [17, 97] c ∧ (∃ p p', Denotes c .ntt (cf (xx : Rg 8)) p ∧ p.inverse .debug = .ok p' ∧ Denotes c .ntt (cf (-xx ^ 7 : Rg 8)) p' ∧
      p.applyBitDecomposition .release = .error .capacity) ∧
    ∃ p p' e, Denotes c .ntt (cf ((17 : ℤ) : Rg 8)) p ∧ p.inverse .debug = .error e ∧ p.inverse .release = .ok p' := by
  obtain ⟨c, hc⟩ := exists_context
  obtain ⟨p, hp⟩ := RqP.exists_denotes hc xx
  obtain ⟨q, hq⟩ := RqP.exists_denotes hc ((17 : ℤ) : Rg 8)
  obtain ⟨p', h1, h2⟩ := c58_inverse hc .debug (f := xx) (g := -xx ^ 7) ⟨0, by
    rw [mul_neg, ← pow_succ', show (xx : Rg 8) ^ (7 + 1) = -1 from xx_pow]; ring⟩ hp
  obtain ⟨e, h3⟩ := c58_not_invertible hc (f := ((17 : ℤ) : Rg 8)) (by
    rintro ⟨g, w, hw⟩
    have := congrArg (fun x => cf x 0) hw
    simp only [cf_sub (show 0 < 8 by norm_num), cf_int_mul (show 0 < 8 by norm_num)] at this
    rw [show (1 : Rg 8) = ((1 : ℤ) : Rg 8) by simp, cf_int (by norm_num)] at this
    norm_num at this
    omega) hq
  obtain ⟨q', -, h4, -⟩ := c58_release hc hq
  exact ⟨c, hc, ⟨p, p', hp, h1, h2, c56_panics hc .release hp.1 hp.2.2.1⟩, q, q', e, hq, h3, h4⟩

/-- `c56_returns_partial`: a polynomial without rows is returned unchanged. -/
example : (do
    let c ← RqContext.new .debug exSample [17, 97] 8 ⟨1, 1⟩
    let p ← Poly.applyBitDecomposition .debug ⟨c, .powerBasis, []⟩
    pure (decide (p = ⟨c, .powerBasis, []⟩)) : Res Bool) = .ok true := by decide +kernel

end OnionPIR
