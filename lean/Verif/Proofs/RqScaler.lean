import Verif.Proofs.RqOps
/- Lemmas about scaling polynomials from one context to another. -/
namespace OnionPIR
open Rg
namespace RqScaler
variable {K : Nat}

theorem countCommon_le (a b : List Nat) (n : Nat) :
    n ≤ countCommon a b n ∧ countCommon a b n ≤ n + a.length ∧ countCommon a b n ≤ n + b.length := by
  induction a generalizing b n with
  | nil => simp [countCommon]
  | cons x a ih =>
    cases b with
    | nil => simp [countCommon]
    | cons y b =>
      unfold countCommon
      split_ifs
      · have := ih b (n + 1); simp; omega
      · have := ih b n; simp; omega

/-- If one list is a prefix of the other then exactly the shared prefix is counted. -/
theorem countCommon_prefix (a b : List Nat) (n : Nat) : countCommon a (a ++ b) n = n + a.length := by
  induction a generalizing n with
  | nil => cases b <;> simp [countCommon]
  | cons x a ih => simp [countCommon, ih]; omega

theorem countCommon_prefix' (a b : List Nat) (n : Nat) : countCommon (a ++ b) a n = n + a.length := by
  induction a generalizing n with
  | nil => cases b <;> simp [countCommon]
  | cons x a ih => simp [countCommon, ih]; omega

theorem countCommon_disjoint (a b : List Nat) (h : ∀ i, i < a.length → i < b.length → a.getD i 0 ≠ b.getD i 0) (n : Nat) :
    countCommon a b n = n := by
  induction a generalizing b with
  | nil => simp [countCommon]
  | cons x a ih =>
    cases b with
    | nil => simp [countCommon]
    | cons y b =>
      have h0 : x ≠ y := by simpa using h 0 (by simp) (by simp)
      unfold countCommon
      rw [if_neg h0]
      exact ih b (fun i h1 h2 => by simpa using h (i + 1) (by simpa using h1) (by simpa using h2))

theorem new_ok {src dst : RqContext} (hs : src.WF K) (hd : dst.WF K) (pr : Profile) (hlen : src.moduli64.length < 2 ^ 62)
    {sf : ScalingFactor} (hden : 0 < sf.denominator) :
    ∃ s, RqScaler.new pr src dst sf = .ok s ∧ s.src = src ∧ s.dst = dst ∧ s.scalingFactor = sf ∧ s.rnsScaler.WF ∧
      s.rnsScaler.src = src.rns ∧ s.rnsScaler.dst = dst.rns ∧ s.rnsScaler.scalingFactor = sf ∧
      s.numberCommonModuli = if sf.isOne then countCommon src.moduli64 dst.moduli64 0 else 0 := by
  obtain ⟨r, e, hw, e1, e2, e3⟩ := RnsScaler.new_ok pr hs.core.rns hd.core.rns (by rw [← hs.core.m64]; exact hs.core.ne)
    (by rw [← hs.core.m64]; exact hlen) hden
  unfold RqScaler.new
  rw [rassert_ok (by rw [hs.core.deg, hd.core.deg]), res_ok_bind]
  simp only
  rw [e, res_ok_bind]
  exact ⟨_, rfl, rfl, rfl, rfl, hw, e1, e2, e3, rfl⟩

/-- A scaler from `src` to `dst` by `num / den` that copies the rows of a common prefix of the two bases. -/
structure Built (src dst : RqContext) (num den : Nat) (s : RqScaler) : Prop where
  esrc : s.src = src
  edst : s.dst = dst
  wf : s.rnsScaler.WF
  rsrc : s.rnsScaler.src = src.rns
  rdst : s.rnsScaler.dst = dst.rns
  rsf : s.rnsScaler.scalingFactor = ⟨num, den, decide (num = den)⟩
  none : num ≠ den → s.numberCommonModuli = 0
  le : s.numberCommonModuli ≤ src.moduli64.length
  common : ∀ i, i < s.numberCommonModuli → src.moduli64.getD i 0 = dst.moduli64.getD i 0

theorem built {src dst : RqContext} (hs : src.WF K) (hd : dst.WF K) {pr : Profile} {s : RqScaler}
    (hlen : src.moduli64.length < 2 ^ 62) {num den : Nat} (hden : 0 < den)
    (hn : RqScaler.new pr src dst ⟨num, den, decide (num = den)⟩ = .ok s)
    (hpre : num = den → ∀ i, i < countCommon src.moduli64 dst.moduli64 0 → src.moduli64.getD i 0 = dst.moduli64.getD i 0) :
    Built src dst num den s := by
  obtain ⟨s', e, e1, e2, e3, hw, e4, e5, e6, e7⟩ := new_ok hs hd pr hlen (sf := ⟨num, den, decide (num = den)⟩) hden
  rw [e] at hn
  cases hn
  have hle := countCommon_le src.moduli64 dst.moduli64 0
  refine ⟨e1, e2, hw, e4, e5, e6, fun h => by simpa [h] using e7, ?_, ?_⟩
  · by_cases h : num = den
    · simp [h] at e7; omega
    · simp [h] at e7; omega
  · intro i hi
    by_cases h : num = den
    · exact hpre h i (by simp [h] at e7; omega)
    · simp [h] at e7; omega

/-- Residues of one coefficient. -/
theorem canon_residues {src : RqContext} (hs : src.WF K) (x : ℤ) :
    RnsScaler.Canon src.moduli64 (src.moduli64.map (fun (q : Nat) => (x % (q : ℤ)).toNat)) := by
  refine ⟨by simp, fun i hi => ?_⟩
  rw [NttOperator.getD_map_of_lt _ _ _ 1 _ hi, getD_eq_getElem' _ _ _ hi]
  have := (hs.bound (List.getElem_mem hi)).1
  exact emod_toNat_lt (by omega) _

theorem residues_sum_le (l : List Nat) (hl : ∀ q ∈ l, 2 ≤ q) (x : ℤ) (hne : l ≠ []) :
    (l.map (fun (q : Nat) => (x % (q : ℤ)).toNat)).sum < l.sum := by
  have key : ∀ l : List Nat, (∀ q ∈ l, 2 ≤ q) → (l.map (fun (q : Nat) => (x % (q : ℤ)).toNat)).sum + l.length ≤ l.sum := by
    intro l
    induction l with
    | nil => simp
    | cons a l ih =>
      intro h
      have h1 := ih (fun q hq => h q (by simp [hq]))
      have h2 := h a (by simp)
      have h3 := emod_toNat_lt (show 0 < a by omega) x
      simp only [List.map_cons, List.sum_cons, List.length_cons]
      omega
  have := key l hl
  have := List.length_pos_of_ne_nil hne
  omega

/-- A number congruent to `x` of absolute value at most half the modulus. -/
theorem exists_centered {Q : Nat} (hQ : 0 < Q) (x : ℤ) : ∃ y : ℤ, (Q : ℤ) ∣ y - x ∧ 2 * |y| ≤ Q := by
  have h1 := Int.emod_nonneg x (show (Q : ℤ) ≠ 0 by omega)
  have h2 := Int.emod_lt_of_pos x (show (0 : ℤ) < Q by omega)
  have h3 : (Q : ℤ) ∣ x % Q - x := by
    have := Int.emod_add_mul_ediv x Q
    exact ⟨-(x / Q), by linarith⟩
  by_cases h : 2 * (x % Q) ≤ Q
  · exact ⟨x % Q, h3, by rw [abs_of_nonneg h1]; exact h⟩
  · refine ⟨x % Q - Q, ?_, ?_⟩
    · have := Int.dvd_sub h3 (dvd_refl (Q : ℤ))
      rwa [sub_right_comm] at this
    · rw [abs_of_neg (by omega)]; omega

/-- Scaling one coefficient. -/
theorem column_scale {src dst : RqContext} (hs : src.WF K) (hd : dst.WF K) (pr : Profile) {s : RqScaler} {num den : Nat}
    (hb : Built src dst num den s)
    (hc : den ∣ num * src.Q ∨ src.moduli64.sum ≤ 2 ^ 65)
    {B : Nat} (hB : ∀ q ∈ src.moduli64, src.moduli64.length * q ≤ B) (a : ℤ) :
    ∃ x y : ℤ, (s.numberCommonModuli < dst.moduli64.length →
        s.rnsScaler.scale pr (src.moduli64.map (fun (q : Nat) => (a % (q : ℤ)).toNat))
          (dst.moduli64.length - s.numberCommonModuli) s.numberCommonModuli =
        .ok ((dst.moduli64.drop s.numberCommonModuli).map (fun (q : Nat) => (y % (q : ℤ)).toNat))) ∧
      (src.Q : ℤ) ∣ x - a ∧
      2 ^ 191 * |x| ≤ src.Q * (2 ^ 190 + B * max B (2 ^ 63)) ∧
      2 ^ 127 * |den * y - num * x| ≤ den * (2 ^ 126 + 2 * B) ∧ (num = den → y = x) := by
  obtain ⟨e1, e2, hw, e4, e5, e6, e7, -, -⟩ := hb
  by_cases hlt : s.numberCommonModuli < dst.moduli64.length
  · have hsrc : s.rnsScaler.src.moduliU64 = src.moduli64 := by rw [e4, hs.core.m64]
    have hdst : s.rnsScaler.dst.moduliU64 = dst.moduli64 := by rw [e5, hd.core.m64]
    have hcan := canon_residues hs a
    rw [← hsrc] at hcan
    obtain ⟨x, y, r1, r2, r3, r4, r5⟩ := RnsScaler.scale_spec pr hw (by rw [hsrc]; exact hs.core.ne) e6 hcan (by
        rw [hsrc]
        rcases hc with h | h
        · exact Or.inl h
        · exact Or.inr (lt_of_lt_of_le (residues_sum_le _ (fun q hq => (hs.bound hq).1) a hs.core.ne) h))
      (B := B) (by rw [hsrc]; exact hB) (outLen := dst.moduli64.length - s.numberCommonModuli)
      (start := s.numberCommonModuli) (by omega) (by rw [hdst]; omega)
    rw [hsrc] at r1 r2 r3
    refine ⟨x, y, fun _ => ?_, ?_, r3, r4, r5⟩
    · rw [r1, hdst, Spec.residuesOf, List.take_of_length_le (by simp)]
    · rw [RqContext.Q, ← RqContext.prod_dvd_int hs.cop]
      intro q hq
      obtain ⟨i, hi, rfl⟩ := List.mem_iff_getElem.mp hq
      have h1 := r2 i hi
      have h2 := (hs.bound (List.getElem_mem hi)).1
      rw [NttOperator.getD_map_of_lt _ _ _ 1 _ hi, getD_eq_getElem' _ _ _ hi] at h1
      rw [Int.toNat_of_nonneg (Int.emod_nonneg _ (by omega)), Int.emod_emod_of_dvd _ (dvd_refl _)] at h1
      exact Int.ModEq.dvd h1.symm
  · have hone : num = den := by
      by_contra h
      have hL := List.length_pos_of_ne_nil hd.core.ne
      rw [e7 h] at hlt
      omega
    obtain ⟨y, y1, y2⟩ := exists_centered hs.Q_pos a
    refine ⟨y, y, fun h => absurd h hlt, y1, ?_, ?_, fun _ => rfl⟩
    · have h1 : (2 : ℤ) ^ 191 * |y| ≤ src.Q * 2 ^ 190 := by
        rw [show (2 : ℤ) ^ 191 = 2 ^ 190 * 2 by norm_num, mul_assoc, mul_comm (src.Q : ℤ)]
        exact mul_le_mul_of_nonneg_left y2 (by positivity)
      rw [mul_add]
      exact h1.trans (le_add_of_nonneg_right (by positivity))
    · rw [hone, sub_self, abs_zero, mul_zero]; positivity

theorem column_enc' {c : RqContext} (h : c.WF K) (f : Rg (2 ^ K)) {j : Nat} (hj : j < 2 ^ K) :
    (enc c .powerBasis f).column j = .ok (c.moduli64.map (fun (q : Nat) => (cf f j % (q : ℤ)).toNat)) :=
  Poly.column_enc h f hj

/-- `scale` acts on every coefficient as the RNS scaler does. -/
theorem Built.scale_enc {src dst : RqContext} (hs : src.WF K) (hd : dst.WF K) (pr : Profile) {s : RqScaler} {num den : Nat}
    (hb : Built src dst num den s)
    (hc : den ∣ num * src.Q ∨ src.moduli64.sum ≤ 2 ^ 65)
    {B : Nat} (hB : ∀ q ∈ src.moduli64, src.moduli64.length * q ≤ B) (f : Rg (2 ^ K)) :
    ∃ x y : Nat → ℤ, (∀ k, k < 2 ^ K → (src.Q : ℤ) ∣ x k - cf f k ∧
      2 ^ 191 * |x k| ≤ src.Q * (2 ^ 190 + B * max B (2 ^ 63)) ∧
      2 ^ 127 * |den * y k - num * x k| ≤ den * (2 ^ 126 + 2 * B) ∧ (num = den → y k = x k)) ∧
      s.scale pr (enc src .powerBasis f) = .ok (enc dst .powerBasis (ofCoeffs (2 ^ K) y)) ∧
      s.scale pr (enc src .ntt f) = .ok (enc dst .ntt (ofCoeffs (2 ^ K) y)) := by
  have hN : 0 < 2 ^ K := by positivity
  have hcol := column_scale hs hd pr hb hc hB
  choose x y r1 r2 r3 r4 r5 using hcol
  obtain ⟨e1, e2, hw, e4, e5, e6, e7, hle, hpre⟩ := hb
  set n := s.numberCommonModuli with hnn
  set X : Nat → ℤ := fun k => x (cf f k)
  set Y : Nat → ℤ := fun k => y (cf f k) with hY
  have hdl : dst.moduli.length = dst.moduli64.length := by rw [hd.core.m64, ← hd.core.rns.ps, hd.core.mods, List.length_map]
  have hpow : scalePower pr s (enc src .powerBasis f) = .ok (enc dst .powerBasis (ofCoeffs (2 ^ K) Y)) := by
    have hcols : ∃ cols, scaleColumns pr s (enc src .powerBasis f) = .ok cols ∧ (n < dst.moduli64.length →
        cols = (List.range (2 ^ K)).map (fun j => (dst.moduli64.drop n).map (fun (q : Nat) => (Y j % (q : ℤ)).toNat))) := by
      unfold scaleColumns
      by_cases hlt : n < dst.moduli64.length
      · rw [e2, e1, if_pos hlt, hs.core.deg]
        refine ⟨_, mapR_ok (g := fun j => (dst.moduli64.drop n).map (fun (q : Nat) => (Y j % (q : ℤ)).toNat)) ?_, fun _ => rfl⟩
        intro j hj
        rw [Poly.column_enc hs f (List.mem_range.mp hj), res_ok_bind, hdl]
        exact r1 _ hlt
      · rw [e2, if_neg hlt]
        exact ⟨[], rfl, fun h => absurd h hlt⟩
    obtain ⟨cols, c1, c2⟩ := hcols
    unfold scalePower
    rw [c1, res_ok_bind, e2, hdl]
    rw [mapR_ok (g := fun i => rowP (ofCoeffs (2 ^ K) Y) (dst.moduli64.getD i 1)), res_ok_bind]
    · have : (List.range dst.moduli64.length).map (fun i => rowP (ofCoeffs (2 ^ K) Y) (dst.moduli64.getD i 1)) =
          encRows dst .powerBasis (ofCoeffs (2 ^ K) Y) := by
        rw [encRows_power hd]
        apply List.ext_getElem
        · simp
        · intro i i1 i2
          have hi : i < dst.moduli64.length := by simpa using i1
          simp [hi]
      rw [this]; rfl
    · intro i hi
      have hi := List.mem_range.mp hi
      by_cases hin : i < n
      · rw [if_pos hin]
        have hone : num = den := by
          by_contra h
          have := e7 h
          omega
        have his : i < src.moduli64.length := by omega
        have heq := hpre i hin
        rw [show (enc src .powerBasis f).coefficients = src.moduli64.map (rowP f) from encRows_power hs f,
          idx_ok (by simpa using his), List.getElem_map]
        rw [getD_eq_getElem' _ _ _ his, getD_eq_getElem' _ _ _ hi] at heq
        rw [getD_eq_getElem' _ _ _ hi, ← heq]
        congr 1
        have hqb := (hs.bound (List.getElem_mem his)).1
        rw [rowP_eq_iff (by omega)]
        intro k hk
        rw [cf_ofCoeffs hN _ hk, hY]
        simp only
        rw [r5 _ hone]
        have hq : ((src.moduli64[i] : Nat) : ℤ) ∣ (src.Q : ℤ) := by
          exact_mod_cast (show src.moduli64[i] ∣ src.Q from List.dvd_prod (List.getElem_mem his))
        have := hq.trans (r2 (cf f k))
        rw [← neg_sub]
        exact (dvd_neg).mpr this
      · rw [if_neg hin, c2 (by omega)]
        unfold rowP
        apply mapR_map
        intro k hk
        have hk := List.mem_range.mp hk
        rw [idx_ok (by simp; omega), List.getElem_map, cf_ofCoeffs hN _ hk, List.getElem_drop]
        congr 4
        rw [getD_eq_getElem' _ _ _ hi]
        congr 1; omega
  refine ⟨X, Y, fun k hk => ⟨r2 _, r3 _, r4 _, r5 _⟩, ?_, ?_⟩
  · unfold scale
    rw [rassert_ok (show (enc src .powerBasis f).context = s.src by rw [e1]; rfl), res_ok_bind,
      if_pos (show (enc src .powerBasis f).representation = .powerBasis from rfl), hpow]
  · unfold scale
    rw [rassert_ok (show (enc src .ntt f).context = s.src by rw [e1]; rfl), res_ok_bind,
      if_neg (show (enc src .ntt f).representation ≠ .powerBasis by simp [enc]), Poly.toPower_enc hs, res_ok_bind, hpow, res_ok_bind]
    exact Poly.toNtt_enc hd pr _

/-- `scale` acts on every coefficient as the RNS scaler does. `hpre` says that the moduli counted as common are a common
prefix of the two bases. -/
theorem scale_enc {src dst : RqContext} (hs : src.WF K) (hd : dst.WF K) (pr : Profile) {s : RqScaler} {pr' : Profile}
    (hlen : src.moduli64.length < 2 ^ 62) {num den : Nat} (hden : 0 < den)
    (hn : RqScaler.new pr' src dst ⟨num, den, decide (num = den)⟩ = .ok s)
    (hc : den ∣ num * src.Q ∨ src.moduli64.sum ≤ 2 ^ 65)
    (hpre : num = den → ∀ i, i < countCommon src.moduli64 dst.moduli64 0 → src.moduli64.getD i 0 = dst.moduli64.getD i 0)
    {B : Nat} (hB : ∀ q ∈ src.moduli64, src.moduli64.length * q ≤ B) (f : Rg (2 ^ K)) :
    ∃ x y : Nat → ℤ, (∀ k, k < 2 ^ K → (src.Q : ℤ) ∣ x k - cf f k ∧
      2 ^ 191 * |x k| ≤ src.Q * (2 ^ 190 + B * max B (2 ^ 63)) ∧
      2 ^ 127 * |den * y k - num * x k| ≤ den * (2 ^ 126 + 2 * B) ∧ (num = den → y k = x k)) ∧
      s.scale pr (enc src .powerBasis f) = .ok (enc dst .powerBasis (ofCoeffs (2 ^ K) y)) ∧
      s.scale pr (enc src .ntt f) = .ok (enc dst .ntt (ofCoeffs (2 ^ K) y)) :=
  (built hs hd hlen hden hn hpre).scale_enc hs hd pr hc hB f

end RqScaler
end OnionPIR
