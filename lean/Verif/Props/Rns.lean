import Verif.Proofs.RnsScaler
import Verif.Spec.Rns
/-
Properties C18 and C19: the residue number system context and the scaler.
-/
namespace OnionPIR
open Spec

/-! ### C18: `project` and `lift` -/

/-- `RnsContext::new` succeeds exactly for pairwise coprime moduli in `[2, 2^62)`; otherwise it panics. -/
theorem c18_new_iff (l : List Nat) :
    (∃ c, RnsContext.new l = .ok c) ↔ (∀ q ∈ l, 2 ≤ q ∧ q < 2 ^ 62) ∧ l.Pairwise Nat.Coprime := by
  constructor
  · rintro ⟨c, hc⟩
    obtain ⟨h, rfl⟩ := RnsContext.new_wf hc
    exact ⟨h.bound, h.cop⟩
  · rintro ⟨h1, h2⟩
    exact RnsContext.new_ok h1 h2

/-- The context records the product of the moduli. -/
theorem c18_modulus {l : List Nat} {c : RnsContext} (hc : RnsContext.new l = .ok c) : c.modulus = l.prod := by
  obtain ⟨h, rfl⟩ := RnsContext.new_wf hc
  exact h.prod

/-- `project` returns the residues and lifting them gives the number back modulo the product. -/
theorem c18_lift_project {l : List Nat} {c : RnsContext} (hc : RnsContext.new l = .ok c) (x : Nat) :
    ∃ r, c.project x = .ok r ∧ r = l.map (fun q => x % q) ∧ Canonical l r ∧ c.lift r = .ok (x % l.prod) := by
  obtain ⟨h, rfl⟩ := RnsContext.new_wf hc
  have hlen : (c.moduliU64.map (fun q => x % q)).length = c.moduliU64.length := by simp
  refine ⟨_, RnsContext.project_ok h x, rfl, ⟨hlen, ?_⟩, ?_⟩
  · intro i hi
    rw [NttOperator.getD_map_of_lt _ _ _ 1 _ hi, getD_eq_getElem' _ _ _ hi]
    have := (h.bound _ (List.getElem_mem hi)).1
    exact Nat.mod_lt _ (by omega)
  · rw [RnsContext.lift_ok h hlen, ← h.prod]
    congr 1
    apply h.crt
    intro j hj
    rw [RnsContext.garner_sum_mod h _ hj, NttOperator.getD_map_of_lt _ _ _ 1 _ hj, Nat.mod_mod]

/-- Lifting canonical residues gives a number below the product whose residues are the given ones. -/
theorem c18_project_lift {l : List Nat} {c : RnsContext} (hc : RnsContext.new l = .ok c) {r : List Nat} (hr : Canonical l r) :
    ∃ x, c.lift r = .ok x ∧ x < l.prod ∧ c.project x = .ok r := by
  obtain ⟨h, rfl⟩ := RnsContext.new_wf hc
  refine ⟨_, RnsContext.lift_ok h hr.1, by rw [← h.prod]; exact Nat.mod_lt _ h.pos, ?_⟩
  rw [RnsContext.project_ok h]
  congr 1
  apply List.ext_getElem
  · simp [hr.1]
  · intro i h1 h2
    have hi : i < c.moduliU64.length := by simpa using h1
    have := hr.2 i hi
    rw [List.getElem_map, ← getD_eq_getElem' _ _ 1 hi, Nat.mod_mod_of_dvd _ (h.q_dvd hi), RnsContext.garner_sum_mod h _ hi,
      Nat.mod_eq_of_lt this, getD_eq_getElem' _ _ _ h2]

/-- `lift` is additive: componentwise modular addition of residues is addition modulo the product. -/
theorem c18_lift_add {l : List Nat} {c : RnsContext} (hc : RnsContext.new l = .ok c) {a b s : List Nat} {x y : Nat}
    (hs : s.length = l.length) (hsum : ∀ i, i < l.length → s.getD i 0 = (a.getD i 0 + b.getD i 0) % l.getD i 1)
    (ha : a.length = l.length) (hb : b.length = l.length) (hx : c.lift a = .ok x) (hy : c.lift b = .ok y) :
    c.lift s = .ok ((x + y) % l.prod) := by
  obtain ⟨h, rfl⟩ := RnsContext.new_wf hc
  rw [RnsContext.lift_ok h ha] at hx
  rw [RnsContext.lift_ok h hb] at hy
  cases hx; cases hy
  rw [RnsContext.lift_ok h hs, ← h.prod]
  congr 1
  apply h.crt
  intro j hj
  rw [RnsContext.garner_sum_mod h _ hj, Nat.add_mod, Nat.mod_mod_of_dvd _ (h.q_dvd hj), Nat.mod_mod_of_dvd _ (h.q_dvd hj),
    RnsContext.garner_sum_mod h _ hj, RnsContext.garner_sum_mod h _ hj, ← Nat.add_mod, hsum j hj, Nat.mod_mod]

/-- Non-vacuity: a context with three moduli exists, and residues of 1000. -/
example : (∃ c, RnsContext.new [17, 97, 113] = .ok c) ∧ Canonical [17, 97, 113] [14, 30, 96] :=
  ⟨(c18_new_iff _).mpr ⟨by decide, by decide +kernel⟩, by unfold Canonical; decide⟩
/-- Moduli that are not coprime are rejected. -/
example : ¬ ∃ c, RnsContext.new [6, 10] = .ok c := fun h => absurd ((c18_new_iff _).mp h).2 (by decide)

/-! ### C19: the scaler -/

/-- `RnsScaler::new` succeeds for every nonempty source basis, every target basis and every nonzero denominator. -/
theorem c19_new_succeeds (pr : Profile) {ls ld : List Nat} {src dst : RnsContext} (hs : RnsContext.new ls = .ok src)
    (hd : RnsContext.new ld = .ok dst) (hne : ls ≠ []) (hlen : ls.length < 2 ^ 62) {num den : Nat} (hden : den ≠ 0) :
    ∃ sf s, ScalingFactor.new num den = .ok sf ∧ RnsScaler.new pr src dst sf = .ok s := by
  obtain ⟨h1, rfl⟩ := RnsContext.new_wf hs
  obtain ⟨h2, rfl⟩ := RnsContext.new_wf hd
  have hsf : ScalingFactor.new num den = .ok ⟨num, den, decide (num = den)⟩ := by
    unfold ScalingFactor.new; rw [rassert_ok hden]; rfl
  obtain ⟨s, e, -⟩ := RnsScaler.new_ok pr h1 h2 hne hlen (sf := ⟨num, den, decide (num = den)⟩) (by simp only; omega)
  exact ⟨_, s, hsf, e⟩

/-- A zero denominator is rejected. -/
theorem c19_zero_denominator (num : Nat) : ScalingFactor.new num 0 = .error .assert := rfl

/-- What `RnsScaler::scale` computes for every input, dropped carries included. The output holds the residues, modulo each
requested target modulus, of one integer `y`. There is an integer `k` such that `y - 2k` is within `1/2 + 2B/2^127` of
`x * num / den`, where `x` has the given residues and `|x| ≤ Q/2 + Q * B * max(B, 2^63) / 2^191`. The number `k` stands for
the carries that the code drops: it is at most a quarter of the sum of the residues, at most `⌊Σr / 2^64⌋ - 1` when that
sum is below `2^66`, and zero when `den` divides `num * Q`. No step overflows or fails an assertion in either profile. -/
theorem c19_scale_error (pr : Profile) {ls ld : List Nat} {src dst : RnsContext} (hs : RnsContext.new ls = .ok src)
    (hd : RnsContext.new ld = .ok dst) (hne : ls ≠ []) (hlen : ls.length < 2 ^ 62) {num den : Nat} {sf : ScalingFactor}
    (hsf : ScalingFactor.new num den = .ok sf) {s : RnsScaler} (hn : RnsScaler.new pr src dst sf = .ok s)
    {r : List Nat} (hr : Canonical ls r) {B : Nat} (hB : ∀ q ∈ ls, ls.length * q ≤ B)
    {outLen start : Nat} (ho : 0 < outLen) (hle : start + outLen ≤ ld.length) :
    ∃ x y k : Int, s.scale pr r outLen start = .ok (residuesOf ((ld.drop start).take outLen) y) ∧ HasResidues ls r x ∧
      2 ^ 191 * |x| ≤ ls.prod * (2 ^ 190 + B * max B (2 ^ 63)) ∧
      2 ^ 127 * |den * (y - 2 * k) - num * x| ≤ den * (2 ^ 126 + 2 * B) ∧ 4 * |k| ≤ r.sum ∧
      (r.sum < 2 ^ 66 → |k| ≤ ((r.sum / 2 ^ 64 - 1 : Nat) : Int)) ∧ (den ∣ num * ls.prod → k = 0) ∧
      (num = den → y = x) := by
  obtain ⟨h1, rfl⟩ := RnsContext.new_wf hs
  obtain ⟨h2, rfl⟩ := RnsContext.new_wf hd
  unfold ScalingFactor.new at hsf
  simp only [bind_eq_ok, rassert_eq_ok] at hsf
  obtain ⟨_, hden, hsf⟩ := hsf
  cases hsf
  obtain ⟨s', e, hw, e1, e2, e3⟩ := RnsScaler.new_ok pr h1 h2 hne hlen
    (sf := ⟨num, den, decide (num = den)⟩) (by simp only; omega)
  rw [e] at hn
  cases hn
  subst e1 e2
  exact RnsScaler.scale_spec' pr hw hne e3 hr hB ho hle

/-- `RnsScaler::scale` returns the residues, modulo each requested target modulus, of one integer `y` that is within
`1/2 + 2B/2^127` of `x * num / den`, where `x` has the given residues and `|x| ≤ Q/2 + Q * B * max(B, 2^63) / 2^191`. Here
`B` bounds `(number of source moduli) * (source modulus)`. For the factor one, `y = x`. No step overflows or fails an
assertion in either profile. What is missing from C19: the hypothesis `hc` excludes the inputs for which the code may
drop a carry; there the statement is false (see `c19_dropped_carry`) and `c19_scale_error` says how far off the result is.
The sum of the residues is below `2^65` for every input when there are at most eight moduli. -/
theorem c19_scale_partial (pr : Profile) {ls ld : List Nat} {src dst : RnsContext} (hs : RnsContext.new ls = .ok src)
    (hd : RnsContext.new ld = .ok dst) (hne : ls ≠ []) (hlen : ls.length < 2 ^ 62) {num den : Nat} {sf : ScalingFactor}
    (hsf : ScalingFactor.new num den = .ok sf) {s : RnsScaler} (hn : RnsScaler.new pr src dst sf = .ok s)
    {r : List Nat} (hr : Canonical ls r) (hc : den ∣ num * ls.prod ∨ r.sum < 2 ^ 65)
    {B : Nat} (hB : ∀ q ∈ ls, ls.length * q ≤ B)
    {outLen start : Nat} (ho : 0 < outLen) (hle : start + outLen ≤ ld.length) :
    ∃ x y : Int, s.scale pr r outLen start = .ok (residuesOf ((ld.drop start).take outLen) y) ∧ HasResidues ls r x ∧
      2 ^ 191 * |x| ≤ ls.prod * (2 ^ 190 + B * max B (2 ^ 63)) ∧
      2 ^ 127 * |den * y - num * x| ≤ den * (2 ^ 126 + 2 * B) ∧ (num = den → y = x) := by
  obtain ⟨h1, rfl⟩ := RnsContext.new_wf hs
  obtain ⟨h2, rfl⟩ := RnsContext.new_wf hd
  unfold ScalingFactor.new at hsf
  simp only [bind_eq_ok, rassert_eq_ok] at hsf
  obtain ⟨_, hden, hsf⟩ := hsf
  cases hsf
  obtain ⟨s', e, hw, e1, e2, e3⟩ := RnsScaler.new_ok pr h1 h2 hne hlen
    (sf := ⟨num, den, decide (num = den)⟩) (by simp only; omega)
  rw [e] at hn
  cases hn
  subst e1 e2
  have := RnsScaler.scale_spec pr hw hne e3 hr hc hB ho hle
  exact this

/-- With at most eight source moduli, of any size `Modulus::new` accepts, C19 holds for every factor and every input:
`|x| ≤ (Q/2)(1 + 2^-60)` and `y` is within `1/2 + 2^-61` of `x * num / den`. -/
theorem c19_scale_eight (pr : Profile) {ls ld : List Nat} {src dst : RnsContext} (hs : RnsContext.new ls = .ok src)
    (hd : RnsContext.new ld = .ok dst) (hne : ls ≠ []) (hlen : ls.length ≤ 8) {num den : Nat} {sf : ScalingFactor}
    (hsf : ScalingFactor.new num den = .ok sf) {s : RnsScaler} (hn : RnsScaler.new pr src dst sf = .ok s)
    {r : List Nat} (hr : Canonical ls r)
    {outLen start : Nat} (ho : 0 < outLen) (hle : start + outLen ≤ ld.length) :
    ∃ x y : Int, s.scale pr r outLen start = .ok (residuesOf ((ld.drop start).take outLen) y) ∧ HasResidues ls r x ∧
      2 ^ 61 * |x| ≤ ls.prod * (2 ^ 60 + 1) ∧
      2 ^ 61 * |den * y - num * x| ≤ den * (2 ^ 60 + 1) ∧ (num = den → y = x) := by
  have hbd := ((c18_new_iff _).mp ⟨_, hs⟩).1
  have hB : ∀ q ∈ ls, ls.length * q ≤ 2 ^ 65 := fun q hq =>
    (Nat.mul_le_mul hlen (hbd q hq).2.le).trans (by norm_num)
  have hsum : r.sum < 2 ^ 65 := by
    have h3 : ∀ z ∈ r, z ≤ 2 ^ 62 - 1 := by
      intro z hz
      obtain ⟨q, hq, hlt⟩ := RnsScaler.Canon.mem hr hz
      have := (hbd q hq).2
      omega
    have h4 := List.sum_le_card_nsmul r _ h3
    rw [hr.1, smul_eq_mul] at h4
    have := Nat.mul_le_mul_right (2 ^ 62 - 1) hlen
    omega
  obtain ⟨x, y, h1, h2, h3, h4, h5⟩ := c19_scale_partial pr hs hd hne (by omega) hsf hn hr (Or.inr hsum) hB ho hle
  refine ⟨x, y, h1, h2, ?_, ?_, h5⟩
  · rw [max_eq_left (by norm_num), Nat.cast_pow, Nat.cast_ofNat] at h3
    linarith
  · push_cast at h4
    linarith

/-- With at most sixteen source moduli the result is off by at most `4 + 1/2 + 2^-60`. -/
theorem c19_scale_sixteen (pr : Profile) {ls ld : List Nat} {src dst : RnsContext} (hs : RnsContext.new ls = .ok src)
    (hd : RnsContext.new ld = .ok dst) (hne : ls ≠ []) (hlen : ls.length ≤ 16) {num den : Nat} {sf : ScalingFactor}
    (hsf : ScalingFactor.new num den = .ok sf) {s : RnsScaler} (hn : RnsScaler.new pr src dst sf = .ok s)
    {r : List Nat} (hr : Canonical ls r)
    {outLen start : Nat} (ho : 0 < outLen) (hle : start + outLen ≤ ld.length) :
    ∃ x y : Int, s.scale pr r outLen start = .ok (residuesOf ((ld.drop start).take outLen) y) ∧ HasResidues ls r x ∧
      2 ^ 59 * |x| ≤ ls.prod * (2 ^ 58 + 1) ∧
      2 ^ 60 * |den * y - num * x| ≤ den * (4 * 2 ^ 60 + 2 ^ 59 + 1) ∧ (num = den → y = x) := by
  have hbd := ((c18_new_iff _).mp ⟨_, hs⟩).1
  have hden : (0 : Int) ≤ den := by positivity
  have hB : ∀ q ∈ ls, ls.length * q ≤ 2 ^ 66 := fun q hq =>
    (Nat.mul_le_mul hlen (hbd q hq).2.le).trans (by norm_num)
  have hsum : r.sum < 2 ^ 66 := by
    have h3 : ∀ z ∈ r, z ≤ 2 ^ 62 - 1 := by
      intro z hz
      obtain ⟨q, hq, hlt⟩ := RnsScaler.Canon.mem hr hz
      have := (hbd q hq).2
      omega
    have h4 := List.sum_le_card_nsmul r _ h3
    rw [hr.1, smul_eq_mul] at h4
    have := Nat.mul_le_mul_right (2 ^ 62 - 1) hlen
    omega
  obtain ⟨x, y, k, h1, h2, h3, h4, -, h6, -, h5⟩ := c19_scale_error pr hs hd hne (by omega) hsf hn hr hB ho hle
  refine ⟨x, y, h1, h2, ?_, ?_, h5⟩
  · rw [max_eq_left (by norm_num), Nat.cast_pow, Nat.cast_ofNat] at h3
    linarith
  · have h7 : |k| ≤ 2 := (h6 hsum).trans (by exact_mod_cast (by omega : r.sum / 2 ^ 64 - 1 ≤ 2))
    have h8 : |(den : Int) * y - num * x| ≤ |den * (y - 2 * k) - num * x| + den * 4 := by
      rw [show (den : Int) * y - num * x = (den * (y - 2 * k) - num * x) + den * (2 * k) by ring]
      refine (abs_add_le _ _).trans (add_le_add le_rfl ?_)
      rw [abs_mul, abs_of_nonneg hden, abs_mul]
      refine mul_le_mul_of_nonneg_left ?_ hden
      norm_num
      linarith
    push_cast at h4
    linarith

/-- Fourteen pairwise coprime moduli of 62 bits. -/
def carryModuli : List Nat := [4611686018427386693, 4611686018427386691, 4611686018427386689, 4611686018427386687,
  4611686018427386683, 4611686018427386681, 4611686018427386677, 4611686018427386671, 4611686018427386669,
  4611686018427386663, 4611686018427386659, 4611686018427386657, 4611686018427386653, 4611686018427386651]

/-- Scaling of the residues of `-1` by `3/5` into the single modulus 97. -/
def carryRun (pr : Profile) : Res (List Nat) := do
  let src ← RnsContext.new carryModuli
  let dst ← RnsContext.new [97]
  let sf ← ScalingFactor.new 3 5
  let s ← RnsScaler.new pr src dst sf
  s.scale pr (carryModuli.map (· - 1)) 1 0

/-- The code drops the high word of `v_hi * theta_gamma_lo` (src/rns.rs:360-366). With fourteen 62-bit moduli the residues
of `-1` scaled by `3/5` come out as `1` modulo 97, although every integer within `4/5` of `-3/5` has another residue. So
the statement of C19 is false without the hypothesis `hc` of `c19_scale_partial`. -/
theorem c19_dropped_carry (pr : Profile) :
    Canonical carryModuli (carryModuli.map (· - 1)) ∧ HasResidues carryModuli (carryModuli.map (· - 1)) (-1) ∧
      carryRun pr = .ok [1] ∧ ∀ y : Int, |5 * y - 3 * (-1)| ≤ 4 → residuesOf [97] y ≠ [1] := by
  refine ⟨?_, ?_, ?_, ?_⟩
  · unfold Canonical; decide +kernel
  · unfold HasResidues; decide +kernel
  · cases pr <;> decide +kernel
  · intro y hy h
    simp only [residuesOf, List.map_cons, List.map_nil, List.cons.injEq, and_true] at h
    rw [abs_le] at hy
    omega

/-! ### C52: the factors the library uses -/

/-- When the denominator divides `num * Q` (every scaler built by this library) the scaler always rounds to nearest: the
output holds the residues of one integer `y` within `1/2 + 2B/2^127` of `x * num / den`. -/
theorem c52_scale_exact (pr : Profile) {ls ld : List Nat} {src dst : RnsContext} (hs : RnsContext.new ls = .ok src)
    (hd : RnsContext.new ld = .ok dst) (hne : ls ≠ []) (hlen : ls.length < 2 ^ 62) {num den : Nat} {sf : ScalingFactor}
    (hsf : ScalingFactor.new num den = .ok sf) {s : RnsScaler} (hn : RnsScaler.new pr src dst sf = .ok s)
    (hdvd : den ∣ num * ls.prod) {r : List Nat} (hr : Canonical ls r) {B : Nat} (hB : ∀ q ∈ ls, ls.length * q ≤ B)
    {outLen start : Nat} (ho : 0 < outLen) (hle : start + outLen ≤ ld.length) :
    ∃ x y : Int, s.scale pr r outLen start = .ok (residuesOf ((ld.drop start).take outLen) y) ∧ HasResidues ls r x ∧
      2 ^ 191 * |x| ≤ ls.prod * (2 ^ 190 + B * max B (2 ^ 63)) ∧
      2 ^ 127 * |den * y - num * x| ≤ den * (2 ^ 126 + 2 * B) ∧ (num = den → y = x) :=
  c19_scale_partial pr hs hd hne hlen hsf hn hr (Or.inl hdvd) hB ho hle

/-- With few moduli (`n * q ≤ 2^64`) any scaling factor is rounded to nearest: `|x| ≤ (Q/2)(1 + 2^-63)`. -/
theorem c52_scale_few_moduli (pr : Profile) {ls ld : List Nat} {src dst : RnsContext} (hs : RnsContext.new ls = .ok src)
    (hd : RnsContext.new ld = .ok dst) (hne : ls ≠ []) {num den : Nat} {sf : ScalingFactor}
    (hsf : ScalingFactor.new num den = .ok sf) {s : RnsScaler} (hn : RnsScaler.new pr src dst sf = .ok s)
    {r : List Nat} (hr : Canonical ls r) (hB : ∀ q ∈ ls, ls.length * q ≤ 2 ^ 63)
    {outLen start : Nat} (ho : 0 < outLen) (hle : start + outLen ≤ ld.length) :
    ∃ x y : Int, s.scale pr r outLen start = .ok (residuesOf ((ld.drop start).take outLen) y) ∧ HasResidues ls r x ∧
      2 ^ 65 * |x| ≤ ls.prod * (2 ^ 64 + 1) ∧
      2 ^ 63 * |den * y - num * x| ≤ den * (2 ^ 62 + 1) ∧ (num = den → y = x) := by
  have hbd := ((c18_new_iff _).mp ⟨_, hs⟩).1
  have hn1 : 0 < ls.length := List.length_pos_of_ne_nil hne
  have hlen : ls.length < 2 ^ 63 := by
    have h1 := hB ls[0] (List.getElem_mem hn1)
    have h2 := (hbd ls[0] (List.getElem_mem hn1)).1
    nlinarith
  have hlen : ls.length < 2 ^ 62 + 1 := by
    have h1 := hB ls[0] (List.getElem_mem hn1)
    have h2 := (hbd ls[0] (List.getElem_mem hn1)).1
    nlinarith
  have hne2 : ls.length ≠ 2 ^ 62 := by
    intro he
    -- at least two distinct moduli, one of them is at least 3
    have hcop := ((c18_new_iff _).mp ⟨_, hs⟩).2
    have h0 : 0 < ls.length := hn1
    have h1 : 1 < ls.length := by omega
    have hc := List.pairwise_iff_getElem.mp hcop 0 1 h0 h1 (by omega)
    have a0 := hB _ (List.getElem_mem h0)
    have a1 := hB _ (List.getElem_mem h1)
    have b0 := (hbd _ (List.getElem_mem h0)).1
    have b1 := (hbd _ (List.getElem_mem h1)).1
    rw [he] at a0 a1
    have e0 : ls[0] = 2 := by omega
    have e1 : ls[1] = 2 := by omega
    rw [e0, e1] at hc
    exact absurd hc (by decide)
  have hsum : r.sum < 2 ^ 64 := by
    have h3 : r.sum * ls.length ≤ r.length * 2 ^ 63 := by
      apply RnsScaler.sum_mul_le
      intro z hz
      obtain ⟨q, hq, hlt⟩ := RnsScaler.Canon.mem hr hz
      refine le_trans ?_ (hB q hq)
      rw [Nat.mul_comm]; exact Nat.mul_le_mul_left _ hlt.le
    rw [hr.1, Nat.mul_comm] at h3
    have := Nat.le_of_mul_le_mul_left h3 hn1
    omega
  obtain ⟨x, y, h1, h2, h3, h4, h5⟩ := c19_scale_partial pr hs hd hne (by omega) hsf hn hr (Or.inr (by omega)) hB ho hle
  refine ⟨x, y, h1, h2, ?_, ?_, h5⟩
  · rw [max_self, Nat.cast_pow, Nat.cast_ofNat] at h3
    linarith
  · push_cast at h4
    linarith

/-- Non-vacuity: the scaler for `3/Q` from three moduli (with `B = 339`) into two, and its output on the residues of 1000. -/
example : ∃ src dst sf s, RnsContext.new [17, 97, 113] = .ok src ∧ RnsContext.new [193, 241] = .ok dst ∧
    ScalingFactor.new 3 186337 = .ok sf ∧ RnsScaler.new .debug src dst sf = .ok s ∧ 186337 ∣ 3 * [17, 97, 113].prod ∧
    Canonical [17, 97, 113] [14, 30, 96] ∧ (∀ q ∈ [17, 97, 113], [17, 97, 113].length * q ≤ 339) := by
  obtain ⟨src, hs⟩ := (c18_new_iff [17, 97, 113]).mpr ⟨by decide, by decide +kernel⟩
  obtain ⟨dst, hd⟩ := (c18_new_iff [193, 241]).mpr ⟨by decide, by decide +kernel⟩
  obtain ⟨sf, s, h1, h2⟩ := c19_new_succeeds .debug hs hd (by simp) (by simp) (num := 3) (den := 186337) (by norm_num)
  exact ⟨src, dst, sf, s, hs, hd, h1, h2, by decide, by unfold Canonical; decide, by decide⟩

/-- C18 for three moduli: the residues of 1000 and back, and the sum of two lifts. -/
example : ∃ c r, RnsContext.new [17, 97, 113] = .ok c ∧ c.modulus = 186337 ∧ c.project 1000 = .ok r ∧ r = [14, 30, 96] ∧ c.lift r = .ok 1000 ∧
    (∃ x, c.lift [14, 30, 96] = .ok x ∧ x < 186337 ∧ c.project x = .ok [14, 30, 96]) ∧ c.lift [11, 60, 79] = .ok 2000 := by
  obtain ⟨c, hc⟩ := (c18_new_iff [17, 97, 113]).mpr ⟨by decide, by decide +kernel⟩
  obtain ⟨r, h1, h2, -, h4⟩ := c18_lift_project hc 1000
  have hr : r = [14, 30, 96] := by rw [h2]; decide
  have hl : c.lift [14, 30, 96] = .ok 1000 := by rw [← hr, h4]; rfl
  refine ⟨c, r, hc, (c18_modulus hc).trans (by decide), h1, hr, by rw [h4]; rfl,
    c18_project_lift hc (r := [14, 30, 96]) (by unfold Canonical; decide), ?_⟩
  rw [c18_lift_add hc (a := [14, 30, 96]) (b := [14, 30, 96]) (s := [11, 60, 79]) rfl (by decide) rfl rfl hl hl]
  rfl

/-- C19 and C52 for a factor that is not exact (`3/5`) and for one that is (`3/Q`). -/
example : ∃ (s s' : RnsScaler) (x y x' y' x1 y1 x2 y2 x3 y3 x4 y4 k : ℤ),
    (s.scale .debug [14, 30, 96] 2 0 = .ok (residuesOf [193, 241] y) ∧ HasResidues [17, 97, 113] [14, 30, 96] x ∧
      2 ^ 127 * |5 * y - 3 * x| ≤ 5 * (2 ^ 126 + 2 * 339)) ∧
    (s'.scale .debug [14, 30, 96] 2 0 = .ok (residuesOf [193, 241] y') ∧ HasResidues [17, 97, 113] [14, 30, 96] x' ∧
      2 ^ 127 * |186337 * y' - 3 * x'| ≤ 186337 * (2 ^ 126 + 2 * 339)) ∧
    s.scale .debug [14, 30, 96] 2 0 = .ok (residuesOf [193, 241] y1) ∧ HasResidues [17, 97, 113] [14, 30, 96] x1 ∧ 4 * |k| ≤ 140 ∧
    (s.scale .debug [14, 30, 96] 2 0 = .ok (residuesOf [193, 241] y2) ∧ 2 ^ 61 * |5 * y2 - 3 * x2| ≤ 5 * (2 ^ 60 + 1)) ∧
    (s.scale .debug [14, 30, 96] 1 1 = .ok (residuesOf [241] y3) ∧ 2 ^ 60 * |5 * y3 - 3 * x3| ≤ 5 * (4 * 2 ^ 60 + 2 ^ 59 + 1)) ∧
    (s.scale .debug [14, 30, 96] 1 0 = .ok (residuesOf [193] y4) ∧ 2 ^ 63 * |5 * y4 - 3 * x4| ≤ 5 * (2 ^ 62 + 1)) := by
  obtain ⟨src, hs⟩ := (c18_new_iff [17, 97, 113]).mpr ⟨by decide, by decide +kernel⟩
  obtain ⟨dst, hd⟩ := (c18_new_iff [193, 241]).mpr ⟨by decide, by decide +kernel⟩
  obtain ⟨sf, s, h1, h2⟩ := c19_new_succeeds .debug hs hd (by simp) (by simp) (num := 3) (den := 5) (by norm_num)
  obtain ⟨sf', s', h1', h2'⟩ := c19_new_succeeds .debug hs hd (by simp) (by simp) (num := 3) (den := 186337) (by norm_num)
  have hr : Canonical [17, 97, 113] [14, 30, 96] := by unfold Canonical; decide
  have hB : ∀ q ∈ [17, 97, 113], [17, 97, 113].length * q ≤ 339 := by decide
  obtain ⟨x, y, a1, a2, -, a4, -⟩ := c19_scale_partial .debug hs hd (by simp) (by simp) h1 h2 hr (.inr (by decide)) hB
    (outLen := 2) (start := 0) (by norm_num) (by simp)
  obtain ⟨x', y', b1, b2, -, b4, -⟩ := c52_scale_exact .debug hs hd (by simp) (by simp) h1' h2' (by decide) hr hB
    (outLen := 2) (start := 0) (by norm_num) (by simp)
  obtain ⟨x1, y1, k, c1, c2, -, -, c5, -⟩ := c19_scale_error .debug hs hd (by simp) (by simp) h1 h2 hr hB
    (outLen := 2) (start := 0) (by norm_num) (by simp)
  obtain ⟨x2, y2, d1, -, -, d4, -⟩ := c19_scale_eight .debug hs hd (by simp) (by simp) h1 h2 hr
    (outLen := 2) (start := 0) (by norm_num) (by simp)
  obtain ⟨x3, y3, e1, -, -, e4, -⟩ := c19_scale_sixteen .debug hs hd (by simp) (by simp) h1 h2 hr
    (outLen := 1) (start := 1) (by norm_num) (by simp)
  obtain ⟨x4, y4, f1, -, -, f4, -⟩ := c52_scale_few_moduli .debug hs hd (by simp) h1 h2 hr (by decide)
    (outLen := 1) (start := 0) (by norm_num) (by simp)
  exact ⟨s, s', x, y, x', y', x1, y1, x2, y2, x3, y3, x4, y4, k, ⟨a1, a2, by exact_mod_cast a4⟩, ⟨b1, b2, by exact_mod_cast b4⟩, c1, c2,
    by exact_mod_cast c5, ⟨d1, by exact_mod_cast d4⟩, ⟨e1, by exact_mod_cast e4⟩, ⟨f1, by exact_mod_cast f4⟩⟩

end OnionPIR
