import Verif.Props.Rq
import Verif.Proofs.BfvParams

namespace OnionPIR

open Rg Spec

namespace RqScaler

theorem countCommon_acc (a b : List Nat) (n : Nat) : countCommon a b n = n + countCommon a b 0 := by
  induction a generalizing b n with
  | nil => simp [countCommon]
  | cons x a ih =>
    cases b with
    | nil => simp [countCommon]
    | cons y b =>
      unfold countCommon
      split
      · rw [ih b (n + 1), ih b (0 + 1)]; omega
      · rw [ih b n]

theorem countCommon_zero (a b : List Nat) (h : countCommon a b 0 = 0) :
    ∀ i, i < a.length → i < b.length → a.getD i 0 ≠ b.getD i 0 := by
  induction a generalizing b with
  | nil => simp
  | cons x a ih =>
    cases b with
    | nil => simp
    | cons y b =>
      unfold countCommon at h
      split at h
      · rw [countCommon_acc] at h; omega
      · intro i h1 h2
        cases i with
        | zero => simpa
        | succ i => simpa using ih b h i (by simpa using h1) (by simpa using h2)

/-- If the counted positions all agree, no later position does. -/
theorem countCommon_post (a b : List Nat) (h : ∀ i, i < countCommon a b 0 → a.getD i 0 = b.getD i 0) :
    ∀ i, countCommon a b 0 ≤ i → i < a.length → i < b.length → a.getD i 0 ≠ b.getD i 0 := by
  induction a generalizing b with
  | nil => simp
  | cons x a ih =>
    cases b with
    | nil => simp
    | cons y b =>
      by_cases hxy : x = y
      · have e : countCommon (x :: a) (y :: b) 0 = countCommon a b 0 + 1 := by
          conv_lhs => unfold countCommon
          rw [if_pos hxy, countCommon_acc]; omega
        rw [e] at h ⊢
        intro i h1 h2 h3
        cases i with
        | zero => omega
        | succ i =>
          simpa using ih b (fun i hi => by simpa using h (i + 1) (by omega)) i (by omega) (by simpa using h2) (by simpa using h3)
      · have e : countCommon (x :: a) (y :: b) 0 = countCommon a b 0 := by
          conv_lhs => unfold countCommon
          rw [if_neg hxy]
        have h0 : countCommon a b 0 = 0 := by
          by_contra hne
          exact hxy (by simpa using h 0 (by omega))
        intro i _ h2 h3
        exact countCommon_zero _ _ (by rw [e, h0]) i h2 h3

end RqScaler

/-- The positions at which two lists agree form a prefix. -/
def AgreeOnPrefix (l l' : List Nat) : Prop :=
  ∃ m, l.take m = l'.take m ∧ ∀ i, m ≤ i → i < l.length → i < l'.length → l.getD i 0 ≠ l'.getD i 0

/-- The exact domain of C26. For two contexts of the same degree, scaling by one gives, for every polynomial in the power
basis, the residues of integers congruent to the input modulo `Q` and bounded by `3Q/4` if and only if the positions at
which the two lists of moduli agree form a prefix. -/
theorem c26_scale_one_iff {N : Nat} {l l' : List Nat} {src dst : RqContext} (hs : IsContext N l src) (hd : IsContext N l' dst)
    (hlen : l.length < 2 ^ 31) (pr : Profile) {n : Nat} (hn : 0 < n) {sf : ScalingFactor} (hsf : ScalingFactor.new n n = .ok sf) :
    (∀ (a : Poly) (A : Nat → ℤ), Denotes src .powerBasis A a →
      ∃ s b C, RqScaler.new pr src dst sf = .ok s ∧ s.scale pr a = .ok b ∧ Denotes dst .powerBasis C b ∧
        ∀ k, k < N → C k ≡ A k [ZMOD l.prod] ∧ 4 * |C k| ≤ 3 * l.prod) ↔ AgreeOnPrefix l l' := by
  constructor
  · intro H
    obtain ⟨K, rfl, h, rfl⟩ := RqP.ctx hs
    obtain ⟨K', hK', h', rfl⟩ := RqP.ctx hd
    have := Nat.pow_right_injective (le_refl 2) hK'
    subst this
    have hN : 0 < 2 ^ K := by positivity
    have : sf = ⟨n, n, decide (n = n)⟩ := by
      unfold ScalingFactor.new at hsf
      rw [rassert_ok (by omega)] at hsf
      exact (Except.ok.inj hsf).symm
    subst this
    obtain ⟨s, es, f1, f2, -, -, -, -, -, f7⟩ := RqScaler.new_ok h h' pr (by omega) (sf := ⟨n, n, decide (n = n)⟩) hn
    have hdl : dst.moduli.length = dst.moduli64.length := by rw [h'.core.m64, ← h'.core.rns.ps, h'.core.mods, List.length_map]
    have hle := RqScaler.countCommon_le src.moduli64 dst.moduli64 0
    have hcc : s.numberCommonModuli = RqScaler.countCommon src.moduli64 dst.moduli64 0 := by simpa using f7
    -- the entry copied into row `i`
    have key : ∀ i (hi : i < RqScaler.countCommon src.moduli64 dst.moduli64 0) (z : Nat), ∃ c : ℤ,
        c ≡ z [ZMOD src.moduli64.prod] ∧ 4 * |c| ≤ 3 * src.moduli64.prod ∧
          ((z : ℤ) % (src.moduli64.getD i 0 : ℤ)).toNat = (c % (dst.moduli64.getD i 0 : ℤ)).toNat := by
      intro i hi z
      have his : i < src.moduli64.length := by omega
      have hid : i < dst.moduli64.length := by omega
      obtain ⟨s', b, C, g1, g2, g3, g4⟩ := H (enc src .powerBasis (ofCoeffs (2 ^ K) fun _ => (z : ℤ))) (fun _ => z)
        (by rw [RqP.denotes_iff h (by simp)])
      obtain rfl := Except.ok.inj (es.symm.trans g1)
      refine ⟨C 0, (g4 0 hN).1, (g4 0 hN).2, ?_⟩
      rw [RqP.denotes_iff h' (by simp)] at g3
      subst g3
      unfold RqScaler.scale at g2
      rw [rassert_ok (show (enc src .powerBasis (ofCoeffs (2 ^ K) fun _ => (z : ℤ))).context = s.src by rw [f1]; rfl), res_ok_bind,
        if_pos (show (enc src .powerBasis (ofCoeffs (2 ^ K) fun _ => (z : ℤ))).representation = .powerBasis from rfl)] at g2
      unfold RqScaler.scalePower at g2
      simp only [bind_eq_ok] at g2
      obtain ⟨cols, -, rows, hrows, hb⟩ := g2
      have hrows' : rows = dst.moduli64.map (rowP (ofCoeffs (2 ^ K) C)) := by
        have := congrArg Poly.coefficients (Except.ok.inj hb)
        rw [show (enc dst .powerBasis (ofCoeffs (2 ^ K) C)).coefficients = dst.moduli64.map (rowP (ofCoeffs (2 ^ K) C)) from
          encRows_power h' _] at this
        exact this
      obtain ⟨-, hget⟩ := mapR_inv hrows
      obtain ⟨row, hrow, hi'⟩ := hget i i (by rw [f2, hdl, List.getElem?_range hid])
      rw [if_pos (by omega),
        show (enc src .powerBasis (ofCoeffs (2 ^ K) fun _ => (z : ℤ))).coefficients =
          src.moduli64.map (rowP (ofCoeffs (2 ^ K) fun _ => (z : ℤ))) from encRows_power h _,
        idx_ok (by simpa using his), List.getElem_map] at hi'
      have hi2 := Except.ok.inj hi'
      rw [hrows', List.getElem?_map, List.getElem?_eq_getElem hid] at hrow
      rw [← Option.some.inj hrow] at hi2
      have hi3 := congrArg (fun r => r.getD 0 0) hi2
      unfold rowP at hi3
      simp only [getD_eq_getElem' _ _ _ (show 0 < ((List.range (2 ^ K)).map _).length by simp), List.getElem_map, List.getElem_range,
        cf_ofCoeffs hN _ hN] at hi3
      rw [getD_eq_getElem' _ _ _ his, getD_eq_getElem' _ _ _ hid]
      exact hi3
    have hall : ∀ i, i < RqScaler.countCommon src.moduli64 dst.moduli64 0 → src.moduli64.getD i 0 = dst.moduli64.getD i 0 := by
      intro i hi
      by_contra hne
      have his : i < src.moduli64.length := by omega
      have hid : i < dst.moduli64.length := by omega
      have hmem : src.moduli64.getD i 0 ∈ src.moduli64 := by
        rw [getD_eq_getElem' _ _ _ his]; exact List.getElem_mem his
      have hmem' : dst.moduli64.getD i 0 ∈ dst.moduli64 := by
        rw [getD_eq_getElem' _ _ _ hid]; exact List.getElem_mem hid
      have hb := (h.bound hmem).1
      have hb' := (h'.bound hmem').1
      rcases Nat.lt_or_gt_of_ne hne with hlt | hgt
      · obtain ⟨c, c1, c2, c3⟩ := key i hi (src.moduli64.getD i 0)
        have hlen2 : 1 < src.moduli64.length := by
          by_contra hl
          have : RqScaler.countCommon src.moduli64 dst.moduli64 0 = 0 := by
            refine RqScaler.countCommon_disjoint _ _ (fun j hj _ => ?_) 0
            have : j = i := by omega
            rw [this]; exact hne
          omega
        obtain ⟨j, hj, hji⟩ : ∃ j, j < src.moduli64.length ∧ j ≠ i := by
          rcases Nat.eq_zero_or_pos i with h0 | h0
          · exact ⟨1, hlen2, by omega⟩
          · exact ⟨0, by omega, by omega⟩
        have hjm := List.getElem_mem hj
        have hq17 : 17 ≤ src.moduli64[j] := by
          have h1 := (h.prime hjm).2
          have h2 := (h.bound hjm).1
          have h3 : 2 ^ 3 ≤ 2 ^ K := Nat.pow_le_pow_right (by norm_num) h.core.three
          have h4 := Nat.mod_add_div src.moduli64[j] (2 * 2 ^ K)
          rw [h1] at h4
          have h5 : 1 ≤ src.moduli64[j] / (2 * 2 ^ K) := by
            by_contra h6
            rw [Nat.lt_one_iff.mp (not_le.mp h6)] at h4
            omega
          have := Nat.mul_le_mul_left (2 * 2 ^ K) h5
          omega
        have hcop : Nat.Coprime (src.moduli64.getD i 0) src.moduli64[j] := by
          rw [getD_eq_getElem' _ _ _ his]
          rcases Nat.lt_or_gt_of_ne hji with hh | hh
          · exact (List.pairwise_iff_getElem.mp h.cop j i hj his hh).symm
          · exact List.pairwise_iff_getElem.mp h.cop i j his hj hh
        have hQ : src.moduli64.getD i 0 * 17 ≤ src.moduli64.prod := by
          refine (Nat.mul_le_mul_left _ hq17).trans (Nat.le_of_dvd ?_ (hcop.mul_dvd_of_dvd_of_dvd (List.dvd_prod hmem) (List.dvd_prod hjm)))
          exact List.prod_pos fun q hq => by have := (h.bound hq).1; omega
        rw [Int.emod_self, Int.toNat_zero] at c3
        generalize src.moduli64.getD i 0 = p at *
        generalize dst.moduli64.getD i 0 = p' at *
        generalize src.moduli64.prod = Q at *
        have hc : c = p := by
          obtain ⟨t, ht⟩ := Int.modEq_iff_dvd.mp c1
          have ht0 : t = 0 := by
            have hQ0 : (0 : ℤ) < Q := by omega
            have hQ' : (p : ℤ) * 17 ≤ Q := by exact_mod_cast hQ
            have hcb := abs_le.mp (show |c| ≤ 3 * Q / 4 by omega)
            have a1 : (Q : ℤ) * t < Q * 1 := by omega
            have a2 : (Q : ℤ) * (-1) < Q * t := by omega
            have := lt_of_mul_lt_mul_left a1 hQ0.le
            have := lt_of_mul_lt_mul_left a2 hQ0.le
            omega
          rw [ht0] at ht
          omega
        rw [hc, Int.emod_eq_of_lt (by positivity) (by exact_mod_cast hlt)] at c3
        simp at c3
        omega
      · obtain ⟨c, c1, c2, c3⟩ := key i hi (dst.moduli64.getD i 0)
        have h1 := emod_toNat_lt (show 0 < dst.moduli64.getD i 0 by omega) c
        rw [← c3] at h1
        rw [Int.emod_eq_of_lt (by positivity) (by exact_mod_cast hgt)] at h1
        simp at h1
    refine ⟨_, ?_, RqScaler.countCommon_post _ _ hall⟩
    apply List.ext_getElem
    · simp; omega
    · intro i i1 i2
      have hi : i < RqScaler.countCommon src.moduli64 dst.moduli64 0 := by simp at i1; omega
      have := hall i hi
      rw [getD_eq_getElem' _ _ _ (by omega), getD_eq_getElem' _ _ _ (by omega)] at this
      simpa using this
  · rintro ⟨m, h1, h2⟩ a A ha
    obtain ⟨K, -, h, hl⟩ := RqP.ctx hs
    obtain ⟨s, b, C, g1, g2, g3, g4⟩ := c26_scale_one_partial hs hd (by omega) pr hn hsf h1 h2 (B := 2 ^ 93)
      (fun q hq => by
        have := (h.bound (hl ▸ hq)).2
        exact (Nat.mul_le_mul hlen.le this.le).trans (by norm_num)) (by simp) ha
    refine ⟨s, b, C, g1, g2, g3, fun k hk => ⟨(g4 k hk).1, ?_⟩⟩
    have := (g4 k hk).2
    rw [max_eq_left (by norm_num)] at this
    rw [Nat.cast_pow, Nat.cast_ofNat] at this
    linarith [show (0 : ℤ) ≤ (l.prod : ℤ) by positivity]

/-- Non-vacuity: bases with a common prefix, and bases that agree at the second position only. -/
example : AgreeOnPrefix [17, 97] [17, 113] ∧ ¬ AgreeOnPrefix [97, 17] [113, 17] := by
  refine ⟨⟨1, by decide, fun i h1 h2 _ => ?_⟩, ?_⟩
  · have : i = 1 := by simp at h2; omega
    subst this; decide
  · rintro ⟨m, h1, h2⟩
    match m with
    | 0 => exact h2 1 (by omega) (by simp) (by simp) rfl
    | m + 1 => simp at h1

/-- Scaling by one from the moduli 17, 97 to 17, 113 keeps every polynomial; from 97, 17 to 113, 17 it does not. -/
example : ∃ src dst src' dst' sf, IsContext 8 [17, 97] src ∧ IsContext 8 [17, 113] dst ∧ IsContext 8 [97, 17] src' ∧ IsContext 8 [113, 17] dst' ∧
    ScalingFactor.new 3 3 = .ok sf ∧
    (∀ (a : Poly) (A : Nat → ℤ), Denotes src .powerBasis A a →
      ∃ s b C, RqScaler.new .debug src dst sf = .ok s ∧ s.scale .debug a = .ok b ∧ Denotes dst .powerBasis C b ∧
        ∀ k, k < 8 → C k ≡ A k [ZMOD 1649] ∧ 4 * |C k| ≤ 3 * 1649) ∧
    ¬ ∀ (a : Poly) (A : Nat → ℤ), Denotes src' .powerBasis A a →
      ∃ s b C, RqScaler.new .debug src' dst' sf = .ok s ∧ s.scale .debug a = .ok b ∧ Denotes dst' .powerBasis C b ∧
        ∀ k, k < 8 → C k ≡ A k [ZMOD 1649] ∧ 4 * |C k| ≤ 3 * 1649 := by
  have key : ∀ l : List Nat, l ≠ [] → l.Nodup → (∀ q ∈ l, q = 17 ∨ q = 97 ∨ q = 113) → ∃ c, IsContext 8 l c := by
    intro l h1 h2 h3
    obtain ⟨c, -, hc⟩ := c20_context_exists .debug (K := 3) (by norm_num) (by norm_num) (l := l) h1 h2
      (fun q hq => by rcases h3 q hq with rfl | rfl | rfl <;> norm_num) exSample_lt
      (fun q hq => by
        rcases h3 q hq with rfl | rfl | rfl
        · exact ⟨1, by decide⟩
        · exact ⟨3, by decide⟩
        · exact ⟨1, by decide⟩) ⟨1, 1⟩
    exact ⟨c, hc⟩
  obtain ⟨src, h1⟩ := key [17, 97] (by simp) (by decide) (by simp)
  obtain ⟨dst, h2⟩ := key [17, 113] (by simp) (by decide) (by simp)
  obtain ⟨src', h3⟩ := key [97, 17] (by simp) (by decide) (by simp)
  obtain ⟨dst', h4⟩ := key [113, 17] (by simp) (by decide) (by simp)
  obtain ⟨sf, hsf⟩ : ∃ sf, ScalingFactor.new 3 3 = .ok sf := ⟨_, rfl⟩
  refine ⟨src, dst, src', dst', sf, h1, h2, h3, h4, hsf, ?_, ?_⟩
  · refine (c26_scale_one_iff h1 h2 (by simp) .debug (by norm_num) hsf).mpr ⟨1, by decide, fun i h1 h2 _ => ?_⟩
    have : i = 1 := by simp at h2; omega
    subst this; decide
  · refine fun hx => ?_
    obtain ⟨m, h1, h2⟩ := (c26_scale_one_iff h3 h4 (by simp) .debug (by norm_num) hsf).mp hx
    match m with
    | 0 => exact h2 1 (by omega) (by simp) (by simp) rfl
    | m + 1 => simp at h1

end OnionPIR
