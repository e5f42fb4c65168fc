import Verif.Props.Rq
/-
C134: `substitute` and `mod_switch_to` on stored polynomials: substitutions compose, commute with the ring operations, with the change of
representation and with modulus switching, word for word; modulus switching is additive up to one, however many moduli are dropped, and not additive.
-/
namespace OnionPIR
open Rg Poly Spec

variable {N : Nat} {l : List Nat} {c : RqContext}

namespace SwitchLaws

theorem roundSeq_at (qs : List Nat) (A : Nat → ℤ) (j : Nat) : roundSeq qs A j = roundSeq qs (fun _ => A j) 0 := by
  induction qs generalizing A with
  | nil => rfl
  | cons q qs ih => rw [roundSeq, roundSeq, ih]

theorem rdiv_neg {q : Nat} (hq : q % 2 = 1) (x : ℤ) : (-x + ((q / 2 : Nat) : ℤ)) / (q : ℤ) = -((x + ((q / 2 : Nat) : ℤ)) / (q : ℤ)) := by
  have h1 := Int.mul_ediv_add_emod (x + ((q / 2 : Nat) : ℤ)) (q : ℤ)
  have h2 := Int.emod_nonneg (x + ((q / 2 : Nat) : ℤ)) (show (q : ℤ) ≠ 0 by omega)
  have h3 := Int.emod_lt_of_pos (x + ((q / 2 : Nat) : ℤ)) (show (0 : ℤ) < q by omega)
  generalize (x + ((q / 2 : Nat) : ℤ)) / (q : ℤ) = y at *
  generalize (x + ((q / 2 : Nat) : ℤ)) % (q : ℤ) = z at *
  have hq2 : ((q / 2 : Nat) : ℤ) * 2 + 1 = q := by omega
  rw [show -x + ((q / 2 : Nat) : ℤ) = (((q / 2 : Nat) : ℤ) * 2 - z) + (q : ℤ) * (-y) by linear_combination h1,
    Int.add_mul_ediv_left _ _ (show (q : ℤ) ≠ 0 by omega), Int.ediv_eq_zero_of_lt (by omega) (by omega), zero_add]

theorem roundSeq_neg {qs : List Nat} (h : ∀ q ∈ qs, q % 2 = 1) (x : ℤ) :
    roundSeq qs (fun _ => -x) 0 = -roundSeq qs (fun _ => x) 0 := by
  induction qs generalizing x with
  | nil => rfl
  | cons q qs ih =>
    simp only [roundSeq]
    rw [rdiv_neg (h q (by simp)), ih fun q' hq' => h q' (by simp [hq'])]

theorem rdiv_add {q : Nat} (hq : q % 2 = 1) (h3 : 3 ≤ q) (x y d : ℤ) (hd : |d| ≤ 1) :
    |(x + y + d + ((q / 2 : Nat) : ℤ)) / (q : ℤ) - (x + ((q / 2 : Nat) : ℤ)) / (q : ℤ) - (y + ((q / 2 : Nat) : ℤ)) / (q : ℤ)| ≤ 1 := by
  have key : ∀ z : ℤ, |z - q * ((z + ((q / 2 : Nat) : ℤ)) / (q : ℤ))| ≤ ((q / 2 : Nat) : ℤ) := by
    intro z
    have h1 := Int.mul_ediv_add_emod (z + ((q / 2 : Nat) : ℤ)) (q : ℤ)
    have h2 := Int.emod_nonneg (z + ((q / 2 : Nat) : ℤ)) (show (q : ℤ) ≠ 0 by omega)
    have h3 := Int.emod_lt_of_pos (z + ((q / 2 : Nat) : ℤ)) (show (0 : ℤ) < q by omega)
    rw [abs_le]
    constructor <;> omega
  have k1 := abs_le.mp (key x)
  have k2 := abs_le.mp (key y)
  have k3 := abs_le.mp (key (x + y + d))
  have kd := abs_le.mp hd
  generalize (x + ((q / 2 : Nat) : ℤ)) / (q : ℤ) = a at *
  generalize (y + ((q / 2 : Nat) : ℤ)) / (q : ℤ) = b at *
  generalize (x + y + d + ((q / 2 : Nat) : ℤ)) / (q : ℤ) = s at *
  have hq2 : ((q / 2 : Nat) : ℤ) * 2 + 1 = q := by omega
  have hq0 : (3 : ℤ) ≤ q := by exact_mod_cast h3
  rw [abs_le]
  constructor
  · by_contra hn
    nlinarith
  · by_contra hn
    nlinarith

theorem roundSeq_add {qs : List Nat} (h : ∀ q ∈ qs, q % 2 = 1 ∧ 3 ≤ q) (x y d : ℤ) (hd : |d| ≤ 1) :
    |roundSeq qs (fun _ => x + y + d) 0 - roundSeq qs (fun _ => x) 0 - roundSeq qs (fun _ => y) 0| ≤ 1 := by
  induction qs generalizing x y d with
  | nil =>
    simp only [roundSeq]
    rw [show x + y + d - x - y = d by ring]
    exact hd
  | cons q qs ih =>
    simp only [roundSeq]
    have := ih (fun q' hq' => h q' (by simp [hq'])) ((x + ((q / 2 : Nat) : ℤ)) / (q : ℤ)) ((y + ((q / 2 : Nat) : ℤ)) / (q : ℤ)) _
      (rdiv_add (h q (by simp)).1 (h q (by simp)).2 x y d hd)
    convert this using 5
    ring_nf

/-- A substitution moves coefficients and changes signs, so it commutes with every odd function of the coefficients. -/
theorem sg_map {N : Nat} (hN : 0 < N) {k : Nat} (hk : Nat.Coprime k N) {φ : ℤ → ℤ} (hφ : ∀ x, φ (-x) = -φ x) (f : Rg N) :
    sg k (ofCoeffs N fun j => φ (cf f j)) = ofCoeffs N fun j => φ (cf (sg k f) j) := by
  have h0 : φ 0 = 0 := by have := hφ 0; rw [neg_zero] at this; omega
  apply ext_cf hN
  intro j hj
  rw [cf_ofCoeffs hN _ hj, cf_sg hN, cf_sg hN]
  by_cases hex : ∃ i, i < N ∧ i * k % N = j
  · obtain ⟨i, hi, hij⟩ := hex
    have uniq : ∀ i' ∈ Finset.range N, i' ≠ i → ¬ i' * k % N = j := by
      intro i' hi' hne h
      apply hne
      have h2 : i' * k ≡ i * k [MOD N] := by rw [Nat.ModEq, h, hij]
      have h3 := Nat.ModEq.cancel_right_of_coprime (by rw [Nat.gcd_comm]; exact hk) h2
      rw [Nat.ModEq, Nat.mod_eq_of_lt (Finset.mem_range.mp hi'), Nat.mod_eq_of_lt hi] at h3
      exact h3
    rw [Finset.sum_eq_single i (fun i' h1 h2 => if_neg (uniq i' h1 h2)) (fun h => absurd (Finset.mem_range.mpr hi) h),
      Finset.sum_eq_single i (fun i' h1 h2 => if_neg (uniq i' h1 h2)) (fun h => absurd (Finset.mem_range.mpr hi) h),
      if_pos hij, if_pos hij, cf_ofCoeffs hN _ hi]
    rcases neg_one_pow_eq_or ℤ (i * k / N) with e | e
    · rw [e, mul_one, mul_one]
    · rw [e, mul_neg_one, mul_neg_one, hφ]
  · rw [Finset.sum_eq_zero, Finset.sum_eq_zero, h0]
    · exact fun i hi => if_neg fun h => hex ⟨i, Finset.mem_range.mp hi, h⟩
    · exact fun i hi => if_neg fun h => hex ⟨i, Finset.mem_range.mp hi, h⟩

theorem odd_mod {K : Nat} (h : c.WF K) {q : Nat} (hq : q ∈ c.moduli64) : q % 2 = 1 ∧ 3 ≤ q := by
  have hm : q ∈ c.moduli.map Modulus.p := by rwa [h.core.mods, h.core.rns.ps, ← h.core.m64]
  rw [h.moduli_eq, List.map_map, List.mem_map] at hm
  obtain ⟨op, hop, rfl⟩ := hm
  obtain ⟨_, _, hw⟩ := h.op_wf hop
  have h1 : op.p.p % 2 = 1 := by
    have := congrArg (· % 2) hw.cong
    simpa [Nat.mod_mod_of_dvd _ (dvd_mul_right 2 (2 ^ K))] using this
  have := hw.prime.two_le
  exact ⟨h1, by simp only [Function.comp]; omega⟩

theorem switch_enc {K : Nat} (h : c.WF K) (pr : Profile) {k : Nat} {tgt : RqContext} (ht : c.switchIterations tgt = some k) (f : Rg (2 ^ K)) :
    (enc c .powerBasis f).modSwitchTo pr tgt =
      .ok (enc tgt .powerBasis (ofCoeffs (2 ^ K) fun j => roundSeq (c.moduli64.reverse.take k) (fun _ => cf f j) 0)) := by
  have hN : 0 < 2 ^ K := by positivity
  have hd := (RqContext.switchIterations_iff h tgt k).mp ht
  obtain ⟨B, b1, b2⟩ := modSwitch_down pr k h hd (cf f) 0
  rw [ofCoeffs_cf hN] at b2
  unfold Poly.modSwitchTo
  rw [show (enc c .powerBasis f).context = c from rfl, ht, unwrapR, res_ok_bind, List.range_eq_range', b2]
  congr 2
  apply ext_cf hN
  intro j hj
  rw [cf_ofCoeffs hN _ hj, cf_ofCoeffs hN _ hj, b1 j hj, roundSeq_at]

end SwitchLaws

open SwitchLaws

/-- **C134, substitutions compose.** Substituting `X^k` and then `X^k'` gives the same words as substituting `X^(k k')`; in particular the
substitution by an inverse of `k` modulo `2N` gives the polynomial back. -/
theorem c134_compose (hc : IsContext N l c) (hN31 : N ≤ 2 ^ 31) (pr : Profile) {k k' : Nat} (hk : Odd k) (hk' : Odd k')
    {r : Representation} (hr : r ≠ .nttShoup) {a : Poly} (ha : a.context = c) (har : a.representation = r) (hv : ValidRows c a.coefficients) :
    ∃ s s' t b d, Substitution.new pr c k = .ok s ∧ Substitution.new pr c k' = .ok s' ∧ Substitution.new pr c (k * k') = .ok t ∧
      a.substitute pr s = .ok b ∧ b.substitute pr s' = .ok d ∧ a.substitute pr t = .ok d ∧ (k * k' % (2 * N) = 1 → d = a) := by
  obtain ⟨K, rfl, h, rfl⟩ := RqP.ctx hc
  subst ha har
  have hN : 0 < 2 ^ K := by positivity
  have hK : K ≤ 31 := (Nat.pow_le_pow_iff_right (by norm_num)).mp hN31
  obtain ⟨f, hf, -⟩ := exists_enc h hr hv
  have e1 := Poly.substitution_new_ok h pr hK hk
  have e2 := Poly.substitution_new_ok h pr hK hk'
  have e3 := Poly.substitution_new_ok h pr hK (hk.mul hk')
  have hd : sg k' (sg k f) = sg (k * k') f := by rw [sg_sg hN hk', mul_comm]
  refine ⟨_, _, _, enc a.context a.representation (sg k f), enc a.context a.representation (sg (k * k') f), e1, e2, e3, ?_, ?_, ?_, ?_⟩
  · conv_lhs => rw [hf]
    exact Poly.substitute_enc h pr hK hk e1 _ f
  · rw [Poly.substitute_enc h pr hK hk' e2, hd]
  · conv_lhs => rw [hf]
    exact Poly.substitute_enc h pr hK (hk.mul hk') e3 _ f
  · intro hone
    rw [← sg_mod, hone, sg_one hN]
    exact hf.symm

/-- **C134, substitution is a ring homomorphism on stored polynomials.** Substituting after an addition, subtraction or multiplication gives the
same words as substituting both operands first, and substituting after a change of representation the same words as before it. -/
theorem c134_ring (hc : IsContext N l c) (hN31 : N ≤ 2 ^ 31) (pr : Profile) {k : Nat} (hk : Odd k) {a b : Poly}
    (ha : a.context = c) (har : a.representation = .ntt) (hav : ValidRows c a.coefficients)
    (hb : b.context = c) (hbr : b.representation = .ntt) (hbv : ValidRows c b.coefficients) :
    ∃ s a' b', Substitution.new pr c k = .ok s ∧ a.substitute pr s = .ok a' ∧ b.substitute pr s = .ok b' ∧
      (∃ x y, a.add pr b = .ok x ∧ x.substitute pr s = .ok y ∧ a'.add pr b' = .ok y) ∧
      (∃ x y, a.sub pr b = .ok x ∧ x.substitute pr s = .ok y ∧ a'.sub pr b' = .ok y) ∧
      (∃ x y, a.mul pr b = .ok x ∧ x.substitute pr s = .ok y ∧ a'.mul pr b' = .ok y) ∧
      (∃ x y, a.changeRepresentation pr .powerBasis = .ok x ∧ x.substitute pr s = .ok y ∧
        a'.changeRepresentation pr .powerBasis = .ok y ∧ y.changeRepresentation pr .ntt = .ok a') := by
  obtain ⟨K, rfl, h, rfl⟩ := RqP.ctx hc
  subst ha
  have hN : 0 < 2 ^ K := by positivity
  have hK : K ≤ 31 := (Nat.pow_le_pow_iff_right (by norm_num)).mp hN31
  obtain ⟨f, hf, -⟩ := exists_enc h (by rw [har]; simp) hav
  obtain ⟨g, hg, -⟩ := exists_enc (p := b) (by rw [hb]; exact h) (by rw [hbr]; simp) (by rw [Poly.Valid, hb]; exact hbv)
  rw [har] at hf
  rw [hbr, hb] at hg
  generalize a.context = c at *
  subst hf hg
  have e1 := Poly.substitution_new_ok h pr hK hk
  have sub := fun r f => Poly.substitute_enc h pr hK hk e1 r f
  refine ⟨_, _, _, e1, sub _ f, sub _ g, ⟨_, _, Poly.add_enc h pr f g, sub _ _, ?_⟩, ⟨_, _, Poly.sub_enc h pr f g, sub _ _, ?_⟩,
    ⟨_, _, Poly.mul_enc h pr f g, sub _ _, ?_⟩, ⟨_, _, Poly.change_enc h pr f (by simp) (by simp), sub _ _, ?_, ?_⟩⟩
  · rw [Poly.add_enc h, sg_add hN]
  · rw [Poly.sub_enc h, sg_sub hN]
  · rw [Poly.mul_enc h, sg_mul hN hk]
  · rw [Poly.change_enc h pr _ (by simp) (by simp)]
  · rw [Poly.change_enc h pr _ (by simp) (by simp)]

/-- **C134, switching commutes with substitution.** Substituting and then switching to any context of the chain gives the same words as
switching and then substituting, with the same `Substitution`: the rounding is symmetric because all moduli are odd. -/
theorem c134_switch_substitute (hc : IsContext N l c) (hN31 : N ≤ 2 ^ 31) (pr : Profile) {k : Nat} (hk : Odd k) {n : Nat} {tgt : RqContext}
    (ht : c.switchIterations tgt = some n) {a : Poly} (ha : a.context = c) (har : a.representation = .powerBasis)
    (hv : ValidRows c a.coefficients) :
    ∃ s x y z, Substitution.new pr c k = .ok s ∧ Substitution.new pr tgt k = .ok s ∧
      a.substitute pr s = .ok x ∧ x.modSwitchTo pr tgt = .ok z ∧ a.modSwitchTo pr tgt = .ok y ∧ y.substitute pr s = .ok z := by
  obtain ⟨K, rfl, h, rfl⟩ := RqP.ctx hc
  subst ha
  have hN : 0 < 2 ^ K := by positivity
  have hK : K ≤ 31 := (Nat.pow_le_pow_iff_right (by norm_num)).mp hN31
  obtain ⟨f, hf, -⟩ := exists_enc h (by rw [har]; simp) hv
  rw [har] at hf
  generalize a.context = c at *
  subst hf
  obtain ⟨hw, -, -⟩ := RqContext.down_moduli h ((RqContext.switchIterations_iff h tgt n).mp ht)
  have e1 := Poly.substitution_new_ok h pr hK hk
  have e2 := Poly.substitution_new_ok hw pr hK hk
  refine ⟨_, _, _, _, e1, e2, Poly.substitute_enc h pr hK hk e1 _ f, switch_enc h pr ht _, switch_enc h pr ht f, ?_⟩
  rw [Poly.substitute_enc hw pr hK hk e2]
  rw [sg_map hN (Nat.Coprime.pow_right K (Nat.coprime_two_right.mpr hk)) (φ := fun x => roundSeq (c.moduli64.reverse.take n) (fun _ => x) 0)
    (roundSeq_neg fun q hq => (odd_mod h (List.mem_reverse.mp (List.mem_of_mem_take hq))).1)]

/-- **C134, switching is additive up to one.** Adding and then switching differs from switching both and then adding by a polynomial with
coefficients in `[-1, 1]`, however many moduli are dropped. -/
theorem c134_switch_add (hc : IsContext N l c) (pr : Profile) {n : Nat} {tgt : RqContext} (ht : c.switchIterations tgt = some n) {a b : Poly}
    (ha : a.context = c) (har : a.representation = .ntt) (hav : ValidRows c a.coefficients)
    (hb : b.context = c) (hbr : b.representation = .ntt) (hbv : ValidRows c b.coefficients) :
    ∃ s pa pb ps a' b' s' na nb ns t e δ, a.add pr b = .ok s ∧
      a.changeRepresentation pr .powerBasis = .ok pa ∧ b.changeRepresentation pr .powerBasis = .ok pb ∧
      s.changeRepresentation pr .powerBasis = .ok ps ∧
      pa.modSwitchTo pr tgt = .ok a' ∧ pb.modSwitchTo pr tgt = .ok b' ∧ ps.modSwitchTo pr tgt = .ok s' ∧
      a'.changeRepresentation pr .ntt = .ok na ∧ b'.changeRepresentation pr .ntt = .ok nb ∧ s'.changeRepresentation pr .ntt = .ok ns ∧
      na.add pr nb = .ok t ∧ ns.sub pr t = .ok e ∧ Denotes tgt .ntt δ e ∧ ∀ j, |δ j| ≤ 1 := by
  obtain ⟨K, rfl, h, rfl⟩ := RqP.ctx hc
  subst ha
  have hN : 0 < 2 ^ K := by positivity
  obtain ⟨f, hf, -⟩ := exists_enc h (by rw [har]; simp) hav
  obtain ⟨g, hg, -⟩ := exists_enc (p := b) (by rw [hb]; exact h) (by rw [hbr]; simp) (by rw [Poly.Valid, hb]; exact hbv)
  rw [har] at hf
  rw [hbr, hb] at hg
  generalize a.context = c at *
  subst hf hg
  obtain ⟨hw, -, -⟩ := RqContext.down_moduli h ((RqContext.switchIterations_iff h tgt n).mp ht)
  refine ⟨_, _, _, _, _, _, _, _, _, _, _, _,
    fun j => roundSeq (c.moduli64.reverse.take n) (fun _ => cf f j + cf g j + 0) 0 - roundSeq (c.moduli64.reverse.take n) (fun _ => cf f j) 0 -
      roundSeq (c.moduli64.reverse.take n) (fun _ => cf g j) 0, Poly.add_enc h pr f g,
    Poly.change_enc h pr _ (by simp) (by simp), Poly.change_enc h pr _ (by simp) (by simp), Poly.change_enc h pr _ (by simp) (by simp),
    switch_enc h pr ht f, switch_enc h pr ht g, switch_enc h pr ht (f + g),
    Poly.change_enc hw pr _ (by simp) (by simp), Poly.change_enc hw pr _ (by simp) (by simp), Poly.change_enc hw pr _ (by simp) (by simp),
    Poly.add_enc hw pr _ _, Poly.sub_enc hw pr _ _, RqP.denotes_enc hw (by simp) _ fun j hj => ?_, fun j => ?_⟩
  · rw [cf_sub hN, cf_add hN, cf_ofCoeffs hN _ hj, cf_ofCoeffs hN _ hj, cf_ofCoeffs hN _ hj, cf_add hN, add_zero]
    ring
  · exact roundSeq_add (fun q hq => odd_mod h (List.mem_reverse.mp (List.mem_of_mem_take hq))) _ _ 0 (by simp)

/-- **C134, switching is not additive**, in any context with two moduli or more: the constant `(q-1)/2` for the last modulus `q` is rounded to
zero and twice that constant to one. -/
theorem c134_not_additive {q : Nat} (hc : IsContext N (l ++ [q]) c) (hl : l ≠ []) (pr : Profile) {a s : Poly}
    (ha : Denotes c .powerBasis (fun j => if j = 0 then ((q / 2 : Nat) : ℤ) else 0) a)
    (hs : Denotes c .powerBasis (fun j => if j = 0 then ((q / 2 : Nat) : ℤ) + ((q / 2 : Nat) : ℤ) else 0) s) :
    ∃ c' a' s', c.nextCtx = some c' ∧ a.modSwitchDownNext pr = .ok a' ∧ s.modSwitchDownNext pr = .ok s' ∧
      Denotes c' .powerBasis (fun _ => 0) a' ∧ Denotes c' .powerBasis (fun j => if j = 0 then 1 else 0) s' := by
  obtain ⟨K, hK, h, hm⟩ := RqP.ctx hc
  obtain ⟨o1, o2⟩ := odd_mod (q := q) h (by rw [hm]; simp)
  obtain ⟨c', a', A', e1, hc', e2, d2, f2⟩ := c23_switch hc hl pr ha
  obtain ⟨c'', s', S', e1', -, e3, d3, f3⟩ := c23_switch hc hl pr hs
  rw [e1] at e1'
  cases e1'
  have cong : ∀ {p : Poly} {A B : Nat → ℤ}, Denotes c' .powerBasis A p → (∀ j, j < N → A j = B j) → Denotes c' .powerBasis B p := by
    intro p A B hp hAB
    obtain ⟨K', hK', h', -⟩ := RqP.ctx hc'
    subst hK'
    rw [RqP.denotes_iff h' (by simp)] at hp ⊢
    rw [hp]
    congr 1
    apply ext_cf (by positivity)
    intro j hj
    rw [cf_ofCoeffs (by positivity) _ hj, cf_ofCoeffs (by positivity) _ hj, hAB j hj]
  have hq2 : ((q / 2 : Nat) : ℤ) * 2 + 1 = q := by omega
  have hq3 : (3 : ℤ) ≤ q := by exact_mod_cast o2
  refine ⟨c', a', s', e1, e2, e3, cong d2 fun j hj => ?_, cong d3 fun j hj => ?_⟩
  · rw [(f2 j hj).2]
    split_ifs
    · exact Int.ediv_eq_zero_of_lt (by omega) (by omega)
    · exact Int.ediv_eq_zero_of_lt (by omega) (by omega)
  · rw [(f3 j hj).2]
    split_ifs
    · rw [show ((q / 2 : Nat) : ℤ) + ((q / 2 : Nat) : ℤ) + ((q / 2 : Nat) : ℤ) = (((q / 2 : Nat) : ℤ) - 1) + (q : ℤ) * 1 by omega,
        Int.add_mul_ediv_left _ _ (by omega), Int.ediv_eq_zero_of_lt (by omega) (by omega), zero_add]
    · exact Int.ediv_eq_zero_of_lt (by omega) (by omega)

/-- The hypotheses of C134 can be met: a polynomial modulo `17 · 97`, the substitution by `3` and its inverse `11` modulo `16`, and a target below. -/
example : ∃ c c' a x y, IsContext 8 [17, 97] c ∧ IsContext 8 [17] c' ∧ c.switchIterations c' = some 1 ∧
    Denotes c .powerBasis (fun j => ([100, 48, 49, -100] : List ℤ).getD j 0) a ∧ Odd 3 ∧ Odd 11 ∧ 3 * 11 % (2 * 8) = 1 ∧
    a.context = c ∧ a.representation = .powerBasis ∧ ValidRows c a.coefficients ∧
    a.changeRepresentation .debug .ntt = .ok x ∧ x.context = c ∧ x.representation = .ntt ∧ ValidRows c x.coefficients ∧
    Denotes c .powerBasis (fun j => if j = 0 then ((97 / 2 : Nat) : ℤ) else 0) y := by
  obtain ⟨c, hc⟩ := exists_context
  obtain ⟨a, -, ha⟩ := c25_from_i64 hc .debug (a := [100, 48, 49, -100]) (by simp) (by simp)
  obtain ⟨y, -, hy⟩ := c25_from_i64 hc .debug (a := [48]) (by simp) (by simp)
  obtain ⟨c', -, -, e1, hc', -⟩ := c23_switch (l := [17]) (q := 97) hc (by simp) .debug ha
  obtain ⟨x, ex, x1, x2, x3, -, -⟩ := c20_round_trip hc .debug ha.1 (r' := .ntt) (by simp) (by simp) ha.2.1 ha.2.2.1
  obtain ⟨K, hK, h, -⟩ := RqP.ctx hc
  refine ⟨c, c', a, x, y, hc, hc', (RqContext.switchIterations_iff h c' 1).mpr (by simp [RqContext.down, e1]), ha, by decide, by decide, by decide,
    ha.1, ha.2.1, ha.2.2.1, ex, x1, x2, x3, ?_⟩
  convert hy using 2
  rename_i j
  cases j <;> simp

end OnionPIR
