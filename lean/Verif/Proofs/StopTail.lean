import Verif.Proofs.Stop
import Verif.Proofs.ExpandTail
/- The errors of the stopped expansion as a linear function of the sampled errors of its keys. -/
namespace OnionPIR.StopTail
open Rg Poly Spec Sampling Evaluation ExpandTail

variable {K t : Nat} {l : List Nat} {variance : Nat} {P : BfvParameters}

/-- The loop of a stage in an array of any length that is enough, for any meaning of the entries. -/
theorem stage {pr : Profile} {ev : Evaluation} {xPows : List Poly} (hK : K ≤ 62) {i n : Nat} (hi : i < K) {G G' : Nat → BfvCipherText → Prop}
    (hstep : ∀ (bits : List BfvCipherText) j ct, j < 2 ^ i → j + 2 ^ i < bits.length → bits[j]? = some ct → G j ct →
      ∃ ce co, unpackStep pr ev xPows (2 ^ (K - i) + 1) i bits j = .ok ((bits.set j ce).set (j + 2 ^ i) co) ∧ G' j ce ∧ G' (j + 2 ^ i) co)
    {bits : List BfvCipherText} (hlen : bits.length = n) (hn : 2 ^ (i + 1) ≤ n) (hb : ∀ j, j < 2 ^ i → ∃ ct, bits[j]? = some ct ∧ G j ct) :
    ∃ bits', unpackStage pr ev xPows (2 ^ K) bits i = .ok bits' ∧ bits'.length = n ∧
      ∀ j, j < 2 ^ (i + 1) → ∃ ct, bits'[j]? = some ct ∧ G' j ct := by
  have hdiv : 2 ^ K / 2 ^ i = 2 ^ (K - i) := Nat.pow_div hi.le (by norm_num)
  unfold unpackStage
  have hle : 2 ^ (K - i) ≤ 2 ^ 62 := Nat.pow_le_pow_right (by norm_num) (by omega)
  rw [divR_ok (by positivity), res_ok_bind, hdiv, addW_ok (by omega), res_ok_bind]
  rw [pow_succ] at hn
  obtain ⟨r, hr, h1, h2, h3, h4⟩ := foldR_range_ok (f := unpackStep pr ev xPows (2 ^ (K - i) + 1) i) (n := 2 ^ i)
    (Inv := fun m (b : List BfvCipherText) => b.length = n ∧
      (∀ j, j < m → ∃ ct, b[j]? = some ct ∧ G' j ct) ∧
      (∀ j, m ≤ j → j < 2 ^ i → ∃ ct, b[j]? = some ct ∧ G j ct) ∧
      (∀ j, j < m → ∃ ct, b[j + 2 ^ i]? = some ct ∧ G' (j + 2 ^ i) ct)) (s := bits)
    ⟨hlen, fun j hj => absurd hj (Nat.not_lt_zero _), fun j _ hj => hb j hj, fun j hj => absurd hj (Nat.not_lt_zero _)⟩
    (by
      rintro j b hj ⟨i1, i2, i3, i4⟩
      obtain ⟨ct, hct, hgood⟩ := i3 j (le_refl _) hj
      obtain ⟨ce, co, s1, s2, s3⟩ := hstep b j ct hj (by omega) hct hgood
      refine ⟨_, s1, by rw [List.length_set, List.length_set, i1], fun k hk => ?_, fun k hk hk' => ?_, fun k hk => ?_⟩
      · rw [List.getElem?_set_ne (by omega)]
        rcases Nat.lt_succ_iff_lt_or_eq.mp hk with hk | rfl
        · rw [List.getElem?_set_ne (by omega)]; exact i2 k hk
        · rw [List.getElem?_set_self (by omega)]; exact ⟨ce, rfl, s2⟩
      · rw [List.getElem?_set_ne (by omega), List.getElem?_set_ne (by omega)]; exact i3 k (by omega) hk'
      · rcases Nat.lt_succ_iff_lt_or_eq.mp hk with hk | rfl
        · rw [List.getElem?_set_ne (by omega), List.getElem?_set_ne (by omega)]; exact i4 k hk
        · rw [List.getElem?_set_self (by rw [List.length_set]; omega)]; exact ⟨co, rfl, s3⟩)
  refine ⟨r, hr, h1, fun j hj => ?_⟩
  rw [pow_succ] at hj
  by_cases hj' : j < 2 ^ i
  · exact h2 j hj'
  · have := h4 (j - 2 ^ i) (by omega)
    rwa [Nat.sub_add_cancel (by omega)] at this

theorem stages (h : IsParams (2 ^ K) t l variance P) (hK : K ≤ 62) (pr : Profile) {s : Rg (2 ^ K)} {ev : Evaluation}
    {R : Nat → Rg (2 ^ K) → Rg (2 ^ K)} {x : Nat → Nat → List Int}
    (hev : ∀ i, i < K → ∃ g, ev.gk.lookup (2 ^ (K - i) + 1) = some g ∧ Exact P l s (2 ^ (K - i) + 1) (R i) (x i) g)
    {xPows : List Poly} (hx : IsMonomials (2 ^ K) P xPows) {e : Nat} (he : e ≤ K) {f0 f1 : Rg (2 ^ K)} {ct : BfvCipherText}
    (hct : IsCt P 0 [f0, f1] ct) :
    ∃ bits, foldR (unpackStage pr ev xPows (2 ^ K)) (List.replicate (2 ^ e) ct) (List.range e) = .ok bits ∧ bits.length = 2 ^ e ∧
      ∀ j, j < 2 ^ e → ∃ c, bits[j]? = some c ∧ Entry P l s (phase s [f0, f1]) e (masks R f1 e) (errors l R f1 x e) j c := by
  have hE : 0 < 2 ^ e := by positivity
  obtain ⟨r, hr, h1, h2⟩ := foldR_range_ok (f := unpackStage pr ev xPows (2 ^ K)) (n := e)
    (Inv := fun i (b : List BfvCipherText) => b.length = 2 ^ e ∧
      ∀ j, j < 2 ^ i → ∃ c, b[j]? = some c ∧ Entry P l s (phase s [f0, f1]) i (masks R f1 i) (errors l R f1 x i) j c)
    (s := List.replicate (2 ^ e) ct)
    ⟨List.length_replicate, fun j hj => by
      have hj : j = 0 := by simpa using hj
      subst hj
      refine ⟨ct, by rw [List.getElem?_replicate, if_pos hE], f0, hct, ?_⟩
      rw [tr_zero]
      show Cong _ _ (_ + 0)
      rw [add_zero]; exact cong_refl _⟩
    (by
      rintro i b hi ⟨h1, h2⟩
      have hiK : i < K := by omega
      obtain ⟨g, hg, hgal⟩ := hev i hiK
      obtain ⟨xp, hxp, hpow⟩ := hx i (Nat.pow_lt_pow_right (by norm_num) hiK)
      exact stage hK hiK (fun bits j ct hj0 hj hb hg' => step h pr hiK hg hgal hxp hpow hj0 hj hb hg') h1
        (Nat.pow_le_pow_right (by norm_num) hi) h2)
  exact ⟨r, hr, h1, h2⟩

theorem unpack (h : IsParams (2 ^ K) t l variance P) {s : Rg (2 ^ K)} {xPows : List Poly} (hx : IsMonomials (2 ^ K) P xPows) {e : Nat} (he : e ≤ K)
    {ct : BfvCipherText} {f0 f1 : Rg (2 ^ K)} (hct : IsCt P 0 [f0, f1] ct) : ∃ f1' : Rg (2 ^ K),
    ∀ (pr : Profile) (ev : Evaluation) (Rm : Nat → Rg (2 ^ K) → Rg (2 ^ K)) (x : Nat → Nat → List Int),
      (∀ i, i < K → ∃ g, ev.gk.lookup (2 ^ (K - i) + 1) = some g ∧ Exact P l s (2 ^ (K - i) + 1) (Rm i) (x i) g) →
      ∃ bits, Repair.unpackWithTo pr e ev xPows ct = .ok bits ∧ bits.length = 2 ^ e ∧
        ∀ j, j < 2 ^ e → ∃ c, ∃ g0 g1 : Rg (2 ^ K), bits[j]? = some c ∧ IsCt P 0 [g0, g1] c ∧
          Cong (levelQ l 0) (phase s [g0, g1]) (comb (2 ^ e) j (phase s [f0, f1]) + errors l Rm f1' x e j) := by
  have hpos : 0 < 2 ^ K := by positivity
  obtain ⟨ext, L, hw, hL, -, hml, -⟩ := level_zero h
  have hK : K ≤ 62 := hL.wf.ctx.core.K_le
  obtain ⟨c1, c2, c3⟩ := (BfvP.isCt_iff hL _ _).mp hct
  have hQ : L.qCtx.rns.product = levelQ l 0 := by
    rw [hL.wf.ctx.core.prod, ← hml]; exact BfvP.levelQ_eq hL
  have hodd : Odd (levelQ l 0) := by
    rw [← hml, ← BfvP.levelQ_eq hL]
    refine odd_prod _ fun q hq => ?_
    obtain ⟨hp, hm⟩ := hL.wf.ctx.prime hq
    rw [Nat.odd_iff, ← Nat.mod_mod_of_dvd q (dvd_mul_right 2 (2 ^ K)), hm]
  have hcop : Nat.Coprime (2 ^ e) (levelQ l 0) := Nat.Coprime.pow_left e (Nat.coprime_two_left.mpr hodd)
  have hQ2 : 2 ≤ levelQ l 0 := by
    rw [← hml, ← BfvP.levelQ_eq hL]
    exact two_le_prod hL.wf.ctx.core.ne fun q hq => (hL.wf.ctx.prime hq).1.two_le
  obtain ⟨nInv, hn⟩ := modInverse_coprime hcop
  obtain ⟨-, -, hinv⟩ := modInverse_some hQ2 hn
  refine ⟨f1 * ((nInv : ℤ) : Rg (2 ^ K)), fun pr ev Rm x hev => ?_⟩
  have hct' : IsCt P 0 [f0 * ((nInv : ℤ) : Rg (2 ^ K)), f1 * ((nInv : ℤ) : Rg (2 ^ K))]
      { ct with cts := [enc L.qCtx .ntt (f0 * ((nInv : ℤ) : Rg (2 ^ K))), enc L.qCtx .ntt (f1 * ((nInv : ℤ) : Rg (2 ^ K)))] } :=
    (BfvP.isCt_iff hL _ _).mpr ⟨c1, c2, rfl⟩
  obtain ⟨bits, hb, hlen, hgood⟩ := stages h hK pr hev hx he hct'
  refine ⟨bits, ?_, hlen, fun j hj => ?_⟩
  · unfold Repair.unpackWithTo
    rw [c1, c2, idx_of hL.q, res_ok_bind, hw.deg, hQ, hn]
    simp only [unwrapR, res_ok_bind, c3, List.map_cons, List.map_nil, mapR, Poly.mulBig_enc hL.wf.ctx]
    have hc1 : ∀ x, ({ ct with cts := x } : BfvCipherText) = { params := P, cts := x, level := 0 } := fun x => by rw [← c1, ← c2]
    rw [hc1] at hb
    rw [hb, res_ok_bind, rassert_ok hlen, res_ok_bind]
  · obtain ⟨c, hc, g0, h1, h3⟩ := hgood j hj
    refine ⟨c, g0, _, hc, h1, cong_trans h3 (cong_add ?_ (cong_refl _))⟩
    have hph : phase s [f0 * ((nInv : ℤ) : Rg (2 ^ K)), f1 * ((nInv : ℤ) : Rg (2 ^ K))] = ((nInv : ℤ) : Rg (2 ^ K)) * phase s [f0, f1] := by
      simp only [BfvP.phase_two]; ring
    rw [hph, Stop.tr_comb he, Stop.comb_int_mul hpos]
    obtain ⟨w, hw⟩ : ((levelQ l 0 : ℕ) : ℤ) ∣ 2 ^ e * (nInv : ℤ) - 1 := by
      have hd := Nat.div_add_mod (2 ^ e * nInv) (levelQ l 0)
      rw [hinv] at hd
      refine ⟨((2 ^ e * nInv / levelQ l 0 : ℕ) : ℤ), ?_⟩
      rw [← Int.natCast_mul, eq_comm, eq_sub_iff_add_eq]
      exact_mod_cast hd
    refine ⟨((w : ℤ) : Rg (2 ^ K)) * comb (2 ^ e) j (phase s [f0, f1]), ?_⟩
    have hw' := congrArg (fun z : ℤ => (z : Rg (2 ^ K))) hw
    push_cast at hw' ⊢
    linear_combination comb (2 ^ e) j (phase s [f0, f1]) * hw'

/-- The squares of the bounds of stage `e`. -/
theorem bound_squares (N : Nat) (hn : 0 < (levelModuli l 0).length) {e : Nat} (he : e ≤ K) :
    ∑ r ∈ Finset.range (K * (levelModuli l 0).length), (N : ℝ) * (bound l e r : ℝ) ^ 2 = switchSquares N l 0 * (((4 : ℝ) ^ e - 1) / 3) := by
  have h1 : ∀ r ∈ Finset.range (K * (levelModuli l 0).length), (N : ℝ) * (bound l e r : ℝ) ^ 2 =
      (fun i j => if i < e then (N : ℝ) * (4 ^ (e - 1 - i) * (((levelModuli l 0).getD j 1 : Nat) : ℝ) ^ 2) else 0) (r / (levelModuli l 0).length)
        (r % (levelModuli l 0).length) := by
    intro r _
    unfold bound rowQ
    beta_reduce
    split_ifs
    · push_cast
      rw [mul_pow, ← pow_mul, mul_comm _ 2, pow_mul]
      norm_num
    · simp
  refine ((Finset.sum_congr rfl h1).trans (sum_rows_mul hn
    (fun i j => if i < e then (N : ℝ) * (4 ^ (e - 1 - i) * (((levelModuli l 0).getD j 1 : Nat) : ℝ) ^ 2) else 0) K)).trans ?_
  have h2 : ∀ i, ∑ j ∈ Finset.range (levelModuli l 0).length, (if i < e then (N : ℝ) * (4 ^ (e - 1 - i) * (((levelModuli l 0).getD j 1 : Nat) : ℝ) ^ 2) else 0) =
      if i < e then (switchSquares N l 0 : ℝ) * 4 ^ (e - 1 - i) else 0 := by
    intro i
    split_ifs
    · unfold switchSquares
      rw [← sum_getD_sq]
      push_cast
      rw [Finset.mul_sum, Finset.sum_mul]
      exact Finset.sum_congr rfl fun j _ => by ring
    · simp
  simp only [h2]
  obtain ⟨d, rfl⟩ := Nat.exists_eq_add_of_le he
  rw [Finset.sum_range_add, Finset.sum_congr rfl (fun i hi => if_pos (Finset.mem_range.mp hi)),
    Finset.sum_eq_zero (s := Finset.range d) (fun i _ => if_neg (by omega)), add_zero,
    ← Finset.mul_sum, Finset.sum_range_reflect (fun i => (4 : ℝ) ^ i) e, geom_sum_eq (by norm_num)]
  norm_num

/-- The choices of words for which some output of the stopped expansion has an error coefficient of `T` or more. -/
theorem card_errors {v R W : Nat} (hq : ∀ q ∈ l, 0 < q) (hn : 0 < (levelModuli l 0).length) {e : Nat} (he1 : 1 ≤ e) (he : e ≤ K)
    (Rm : Nat → Rg (2 ^ K) → Rg (2 ^ K)) (f1 : Rg (2 ^ K)) (hR : R = K * (levelModuli l 0).length) (hv : 1 ≤ v) (hW : 4 * v * 2 ^ K ≤ 64 * W)
    {T : Nat} (s : Finset (Fin R → Fin W → Fin (2 ^ 64)))
    (hs : ∀ w ∈ s, ∃ j k, j < 2 ^ e ∧ k < 2 ^ K ∧ (T : ℤ) ≤ |cf (errors l Rm f1 (samples l (2 ^ K) v w) e j) k|) :
    (s.card : ℝ) ≤ 2 ^ (64 * W * R) * (2 * 2 ^ e * ((2 ^ K : Nat) : ℝ) *
      Real.exp (-(3 * (T : ℝ) ^ 2 / (2 * v * switchSquares (2 ^ K) l 0 * ((4 : ℝ) ^ e - 1))))) := by
  have hpos : 0 < 2 ^ K := by positivity
  have hD1 : (0 : ℝ) < switchSquares (2 ^ K) l 0 := by exact_mod_cast switchSquares_pos hpos hq hn
  have hD2 : (0 : ℝ) < (4 : ℝ) ^ e - 1 := by
    have : (1 : ℝ) < 4 ^ e := one_lt_pow₀ (by norm_num) (by omega)
    linarith
  have := card_family hpos hv hW (J := 2 ^ e) (E := fun j w => errors l Rm f1 (samples l (2 ^ K) v w) e j)
    (fun j _ => errors_lin hq hn Rm f1 hR e he j) (D := switchSquares (2 ^ K) l 0 * (((4 : ℝ) ^ e - 1) / 3)) (by positivity)
    (by rw [hR]; exact (bound_squares (2 ^ K) hn he).le) s hs
  refine this.trans (le_of_eq ?_)
  have hx : -((T : ℝ) ^ 2 / (2 * v * (switchSquares (2 ^ K) l 0 * (((4 : ℝ) ^ e - 1) / 3)))) =
      -(3 * (T : ℝ) ^ 2 / (2 * v * switchSquares (2 ^ K) l 0 * ((4 : ℝ) ^ e - 1))) := by
    have hv' : (0 : ℝ) < v := by exact_mod_cast hv
    field_simp
  rw [hx]
  push_cast
  ring

end OnionPIR.StopTail
