import Verif.Spec.Pir
import Verif.Proofs.Expand
import Verif.Props.Ksk
/- The loops of `unpack`. -/
namespace OnionPIR.Evaluation
open Rg Spec

variable {K t : Nat} {l : List Nat} {variance : Nat} {P : BfvParameters}

theorem cong_trans {N Q : Nat} {f g h : Rg N} (h1 : Cong Q f g) (h2 : Cong Q g h) : Cong Q f h := by
  unfold Cong at *; have := dvd_add h1 h2; rwa [sub_add_sub_cancel] at this
theorem cong_add {N Q : Nat} {f g f' g' : Rg N} (h1 : Cong Q f g) (h2 : Cong Q f' g') : Cong Q (f + f') (g + g') := by
  unfold Cong at *; rw [show f + f' - (g + g') = (f - g) + (f' - g') by ring]; exact dvd_add h1 h2
theorem cong_sub {N Q : Nat} {f g f' g' : Rg N} (h1 : Cong Q f g) (h2 : Cong Q f' g') : Cong Q (f - f') (g - g') := by
  unfold Cong at *; rw [show f - f' - (g - g') = (f - g) - (f' - g') by ring]; exact dvd_sub h1 h2
theorem cong_mul {N Q : Nat} {f g : Rg N} (h1 : Cong Q f g) (r : Rg N) : Cong Q (f * r) (g * r) := by
  unfold Cong at *; rw [← sub_mul]; exact Dvd.dvd.mul_right h1 r
theorem cong_refl {N Q : Nat} (f : Rg N) : Cong Q f f := by unfold Cong; rw [sub_self]; exact dvd_zero _
theorem cong_sg {N Q : Nat} (hN : 0 < N) {k : Nat} (hk : Odd k) {f g : Rg N} (h : Cong Q f g) : Cong Q (sg k f) (sg k g) := by
  obtain ⟨w, hw⟩ := h
  refine ⟨sg k w, ?_⟩
  rw [← sg_sub hN, hw, sg_mul hN hk, sg_int hN hk]

/-- What an entry of the working array means at stage `i`. -/
def Good (P : BfvParameters) (l : List Nat) (s : Rg (2 ^ K)) (B : ℤ) (phi : Rg (2 ^ K)) (i j : Nat) (ct : BfvCipherText) : Prop :=
  ∃ f0 f1 E : Rg (2 ^ K), IsCt P 0 [f0, f1] ct ∧ Bdd ((2 ^ i - 1) * B) E ∧ Cong (levelQ l 0) (phase s [f0, f1]) (tr K i j phi + E)

theorem level_zero (h : IsParams (2 ^ K) t l variance P) : ∃ ext L, P.WF K ext ∧ P.At K ext 0 L ∧ P.plaintextModulus = t ∧
    P.ciphertextModuli = l ∧ P.variance = variance := by
  obtain ⟨K', ext, hK, hw, h1, h2, h3⟩ := BfvP.params h
  obtain rfl := Nat.pow_right_injective (le_refl 2) hK
  obtain ⟨L, hL⟩ := hw.levels 0 (List.length_pos_iff.mpr hw.ne)
  exact ⟨ext, L, hw, hL, h1, h2, h3⟩

theorem unpackStep_ok (h : IsParams (2 ^ K) t l variance P) (pr : Profile) {s : Rg (2 ^ K)} {B : ℤ} {ev : Evaluation} {xPows : List Poly}
    {i : Nat} (hi : i < K) {g : GaliosKey} (hg : ev.gk.lookup (2 ^ (K - i) + 1) = some g) (hgal : GaloisFor P l 0 s (2 ^ (K - i) + 1) B g)
    {xp : Poly} (hx : xPows[i]? = some xp) (hxp : PowerAt P 0 (-(xx ^ (2 ^ K - 2 ^ i)) : Rg (2 ^ K)) xp) {phi : Rg (2 ^ K)}
    {bits : List BfvCipherText} {j : Nat} (hj : j + 2 ^ i < bits.length) {ct : BfvCipherText} (hct : bits[j]? = some ct)
    (hgood : Good P l s B phi i j ct) :
    ∃ ce co, unpackStep pr ev xPows (2 ^ (K - i) + 1) i bits j = .ok ((bits.set j ce).set (j + 2 ^ i) co) ∧
      Good P l s B phi (i + 1) j ce ∧ Good P l s B phi (i + 1) (j + 2 ^ i) co := by
  have hN : 0 < 2 ^ K := by positivity
  obtain ⟨f0, f1, E, h1, h2, h3⟩ := hgood
  obtain ⟨cr, r0, r1, E', g1, g2, g3, g4⟩ := hgal pr ct f0 f1 h1
  obtain ⟨ce, e1, e2, e3, -⟩ := c32_add h pr h1 g2 s
  obtain ⟨co, o1, o2, o3, -⟩ := c32_sub h pr h1 g2 s
  have ho := odd_exp hi
  have hcop : Nat.Coprime (2 ^ (K - i) + 1) (2 ^ K) := Nat.Coprime.pow_right K (Nat.coprime_two_right.mpr ho)
  obtain ⟨ext, L, hw, hL, -, rfl, -⟩ := level_zero h
  have hr : Cong (levelQ P.ciphertextModuli 0) (phase s [r0, r1])
      (sg (2 ^ (K - i) + 1) (tr K i j phi) + (sg (2 ^ (K - i) + 1) E + E')) := by
    refine cong_trans g4 ?_
    rw [← add_assoc, ← sg_add hN]
    exact cong_add (cong_sg hN ho h3) (cong_refl _)
  have hE1 : Bdd ((2 ^ i - 1) * B + B) (sg (2 ^ (K - i) + 1) E + E') := (h2.sg hN hcop).add hN g3
  have hbound : (2 ^ i - 1) * B + ((2 ^ i - 1) * B + B) = (2 ^ (i + 1) - 1) * B := by ring
  set m : Rg (2 ^ K) := -(xx ^ (2 ^ K - 2 ^ i)) with hm
  rw [(BfvP.powerAt_iff hL _ _).mp hxp] at hx
  obtain ⟨o21, o22, o23⟩ := (BfvP.isCt_iff hL _ _).mp o2
  refine ⟨ce, { co with cts := [enc L.qCtx .ntt ((f0 - r0) * m), enc L.qCtx .ntt ((f1 - r1) * m)] }, ?_, ?_, ?_⟩
  · unfold unpackStep
    rw [idx_of hct, res_ok_bind, hg]
    simp only [unwrapR, res_ok_bind, g1, e1, o1, idx_of hx, Poly.toNtt_enc hL.wf.ctx pr, o23, List.map_cons, List.map_nil,
      show ∀ a b : Poly, idx [a, b] 0 = .ok a from fun _ _ => rfl, show ∀ a b : Poly, idx [a, b] 1 = .ok b from fun _ _ => rfl,
      Poly.mul_enc hL.wf.ctx pr]
    rw [setR_ok (lt_of_le_of_lt (Nat.le_add_right _ _) hj), res_ok_bind, setR_ok (by rw [List.length_set]; exact hj)]
  · refine ⟨_, _, _, e2, hbound ▸ h2.add hN hE1, ?_⟩
    rw [e3, ← tr_even hi j phi]
    have := cong_add h3 hr
    rwa [add_add_add_comm] at this
  · refine ⟨(f0 - r0) * m, (f1 - r1) * m, (E - (sg (2 ^ (K - i) + 1) E + E')) * m, (BfvP.isCt_iff hL _ _).mpr ⟨o21, o22, rfl⟩, ?_, ?_⟩
    · rw [hm, mul_neg, mul_comm (E - _)]
      exact hbound ▸ ((h2.sub hN hE1).xx_pow_mul hN _).neg hN
    · have h4 := cong_mul (cong_sub h3 hr) m
      rw [← o3, add_sub_add_comm, tr_odd hi j phi, add_mul,
        show xx ^ 2 ^ i * tr K (i + 1) (j + 2 ^ i) phi * m = (xx ^ 2 ^ i * m) * tr K (i + 1) (j + 2 ^ i) phi by ring, hm, xx_inv hi,
        one_mul] at h4
      simp only [BfvP.phase_two] at h4 ⊢
      rwa [show (f0 - r0) * m + (f1 - r1) * m * s = (f0 - r0 + (f1 - r1) * s) * m by ring]

theorem unpackStage_ok (h : IsParams (2 ^ K) t l variance P) (hK : K ≤ 62) (pr : Profile) {s : Rg (2 ^ K)} {B B0 B1 : ℤ} {ev : Evaluation}
    (hev : IsEval P l s B B0 B1 ev) {xPows : List Poly} (hx : IsMonomials (2 ^ K) P xPows) {i : Nat} (hi : i < K) {phi : Rg (2 ^ K)}
    {bits : List BfvCipherText} (hlen : bits.length = 2 ^ K)
    (hb : ∀ j, j < 2 ^ i → ∃ ct, bits[j]? = some ct ∧ Good P l s B phi i j ct) :
    ∃ bits', unpackStage pr ev xPows (2 ^ K) bits i = .ok bits' ∧ bits'.length = 2 ^ K ∧
      ∀ j, j < 2 ^ (i + 1) → ∃ ct, bits'[j]? = some ct ∧ Good P l s B phi (i + 1) j ct := by
  have hlt : 2 ^ i < 2 ^ K := Nat.pow_lt_pow_right (by norm_num) hi
  have hdiv : 2 ^ K / 2 ^ i = 2 ^ (K - i) := Nat.pow_div hi.le (by norm_num)
  obtain ⟨g, hg, hgal⟩ := hev.gk i hlt
  obtain ⟨xp, hxp, hpow⟩ := hx i hlt
  rw [hdiv] at hg hgal
  unfold unpackStage
  have hle : 2 ^ (K - i) ≤ 2 ^ 62 := Nat.pow_le_pow_right (by norm_num) (by omega)
  rw [divR_ok (by positivity), res_ok_bind, hdiv, addW_ok (by omega), res_ok_bind]
  obtain ⟨r, hr, h1, h2, h3, h4⟩ := foldR_range_ok (f := unpackStep pr ev xPows (2 ^ (K - i) + 1) i) (n := 2 ^ i)
    (Inv := fun n (b : List BfvCipherText) => b.length = 2 ^ K ∧
      (∀ j, j < n → ∃ ct, b[j]? = some ct ∧ Good P l s B phi (i + 1) j ct) ∧
      (∀ j, n ≤ j → j < 2 ^ i → ∃ ct, b[j]? = some ct ∧ Good P l s B phi i j ct) ∧
      (∀ j, j < n → ∃ ct, b[j + 2 ^ i]? = some ct ∧ Good P l s B phi (i + 1) (j + 2 ^ i) ct)) (s := bits)
    ⟨hlen, fun j hj => absurd hj (Nat.not_lt_zero _), fun j _ hj => hb j hj, fun j hj => absurd hj (Nat.not_lt_zero _)⟩
    (by
      rintro j b hj ⟨i1, i2, i3, i4⟩
      obtain ⟨ct, hct, hgood⟩ := i3 j (le_refl _) hj
      have hpow2 : 2 ^ i + 2 ^ i ≤ 2 ^ K := by rw [← two_mul, ← pow_succ']; exact Nat.pow_le_pow_right (by norm_num) hi
      obtain ⟨ce, co, s1, s2, s3⟩ := unpackStep_ok h pr hi hg hgal hxp hpow (bits := b) (j := j) (by omega) hct hgood
      refine ⟨_, s1, by rw [List.length_set, List.length_set, i1], fun k hk => ?_, fun k hk hk' => ?_, fun k hk => ?_⟩
      · rw [List.getElem?_set_ne (by omega)]
        rcases Nat.lt_succ_iff_lt_or_eq.mp hk with hk | rfl
        · rw [List.getElem?_set_ne (by omega)]; exact i2 k hk
        · rw [List.getElem?_set_self (by omega)]; exact ⟨ce, rfl, s2⟩
      · rw [List.getElem?_set_ne (by omega), List.getElem?_set_ne (by omega)]; exact i3 k (by omega) hk'
      · rcases Nat.lt_succ_iff_lt_or_eq.mp hk with hk | rfl
        · rw [List.getElem?_set_ne (by omega), List.getElem?_set_ne (by omega)]; exact i4 k hk
        · rw [List.getElem?_set_self (by rw [List.length_set]; omega)]; exact ⟨co, rfl, s3⟩)
  refine ⟨r, hr, h1, fun j hj => ?_⟩
  rw [pow_succ] at hj
  by_cases hj' : j < 2 ^ i
  · exact h2 j hj'
  · have := h4 (j - 2 ^ i) (by omega)
    rwa [Nat.sub_add_cancel (by omega)] at this

theorem unpackStages_ok (h : IsParams (2 ^ K) t l variance P) (hK : K ≤ 62) (pr : Profile) {s : Rg (2 ^ K)} {B B0 B1 : ℤ} {ev : Evaluation}
    (hev : IsEval P l s B B0 B1 ev) {xPows : List Poly} (hx : IsMonomials (2 ^ K) P xPows) {f0 f1 : Rg (2 ^ K)} {ct : BfvCipherText}
    (hct : IsCt P 0 [f0, f1] ct) :
    ∃ bits, foldR (unpackStage pr ev xPows (2 ^ K)) (List.replicate (2 ^ K) ct) (List.range K) = .ok bits ∧ bits.length = 2 ^ K ∧
      ∀ j, j < 2 ^ K → ∃ c, bits[j]? = some c ∧ Good P l s B (phase s [f0, f1]) K j c := by
  have hN : 0 < 2 ^ K := by positivity
  obtain ⟨r, hr, h1, h2⟩ := foldR_range_ok (f := unpackStage pr ev xPows (2 ^ K)) (n := K)
    (Inv := fun i (b : List BfvCipherText) => b.length = 2 ^ K ∧
      ∀ j, j < 2 ^ i → ∃ c, b[j]? = some c ∧ Good P l s B (phase s [f0, f1]) i j c) (s := List.replicate (2 ^ K) ct)
    ⟨List.length_replicate, fun j hj => by
      have hj : j = 0 := by simpa using hj
      subst hj
      refine ⟨ct, by rw [List.getElem?_replicate, if_pos hN], f0, f1, 0, hct, ?_, ?_⟩
      · simpa using Bdd.zero hN
      · rw [tr_zero, add_zero]; exact cong_refl _⟩
    (by
      rintro i b hi ⟨h1, h2⟩
      obtain ⟨b', e1, e2, e3⟩ := unpackStage_ok h hK pr hev hx hi h1 h2
      exact ⟨b', e1, e2, e3⟩)
  exact ⟨r, hr, h1, h2⟩

theorem odd_prod (q : List Nat) (h : ∀ x ∈ q, Odd x) : Odd q.prod := by
  induction q with
  | nil => exact odd_one
  | cons a as ih => rw [List.prod_cons]; exact (h a (by simp)).mul (ih fun x hx => h x (by simp [hx]))

theorem two_le_prod {q : List Nat} (hne : q ≠ []) (h : ∀ x ∈ q, 2 ≤ x) : 2 ≤ q.prod := by
  cases q with
  | nil => exact absurd rfl hne
  | cons a as =>
    rw [List.prod_cons]
    have h1 : 0 < as.prod := List.prod_pos fun x hx => by have := h x (by simp [hx]); omega
    have h2 := h a (by simp)
    calc 2 ≤ a := h2
      _ ≤ a * as.prod := Nat.le_mul_of_pos_right _ h1

theorem encodes_coeff {N t Q : Nat} (hN : 0 < N) {m phi : Rg N} {V : ℤ} (h : Encodes t Q m phi V) {j : Nat} (hj : j < N) :
    Encodes t Q ((cf m j : ℤ) : Rg N) ((cf phi j : ℤ) : Rg N) V := by
  obtain ⟨v, w, hv, e⟩ := h
  refine ⟨((cf v j : ℤ) : Rg N), ((cf w j : ℤ) : Rg N), fun k _ => ?_, ?_⟩
  · rw [cf_int hN]
    split_ifs
    · exact hv j hj
    · rw [abs_zero]; exact hv.nonneg hN
  · have := congrArg (fun f => cf f j) e
    simp only [cf_add hN, cf_int_mul hN] at this
    rw [← Int.cast_mul, this]
    push_cast
    ring

theorem genXPows_panics {c : RqContext} (hc : c.WF K) (pr : Profile) (hK : K ≤ 31) : genXPows pr (2 ^ K) c = .error .assert := by
  have h3 := hc.core.three
  have h8 : 2 ^ 3 ≤ 2 ^ K := Nat.pow_le_pow_right (by norm_num) h3
  have hle : 2 ^ K ≤ 2 ^ 31 := Nat.pow_le_pow_right (by norm_num) hK
  unfold genXPows
  rw [Poly.tryFromVecU64_ok hc pr (by simp; omega) (by simp), res_ok_bind, RnsScaler.ilog2_two_pow pr (by omega), res_ok_bind]
  obtain ⟨n, rfl⟩ : ∃ n, K = n + 2 := ⟨K - 2, by omega⟩
  rw [List.range_succ_eq_map, List.range_succ_eq_map]
  simp only [mapR, List.map_cons]
  have ho : Odd (2 ^ (n + 2) - 1) := by
    rw [Nat.odd_iff, pow_succ]; have : 0 < 2 ^ (n + 1) := by positivity
    omega
  have h0 : ∀ f : Rg (2 ^ (n + 2)), xPow pr (2 ^ (n + 2)) (enc c .powerBasis f) 0 = .ok (enc c .powerBasis (-(sg (2 ^ (n + 2) - 1) f))) := by
    intro f
    unfold xPow powW
    rw [show 2 ^ (0 % 2 ^ 32) = 1 from rfl, fit_ok (by norm_num), res_ok_bind, subW_ok (by omega), res_ok_bind,
      show (enc c .powerBasis f).context = c from rfl, Poly.substitution_new_ok hc pr hK ho, res_ok_bind,
      Poly.substitute_enc hc pr hK ho (Poly.substitution_new_ok hc pr hK ho), res_ok_bind, Poly.neg_enc hc]
  have h1 : ∀ f : Rg (2 ^ (n + 2)), xPow pr (2 ^ (n + 2)) (enc c .powerBasis f) (Nat.succ 0) = .error .assert := by
    intro f
    unfold xPow powW Substitution.new
    rw [show 2 ^ (Nat.succ 0 % 2 ^ 32) = 2 from rfl, fit_ok (by norm_num), res_ok_bind, subW_ok (by omega), res_ok_bind,
      show (enc c .powerBasis f).context = c from rfl, hc.core.deg, mulW_ok (by omega), res_ok_bind, modR_ok (by omega), res_ok_bind,
      rassert_fail]
    · rfl
    · rw [Nat.and_one_is_mod, Nat.mod_mod_of_dvd _ (dvd_mul_right _ _), pow_succ]
      omega
  rw [h0, res_ok_bind, h1]
  rfl

end OnionPIR.Evaluation
