import Verif.Spec.Laws
import Verif.Props.Attained
import Verif.Props.BfvMul
import Verif.Props.Robust
import Verif.Props.Linear
/-
C131: which laws the multiplication of ciphertexts and key switching satisfy word for word, and by how much key switching fails to be additive.
-/
namespace OnionPIR
open Rg Poly Spec

variable {N t : Nat} {l : List Nat} {variance : Nat} {P : BfvParameters}

namespace Laws

/-- The residues of a sum. -/
theorem digit_add (hN : 0 < N) (hl : ∀ q ∈ l, 0 < q) (i j : Nat) (f g : Rg N) :
    digitRing l i j f + digitRing l i j g = digitRing l i j (f + g) + (((levelModuli l i).getD j 1 : ℤ) : Rg N) * carry l i j f g := by
  have hq : (0 : ℤ) < (levelModuli l i).getD j 1 := by
    rcases lt_or_ge j (levelModuli l i).length with hj | hj
    · rw [List.getD_eq_getElem _ _ hj]
      exact_mod_cast hl _ (List.mem_of_mem_take (List.getElem_mem hj))
    · rw [List.getD_eq_default _ _ hj]; norm_num
  refine ext_cf hN fun k hk => ?_
  unfold digitRing carry
  rw [cf_add hN, cf_add hN, cf_int_mul hN, cf_ofCoeffs hN _ hk, cf_ofCoeffs hN _ hk, cf_ofCoeffs hN _ hk, cf_ofCoeffs hN _ hk, cf_add hN]
  set q : ℤ := ((levelModuli l i).getD j 1 : ℤ)
  have a1 := Int.emod_nonneg (cf f k) hq.ne'
  have a2 := Int.emod_lt_of_pos (cf f k) hq
  have b1 := Int.emod_nonneg (cf g k) hq.ne'
  have b2 := Int.emod_lt_of_pos (cf g k) hq
  rw [Int.add_emod]
  split_ifs with hc
  · rw [show (cf f k % q + cf g k % q) % q = cf f k % q + cf g k % q - q by
      rw [← Int.sub_emod_right, Int.emod_eq_of_lt (by omega) (by omega)]]
    ring
  · rw [Int.emod_eq_of_lt (a := cf f k % q + cf g k % q) (by omega) (by omega)]
    ring

theorem carry_zero (hN : 0 < N) {i j : Nat} {f g : Rg N} (h : NoCarry l i f g) (hj : j < (levelModuli l i).length) : carry l i j f g = 0 := by
  refine ext_cf hN fun k hk => ?_
  unfold carry
  rw [cf_ofCoeffs hN _ hk, cf_zero hN, if_neg]
  rw [List.getD_eq_getElem _ _ hj, not_le]
  exact h _ (List.getElem_mem hj) k hk

theorem sum_getD (m : List Nat) : ∑ j ∈ Finset.range m.length, (m.getD j 0 : ℤ) = (m.sum : ℤ) := by
  induction m with
  | nil => rfl
  | cons a m ih =>
    rw [List.length_cons, Finset.sum_range_succ', List.sum_cons]
    simp only [List.getD_cons_zero, List.getD_cons_succ]
    rw [ih, Nat.cast_add, add_comm]

end Laws

/-- C131: the multiplication of ciphertexts is commutative word for word, whatever the ciphertexts and the key contain. -/
theorem c131_multiply_comm (h : IsParams N t l variance P) (pr : Profile) {i : Nat} {x y : BfvCipherText} (hx : ShapedCt P i 2 x)
    (hy : ShapedCt P i 2 y) {k : RelinearizationKey} (hkp : k.params = P) :
    multiplyWithStrategy pr x y k = multiplyWithStrategy pr y x k := by
  obtain ⟨f0, f1, hxc⟩ := Shape.isCt_two h hx
  obtain ⟨g0, g1, hyc⟩ := Shape.isCt_two h hy
  obtain ⟨K, ext, rfl, hw, rfl, rfl, -⟩ := BfvP.params h
  obtain ⟨L, hL⟩ := BfvP.isCt_level hw (by simp) hxc
  obtain ⟨x1, x2, x3⟩ := (BfvP.isCt_iff hL _ _).mp hxc
  obtain ⟨y1, y2, y3⟩ := (BfvP.isCt_iff hL _ _).mp hyc
  have he := hL.wf.ectx
  obtain ⟨F0, u0, -⟩ := BfvMul.up hw hL pr f0
  obtain ⟨F1, u1, -⟩ := BfvMul.up hw hL pr f1
  obtain ⟨G0, v0, -⟩ := BfvMul.up hw hL pr g0
  obtain ⟨G1, v1, -⟩ := BfvMul.up hw hL pr g1
  unfold multiplyWithStrategy
  rw [x1, x2, x3, y1, y2, y3, hkp]
  simp only [List.map_cons, List.map_nil, show ∀ a b : Poly, idx [a, b] 0 = .ok a from fun _ _ => rfl, show ∀ a b : Poly, idx [a, b] 1 = .ok b from fun _ _ => rfl,
    res_ok_bind, idx_of hL.mp, u0, u1, v0, v1, mul_enc he, add_enc he]
  rw [mul_comm G0 F0, mul_comm G1 F1, add_comm (G0 * F1)]
  simp only [List.length_cons]

/-- C131: key switching is additive word for word if no sum of two residues is reduced, whatever the key contains. -/
theorem c131_switch_add (h : IsParams N t l variance P) (pr : Profile) {i : Nat} {k : Ksk} (hk : ShapedKsk P i k) {f g : Rg N} {p q r : Poly}
    (hp : PowerAt P i f p) (hq : PowerAt P i g q) (hr : PowerAt P i (f + g) r) (hn : NoCarry l i f g) :
    ∃ a0 a1 b0 b1 c0 c1, k.keySwitch pr p = .ok (a0, a1) ∧ k.keySwitch pr q = .ok (b0, b1) ∧ k.keySwitch pr r = .ok (c0, c1) ∧
      a0.add pr b0 = .ok c0 ∧ a1.add pr b1 = .ok c1 := by
  have hks := Shape.isKsk h hk 0 0
  obtain ⟨hN, hl⟩ := Attained.pos h
  obtain ⟨K, ext, rfl, hw, rfl, rfl, -⟩ := BfvP.params h
  obtain ⟨L, hL⟩ := hw.levels i (by rw [← hw.nLevels]; exact (List.getElem?_eq_some_iff.mp hk.1).1)
  obtain ⟨a, b, hh⟩ := BfvP.holds_of_isKsk hL hks
  have hc := hL.wf.ctx
  rw [(BfvP.powerAt_iff hL _ _).mp hp, (BfvP.powerAt_iff hL _ _).mp hq, (BfvP.powerAt_iff hL _ _).mp hr]
  have key : ∀ z : Nat → Rg (2 ^ K), ∑ j ∈ Finset.range L.qCtx.moduli64.length, Ksk.digit L.qCtx f j * z j + ∑ j ∈ Finset.range L.qCtx.moduli64.length, Ksk.digit L.qCtx g j * z j =
      ∑ j ∈ Finset.range L.qCtx.moduli64.length, Ksk.digit L.qCtx (f + g) j * z j := by
    intro z
    rw [← Finset.sum_add_distrib]
    refine Finset.sum_congr rfl fun j hj => ?_
    have hj := Finset.mem_range.mp hj
    rw [BfvP.len_level hL] at hj
    have := Laws.digit_add hN hl i j f g
    rw [Laws.carry_zero hN hn hj, mul_zero, add_zero] at this
    rw [← add_mul]
    congr 1
    unfold Ksk.digit Ksk.modAt
    rw [hL.wf.mods]
    exact this
  refine ⟨_, _, _, _, _, _, Ksk.keySwitch_enc hc pr hh f, Ksk.keySwitch_enc hc pr hh g, Ksk.keySwitch_enc hc pr hh (f + g), ?_, ?_⟩
  · rw [add_enc hc, key]
  · rw [add_enc hc, key]

/-- C131: in general the sum of two switches differs from the switch of the sum by an encryption of zero with the noise `Σ q_j carry_j e_j`, where `e_j` are the errors
of the key. -/
theorem c131_deviation (h : IsParams N t l variance P) {sk : SecretKey} (hk : IsKey P sk) (pr : Profile) (hv1 : 1 ≤ variance)
    (hv2 : variance ≤ 16) {i : Nat} {src : Rg N} {p : Poly} (hp : PolyAt P i src p) {aTape : Nat → Nat → Nat → Nat} (ha : ∀ j, TapeAt l i (aTape j))
    {rng : Nat → Nat → Nat} (hr : ∀ j i, rng j i < 2 ^ 64) :
    ∃ (k : Ksk) (e : Nat → List Int), Ksk.new pr sk p i i aTape rng = .ok k ∧ (∀ j, sampleVecCbd pr (rng j) N variance = .ok (e j)) ∧
      ∀ pr' (f g : Rg N) u v w, PowerAt P i f u → PowerAt P i g v → PowerAt P i (f + g) w →
        ∃ a0 a1 b0 b1 c0 c1 d0 d1 z0 z1, ∃ s0 s1 r0 r1 : Rg N, k.keySwitch pr' u = .ok (a0, a1) ∧ k.keySwitch pr' v = .ok (b0, b1) ∧ k.keySwitch pr' w = .ok (c0, c1) ∧
          a0.add pr' b0 = .ok d0 ∧ a1.add pr' b1 = .ok d1 ∧ d0.sub pr' c0 = .ok z0 ∧ d1.sub pr' c1 = .ok z1 ∧ PolyAt P i s0 c0 ∧ PolyAt P i s1 c1 ∧
          PolyAt P i r0 z0 ∧ PolyAt P i r1 z1 ∧
          Cong (levelQ l i) (r0 + r1 * keyRing N sk)
            (∑ j ∈ Finset.range (levelModuli l i).length, (((levelModuli l i).getD j 1 : ℤ) : Rg N) * carry l i j f g * smallRing N (e j)) := by
  obtain ⟨hN, hl⟩ := Attained.pos h
  obtain ⟨k, e, k1, k2, k3⟩ := c77_key_switch h hk pr hv1 hv2 hp ha hr
  refine ⟨k, e, k1, k2, fun pr' f g u v w hu hv hw => ?_⟩
  obtain ⟨a0, a1, A0, A1, a2, a3, a4, wa, ha5⟩ := k3 pr' f u hu
  obtain ⟨b0, b1, B0, B1, b2, b3, b4, wb, hb5⟩ := k3 pr' g v hv
  obtain ⟨c0, c1, C0, C1, c2, c3, c4, wc, hc5⟩ := k3 pr' (f + g) w hw
  have hcong : Cong (levelQ l i) ((A0 + B0 - C0) + (A1 + B1 - C1) * keyRing N sk)
      (∑ j ∈ Finset.range (levelModuli l i).length, (((levelModuli l i).getD j 1 : ℤ) : Rg N) * carry l i j f g * smallRing N (e j)) := by
    refine ⟨wa + wb - wc, ?_⟩
    have hs : switchError l i f e + switchError l i g e = switchError l i (f + g) e +
        ∑ j ∈ Finset.range (levelModuli l i).length, (((levelModuli l i).getD j 1 : ℤ) : Rg N) * carry l i j f g * smallRing N (e j) := by
      unfold switchError
      rw [← Finset.sum_add_distrib, ← Finset.sum_add_distrib]
      refine Finset.sum_congr rfl fun j _ => ?_
      rw [← add_mul, Laws.digit_add hN hl]
      ring
    linear_combination ha5 + hb5 - hc5 + hs
  obtain ⟨K, ext, rfl, hw', rfl, rfl, -⟩ := BfvP.params h
  obtain ⟨L, hL⟩ := hw'.levels i (BfvP.level_lt hw' hp)
  have hc := hL.wf.ctx
  rw [BfvP.polyAt_iff hL] at a3 a4 b3 b4 c3 c4
  subst a3 a4 b3 b4 c3 c4
  exact ⟨_, _, _, _, _, _, _, _, _, _, C0, C1, A0 + B0 - C0, A1 + B1 - C1, a2, b2, c2, add_enc hc pr' _ _, add_enc hc pr' _ _, sub_enc hc pr' _ _, sub_enc hc pr' _ _,
    (BfvP.polyAt_iff hL _ _).mpr rfl, (BfvP.polyAt_iff hL _ _).mpr rfl, (BfvP.polyAt_iff hL _ _).mpr rfl, (BfvP.polyAt_iff hL _ _).mpr rfl, hcong⟩

/-- C131: key switching is not additive: for every secret key, source and all masks there are errors for which the switches of `1` and `-1` do not sum to the switch of
`0`. -/
theorem c131_not_additive (h : IsParams N t l variance P) {sk : SecretKey} (hk : IsKey P sk) (pr : Profile) (hv1 : 1 ≤ variance)
    (hv2 : variance ≤ 16) {i : Nat} {src : Rg N} {p : Poly} (hp : PolyAt P i src p) {aTape : Nat → Nat → Nat → Nat} (ha : ∀ j, TapeAt l i (aTape j))
    (hQ : (levelModuli l i).sum * (2 * variance) < levelQ l i) {u v w : Poly} (hu : PowerAt P i (1 : Rg N) u)
    (hv : PowerAt P i (-1 : Rg N) v) (hw : PowerAt P i (0 : Rg N) w) :
    ∃ rng k, (∀ j i, rng j i < 2 ^ 64) ∧ Ksk.new pr sk p i i aTape rng = .ok k ∧ ∀ pr', ∃ a0 a1 b0 b1 c0 c1 d0 d1, k.keySwitch pr' u = .ok (a0, a1) ∧
      k.keySwitch pr' v = .ok (b0, b1) ∧ k.keySwitch pr' w = .ok (c0, c1) ∧ a0.add pr' b0 = .ok d0 ∧ a1.add pr' b1 = .ok d1 ∧ (d0, d1) ≠ (c0, c1) := by
  obtain ⟨hN, hl⟩ := Attained.pos h
  have hq1 : ∀ q ∈ levelModuli l i, 1 < q := by
    obtain ⟨K, ext, rfl, hw', rfl, rfl, -⟩ := BfvP.params h
    obtain ⟨L, hL⟩ := hw'.levels i (BfvP.level_lt hw' hp)
    intro q hq
    have := (hL.wf.ctx.bound (q := q) (by rw [BfvP.levelModuli_eq hL]; exact hq)).1
    omega
  have hne : levelModuli l i ≠ [] := by
    obtain ⟨K, ext, rfl, hw', rfl, rfl, -⟩ := BfvP.params h
    have := BfvP.level_lt hw' hp
    rw [ne_eq, ← List.length_eq_zero_iff]
    simp only [levelModuli, List.length_take]
    omega
  obtain ⟨rng, r1, r2⟩ := Attained.stream pr hv1 hv2 N
  obtain ⟨k, e, k1, k2, k3⟩ := c131_deviation h hk pr hv1 hv2 hp ha (rng := fun _ => rng) fun _ => r1
  refine ⟨_, k, fun _ => r1, k1, fun pr' => ?_⟩
  obtain ⟨a0, a1, b0, b1, c0, c1, d0, d1, z0, z1, S0, S1, R0, R1, e1, e2, e3, e4, e5, e6, e7, s1, s2, e8, e9, hc⟩ := k3 pr' 1 (-1) u v w hu hv (by simpa using hw)
  refine ⟨a0, a1, b0, b1, c0, c1, d0, d1, e1, e2, e3, e4, e5, fun heq => ?_⟩
  obtain ⟨rfl, rfl⟩ := Prod.mk.inj heq
  have hone : ∀ k, k < N → cf (1 : Rg N) k = if k = 0 then 1 else 0 := by
    intro k hk
    have := cf_int hN 1 k
    simpa using this
  have hcar : ∀ j, j < (levelModuli l i).length → carry l i j (1 : Rg N) (-1) = 1 := by
    intro j hj
    have hq := hq1 _ (List.getElem_mem hj)
    refine ext_cf hN fun k hk => ?_
    unfold carry
    rw [cf_ofCoeffs hN _ hk, List.getD_eq_getElem _ _ hj, cf_neg hN, hone k hk]
    by_cases hk0 : k = 0
    · rw [if_pos hk0, if_pos]
      have : (-1 : ℤ) % ((levelModuli l i)[j] : ℤ) = (levelModuli l i)[j] - 1 := by
        rw [← Int.add_emod_right, Int.emod_eq_of_lt (by omega) (by omega)]; ring
      rw [this, Int.emod_eq_of_lt (by omega) (by exact_mod_cast hq)]
      omega
    · rw [if_neg hk0, if_neg]
      simp
      omega
  have hsum : cf (∑ j ∈ Finset.range (levelModuli l i).length, (((levelModuli l i).getD j 1 : ℤ) : Rg N) * carry l i j 1 (-1) * smallRing N (e j)) 0 =
      (((levelModuli l i).sum * (2 * variance) : Nat) : ℤ) := by
    rw [cf_sum hN]
    have : ∀ j ∈ Finset.range (levelModuli l i).length, cf ((((levelModuli l i).getD j 1 : ℤ) : Rg N) * carry l i j 1 (-1) * smallRing N (e j)) 0 =
        ((levelModuli l i).getD j 0 : ℤ) * (2 * variance : Nat) := by
      intro j hj
      have hj := Finset.mem_range.mp hj
      rw [hcar j hj, mul_one, cf_int_mul hN]
      unfold smallRing
      rw [cf_ofCoeffs hN _ hN, r2 _ (k2 j) 0 hN, List.getD_eq_getElem _ _ hj, List.getD_eq_getElem _ _ hj]
    rw [Finset.sum_congr rfl this, ← Finset.sum_mul]
    rw [Laws.sum_getD]
    push_cast
    ring
  have hz : Cong (levelQ l i) (0 : Rg N) (∑ j ∈ Finset.range (levelModuli l i).length, (((levelModuli l i).getD j 1 : ℤ) : Rg N) * carry l i j 1 (-1) * smallRing N (e j)) := by
    obtain ⟨y, hy⟩ := hc
    obtain ⟨K, ext, rfl, hw', rfl, rfl, -⟩ := BfvP.params h
    obtain ⟨L, hL⟩ := hw'.levels i (BfvP.level_lt hw' hp)
    have hcw := hL.wf.ctx
    rw [BfvP.polyAt_iff hL] at s1 s2 e8 e9
    subst s1 s2 e8 e9
    rw [sub_enc hcw, sub_self] at e6 e7
    have q0 := (enc_eq_iff hcw _ _).mp (Except.ok.inj e6)
    have q1 := (enc_eq_iff hcw _ _).mp (Except.ok.inj e7)
    rw [BfvP.levelQ_eq hL] at q0 q1
    obtain ⟨y0, q0⟩ := q0
    obtain ⟨y1, q1⟩ := q1
    refine ⟨y + y0 + y1 * keyRing (2 ^ K) sk, ?_⟩
    linear_combination hy + q0 + q1 * keyRing (2 ^ K) sk
  obtain ⟨y, hy⟩ := hz
  have h0 := congrArg (fun z => cf z 0) hy
  simp only [zero_sub] at h0
  rw [cf_neg hN, hsum, cf_int_mul hN] at h0
  have hpos : 0 < (levelModuli l i).sum * (2 * variance) := by
    obtain ⟨q, hq⟩ := List.exists_mem_of_ne_nil _ hne
    have := List.le_sum_of_mem hq
    have := hq1 q hq
    exact Nat.mul_pos (by omega) (by omega)
  have hd : (levelQ l i : ℤ) ∣ (((levelModuli l i).sum * (2 * variance) : Nat) : ℤ) := ⟨-cf y 0, by linarith⟩
  have := Nat.le_of_dvd hpos (Int.natCast_dvd_natCast.mp hd)
  omega

/-- Two encryptions multiplied in both orders; a key switch of `1` and of `3 + X`, and of `1` and `-1`. -/
example : ∃ (P : BfvParameters) (sk : SecretKey) (x y z : BfvCipherText) (rlk : RelinearizationKey) (k k' : Ksk) (a b c d e : Poly), IsParams 8 17 Ex.mods 10 P ∧ IsKey P sk ∧
    x ≠ y ∧ multiplyWithStrategy .debug x y rlk = .ok z ∧ multiplyWithStrategy .debug y x rlk = .ok z ∧
    PowerAt P 0 (1 : Rg 8) a ∧ PowerAt P 0 (msgRing 8 [3, 1]) b ∧ PowerAt P 0 (1 + msgRing 8 [3, 1]) c ∧ PowerAt P 0 (-1 : Rg 8) d ∧ PowerAt P 0 (0 : Rg 8) e ∧
    (∃ a0 a1 b0 b1 c0 c1, k.keySwitch .debug a = .ok (a0, a1) ∧ k.keySwitch .debug b = .ok (b0, b1) ∧ k.keySwitch .debug c = .ok (c0, c1) ∧
      a0.add .debug b0 = .ok c0 ∧ a1.add .debug b1 = .ok c1) ∧
    ∃ a0 a1 b0 b1 c0 c1 d0 d1, k'.keySwitch .release a = .ok (a0, a1) ∧ k'.keySwitch .release d = .ok (b0, b1) ∧ k'.keySwitch .release e = .ok (c0, c1) ∧
      a0.add .release b0 = .ok d0 ∧ a1.add .release b1 = .ok d1 ∧ (d0, d1) ≠ (c0, c1) := by
  obtain ⟨P, h⟩ := Ex.exists_params
  obtain ⟨sk, -, hk, -⟩ := c30_generate h .release (by norm_num) (by norm_num) Ex.wordTape
  obtain ⟨p, hp⟩ := c33_exists_poly h (i := 0) (by decide) (keyRing 8 sk)
  obtain ⟨p0, hp0⟩ := c33_exists_poly h (i := 0) (by decide) (1 : Rg 8)
  obtain ⟨p1, hp1⟩ := c33_exists_poly h (i := 0) (by decide) (0 : Rg 8)
  obtain ⟨a, ha⟩ := Ex.exists_power h (i := 0) (by decide) (1 : Rg 8)
  obtain ⟨b, hb⟩ := Ex.exists_power h (i := 0) (by decide) (msgRing 8 [3, 1])
  obtain ⟨c, hc⟩ := Ex.exists_power h (i := 0) (by decide) (1 + msgRing 8 [3, 1])
  obtain ⟨d, hd⟩ := Ex.exists_power h (i := 0) (by decide) (-1 : Rg 8)
  obtain ⟨e, he⟩ := Ex.exists_power h (i := 0) (by decide) (0 : Rg 8)
  obtain ⟨rng, k, hr, k1, k2⟩ := c131_not_additive h hk .debug (by norm_num) (by norm_num) hp (aTape := fun _ _ _ => 0) (fun _ => Ex.tape0 Ex.mods_gt)
    (by decide +kernel) ha hd he
  have hx : IsCt P 0 [(1 : Rg 8), 0] ⟨P, [p0, p1], 0⟩ := ⟨rfl, rfl, .cons hp0 (.cons hp1 .nil)⟩
  have hy : IsCt P 0 [(0 : Rg 8), 1] ⟨P, [p1, p0], 0⟩ := ⟨rfl, rfl, .cons hp1 (.cons hp0 .nil)⟩
  have hks := Shape.junkKsk_shaped (Shape.of_polyAt h hp)
  have sx := Shape.of_isCt h hx
  have sy := Shape.of_isCt h hy
  obtain ⟨z, -, -, hz, -⟩ := c50_multiply_total h .debug hx hy (rlk := ⟨Shape.junkKsk P p, P⟩) rfl (Shape.isKsk h hks 0 0)
  refine ⟨P, sk, _, _, z, ⟨Shape.junkKsk P p, P⟩, Shape.junkKsk P p, k, a, b, c, d, e, h, hk, ?_, hz, (c131_multiply_comm h .debug sx sy rfl).symm.trans hz, ha, hb, hc, hd, he, ?_, k2 .release⟩
  · intro heq
    obtain ⟨w, hw⟩ := ((Linear.ct_eq_iff h hx hy).mp heq).1
    have h0 := congrArg (fun z => cf z 0) hw
    have h1 := cf_int (N := 8) (by norm_num) 1 0
    simp only [sub_zero] at h0
    rw [cf_int_mul (by norm_num), show (1 : Rg 8) = ((1 : ℤ) : Rg 8) by simp, h1, if_pos rfl, show levelQ Ex.mods 0 = 1153470225841614833 by decide +kernel] at h0
    omega
  · refine c131_switch_add h .debug hks ha hb hc fun q hq k hk => ?_
    have hq : 1000000 < q := by
      revert q
      decide +kernel
    have h1 := cf_int (N := 8) (by norm_num) 1 k
    rw [show (1 : Rg 8) = ((1 : ℤ) : Rg 8) by simp, h1]
    unfold msgRing
    rw [cf_ofCoeffs (by norm_num) _ hk]
    have e1 : (1 : ℤ) % (q : ℤ) = 1 := Int.emod_eq_of_lt (by norm_num) (by omega)
    have e3 : (3 : ℤ) % (q : ℤ) = 3 := Int.emod_eq_of_lt (by norm_num) (by omega)
    interval_cases k <;> simp [e1, e3] <;> omega

end OnionPIR
