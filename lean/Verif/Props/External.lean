import Verif.Spec.External
import Verif.Props.Laws
import Verif.Proofs.RingIso
/-
C137 (src/rgsw.rs): which laws the external product satisfies word for word.
-/
namespace OnionPIR
open Rg Poly Spec

variable {N t : Nat} {l : List Nat} {variance : Nat} {P : BfvParameters}

namespace External

/-- The external product with keys of any contents. -/
theorem exact {K : Nat} {c : RqContext} (hc : c.WF K) (pr : Profile) {g : RgswCt} {s s' src src' : Rg (2 ^ K)} {B0 B1 : ℤ} {x0 y0 x1 y1 : Nat → Rg (2 ^ K)}
    (h0 : Ksk.Holds g.ksk0 c s src B0 x0 y0) (h1 : Ksk.Holds g.ksk1 c s' src' B1 x1 y1) {ct : BfvCipherText} {f0 f1 : Rg (2 ^ K)} (hx : ct.cts = [enc c .ntt f0, enc c .ntt f1]) :
    g.externalProduct pr ct = .ok
      (enc c .ntt (∑ j ∈ Finset.range c.moduli64.length, (Ksk.digit c f0 j * y1 j + Ksk.digit c f1 j * y0 j)),
        enc c .ntt (∑ j ∈ Finset.range c.moduli64.length, (Ksk.digit c f0 j * x1 j + Ksk.digit c f1 j * x0 j))) := by
  unfold RgswCt.externalProduct
  rw [hx]
  simp only [show ∀ a b : Poly, idx [a, b] 0 = .ok a from fun _ _ => rfl, show ∀ a b : Poly, idx [a, b] 1 = .ok b from fun _ _ => rfl,
    res_ok_bind, toPower_enc hc, Ksk.keySwitch_enc hc pr h0, Ksk.keySwitch_enc hc pr h1, add_enc hc, Finset.sum_add_distrib]

theorem digit_zero {K : Nat} (c : RqContext) (j : Nat) : Ksk.digit c (0 : Rg (2 ^ K)) j = 0 := by
  have hN : 0 < 2 ^ K := by positivity
  refine ext_cf hN fun k hk => ?_
  unfold Ksk.digit
  rw [cf_ofCoeffs hN _ hk, cf_zero hN]
  simp

theorem digit_add {K : Nat} {ext : List Nat} {i : Nat} {L : BfvLevel} (h : IsParams (2 ^ K) P.plaintextModulus P.ciphertextModuli P.variance P) (hL : P.At K ext i L)
    {f g : Rg (2 ^ K)} (hn : NoCarry P.ciphertextModuli i f g) {j : Nat} (hj : j < L.qCtx.moduli64.length) :
    Ksk.digit L.qCtx (f + g) j = Ksk.digit L.qCtx f j + Ksk.digit L.qCtx g j := by
  obtain ⟨hN, hl⟩ := Attained.pos h
  rw [BfvP.len_level hL] at hj
  have := Laws.digit_add hN hl i j f g
  rw [Laws.carry_zero hN hn hj, mul_zero, add_zero] at this
  unfold Ksk.digit Ksk.modAt
  rw [hL.wf.mods]
  exact this.symm

/-- The pairs of a sum. -/
theorem sum {K : Nat} {ext : List Nat} {i : Nat} {L : BfvLevel} (h : IsParams (2 ^ K) P.plaintextModulus P.ciphertextModuli P.variance P) (hL : P.At K ext i L) {pr : Profile}
    {a b c : Ksk} (ha : ShapedKsk P i a) (hb : ShapedKsk P i b) (hc : ShapedKsk P i c) (hs : SumKsk pr a b c) :
    ∃ xa ya xb yb : Nat → Rg (2 ^ K), Ksk.Holds a L.qCtx 0 0 (levelQ P.ciphertextModuli i) xa ya ∧ Ksk.Holds b L.qCtx 0 0 (levelQ P.ciphertextModuli i) xb yb ∧
      ∃ xc yc : Nat → Rg (2 ^ K), Ksk.Holds c L.qCtx 0 0 (levelQ P.ciphertextModuli i) xc yc ∧ ∀ j, j < L.qCtx.moduli64.length →
        enc L.qCtx .ntt (xc j) = enc L.qCtx .ntt (xa j + xb j) ∧ enc L.qCtx .ntt (yc j) = enc L.qCtx .ntt (ya j + yb j) := by
  have hw := hL.wf.ctx
  obtain ⟨xa, ya, h1⟩ := BfvP.holds_of_isKsk hL (Shape.isKsk h ha 0 0)
  obtain ⟨xb, yb, h2⟩ := BfvP.holds_of_isKsk hL (Shape.isKsk h hb 0 0)
  obtain ⟨xc, yc, h3⟩ := BfvP.holds_of_isKsk hL (Shape.isKsk h hc 0 0)
  refine ⟨xa, ya, xb, yb, h1, h2, xc, yc, h3, fun j hj => ?_⟩
  have at' : ∀ (f : Nat → Rg (2 ^ K)), ((List.range L.qCtx.moduli64.length).map fun j => enc L.qCtx .ntt (f j))[j]? = some (enc L.qCtx .ntt (f j)) := fun f => by
    rw [List.getElem?_map, List.getElem?_range hj]; rfl
  obtain ⟨r, r1, r2⟩ := hs.2 j _ _ (by rw [h1.c1]; exact at' xa) (by rw [h2.c1]; exact at' xb)
  obtain ⟨r', r1', r2'⟩ := hs.1 j _ _ (by rw [h1.c0]; exact at' ya) (by rw [h2.c0]; exact at' yb)
  rw [h3.c1, at' xc] at r1
  rw [h3.c0, at' yc] at r1'
  rw [add_enc hw] at r2 r2'
  exact ⟨(Option.some.inj r1).trans (Except.ok.inj r2).symm, (Option.some.inj r1').trans (Except.ok.inj r2').symm⟩

end External

/-- C137: the external product is additive in the ciphertext, word for word, if no sum of two residues is reduced, whatever the RGSW ciphertext contains. -/
theorem c137_add (h : IsParams N t l variance P) (pr : Profile) {i : Nat} {g : RgswCt} (hg : ShapedRgsw P i g) {x y z : BfvCipherText} {f0 f1 g0 g1 : Rg N}
    (hx : IsCt P i [f0, f1] x) (hy : IsCt P i [g0, g1] y) (hz : x.add pr y = .ok z) (hn0 : NoCarry l i f0 g0) (hn1 : NoCarry l i f1 g1) :
    ∃ a0 a1 b0 b1 c0 c1, g.externalProduct pr x = .ok (a0, a1) ∧ g.externalProduct pr y = .ok (b0, b1) ∧ g.externalProduct pr z = .ok (c0, c1) ∧
      a0.add pr b0 = .ok c0 ∧ a1.add pr b1 = .ok c1 := by
  obtain ⟨z', z1, z2, -⟩ := c32_add h pr hx hy 0
  obtain rfl := Except.ok.inj (z1.symm.trans hz)
  have h' := h
  obtain ⟨K, ext, rfl, hw, rfl, rfl, rfl⟩ := BfvP.params h
  obtain ⟨L, hL⟩ := hw.levels i (by rw [← hw.nLevels]; exact (List.getElem?_eq_some_iff.mp hg.1.1).1)
  have hc := hL.wf.ctx
  obtain ⟨x0, y0, h0⟩ := BfvP.holds_of_isKsk hL (Shape.isKsk h' hg.1 0 0)
  obtain ⟨x1, y1, h1⟩ := BfvP.holds_of_isKsk hL (Shape.isKsk h' hg.2 0 0)
  refine ⟨_, _, _, _, _, _, External.exact hc pr h0 h1 ((BfvP.isCt_iff hL _ _).mp hx).2.2, External.exact hc pr h0 h1 ((BfvP.isCt_iff hL _ _).mp hy).2.2,
    External.exact hc pr h0 h1 ((BfvP.isCt_iff hL _ _).mp z2).2.2, ?_, ?_⟩
  all_goals
    rw [add_enc hc, ← Finset.sum_add_distrib]
    congr 2
    refine Finset.sum_congr rfl fun j hj => ?_
    have hj := Finset.mem_range.mp hj
    rw [External.digit_add h' hL hn0 hj, External.digit_add h' hL hn1 hj]
    ring

/-- C137: the external product with the zero ciphertext is zero, word for word, whatever the RGSW ciphertext contains. -/
theorem c137_zero (h : IsParams N t l variance P) (pr : Profile) {i : Nat} {g : RgswCt} (hg : ShapedRgsw P i g) {x : BfvCipherText} (hx : IsCt P i [(0 : Rg N), 0] x) :
    ∃ a0 a1, g.externalProduct pr x = .ok (a0, a1) ∧ PolyAt P i (0 : Rg N) a0 ∧ PolyAt P i (0 : Rg N) a1 := by
  have h' := h
  obtain ⟨K, ext, rfl, hw, rfl, rfl, rfl⟩ := BfvP.params h
  obtain ⟨L, hL⟩ := hw.levels i (by rw [← hw.nLevels]; exact (List.getElem?_eq_some_iff.mp hg.1.1).1)
  have hc := hL.wf.ctx
  obtain ⟨x0, y0, h0⟩ := BfvP.holds_of_isKsk hL (Shape.isKsk h' hg.1 0 0)
  obtain ⟨x1, y1, h1⟩ := BfvP.holds_of_isKsk hL (Shape.isKsk h' hg.2 0 0)
  refine ⟨_, _, External.exact hc pr h0 h1 ((BfvP.isCt_iff hL _ _).mp hx).2.2, (BfvP.polyAt_iff hL _ _).mpr ?_, (BfvP.polyAt_iff hL _ _).mpr ?_⟩ <;>
    simp [External.digit_zero]

/-- C137: the external product is additive in the RGSW ciphertext, word for word, for all contents: sums of RGSW ciphertexts act as sums. -/
theorem c137_rgsw_add (h : IsParams N t l variance P) (pr pr' : Profile) {i : Nat} {a b c : RgswCt} (ha : ShapedRgsw P i a) (hb : ShapedRgsw P i b) (hc : ShapedRgsw P i c)
    (h0 : SumKsk pr' a.ksk0 b.ksk0 c.ksk0) (h1 : SumKsk pr' a.ksk1 b.ksk1 c.ksk1) {x : BfvCipherText} {f0 f1 : Rg N} (hx : IsCt P i [f0, f1] x) :
    ∃ a0 a1 b0 b1 c0 c1, a.externalProduct pr x = .ok (a0, a1) ∧ b.externalProduct pr x = .ok (b0, b1) ∧ c.externalProduct pr x = .ok (c0, c1) ∧
      a0.add pr b0 = .ok c0 ∧ a1.add pr b1 = .ok c1 := by
  have h' := h
  obtain ⟨K, ext, rfl, hw, rfl, rfl, rfl⟩ := BfvP.params h
  obtain ⟨L, hL⟩ := hw.levels i (by rw [← hw.nLevels]; exact (List.getElem?_eq_some_iff.mp ha.1.1).1)
  have hcx := hL.wf.ctx
  obtain ⟨xa, ya, xb, yb, a1, b1, xc, yc, c1, e1⟩ := External.sum h' hL ha.1 hb.1 hc.1 h0
  obtain ⟨xa', ya', xb', yb', a2, b2, xc', yc', c2, e2⟩ := External.sum h' hL ha.2 hb.2 hc.2 h1
  have hx' := ((BfvP.isCt_iff hL _ _).mp hx).2.2
  refine ⟨_, _, _, _, _, _, External.exact hcx pr a1 a2 hx', External.exact hcx pr b1 b2 hx', External.exact hcx pr c1 c2 hx', ?_, ?_⟩
  all_goals
    rw [add_enc hcx, ← Finset.sum_add_distrib]
    congr 1
    refine (enc_eq_iff hcx _ _).mpr ?_
    rw [← Finset.sum_sub_distrib]
    refine Finset.dvd_sum fun j hj => ?_
    have hj := Finset.mem_range.mp hj
  · obtain ⟨u, hu⟩ := (enc_eq_iff hcx _ _).mp (e1 j hj).2
    obtain ⟨v, hv⟩ := (enc_eq_iff hcx _ _).mp (e2 j hj).2
    exact ⟨-(Ksk.digit L.qCtx f0 j * v + Ksk.digit L.qCtx f1 j * u), by linear_combination -Ksk.digit L.qCtx f0 j * hv - Ksk.digit L.qCtx f1 j * hu⟩
  · obtain ⟨u, hu⟩ := (enc_eq_iff hcx _ _).mp (e1 j hj).1
    obtain ⟨v, hv⟩ := (enc_eq_iff hcx _ _).mp (e2 j hj).1
    exact ⟨-(Ksk.digit L.qCtx f0 j * v + Ksk.digit L.qCtx f1 j * u), by linear_combination -Ksk.digit L.qCtx f0 j * hv - Ksk.digit L.qCtx f1 j * hu⟩

/-- C137: in general it is not additive in the ciphertext: for every secret key, message and all masks there are errors of the second half with which the products with
`(1, 0)` and `(-1, 0)` do not sum to the product with their sum, whatever the first half contains. -/
theorem c137_not_additive (h : IsParams N t l variance P) {sk : SecretKey} (hk : IsKey P sk) (pr : Profile) (hv1 : 1 ≤ variance) (hv2 : variance ≤ 16) {i : Nat} {m : Rg N} {p : Poly}
    (hp : PolyAt P i m p) {aTape : Nat → Nat → Nat → Nat} (ha : ∀ j, TapeAt l i (aTape j)) (hQ : (levelModuli l i).sum * (2 * variance) < levelQ l i) {x y : BfvCipherText}
    (hx : IsCt P i [(1 : Rg N), 0] x) (hy : IsCt P i [(-1 : Rg N), 0] y) :
    ∃ rng k1, (∀ j i, rng j i < 2 ^ 64) ∧ Ksk.new pr sk p i i aTape rng = .ok k1 ∧ ∀ pr' k0, ShapedKsk P i k0 → ∃ z a0 a1 b0 b1 c0 c1 d0 d1, x.add pr' y = .ok z ∧
      RgswCt.externalProduct pr' ⟨k0, k1⟩ x = .ok (a0, a1) ∧ RgswCt.externalProduct pr' ⟨k0, k1⟩ y = .ok (b0, b1) ∧ RgswCt.externalProduct pr' ⟨k0, k1⟩ z = .ok (c0, c1) ∧
      a0.add pr' b0 = .ok d0 ∧ a1.add pr' b1 = .ok d1 ∧ (d0, d1) ≠ (c0, c1) := by
  have h' := h
  obtain ⟨K, ext, rfl, hw, rfl, rfl, rfl⟩ := BfvP.params h
  obtain ⟨L, hL⟩ := hw.levels i (BfvP.level_lt hw hp)
  have hc := hL.wf.ctx
  obtain ⟨rng, k1, hr, kn, key⟩ := c131_not_additive h' hk pr hv1 hv2 hp ha hQ ((BfvP.powerAt_iff hL _ _).mpr rfl) ((BfvP.powerAt_iff hL _ _).mpr rfl)
    ((BfvP.powerAt_iff hL _ _).mpr rfl)
  refine ⟨rng, k1, hr, kn, fun pr' k0 hk0 => ?_⟩
  obtain ⟨k1', q1, -, q2⟩ := c36_new h' hk pr hv1 hv2 hp ha hr
  obtain rfl := Except.ok.inj (q1.symm.trans kn)
  obtain ⟨x1, y1, h1⟩ := BfvP.holds_of_isKsk hL q2
  obtain ⟨x0, y0, h0⟩ := BfvP.holds_of_isKsk hL (Shape.isKsk h' hk0 0 0)
  obtain ⟨z, z1, z2, -⟩ := c32_add h' pr' hx hy 0
  obtain ⟨a0, a1, b0, b1, c0, c1, d0, d1, e1, e2, e3, e4, e5, e6⟩ := key pr'
  rw [Ksk.keySwitch_enc hc pr' h1] at e1 e2 e3
  have hxe := External.exact hc pr' (g := ⟨k0, k1'⟩) h0 h1 ((BfvP.isCt_iff hL _ _).mp hx).2.2
  have hye := External.exact hc pr' (g := ⟨k0, k1'⟩) h0 h1 ((BfvP.isCt_iff hL _ _).mp hy).2.2
  have hze := External.exact hc pr' (g := ⟨k0, k1'⟩) h0 h1 ((BfvP.isCt_iff hL _ _).mp z2).2.2
  simp only [add_neg_cancel, add_zero, External.digit_zero, zero_mul] at hxe hye hze e3
  exact ⟨z, a0, a1, b0, b1, c0, c1, d0, d1, z1, hxe.trans e1, hye.trans e2, hze.trans e3, e4, e5, e6⟩

/-- An RGSW ciphertext of arbitrary contents, and one made for the key that is not additive. -/
example : ∃ (P : BfvParameters) (sk : SecretKey) (g : RgswCt) (k1 : Ksk) (x y z w : BfvCipherText), IsParams 8 17 Ex.mods 10 P ∧ IsKey P sk ∧
    (∃ a0 a1 b0 b1 c0 c1, x.add .debug x = .ok w ∧ g.externalProduct .debug x = .ok (a0, a1) ∧ g.externalProduct .debug x = .ok (b0, b1) ∧ g.externalProduct .debug w = .ok (c0, c1) ∧
      a0.add .debug b0 = .ok c0 ∧ a1.add .debug b1 = .ok c1) ∧
    ∃ a0 a1 b0 b1 c0 c1 d0 d1, x.add .release y = .ok z ∧ RgswCt.externalProduct .release ⟨g.ksk0, k1⟩ x = .ok (a0, a1) ∧
      RgswCt.externalProduct .release ⟨g.ksk0, k1⟩ y = .ok (b0, b1) ∧ RgswCt.externalProduct .release ⟨g.ksk0, k1⟩ z = .ok (c0, c1) ∧
      a0.add .release b0 = .ok d0 ∧ a1.add .release b1 = .ok d1 ∧ (d0, d1) ≠ (c0, c1) := by
  obtain ⟨P, h⟩ := Ex.exists_params
  obtain ⟨sk, -, hk, -⟩ := c30_generate h .release (by norm_num) (by norm_num) Ex.wordTape
  obtain ⟨p, hp⟩ := c33_exists_poly h (i := 0) (by decide) (keyRing 8 sk)
  obtain ⟨p0, hp0⟩ := c33_exists_poly h (i := 0) (by decide) (1 : Rg 8)
  obtain ⟨p1, hp1⟩ := c33_exists_poly h (i := 0) (by decide) (0 : Rg 8)
  obtain ⟨p2, hp2⟩ := c33_exists_poly h (i := 0) (by decide) (-1 : Rg 8)
  have hx : IsCt P 0 [(1 : Rg 8), 0] ⟨P, [p0, p1], 0⟩ := ⟨rfl, rfl, .cons hp0 (.cons hp1 .nil)⟩
  have hy : IsCt P 0 [(-1 : Rg 8), 0] ⟨P, [p2, p1], 0⟩ := ⟨rfl, rfl, .cons hp2 (.cons hp1 .nil)⟩
  have hks := Shape.junkKsk_shaped (Shape.of_polyAt h hp)
  obtain ⟨rng, k1, -, -, key⟩ := c137_not_additive h hk .debug (by norm_num) (by norm_num) hp (aTape := fun _ _ _ => 0) (fun _ => Ex.tape0 Ex.mods_gt)
    (by decide +kernel) hx hy
  obtain ⟨z, hz⟩ := key .release _ hks
  obtain ⟨w, w1, -⟩ := c32_add h .debug hx hx 0
  have hn : ∀ f : ℤ, 0 ≤ f → f ≤ 1 → NoCarry Ex.mods 0 (f : Rg 8) (f : Rg 8) := fun f f0 f1 q hq k hk => by
    have hq : 1000000 < q := by
      revert q
      decide +kernel
    rw [cf_int (N := 8) (by norm_num) f k]
    split_ifs
    · rw [Int.emod_eq_of_lt f0 (by omega)]; omega
    · simp; omega
  obtain ⟨a0, a1, b0, b1, c0, c1, r⟩ := c137_add h .debug (g := ⟨_, _⟩) ⟨hks, hks⟩ hx hx w1 (by simpa using hn 1 (by norm_num) (by norm_num))
    (by simpa using hn 0 (by norm_num) (by norm_num))
  exact ⟨P, sk, ⟨Shape.junkKsk P p, Shape.junkKsk P p⟩, k1, _, _, z, w, h, hk, ⟨a0, a1, b0, b1, c0, c1, w1, r⟩, hz⟩

/-- An RGSW ciphertext of arbitrary contents added to itself. -/
example : ∃ (P : BfvParameters) (a c : RgswCt) (x : BfvCipherText), IsParams 8 17 Ex.mods 10 P ∧ SumKsk .debug a.ksk0 a.ksk0 c.ksk0 ∧ c ≠ a ∧
    ∃ a0 a1 c0 c1, a.externalProduct .release x = .ok (a0, a1) ∧ c.externalProduct .release x = .ok (c0, c1) ∧ a0.add .release a0 = .ok c0 ∧ a1.add .release a1 = .ok c1 := by
  obtain ⟨P, h⟩ := Ex.exists_params
  obtain ⟨p, hp⟩ := c33_exists_poly h (i := 0) (by decide) (1 : Rg 8)
  obtain ⟨q, hq⟩ := c33_exists_poly h (i := 0) (by decide) (1 + 1 : Rg 8)
  have hx : IsCt P 0 [(1 : Rg 8), 1 + 1] ⟨P, [p, q], 0⟩ := ⟨rfl, rfl, .cons hp (.cons hq .nil)⟩
  have hctx : q.context = p.context ∧ 0 < p.context.moduli64.length ∧ p.add .debug p = .ok q ∧ q ≠ p := by
    obtain ⟨K, ext, hK, hw, -, e1, -⟩ := BfvP.params h
    obtain rfl : K = 3 := Nat.pow_right_injective le_rfl (by simpa using hK.symm)
    obtain ⟨L, hL⟩ := hw.levels 0 (List.length_pos_iff.mpr hw.ne)
    have hc := hL.wf.ctx
    obtain rfl := (BfvP.polyAt_iff hL _ _).mp hp
    obtain rfl := (BfvP.polyAt_iff hL _ _).mp hq
    refine ⟨rfl, List.length_pos_iff.mpr hc.core.ne, add_enc hc .debug _ _, fun he => ?_⟩
    obtain ⟨w, hw'⟩ := (enc_eq_iff hc _ _).mp he
    have h0 := congrArg (fun z => cf z 0) hw'
    have h1 := cf_int (N := 2 ^ 3) (by norm_num) 1 0
    simp only [add_sub_cancel_right] at h0
    rw [cf_int_mul (by norm_num), show (1 : Rg (2 ^ 3)) = ((1 : ℤ) : Rg (2 ^ 3)) by simp, h1, if_pos rfl] at h0
    have hQ := RingIso.one_lt_Q hc
    have : (L.qCtx.Q : ℤ) ∣ 1 := ⟨_, h0⟩
    have := Int.le_of_dvd one_pos this
    omega
  obtain ⟨hctx, hpos, hadd, hne⟩ := hctx
  have hs : SumKsk .debug (Shape.junkKsk P p) (Shape.junkKsk P p) (Shape.junkKsk P q) := by
    have key : ∀ (j : Nat) (a b : Poly), (List.replicate p.context.moduli64.length p)[j]? = some a → (List.replicate p.context.moduli64.length p)[j]? = some b →
        ∃ r, (List.replicate q.context.moduli64.length q)[j]? = some r ∧ a.add .debug b = .ok r := by
      intro j a b ha hb
      obtain ⟨hj, rfl⟩ := List.getElem?_eq_some_iff.mp ha
      obtain ⟨-, rfl⟩ := List.getElem?_eq_some_iff.mp hb
      rw [List.length_replicate] at hj
      exact ⟨q, by rw [List.getElem?_replicate, if_pos (by rw [hctx]; exact hj)], by rw [List.getElem_replicate]; exact hadd⟩
    exact ⟨key, key⟩
  have sp := Shape.junkKsk_shaped (Shape.of_polyAt h hp)
  have sq := Shape.junkKsk_shaped (Shape.of_polyAt h hq)
  obtain ⟨a0, a1, b0, b1, c0, c1, r1, r2, r3, r4, r5⟩ := c137_rgsw_add h .release .debug (a := ⟨_, _⟩) (b := ⟨_, _⟩) (c := ⟨_, _⟩) ⟨sp, sp⟩ ⟨sp, sp⟩ ⟨sq, sq⟩ hs hs hx
  obtain ⟨rfl, rfl⟩ := Prod.mk.inj (Except.ok.inj (r1.symm.trans r2))
  refine ⟨P, ⟨Shape.junkKsk P p, Shape.junkKsk P p⟩, ⟨Shape.junkKsk P q, Shape.junkKsk P q⟩, _, h, hs, fun he => hne ?_, _, _, _, _, r1, r3, r4, r5⟩
  have := congrArg (fun g : RgswCt => g.ksk0.c0[0]?) he
  simp only [Shape.junkKsk, List.getElem?_replicate, hctx, if_pos hpos] at this
  exact Option.some.inj this

end OnionPIR
