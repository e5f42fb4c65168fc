import Verif.Proofs.RingIso
import Verif.Props.Rq
/-
C85: the stored polynomials of a context, with the operations of the library, are the ring `(Z/Q)[X]/(X^N + 1)`.
-/
namespace OnionPIR
open Rg Spec Polynomial

/-- Every `X ↦ X^k` with odd `k` is a ring endomorphism of `(Z/Q)[X]/(X^N + 1)`, and exactly one. -/
theorem c85_substitution_unique (N Q : Nat) {k : Nat} (hk : Odd k) :
    ∃! ψ : ModRing N Q →+* ModRing N Q, ψ (AdjoinRoot.root _) = AdjoinRoot.root _ ^ k := by
  obtain ⟨ψ, hψ⟩ := RingIso.aut_exists N Q hk
  exact ⟨ψ, hψ, fun χ hχ => RingIso.hom_ext (hχ.trans hψ.symm)⟩

/-- The stored NTT polynomials of a context correspond one to one to the elements of `(Z/Q)[X]/(X^N + 1)`.  The correspondence
sends an imported coefficient vector to the polynomial with those coefficients, and the operations of the library to those of the ring. -/
theorem c85_ring {N : Nat} {l : List Nat} {c : RqContext} (hc : IsContext N l c) :
    ∃ φ : NttPoly c ≃ ModRing N l.prod,
      (∃ z : NttPoly c, z.1 = Poly.zero c .ntt ∧ φ z = 0) ∧
      (∀ pr (a : List Nat), a.length ≤ N → ∃ (p : Poly) (q : NttPoly c), Poly.tryFromBigint c a = .ok p ∧
        p.changeRepresentation pr .ntt = .ok q.1 ∧ φ q = ModRing.of N l.prod a) ∧
      (∀ pr (p q : NttPoly c), ∃ s d m n : NttPoly c,
        p.1.add pr q.1 = .ok s.1 ∧ φ s = φ p + φ q ∧
        p.1.sub pr q.1 = .ok d.1 ∧ φ d = φ p - φ q ∧
        p.1.mul pr q.1 = .ok m.1 ∧ φ m = φ p * φ q ∧
        p.1.neg pr = .ok n.1 ∧ φ n = -φ p) ∧
      (∀ pr (p : NttPoly c) (b : Nat), ∃ q : NttPoly c, p.1.mulBig pr b = .ok q.1 ∧ φ q = b * φ p) ∧
      (N ≤ 2 ^ 31 → ∀ pr k, Odd k → ∀ ψ : ModRing N l.prod →+* ModRing N l.prod, ψ (AdjoinRoot.root _) = AdjoinRoot.root _ ^ k →
        ∃ s, Substitution.new pr c k = .ok s ∧ ∀ p : NttPoly c, ∃ q : NttPoly c, p.1.substitute pr s = .ok q.1 ∧ φ q = ψ (φ p)) := by
  obtain ⟨K, rfl, h, rfl⟩ := RqP.ctx hc
  have hN : 0 < 2 ^ K := by positivity
  obtain ⟨φ, hφ⟩ := RingIso.exists_equiv h (Q := c.moduli64.prod) rfl
  refine ⟨φ, ⟨RingIso.mk h 0, (Poly.zero_enc h _).symm, by rw [hφ, map_zero]⟩, ?_, ?_, ?_, ?_⟩
  · intro pr a ha
    refine ⟨_, RingIso.mk h _, Poly.tryFromBigint_ok h ha, Poly.toNtt_enc h pr _, ?_⟩
    rw [hφ]
    exact RingIso.of_ofList _ a
  · intro pr p q
    obtain ⟨f, rfl⟩ := RingIso.mk_surjective h p
    obtain ⟨g, rfl⟩ := RingIso.mk_surjective h q
    exact ⟨RingIso.mk h (f + g), RingIso.mk h (f - g), RingIso.mk h (f * g), RingIso.mk h (-f),
      Poly.add_enc h pr f g, by rw [hφ, hφ, hφ, map_add], Poly.sub_enc h pr f g, by rw [hφ, hφ, hφ, map_sub],
      Poly.mul_enc h pr f g, by rw [hφ, hφ, hφ, map_mul], Poly.neg_enc h pr f .ntt, by rw [hφ, hφ, map_neg]⟩
  · intro pr p b
    obtain ⟨f, rfl⟩ := RingIso.mk_surjective h p
    refine ⟨RingIso.mk h _, Poly.mulBig_enc h pr f b, ?_⟩
    rw [hφ, hφ, map_mul, map_intCast, Int.cast_natCast, mul_comm]
  · intro h31 pr k hk ψ hψ
    have hK : K ≤ 31 := (Nat.pow_le_pow_iff_right (by norm_num)).mp h31
    refine ⟨_, Poly.substitution_new_ok h pr hK hk, fun p => ?_⟩
    obtain ⟨f, rfl⟩ := RingIso.mk_surjective h p
    refine ⟨RingIso.mk h (sg k f), Poly.substitute_enc h pr hK hk (Poly.substitution_new_ok h pr hK hk) .ntt f, ?_⟩
    rw [hφ, hφ, RingIso.red_sg hN hk hψ]

/-- Coefficient vectors with entries below `Q` correspond one to one to the elements of the ring. -/
theorem c85_coefficients_unique {N : Nat} {l : List Nat} {c : RqContext} (hc : IsContext N l c) (v : ModRing N l.prod) :
    ∃! a : List Nat, a.length = N ∧ (∀ x ∈ a, x < l.prod) ∧ ModRing.of N l.prod a = v := by
  obtain ⟨K, rfl, h, rfl⟩ := RqP.ctx hc
  obtain ⟨f, rfl⟩ := RingIso.red_surjective v
  refine ⟨rowP f c.Q, ⟨RingIso.rowP_length f _, RingIso.rowP_lt f h.Q_pos, RingIso.of_rowP f h.Q_pos⟩, ?_⟩
  rintro b ⟨h1, h2, h3⟩
  exact RingIso.of_injective (RingIso.one_lt_Q h) h1 (RingIso.rowP_length f _) h2 (RingIso.rowP_lt f h.Q_pos)
    (h3.trans (RingIso.of_rowP f h.Q_pos).symm)

/-- Any expression over imported coefficient vectors, evaluated with the operators of the library and exported, gives the reduced coefficients of
the value of the expression in `(Z/Q)[X]/(X^N + 1)`; no step fails, in either build. -/
theorem c85_expression {N : Nat} {l : List Nat} {c : RqContext} (hc : IsContext N l c) (h31 : N ≤ 2 ^ 31) (pr : Profile)
    {ins : Nat → List Nat} (hins : ∀ k, (ins k).length ≤ N) {aut : Nat → ModRing N l.prod →+* ModRing N l.prod}
    (haut : ∀ k, Odd k → aut k (AdjoinRoot.root _) = AdjoinRoot.root _ ^ k) {e : PolyExpr} (he : e.Fits) :
    ∃ out, e.compute pr c ins = .ok out ∧ out.length = N ∧ (∀ x ∈ out, x < l.prod) ∧
      ModRing.of N l.prod out = e.value (fun k => aut k) fun k => ModRing.of N l.prod (ins k) := by
  obtain ⟨K, rfl, h, rfl⟩ := RqP.ctx hc
  have hK : K ≤ 31 := (Nat.pow_le_pow_iff_right (by norm_num)).mp h31
  obtain ⟨f, f1, f2⟩ := RingIso.run_enc h hK pr hins haut e he
  refine ⟨rowP f c.Q, ?_, RingIso.rowP_length f _, RingIso.rowP_lt f h.Q_pos, (RingIso.of_rowP f h.Q_pos).trans f2⟩
  rw [PolyExpr.compute, f1, res_ok_bind, Poly.change_enc h pr f (by simp) (by simp), res_ok_bind, Poly.toBigUints_enc h]

/-- Two expressions with the same value in the ring compute the same integers, whatever the builds: the ring laws hold for the code. -/
theorem c85_laws {N : Nat} {l : List Nat} {c : RqContext} (hc : IsContext N l c) (h31 : N ≤ 2 ^ 31) (pr pr' : Profile)
    {ins : Nat → List Nat} (hins : ∀ k, (ins k).length ≤ N) {aut : Nat → ModRing N l.prod →+* ModRing N l.prod}
    (haut : ∀ k, Odd k → aut k (AdjoinRoot.root _) = AdjoinRoot.root _ ^ k) {e e' : PolyExpr} (he : e.Fits) (he' : e'.Fits) :
    e.compute pr c ins = e'.compute pr' c ins ↔
      e.value (fun k => aut k) (fun k => ModRing.of N l.prod (ins k)) = e'.value (fun k => aut k) fun k => ModRing.of N l.prod (ins k) := by
  obtain ⟨a, a1, a2, a3, a4⟩ := c85_expression hc h31 pr hins haut he
  obtain ⟨b, b1, b2, b3, b4⟩ := c85_expression hc h31 pr' hins haut he'
  rw [a1, b1, ← a4, ← b4]
  constructor
  · intro hab; rw [Except.ok.inj hab]
  · intro hab
    exact congrArg Except.ok ((c85_coefficients_unique hc _).unique ⟨a2, a3, hab⟩ ⟨b2, b3, rfl⟩)

/-- The laws of a commutative ring, and that substitutions are ring endomorphisms that compose, as equalities of runs of the code: the two sides
return the same integers, whatever the inputs and whatever subexpressions `x`, `y`, `z` stand for. -/
theorem c85_code_laws {N : Nat} {l : List Nat} {c : RqContext} (hc : IsContext N l c) (h31 : N ≤ 2 ^ 31) (pr pr' : Profile)
    {ins : Nat → List Nat} (hins : ∀ k, (ins k).length ≤ N) {x y z : PolyExpr} (hx : x.Fits) (hy : y.Fits) (hz : z.Fits) {j k : Nat}
    (hj : Odd j) (hk : Odd k) (n : Nat) :
    (x.add y).compute pr c ins = (y.add x).compute pr' c ins ∧
    (x.mul y).compute pr c ins = (y.mul x).compute pr' c ins ∧
    ((x.add y).add z).compute pr c ins = (x.add (y.add z)).compute pr' c ins ∧
    ((x.mul y).mul z).compute pr c ins = (x.mul (y.mul z)).compute pr' c ins ∧
    (x.mul (y.add z)).compute pr c ins = ((x.mul y).add (x.mul z)).compute pr' c ins ∧
    (x.sub y).compute pr c ins = (x.add y.neg).compute pr' c ins ∧
    (x.add x.neg).compute pr c ins = PolyExpr.zero.compute pr' c ins ∧
    (x.add .zero).compute pr c ins = x.compute pr' c ins ∧
    (x.mulBig (n + 1)).compute pr c ins = ((x.mulBig n).add x).compute pr' c ins ∧
    (x.mulBig l.prod).compute pr c ins = PolyExpr.zero.compute pr' c ins ∧
    ((x.add y).subst k).compute pr c ins = ((x.subst k).add (y.subst k)).compute pr' c ins ∧
    ((x.mul y).subst k).compute pr c ins = ((x.subst k).mul (y.subst k)).compute pr' c ins ∧
    ((x.subst j).subst k).compute pr c ins = (x.subst (j * k)).compute pr' c ins ∧
    (x.subst 1).compute pr c ins = x.compute pr' c ins := by
  classical
  let aut : Nat → ModRing N l.prod →+* ModRing N l.prod := fun k => if h : Odd k then (RingIso.aut_exists N l.prod h).choose else RingHom.id _
  have haut : ∀ k, Odd k → aut k (AdjoinRoot.root _) = AdjoinRoot.root _ ^ k := by
    intro k h
    simp only [aut, dif_pos h]
    exact (RingIso.aut_exists N l.prod h).choose_spec
  have hjk : ∀ v, aut k (aut j v) = aut (j * k) v := by
    intro v
    have : (aut k).comp (aut j) = aut (j * k) := RingIso.hom_ext (by
      rw [RingHom.comp_apply, haut j hj, map_pow, haut k hk, haut _ (hj.mul hk), ← pow_mul, mul_comm])
    rw [← this]; rfl
  have h1 : ∀ v, aut 1 v = v := by
    intro v
    have : aut 1 = RingHom.id _ := RingIso.hom_ext (by rw [haut 1 odd_one, pow_one]; rfl)
    rw [this]; rfl
  have hQ : (l.prod : ModRing N l.prod) = 0 := by
    rw [← map_natCast (AdjoinRoot.of (X ^ N + 1 : (ZMod l.prod)[X])), ZMod.natCast_self, map_zero]
  have key := fun {e e' : PolyExpr} (he : e.Fits) (he' : e'.Fits) => (c85_laws hc h31 pr pr' hins haut he he').mpr
  refine ⟨key ?_ ?_ ?_, key ?_ ?_ ?_, key ?_ ?_ ?_, key ?_ ?_ ?_, key ?_ ?_ ?_, key ?_ ?_ ?_, key ?_ ?_ ?_, key ?_ ?_ ?_, key ?_ ?_ ?_,
    key ?_ ?_ ?_, key ?_ ?_ ?_, key ?_ ?_ ?_, key ?_ ?_ ?_, key ?_ ?_ ?_⟩ <;>
    first
    | (simp only [PolyExpr.Fits, hx, hy, hz, hj, hk, hj.mul hk, odd_one, and_self]; done)
    | (simp only [PolyExpr.value, map_add, map_mul, hjk, h1, hQ, Nat.cast_add, Nat.cast_one]; ring)
    | (simp only [PolyExpr.value, map_add, map_mul, hjk, h1]; done)

/-- `X^4 * X^4 = -1` modulo `X^8 + 1`, computed by the code modulo `17 * 97`. -/
example (pr : Profile) : ∃ c, IsContext 8 [17, 97] c ∧
    (PolyExpr.mul (.input 0) (.input 0)).compute pr c (fun _ => [0, 0, 0, 0, 1]) = .ok [1648, 0, 0, 0, 0, 0, 0, 0] := by
  obtain ⟨c, hc⟩ := exists_context
  refine ⟨c, hc, ?_⟩
  obtain ⟨ψ, hψ⟩ : ∃ ψ : Nat → ModRing 8 [17, 97].prod →+* ModRing 8 [17, 97].prod,
      ∀ k, Odd k → ψ k (AdjoinRoot.root _) = AdjoinRoot.root _ ^ k := by
    refine ⟨fun k => if h : Odd k then (RingIso.aut_exists 8 [17, 97].prod h).choose else RingHom.id _, fun k h => ?_⟩
    simp only [dif_pos h]
    exact (RingIso.aut_exists 8 [17, 97].prod h).choose_spec
  obtain ⟨out, o1, o2, o3, o4⟩ := c85_expression hc (by norm_num) pr (ins := fun _ => [0, 0, 0, 0, 1]) (fun _ => by simp) hψ
    (e := .mul (.input 0) (.input 0)) ⟨trivial, trivial⟩
  rw [o1]
  refine congrArg Except.ok ((c85_coefficients_unique hc _).unique ⟨o2, o3, o4⟩ ⟨by simp, by simp, ?_⟩)
  have hr := RingIso.root_pow 8 [17, 97].prod
  have hm : (1648 : ModRing 8 [17, 97].prod) = -1 := by
    have hQ : ((1649 : Nat) : ModRing 8 [17, 97].prod) = 0 := by
      rw [← map_natCast (AdjoinRoot.of (X ^ 8 + 1 : (ZMod [17, 97].prod)[X])), show ((1649 : Nat) : ZMod [17, 97].prod) = 0 from
        ZMod.natCast_self 1649, map_zero]
    have : (1648 : ModRing 8 [17, 97].prod) = ((1649 : Nat) : ModRing 8 [17, 97].prod) - 1 := by push_cast; norm_num
    rw [this, hQ, zero_sub]
  simp only [PolyExpr.value, ModRing.of, Finset.sum_range_succ, Finset.sum_range_zero, List.getD_cons_zero, List.getD_cons_succ, List.getD_nil,
    Nat.cast_zero, Nat.cast_one, zero_mul, zero_add, add_zero, one_mul, pow_zero, mul_one]
  rw [← pow_add, hr]
  exact_mod_cast hm

/-- A context, inputs and substitutions that the laws apply to. -/
example (pr : Profile) : ∃ c, IsContext 8 [17, 97] c ∧
    (((PolyExpr.input 0).mul (.input 1)).subst 3).compute pr c (fun k => [k, 5, 1648]) =
      (((PolyExpr.input 0).subst 3).mul ((PolyExpr.input 1).subst 3)).compute pr c (fun k => [k, 5, 1648]) := by
  obtain ⟨c, hc⟩ := exists_context
  exact ⟨c, hc, (c85_code_laws hc (by norm_num) pr pr (fun _ => by simp) (x := .input 0) (y := .input 1) (z := .zero) trivial trivial trivial
    (j := 3) (k := 3) (by decide) (by decide) 0).2.2.2.2.2.2.2.2.2.2.2.1⟩

/-- A context that the correspondence applies to. -/
example : ∃ c, IsContext 8 [17, 97] c ∧ Nonempty (NttPoly c ≃ ModRing 8 1649) := by
  obtain ⟨c, hc⟩ := exists_context
  exact ⟨c, hc, ⟨(c85_ring hc).choose⟩⟩

/-- `c85_substitution_unique` and `c85_laws`: `X ↦ X^3` fixes constants, so `5` and its image are computed alike. -/
example : ∃ c, IsContext 8 [17, 97] c ∧ (∃! ψ : ModRing 8 1649 →+* ModRing 8 1649, ψ (AdjoinRoot.root _) = AdjoinRoot.root _ ^ 3) ∧
    ((PolyExpr.input 0).subst 3).compute .debug c (fun _ => [5]) = (PolyExpr.input 0).compute .release c (fun _ => [5]) := by
  obtain ⟨c, hc⟩ := exists_context
  refine ⟨c, hc, c85_substitution_unique 8 1649 (by decide), ?_⟩
  obtain ⟨ψ, hψ⟩ : ∃ ψ : Nat → ModRing 8 [17, 97].prod →+* ModRing 8 [17, 97].prod,
      ∀ k, Odd k → ψ k (AdjoinRoot.root _) = AdjoinRoot.root _ ^ k := by
    refine ⟨fun k => if h : Odd k then (RingIso.aut_exists 8 [17, 97].prod h).choose else RingHom.id _, fun k h => ?_⟩
    simp only [dif_pos h]
    exact (RingIso.aut_exists 8 [17, 97].prod h).choose_spec
  refine (c85_laws hc (by norm_num) .debug .release (ins := fun _ => [5]) (fun _ => by simp) hψ (e := (PolyExpr.input 0).subst 3)
    (e' := .input 0) ⟨trivial, by decide⟩ trivial).mpr ?_
  have : ModRing.of 8 [17, 97].prod [5] = 5 := by
    unfold ModRing.of
    rw [Finset.sum_range_succ', Finset.sum_eq_zero (fun k _ => ?_)]
    · show (0 : ModRing 8 [17, 97].prod) + ((5 : Nat) : ModRing 8 [17, 97].prod) * _ ^ 0 = 5
      rw [pow_zero, mul_one, zero_add, Nat.cast_ofNat]
    · show ((0 : Nat) : ModRing 8 [17, 97].prod) * _ = 0
      rw [Nat.cast_zero, zero_mul]
  show ψ 3 (ModRing.of 8 [17, 97].prod [5]) = ModRing.of 8 [17, 97].prod [5]
  rw [this, map_ofNat]

end OnionPIR
