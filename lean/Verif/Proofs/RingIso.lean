import Mathlib.Algebra.Polynomial.Degree.Operations
import Verif.Proofs.RqOps
import Verif.Spec.RingIso
/- Reduction of the integer ring `Z[X]/(X^N + 1)` onto `(Z/Q)[X]/(X^N + 1)`, and how encodings relate to it. -/
namespace OnionPIR
open Rg Spec Polynomial

namespace RingIso
variable {N Q : Nat}

theorem root_pow (N Q : Nat) : (AdjoinRoot.root (X ^ N + 1 : (ZMod Q)[X])) ^ N = -1 := by
  have := AdjoinRoot.eval₂_root (X ^ N + 1 : (ZMod Q)[X])
  rw [eval₂_add, eval₂_pow, eval₂_X, eval₂_one] at this
  exact eq_neg_of_add_eq_zero_left this

/-- Reduction of the coefficients modulo `Q`. -/
noncomputable def red (N Q : Nat) : Rg N →+* ModRing N Q := evHom (AdjoinRoot.root _) (root_pow N Q)

theorem red_eq (hN : 0 < N) (f : Rg N) :
    red N Q f = AdjoinRoot.mk _ (∑ k ∈ Finset.range N, C ((cf f k : ℤ) : ZMod Q) * X ^ k) := by
  rw [red, ← ev_eq hN, ev, map_sum]
  refine Finset.sum_congr rfl fun k _ => ?_
  rw [map_mul, map_pow, AdjoinRoot.mk_X, AdjoinRoot.mk_C, map_intCast]

theorem red_surjective : Function.Surjective (red N Q) := by
  intro a
  obtain ⟨p, rfl⟩ := AdjoinRoot.mk_surjective a
  induction p using Polynomial.induction_on' with
  | add p q hp hq =>
    obtain ⟨f, hf⟩ := hp
    obtain ⟨g, hg⟩ := hq
    exact ⟨f + g, by rw [map_add, hf, hg, map_add]⟩
  | monomial n r =>
    obtain ⟨z, rfl⟩ := ZMod.intCast_surjective r
    refine ⟨(z : Rg N) * xx ^ n, ?_⟩
    rw [map_mul, map_intCast, map_pow, red, evHom_xx, ← C_mul_X_pow_eq_monomial, map_mul, map_pow, AdjoinRoot.mk_X, AdjoinRoot.mk_C, map_intCast]

theorem red_eq_zero (hN : 0 < N) (hQ : 1 < Q) (f : Rg N) : red N Q f = 0 ↔ ((Q : ℤ) : Rg N) ∣ f := by
  have : Fact (1 < Q) := ⟨hQ⟩
  rw [dvd_iff hN, red_eq hN]
  set p : (ZMod Q)[X] := ∑ k ∈ Finset.range N, C ((cf f k : ℤ) : ZMod Q) * X ^ k with hp
  have hm : (X ^ N + 1 : (ZMod Q)[X]).Monic := by
    simpa using monic_X_pow_add_C (1 : ZMod Q) hN.ne'
  have hd : (X ^ N + 1 : (ZMod Q)[X]).degree = N := by
    simpa using degree_X_pow_add_C hN (1 : ZMod Q)
  have hlt : p.degree < N := by
    refine lt_of_le_of_lt (degree_sum_le _ _) ?_
    rw [Finset.sup_lt_iff (by simp)]
    intro k hk
    refine lt_of_le_of_lt (degree_C_mul_X_pow_le _ _) ?_
    exact_mod_cast Finset.mem_range.mp hk
  have hc : ∀ k, k < N → p.coeff k = ((cf f k : ℤ) : ZMod Q) := by
    intro k hk
    rw [hp, finsetSum_coeff]
    simp only [coeff_C_mul_X_pow]
    rw [Finset.sum_ite_eq (Finset.range N) k, if_pos (Finset.mem_range.mpr hk)]
  have h1 : AdjoinRoot.mk (X ^ N + 1 : (ZMod Q)[X]) p = 0 ↔ p = 0 := by
    rw [AdjoinRoot.mk_eq_zero]
    constructor
    · intro h
      by_contra h0
      exact hm.not_dvd_of_degree_lt h0 (by rw [hd]; exact hlt) h
    · rintro h; rw [h]; exact dvd_zero _
  rw [h1]
  constructor
  · intro h k hk
    have := hc k hk
    rw [h, coeff_zero] at this
    exact (ZMod.intCast_zmod_eq_zero_iff_dvd _ _).mp this.symm
  · intro h
    rw [hp]
    refine Finset.sum_eq_zero fun k hk => ?_
    rw [(ZMod.intCast_zmod_eq_zero_iff_dvd _ _).mpr (h k (Finset.mem_range.mp hk)), C_0, zero_mul]

theorem red_eq_iff (hN : 0 < N) (hQ : 1 < Q) (f g : Rg N) : red N Q f = red N Q g ↔ ((Q : ℤ) : Rg N) ∣ f - g := by
  rw [← red_eq_zero hN hQ, map_sub, sub_eq_zero]

theorem red_xx : red N Q xx = AdjoinRoot.root _ := evHom_xx _ _

theorem red_of (hN : 0 < N) {f : Rg N} {a : List Nat} (h : ∀ k, k < N → ((cf f k : ℤ) : ZMod Q) = (a.getD k 0 : Nat)) :
    red N Q f = ModRing.of N Q a := by
  rw [red_eq hN, ModRing.of, map_sum]
  refine Finset.sum_congr rfl fun k hk => ?_
  rw [h k (Finset.mem_range.mp hk), map_mul, map_pow, AdjoinRoot.mk_X, AdjoinRoot.mk_C, map_natCast]

/-- Ring endomorphisms that agree at `X` agree. -/
theorem hom_ext {f g : ModRing N Q →+* ModRing N Q} (h : f (AdjoinRoot.root _) = g (AdjoinRoot.root _)) : f = g := by
  refine RingHom.ext fun a => ?_
  obtain ⟨p, rfl⟩ := AdjoinRoot.mk_surjective a
  induction p using Polynomial.induction_on' with
  | add p q hp hq => rw [map_add, map_add, map_add, hp, hq]
  | monomial n r =>
    obtain ⟨z, rfl⟩ := ZMod.intCast_surjective r
    rw [← C_mul_X_pow_eq_monomial, map_mul, map_pow, AdjoinRoot.mk_X, AdjoinRoot.mk_C, map_intCast, map_mul, map_mul, map_pow, map_pow,
      map_intCast, map_intCast, h]

theorem aut_exists (N Q : Nat) {k : Nat} (hk : Odd k) :
    ∃ ψ : ModRing N Q →+* ModRing N Q, ψ (AdjoinRoot.root _) = AdjoinRoot.root _ ^ k := by
  refine ⟨AdjoinRoot.lift (AdjoinRoot.of _) (AdjoinRoot.root _ ^ k) ?_, AdjoinRoot.lift_root _⟩
  rw [eval₂_add, eval₂_pow, eval₂_X, eval₂_one, ← pow_mul, mul_comm, pow_mul, root_pow, hk.neg_one_pow, neg_add_cancel]

theorem red_sg (hN : 0 < N) {k : Nat} (hk : Odd k) {ψ : ModRing N Q →+* ModRing N Q}
    (hψ : ψ (AdjoinRoot.root _) = AdjoinRoot.root _ ^ k) (f : Rg N) : red N Q (sg k f) = ψ (red N Q f) := by
  rw [red, ← ev_eq hN, ev_sg hN _ (root_pow N Q), ← ev_eq hN, ev, ev, map_sum]
  refine Finset.sum_congr rfl fun j _ => ?_
  rw [map_mul, map_pow, hψ, map_intCast]

variable {K : Nat} {c : RqContext}

theorem one_lt_Q (h : c.WF K) : 1 < c.Q := by
  obtain ⟨q, hq⟩ := List.exists_mem_of_ne_nil _ h.core.ne
  have h1 : q ≤ c.Q := Nat.le_of_dvd h.Q_pos (List.dvd_prod hq)
  have := (h.bound hq).1
  omega

theorem enc_eq_iff_red (h : c.WF K) {r : Representation} (f g : Rg (2 ^ K)) :
    enc c r f = enc c r g ↔ red (2 ^ K) c.Q f = red (2 ^ K) c.Q g := by
  rw [enc_eq_iff h, red_eq_iff (by positivity) (one_lt_Q h)]

theorem rowP_getD (f : Rg (2 ^ K)) (Q : Nat) {k : Nat} (hk : k < 2 ^ K) : (rowP f Q).getD k 0 = (cf f k % (Q : ℤ)).toNat := by
  rw [rowP, List.getD_eq_getElem?_getD, List.getElem?_map, List.getElem?_range hk]; rfl

theorem of_rowP (f : Rg (2 ^ K)) {Q : Nat} (hQ : 0 < Q) : ModRing.of (2 ^ K) Q (rowP f Q) = red (2 ^ K) Q f := by
  refine (red_of (by positivity) fun k hk => ?_).symm
  rw [rowP_getD f Q hk, ← Int.cast_natCast (R := ZMod Q), Int.toNat_of_nonneg (Int.emod_nonneg _ (by omega)), ZMod.intCast_mod]

theorem rowP_length (f : Rg (2 ^ K)) (Q : Nat) : (rowP f Q).length = 2 ^ K := by rw [rowP, List.length_map, List.length_range]

theorem rowP_lt (f : Rg (2 ^ K)) {Q : Nat} (hQ : 0 < Q) : ∀ x ∈ rowP f Q, x < Q := by
  intro x hx
  rw [rowP, List.mem_map] at hx
  obtain ⟨k, -, rfl⟩ := hx
  have h1 := Int.emod_nonneg (cf f k) (show (Q : ℤ) ≠ 0 by omega)
  have h2 := Int.emod_lt_of_pos (cf f k) (show (0 : ℤ) < Q by omega)
  omega

theorem of_ofList (Q : Nat) (a : List Nat) :
    red (2 ^ K) Q (Poly.ofList K (a.map (fun x : Nat => (x : ℤ)))) = ModRing.of (2 ^ K) Q a := by
  refine red_of (by positivity) fun k hk => ?_
  rw [Poly.ofList, cf_ofCoeffs (by positivity) _ hk, ← Int.cast_natCast (R := ZMod Q)]
  congr 1
  rw [List.getD_eq_getElem?_getD, List.getD_eq_getElem?_getD, List.getElem?_map]
  cases a[k]? <;> rfl

theorem of_injective {Q : Nat} (hQ : 1 < Q) {a b : List Nat} (ha : a.length = 2 ^ K) (hb : b.length = 2 ^ K) (ha' : ∀ x ∈ a, x < Q)
    (hb' : ∀ x ∈ b, x < Q) (h : ModRing.of (2 ^ K) Q a = ModRing.of (2 ^ K) Q b) : a = b := by
  have hN : 0 < 2 ^ K := by positivity
  rw [← of_ofList, ← of_ofList, red_eq_iff hN hQ, dvd_iff hN] at h
  refine List.ext_getElem (ha.trans hb.symm) fun k h1 h2 => ?_
  have hk : k < 2 ^ K := ha ▸ h1
  have := h k hk
  rw [cf_sub hN, Poly.ofList, Poly.ofList, cf_ofCoeffs hN _ hk, cf_ofCoeffs hN _ hk, List.getD_eq_getElem _ _ (by simpa using h1),
    List.getD_eq_getElem _ _ (by simpa using h2), List.getElem_map, List.getElem_map] at this
  have l1 := ha' _ (List.getElem_mem h1)
  have l2 := hb' _ (List.getElem_mem h2)
  have := Int.eq_zero_of_abs_lt_dvd this (by rw [abs_lt]; constructor <;> omega)
  omega

/-- The stored polynomial of a ring element. -/
noncomputable def mk (h : c.WF K) (f : Rg (2 ^ K)) : NttPoly c := ⟨enc c .ntt f, rfl, rfl, enc_valid h _ _⟩

theorem mk_surjective (h : c.WF K) : Function.Surjective (mk h) := by
  rintro ⟨p, rfl, hr, hv⟩
  obtain ⟨f, hf, -⟩ := exists_enc h (by simp [hr]) hv
  exact ⟨f, Subtype.ext (by rw [hr] at hf; exact hf.symm)⟩

theorem mk_eq_iff (h : c.WF K) (f g : Rg (2 ^ K)) : mk h f = mk h g ↔ red (2 ^ K) c.Q f = red (2 ^ K) c.Q g := by
  rw [← enc_eq_iff_red h (r := .ntt), mk, mk, Subtype.mk.injEq]

theorem exists_equiv (h : c.WF K) {Q : Nat} (hQ : c.Q = Q) :
    ∃ φ : NttPoly c ≃ ModRing (2 ^ K) Q, ∀ f, φ (mk h f) = red (2 ^ K) Q f := by
  subst hQ
  let F : NttPoly c → ModRing (2 ^ K) c.Q := fun p => red _ _ (Classical.choose (mk_surjective h p))
  have hF : ∀ f, F (mk h f) = red _ _ f := fun f => (mk_eq_iff h _ _).mp (Classical.choose_spec (mk_surjective h (mk h f)))
  refine ⟨Equiv.ofBijective F ⟨?_, ?_⟩, hF⟩
  · intro p q hpq
    obtain ⟨f, rfl⟩ := mk_surjective h p
    obtain ⟨g, rfl⟩ := mk_surjective h q
    rw [hF, hF] at hpq
    exact (mk_eq_iff h f g).mpr hpq
  · intro a
    obtain ⟨f, rfl⟩ := red_surjective a
    exact ⟨_, hF f⟩

theorem run_enc (h : c.WF K) (hK : K ≤ 31) (pr : Profile) {Q : Nat} {ins : Nat → List Nat} (hins : ∀ k, (ins k).length ≤ 2 ^ K)
    {aut : Nat → ModRing (2 ^ K) Q →+* ModRing (2 ^ K) Q} (haut : ∀ k, Odd k → aut k (AdjoinRoot.root _) = AdjoinRoot.root _ ^ k)
    (e : PolyExpr) : e.Fits → ∃ f, e.run pr c ins = .ok (enc c .ntt f) ∧
      red (2 ^ K) Q f = e.value (fun k => aut k) fun k => ModRing.of (2 ^ K) Q (ins k) := by
  have hN : 0 < 2 ^ K := by positivity
  induction e with
  | input k =>
    intro _
    refine ⟨_, ?_, of_ofList Q (ins k)⟩
    rw [PolyExpr.run, Poly.tryFromBigint_ok h (hins k), res_ok_bind, Poly.toNtt_enc h]
  | zero => exact fun _ => ⟨0, congrArg Except.ok (Poly.zero_enc h _), map_zero _⟩
  | add a b iha ihb =>
    rintro ⟨ha, hb⟩
    obtain ⟨f, f1, f2⟩ := iha ha
    obtain ⟨g, g1, g2⟩ := ihb hb
    exact ⟨f + g, by rw [PolyExpr.run, f1, g1, res_ok_bind, res_ok_bind, Poly.add_enc h], by rw [map_add, f2, g2]; rfl⟩
  | sub a b iha ihb =>
    rintro ⟨ha, hb⟩
    obtain ⟨f, f1, f2⟩ := iha ha
    obtain ⟨g, g1, g2⟩ := ihb hb
    exact ⟨f - g, by rw [PolyExpr.run, f1, g1, res_ok_bind, res_ok_bind, Poly.sub_enc h], by rw [map_sub, f2, g2]; rfl⟩
  | mul a b iha ihb =>
    rintro ⟨ha, hb⟩
    obtain ⟨f, f1, f2⟩ := iha ha
    obtain ⟨g, g1, g2⟩ := ihb hb
    exact ⟨f * g, by rw [PolyExpr.run, f1, g1, res_ok_bind, res_ok_bind, Poly.mul_enc h], by rw [map_mul, f2, g2]; rfl⟩
  | neg a iha =>
    intro ha
    obtain ⟨f, f1, f2⟩ := iha ha
    exact ⟨-f, by rw [PolyExpr.run, f1, res_ok_bind, Poly.neg_enc h], by rw [map_neg, f2]; rfl⟩
  | mulBig a n iha =>
    intro ha
    obtain ⟨f, f1, f2⟩ := iha ha
    exact ⟨_, by rw [PolyExpr.run, f1, res_ok_bind, Poly.mulBig_enc h],
      by rw [map_mul, f2, map_intCast, Int.cast_natCast, mul_comm]; rfl⟩
  | subst a k iha =>
    rintro ⟨ha, hk⟩
    obtain ⟨f, f1, f2⟩ := iha ha
    have hs := Poly.substitution_new_ok h pr hK hk
    exact ⟨sg k f, by rw [PolyExpr.run, f1, res_ok_bind, hs, res_ok_bind, Poly.substitute_enc h pr hK hk hs],
      by rw [red_sg hN hk (haut k hk), f2]; rfl⟩

end RingIso
end OnionPIR
