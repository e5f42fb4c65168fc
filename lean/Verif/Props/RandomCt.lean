import Verif.Spec.Shape
import Verif.Props.WrongKey
import Verif.Props.Robust
import Mathlib.SetTheory.Cardinal.Finite
/-
C138 (src/bfv.rs): what random ciphertexts decrypt to.
-/
namespace OnionPIR
open Rg Spec

variable {N t : Nat} {l : List Nat} {variance : Nat} {P : BfvParameters}

namespace RandomCt

/-- `t x / Q` is within `c / Q` of an integer that is `v` modulo `t`. -/
def Hit (Q t c : Nat) (v x : ℤ) : Prop := ∃ y : ℤ, y % t = v ∧ |Q * y - t * x| ≤ c

theorem hits_le {Q t : Nat} (c : Nat) (ht : 0 < t) (v : ℤ) : Nat.card {x : Fin Q // Hit Q t c v x} ≤ 2 * c / t + 1 := by
  choose y hy1 hy2 using fun x : {x : Fin Q // Hit Q t c v x} => x.2
  have hbound : ∀ x, ((Q * y x - t * (x.1.val : ℤ) + c) / t).toNat < 2 * c / t + 1 := by
    intro x
    have h1 := abs_le.mp (hy2 x)
    have h2 : (Q * y x - t * (x.1.val : ℤ) + c) / t ≤ ((2 * c : Nat) : ℤ) / t := Int.ediv_le_ediv (by omega) (by push_cast; omega)
    have h3 : 0 ≤ (Q * y x - t * (x.1.val : ℤ) + c) / t := Int.ediv_nonneg (by omega) (by omega)
    have h4 : ((2 * c : Nat) : ℤ) / t = ((2 * c / t : Nat) : ℤ) := by push_cast; rfl
    rw [h4] at h2
    omega
  let F : {x : Fin Q // Hit Q t c v x} → Fin (2 * c / t + 1) := fun x => ⟨_, hbound x⟩
  have hF : Function.Injective F := by
    intro x x' hxx
    have h1 := congrArg Fin.val hxx
    simp only [F] at h1
    have n1 : 0 ≤ (Q * y x - t * (x.1.val : ℤ) + c) / t := Int.ediv_nonneg (by have := abs_le.mp (hy2 x); omega) (by omega)
    have n2 : 0 ≤ (Q * y x' - t * (x'.1.val : ℤ) + c) / t := Int.ediv_nonneg (by have := abs_le.mp (hy2 x'); omega) (by omega)
    have h2 : (Q * y x - t * (x.1.val : ℤ) + c) / (t : ℤ) = (Q * y x' - t * (x'.1.val : ℤ) + c) / t := by omega
    have h3 : (t : ℤ) ∣ y x - y x' := Int.ModEq.dvd (show y x' % t = y x % t from (hy1 x').trans (hy1 x).symm)
    obtain ⟨j, hj⟩ := h3
    have h4 : (Q * y x - t * (x.1.val : ℤ)) % (t : ℤ) = (Q * y x' - t * (x'.1.val : ℤ)) % t :=
      Int.ModEq.symm ((Int.modEq_iff_dvd).mpr ⟨Q * j - x.1.val + x'.1.val, by linear_combination (Q : ℤ) * hj⟩)
    have h5 := WrongKey.eq_of_div (by omega) h2 h4
    have h6 : (Q : ℤ) * j = x.1.val - x'.1.val := by
      refine mul_left_cancel₀ (show (t : ℤ) ≠ 0 by omega) ?_
      linear_combination h5 - (Q : ℤ) * hj
    have h7 := x.1.isLt
    have h8 := x'.1.isLt
    have h9 : ((x.1.val : ℤ) - x'.1.val) = 0 :=
      Int.eq_zero_of_abs_lt_dvd ⟨j, h6.symm⟩ (by rw [abs_lt]; omega)
    exact Subtype.ext (Fin.ext (by omega))
  simpa using Nat.card_le_card_of_injective F hF

theorem hits_ge {Q t d v : Nat} (ht : 0 < t) (hQ : 0 < Q) (hv : v < t) (hd : 2 * d / t ≤ Q) : 2 * d / t ≤ Nat.card {x : Fin Q // Hit Q t d v x} := by
  obtain ⟨x0, hx0⟩ : ∃ x0 : ℤ, ((Q : ℤ) * v - d + t - 1) / t = x0 := ⟨_, rfl⟩
  have a1 := Int.mul_ediv_add_emod ((Q : ℤ) * v - d + t - 1) t
  have a2 := Int.emod_nonneg ((Q : ℤ) * v - d + t - 1) (show (t : ℤ) ≠ 0 by omega)
  have a3 := Int.emod_lt_of_pos ((Q : ℤ) * v - d + t - 1) (show (0 : ℤ) < t by omega)
  rw [hx0] at a1
  have hlt : ∀ z : ℤ, (z % Q).toNat < Q := fun z => by
    have := Int.emod_nonneg z (show (Q : ℤ) ≠ 0 by omega)
    have := Int.emod_lt_of_pos z (show (0 : ℤ) < Q by omega)
    omega
  have hcast : ∀ z : ℤ, (((z % Q).toNat : Nat) : ℤ) = z % Q := fun z => Int.toNat_of_nonneg (Int.emod_nonneg z (by omega))
  let F : Fin (2 * d / t) → {x : Fin Q // Hit Q t d v x} := fun j => ⟨⟨((x0 + j.val) % Q).toNat, hlt _⟩, (v : ℤ) - t * ((x0 + j.val) / Q), by
    rw [Int.sub_mul_emod_self_left]
    exact Int.emod_eq_of_lt (by omega) (by omega), by
    have e : (Q : ℤ) * ((v : ℤ) - t * ((x0 + j.val) / Q)) - t * (((x0 + j.val) % Q).toNat : Nat) = Q * v - t * (x0 + j.val) := by
      rw [hcast]
      have := Int.mul_ediv_add_emod (x0 + j.val) Q
      linear_combination -(t : ℤ) * this
    dsimp only
    rw [e, abs_le]
    have h1 := j.isLt
    have h2 : t * (j.val + 1) ≤ 2 * d := (Nat.mul_le_mul_left t h1).trans (Nat.mul_div_le _ _)
    have h3 : (t : ℤ) * (j.val + 1) ≤ 2 * d := by exact_mod_cast h2
    constructor <;> nlinarith⟩
  have hF : Function.Injective F := by
    intro j j' hjj
    have h1 := congrArg (fun x : {x : Fin Q // Hit Q t d v x} => (x.1.val : ℤ)) hjj
    simp only [F, hcast] at h1
    have h2 : (Q : ℤ) ∣ (x0 + j.val) - (x0 + j'.val) := Int.ModEq.dvd (show (x0 + j'.val) % (Q : ℤ) = (x0 + j.val) % Q from h1.symm)
    have h3 := j.isLt
    have h4 := j'.isLt
    have h5 := Int.eq_zero_of_abs_lt_dvd h2 (by rw [abs_lt]; omega)
    exact Fin.ext (by omega)
  simpa using Nat.card_le_card_of_injective F hF

theorem unique {Q t c d : Nat} (hcd : c + d < Q) {v v' x : ℤ} (h : Hit Q t c v x) (h' : Hit Q t d v' x) : v = v' := by
  obtain ⟨y, rfl, hy⟩ := h
  obtain ⟨y', rfl, hy'⟩ := h'
  have h1 := abs_le.mp hy
  have h2 := abs_le.mp hy'
  have h3 : (Q : ℤ) * (y - y') = (Q * y - t * x) - (Q * y' - t * x) := by ring
  have h4 := Int.eq_zero_of_abs_lt_dvd (m := (Q : ℤ)) (x := Q * (y - y')) ⟨_, rfl⟩ (by rw [h3, abs_lt]; omega)
  rcases mul_eq_zero.mp h4 with h5 | h5
  · omega
  · rw [sub_eq_zero.mp h5]

theorem card_pi {N Q : Nat} (p : Fin N → Fin Q → Prop) : Nat.card {x : Fin N → Fin Q // ∀ k, p k (x k)} = ∏ k, Nat.card {x : Fin Q // p k x} := by
  rw [← Nat.card_pi]
  exact Nat.card_congr Equiv.subtypePiEquivPi

end RandomCt

/-- **C138**: for every key and every second component, the fraction of the first components with which the ciphertext decrypts to given values is `1/t^N` up to
factors close to one: decryption of random ciphertexts is almost uniform, and no vector of values is a sign of a ciphertext that was made up. -/
theorem c138_random (h : IsParams N t l variance P) {sk : SecretKey} (hk : IsKey P sk) (pr : Profile) {i : Nat} (h2t : 2 * t ≤ l.getD 0 0) (hQ4 : 4 * t ≤ levelQ l i)
    {c : RqContext} (hc : P.qCtxs[i]? = some c) {p1 : Poly} (hp1 : Shaped P i p1) {vals : List Nat} (hv : IsVec t N vals) :
    ((1 - 1 / 2 ^ 31) / t - 2 / levelQ l i) ^ N ≤
        prob (fun r : Rows N l i => ∃ out, sk.decrypt pr ⟨P, [Poly.random c r.tape .ntt, p1], i⟩ = .ok out ∧ out.values = vals) ∧
      prob (fun r : Rows N l i => ∃ out, sk.decrypt pr ⟨P, [Poly.random c r.tape .ntt, p1], i⟩ = .ok out ∧ out.values = vals) ≤
        ((1 + 1 / 2 ^ 31) / t + 1 / levelQ l i) ^ N := by
  classical
  have hN : 0 < N := by
    obtain ⟨K, ext, rfl, -⟩ := BfvP.params h
    positivity
  have ht : 2 ≤ t := by
    obtain ⟨K, ext, rfl, hw, rfl, rfl, -⟩ := BfvP.params h
    exact hw.t_prime.two_le
  have hi : i < l.length := by
    obtain ⟨K, ext, rfl, hw, rfl, rfl, -⟩ := BfvP.params h
    rw [← hw.nLevels]; exact (List.getElem?_eq_some_iff.mp hc).1
  have hq : ∀ q ∈ l, 0 < q := fun q hq => by have := h.2.2.1 q hq; omega
  obtain ⟨f1, hf1⟩ := Shape.polyAt h hp1
  choose a ha using fun r : Rows N l i => (c77_mask h hi (Rows.tapeAt hq r)).1
  have hct : ∀ r, IsCt P i [a r, f1] ⟨P, [Poly.random c r.tape .ntt, p1], i⟩ := fun r => ⟨rfl, rfl, .cons (by
    obtain ⟨c', h1, h2⟩ := ha r
    rw [hc] at h1
    rw [Option.some.inj h1]
    exact h2) (.cons hf1 .nil)⟩
  choose out o1 o2 o3 using fun r => c65_decrypt_rounds h hk pr (by simp) (hct r) h2t
  have hE : ∀ r, (∃ o, sk.decrypt pr ⟨P, [Poly.random c r.tape .ntt, p1], i⟩ = .ok o ∧ o.values = vals) ↔ (out r).values = vals := fun r =>
    ⟨fun ⟨o, h1, h2⟩ => by rw [Except.ok.inj ((o1 r).symm.trans h1)]; exact h2, fun h1 => ⟨_, o1 r, h1⟩⟩
  generalize hQd : levelQ l i = Q at *
  have hQ : 0 < Q := by omega
  obtain ⟨e, he⟩ : ∃ e, Q * (2 ^ 31 + 1) / 2 ^ 32 = e := ⟨_, rfl⟩
  obtain ⟨d, hd⟩ : ∃ d, Q - 1 - e = d := ⟨_, rfl⟩
  have hed : e + d < Q := by omega
  let φ : Rows N l i → Rg N := fun r => phase (keyRing N sk) [a r, f1]
  have hlt : ∀ z : ℤ, (z % Q).toNat < Q := fun z => by
    have := Int.emod_nonneg z (show (Q : ℤ) ≠ 0 by omega)
    have := Int.emod_lt_of_pos z (show (0 : ℤ) < Q by omega)
    omega
  have hcast : ∀ z : ℤ, (((z % Q).toNat : Nat) : ℤ) = z % Q := fun z => Int.toNat_of_nonneg (Int.emod_nonneg z (by omega))
  let Φ : Rows N l i → Fin N → Fin Q := fun r k => ⟨(cf (φ r) k % Q).toNat, hlt _⟩
  have hhit : ∀ r (k : Fin N), RandomCt.Hit Q t e ((out r).values.getD k 0 : ℤ) ((Φ r k).val : ℤ) := by
    intro r k
    obtain ⟨y, y1, y2⟩ := o3 r k k.isLt
    refine ⟨y - t * (cf (φ r) k / Q), by rw [Int.sub_mul_emod_self_left]; exact y1.symm, ?_⟩
    have e1 : (Q : ℤ) * (y - t * (cf (φ r) k / Q)) - t * ((Φ r k).val : ℤ) = Q * y - t * cf (φ r) k := by
      show _ - (t : ℤ) * (((cf (φ r) k % Q).toNat : Nat) : ℤ) = _
      rw [hcast]
      have := Int.mul_ediv_add_emod (cf (φ r) k) Q
      linear_combination -(t : ℤ) * this
    rw [e1, ← he]
    push_cast
    rw [Int.le_ediv_iff_mul_le (by norm_num), mul_comm]
    exact y2
  have hΦ : Function.Injective Φ := by
    intro r r' hrr
    have hcong : Cong Q (a r) (a r') := by
      refine (dvd_iff hN _ _).mpr fun k hk => ?_
      have h1 := congrArg (fun x : Fin Q => (x.val : ℤ)) (congrFun hrr ⟨k, hk⟩)
      simp only [Φ, hcast] at h1
      have h2 : (Q : ℤ) ∣ cf (φ r) k - cf (φ r') k := Int.ModEq.dvd (show cf (φ r') k % (Q : ℤ) = cf (φ r) k % Q from h1.symm)
      have h3 : a r - a r' = φ r - φ r' := by simp only [φ, phase]; ring
      rw [h3, cf_sub hN]
      exact h2
    obtain ⟨r0, -, g2⟩ := c77_mask_uniform h hi (a r')
    exact (g2 r (((c77_mask h hi (Rows.tapeAt hq r)).2 _ _ (ha r)).mpr (by rw [hQd]; exact hcong))).trans (g2 r' (ha r')).symm
  have hcard : Nat.card (Rows N l i) = Q ^ N := by rw [WrongKey.card_rows, hQd]
  have hbij : Function.Bijective Φ := by
    refine (Nat.bijective_iff_injective_and_card _).mpr ⟨hΦ, ?_⟩
    rw [hcard]; simp
  have up : Nat.card {r : Rows N l i // (out r).values = vals} ≤ (2 * e / t + 1) ^ N := by
    refine le_trans (Nat.card_le_card_of_injective (β := {x : Fin N → Fin Q // ∀ k : Fin N, RandomCt.Hit Q t e (vals.getD k 0 : ℤ) ((x k).val : ℤ)})
      (fun r => ⟨Φ r.1, fun k => by have := hhit r.1 k; rwa [r.2] at this⟩) fun r r' hrr => Subtype.ext (hΦ (congrArg Subtype.val hrr))) ?_
    rw [RandomCt.card_pi (fun k x => RandomCt.Hit Q t e (vals.getD k 0 : ℤ) (x.val : ℤ))]
    refine (Finset.prod_le_pow_card _ _ _ fun k _ => RandomCt.hits_le e (by omega) _).trans ?_
    simp
  have low : (2 * d / t) ^ N ≤ Nat.card {r : Rows N l i // (out r).values = vals} := by
    have h1 : (2 * d / t) ^ N ≤ Nat.card {x : Fin N → Fin Q // ∀ k : Fin N, RandomCt.Hit Q t d (vals.getD k 0 : ℤ) ((x k).val : ℤ)} := by
      rw [RandomCt.card_pi (fun k x => RandomCt.Hit Q t d (vals.getD k 0 : ℤ) (x.val : ℤ))]
      have := Finset.pow_card_le_prod (s := Finset.univ) (f := fun k : Fin N => Nat.card {x : Fin Q // RandomCt.Hit Q t d (vals.getD k 0 : ℤ) (x.val : ℤ)}) (n := 2 * d / t)
        fun k _ => RandomCt.hits_ge (by omega) hQ (by
          rw [List.getD_eq_getElem _ _ (by rw [hv.1]; exact k.isLt)]; exact hv.2 _ (List.getElem_mem _)) (by
          refine Nat.div_le_of_le_mul ?_
          calc 2 * d ≤ 2 * Q := by omega
            _ ≤ t * Q := Nat.mul_le_mul_right _ ht)
      simpa using this
    refine h1.trans (Nat.card_le_card_of_injective (fun x => ⟨(Equiv.ofBijective Φ hbij).symm x.1, ?_⟩) fun x x' hxx =>
      Subtype.ext ((Equiv.ofBijective Φ hbij).symm.injective (congrArg Subtype.val hxx)))
    have hx : Φ ((Equiv.ofBijective Φ hbij).symm x.1) = x.1 := (Equiv.ofBijective Φ hbij).apply_symm_apply x.1
    refine List.ext_getElem (by rw [o2, hv.1]) fun k k1 k2 => ?_
    have hkN : k < N := by rw [← hv.1]; exact k2
    have u1 := hhit ((Equiv.ofBijective Φ hbij).symm x.1) ⟨k, hkN⟩
    rw [hx] at u1
    have u2 := RandomCt.unique hed u1 (x.2 ⟨k, hkN⟩)
    rw [List.getD_eq_getElem _ _ k1, List.getD_eq_getElem _ _ k2] at u2
    exact_mod_cast u2
  have hQr : (0 : ℝ) < Q := by exact_mod_cast hQ
  have htr : (0 : ℝ) < t := by exact_mod_cast (by omega : 0 < t)
  have h2r : (2 : ℝ) ≤ t := by exact_mod_cast ht
  have h4r : (4 : ℝ) * t ≤ Q := by exact_mod_cast hQ4
  have her : (e : ℝ) * 2 ^ 32 ≤ Q * (2 ^ 31 + 1) := by
    have : e * 2 ^ 32 ≤ Q * (2 ^ 31 + 1) := by rw [← he]; exact Nat.div_mul_le_self _ _
    exact_mod_cast this
  have hB : ((2 * e / t + 1 : Nat) : ℝ) ≤ Q * ((1 + 1 / 2 ^ 31) / t + 1 / Q) := by
    have h1 : ((2 * e / t : Nat) : ℝ) ≤ (2 * e : Nat) / t := Nat.cast_div_le
    have h3 : ((2 * e : Nat) : ℝ) ≤ Q * (1 + 1 / 2 ^ 31) := by push_cast; linarith
    have h4 : ((2 * e : Nat) : ℝ) / t ≤ Q * (1 + 1 / 2 ^ 31) / t := div_le_div_of_nonneg_right h3 htr.le
    rw [mul_add, mul_one_div_cancel hQr.ne', ← mul_div_assoc]
    push_cast at h1 h4 ⊢
    linarith
  have hA : Q * ((1 - 1 / 2 ^ 31) / t - 2 / Q) ≤ ((2 * d / t : Nat) : ℝ) := by
    have h1 : 2 * d + 1 ≤ t * (2 * d / t + 1) := Nat.lt_mul_div_succ _ (by omega)
    have h2 : (2 * d + 1 : ℝ) ≤ t * ((2 * d / t : Nat) + 1) := by exact_mod_cast h1
    have h3 : (d : ℝ) = Q - 1 - e := by
      have : (d : ℤ) = Q - 1 - e := by omega
      have := congrArg (fun z : ℤ => (z : ℝ)) this
      push_cast at this
      exact this
    have h4 : (Q : ℝ) * ((1 - 1 / 2 ^ 31) / t - 2 / Q) = (Q * (1 - 1 / 2 ^ 31) - 2 * t) / t := by field_simp
    rw [h4, div_le_iff₀ htr]
    rw [h3] at h2
    linarith
  have hA0 : 0 ≤ (1 - 1 / 2 ^ 31 : ℝ) / t - 2 / Q := by
    rw [sub_nonneg, div_le_div_iff₀ hQr htr]
    linarith
  unfold prob
  rw [hcard, Nat.card_congr (Equiv.subtypeEquivRight hE), le_div_iff₀ (by positivity), div_le_iff₀ (by positivity)]
  constructor
  · calc ((1 - 1 / 2 ^ 31) / t - 2 / Q : ℝ) ^ N * ((Q ^ N : Nat) : ℝ) = (Q * ((1 - 1 / 2 ^ 31) / t - 2 / Q)) ^ N := by push_cast; rw [mul_pow, mul_comm]
      _ ≤ ((2 * d / t : Nat) : ℝ) ^ N := pow_le_pow_left₀ (mul_nonneg hQr.le hA0) hA N
      _ ≤ _ := by exact_mod_cast low
  · calc ((Nat.card {r : Rows N l i // (out r).values = vals} : Nat) : ℝ) ≤ ((2 * e / t + 1 : Nat) : ℝ) ^ N := by exact_mod_cast up
      _ ≤ (Q * ((1 + 1 / 2 ^ 31) / t + 1 / Q)) ^ N := pow_le_pow_left₀ (Nat.cast_nonneg _) hB N
      _ = _ := by push_cast; rw [mul_pow, mul_comm]

/-- C138: in particular every second component can be completed to a ciphertext that decrypts to given values. -/
theorem c138_onto (h : IsParams N t l variance P) {sk : SecretKey} (hk : IsKey P sk) (pr : Profile) {i : Nat} (h2t : 2 * t ≤ l.getD 0 0) (hQ4 : 4 * t ≤ levelQ l i)
    {c : RqContext} (hc : P.qCtxs[i]? = some c) {p1 : Poly} (hp1 : Shaped P i p1) {vals : List Nat} (hv : IsVec t N vals) :
    ∃ (r : Rows N l i) (out : Plaintext), sk.decrypt pr ⟨P, [Poly.random c r.tape .ntt, p1], i⟩ = .ok out ∧ out.values = vals := by
  have ht : 0 < t := by
    obtain ⟨K, ext, rfl, hw, rfl, rfl, -⟩ := BfvP.params h
    exact hw.t_prime.pos
  have htr : (0 : ℝ) < t := by exact_mod_cast ht
  have h4r : (4 : ℝ) * t ≤ levelQ l i := by exact_mod_cast hQ4
  have hQr : (0 : ℝ) < levelQ l i := by linarith
  have h1 := (c138_random h hk pr h2t hQ4 hc hp1 hv).1
  have h2 : 0 < (1 - 1 / 2 ^ 31 : ℝ) / t - 2 / levelQ l i := by
    rw [sub_pos, div_lt_div_iff₀ hQr htr]
    linarith
  by_contra hne
  have h3 : prob (fun r : Rows N l i => ∃ out, sk.decrypt pr ⟨P, [Poly.random c r.tape .ntt, p1], i⟩ = .ok out ∧ out.values = vals) = 0 := by
    have : IsEmpty {r : Rows N l i // ∃ out, sk.decrypt pr ⟨P, [Poly.random c r.tape .ntt, p1], i⟩ = .ok out ∧ out.values = vals} := ⟨fun r => hne ⟨r.1, r.2⟩⟩
    unfold prob
    rw [Nat.card_of_isEmpty]
    simp
  rw [h3] at h1
  exact absurd h1 (not_le.mpr (pow_pos h2 N))

/-- The values `3, 1, 16, …` come out of random first components with the probability `17^-8` up to a factor of a millionth, with the second component `1`. -/
example : ∃ (P : BfvParameters) (sk : SecretKey) (c : RqContext) (p1 : Poly), IsParams 8 17 Ex.mods 10 P ∧ IsKey P sk ∧ P.qCtxs[0]? = some c ∧
    |prob (fun r : Rows 8 Ex.mods 0 => ∃ out, sk.decrypt .release ⟨P, [Poly.random c r.tape .ntt, p1], 0⟩ = .ok out ∧ out.values = [3, 1, 16, 0, 0, 0, 0, 2]) - 1 / 17 ^ 8| ≤
      1 / (17 ^ 8 * 10 ^ 6) := by
  obtain ⟨P, sk, h, hk, -⟩ := Ex.setup_key
  obtain ⟨p1, hp1⟩ := c33_exists_poly h (i := 0) (by decide) (1 : Rg 8)
  have hs := Shape.of_polyAt h hp1
  obtain ⟨c, hc, -⟩ := hp1
  refine ⟨P, sk, c, p1, h, hk, hc, ?_⟩
  obtain ⟨h1, h2⟩ := c138_random h hk .release (by decide) (by decide +kernel) hc hs (vals := [3, 1, 16, 0, 0, 0, 0, 2]) ⟨rfl, by decide⟩
  rw [show levelQ Ex.mods 0 = 1153470225841614833 by decide +kernel] at h1 h2
  rw [abs_le]
  constructor
  · refine le_trans ?_ (sub_le_sub_right h1 _)
    norm_num
  · refine le_trans (sub_le_sub_right h2 _) ?_
    norm_num

end OnionPIR
