import Verif.Proofs.KskBridge
/- Exact form of sampled errors, key-switching keys and the error of a key switch, for C77 and C78. -/
namespace OnionPIR
open Rg Poly

variable {K : Nat}

theorem randomSmall_exact {c : RqContext} (h : c.WF K) (pr : Profile) {variance : Nat} (hv1 : 1 ≤ variance) (hv2 : variance ≤ 16)
    {rng : Nat → Nat} (hr : ∀ i, rng i < 2 ^ 64) : Poly.randomSmall pr c .ntt variance rng =
      .ok (enc c .ntt (ofList K ((List.range (2 ^ K)).map (cbdValue rng variance)))) := by
  unfold Poly.randomSmall
  rw [sampleVecCbd_ok pr hr hv1 hv2, res_ok_bind]
  have hb : ∀ x ∈ (List.range c.degree).map (cbdValue rng variance), |x| ≤ 2 * variance := by
    intro x hx
    rw [List.mem_map] at hx
    obtain ⟨i, -, rfl⟩ := hx
    exact abs_le.mpr (cbdValue_bound rng variance i)
  rw [tryFromVecI64_ok h pr (by simp [h.core.deg]) (fun x hx => by have := abs_le.mp (hb x hx); omega), res_ok_bind, toNtt_enc h, h.core.deg]

theorem SecretKey.encryptPoly_exact {sk : SecretKey} {ext : List Nat} (h : sk.WF K ext) (pr : Profile) {c : RqContext} (hc : c.WF K)
    (hv1 : 1 ≤ sk.params.variance) (hv2 : sk.params.variance ≤ 16) (M : Rg (2 ^ K)) {aTape : Nat → Nat → Nat} {a : Rg (2 ^ K)}
    (ha : Poly.random c aTape .ntt = enc c .ntt a) {rng : Nat → Nat} (hr : ∀ i, rng i < 2 ^ 64) :
    sk.encryptPoly pr (enc c .ntt M) aTape rng = .ok { params := sk.params, level := 0, cts :=
      [enc c .ntt (ofList K ((List.range (2 ^ K)).map (cbdValue rng sk.params.variance)) - a * sk.ring K + M), enc c .ntt a] } := by
  unfold SecretKey.encryptPoly
  simp only [show (enc c .ntt M).context = c from rfl, SecretKey.polyNtt_enc h pr hc, res_ok_bind, ha, mul_enc hc,
    randomSmall_exact hc pr hv1 hv2 hr, sub_enc hc, add_enc hc]

namespace Ksk

/-- The pairs of a key made by `Ksk::new` with equal levels. -/
theorem new_exact {sk : SecretKey} {ext : List Nat} (h : sk.WF K ext) (pr : Profile) {lev : Nat} {L : BfvLevel}
    (hL : sk.params.At K ext lev L) (hv1 : 1 ≤ sk.params.variance) (hv2 : sk.params.variance ≤ 16) (src : Rg (2 ^ K))
    {aTape : Nat → Nat → Nat → Nat} {a : Nat → Rg (2 ^ K)} (ha : ∀ j, Poly.random L.qCtx (aTape j) .ntt = enc L.qCtx .ntt (a j))
    {rng : Nat → Nat → Nat} (hr : ∀ j i, rng j i < 2 ^ 64) :
    Ksk.new pr sk (enc L.qCtx .ntt src) lev lev aTape rng = .ok ⟨sk.params, (List.range L.qCtx.moduli64.length).map fun j =>
      enc L.qCtx .ntt (ofList K ((List.range (2 ^ K)).map (cbdValue (rng j) sk.params.variance)) - a j * sk.ring K +
        src * ((garnerAt L.qCtx j : ℤ) : Rg (2 ^ K))),
      (List.range L.qCtx.moduli64.length).map fun j => enc L.qCtx .ntt (a j), L.qCtx, L.qCtx⟩ := by
  have hc := hL.wf.ctx
  have hn := moduli_len hc
  have hgl : L.qCtx.rns.garner.length = L.qCtx.moduli64.length := by rw [hc.core.rns.g_len, hc.core.m64]
  have hb : ∀ j, newC0 pr sk.params L.qCtx (enc L.qCtx .ntt (sk.ring K)) (enc L.qCtx .ntt src) (enc L.qCtx .ntt (a j)) (garnerAt L.qCtx j) (rng j) =
      .ok (enc L.qCtx .ntt (ofList K ((List.range (2 ^ K)).map (cbdValue (rng j) sk.params.variance)) - a j * sk.ring K +
        src * ((garnerAt L.qCtx j : ℤ) : Rg (2 ^ K)))) := by
    intro j
    unfold newC0
    simp only [mul_enc hc, randomSmall_exact hc pr hv1 hv2 (hr j), sub_enc hc, mulBig_enc hc, add_enc hc, res_ok_bind]
  unfold Ksk.new
  rw [idx_of hL.q, res_ok_bind, res_ok_bind, SecretKey.polyNtt_enc h pr hc, res_ok_bind, hn]
  have hz : (List.range L.qCtx.moduli64.length).zip
      (((List.range L.qCtx.moduli64.length).map fun k => Poly.random L.qCtx (aTape k) .ntt).zip L.qCtx.rns.garner) =
      (List.range L.qCtx.moduli64.length).map fun j => (j, enc L.qCtx .ntt (a j), garnerAt L.qCtx j) := by
    conv_lhs => rw [list_eq_range L.qCtx.rns.garner 0, hgl, zip_range]
    have := zip_range L.qCtx.moduli64.length id (fun j => (Poly.random L.qCtx (aTape j) .ntt, L.qCtx.rns.garner.getD j 0))
    rw [List.map_id] at this
    rw [this]
    apply List.map_congr_left
    intro j _
    rw [ha j]; rfl
  rw [hz, mapR_map (d := fun j => enc L.qCtx .ntt (ofList K ((List.range (2 ^ K)).map (cbdValue (rng j) sk.params.variance)) - a j * sk.ring K +
        src * ((garnerAt L.qCtx j : ℤ) : Rg (2 ^ K)))), res_ok_bind]
  · simp only [ha]
  · intro j _
    exact hb j

/-- The exact error of a key switch. -/
theorem switch_exact {c : RqContext} (hc : c.WF K) {s src : Rg (2 ^ K)} {a b e : Nat → Rg (2 ^ K)}
    (he : ∀ j, b j + a j * s = src * ((garnerAt c j : ℤ) : Rg (2 ^ K)) + e j) (f : Rg (2 ^ K)) :
    ((c.Q : ℤ) : Rg (2 ^ K)) ∣ (∑ j ∈ Finset.range c.moduli64.length, digit c f j * b j) +
        (∑ j ∈ Finset.range c.moduli64.length, digit c f j * a j) * s - (f * src + ∑ j ∈ Finset.range c.moduli64.length, digit c f j * e j) := by
  refine ((digit_sum hc f).mul_right src).trans (dvd_of_eq ?_)
  rw [sub_mul, Finset.sum_mul, Finset.sum_mul]
  have : ∀ x y z w : Rg (2 ^ K), x + y - (z + w) = x + y - w - z := fun x y z w => by ring
  rw [this, ← Finset.sum_add_distrib, ← Finset.sum_sub_distrib]
  congr 1
  apply Finset.sum_congr rfl
  intro j _
  linear_combination -digit c f j * he j

end Ksk
end OnionPIR
