import Verif.Model.CostMul
import Verif.Proofs.CostClient
import Verif.Proofs.BfvMul
/-
The functions of Model/CostMul: their values are those of the first model, and their work for operands of given sizes.
-/
namespace OnionPIR
open Cw

variable {K n e : Nat} {c d : RqContext} (pr : Profile)

section Values

theorem RqScaler.scaleC_val (s : RqScaler) (p : Poly) : (s.scaleC pr p).val = s.scale pr p := by
  unfold scaleC scale
  by_cases h : p.representation = .powerBasis
  · simp only [h, if_true, bind_val, lift_val]
  · simp only [h, if_false, bind_val, lift_val, Poly.changeRepresentationC_val]

theorem RelinearizationKey.relinearizePolyC_val (k : RelinearizationKey) (p : Poly) : (k.relinearizePolyC pr p).val = k.relinearizePoly pr p := by
  unfold relinearizePolyC relinearizePoly
  by_cases h : p.representation = .ntt
  · simp only [h, if_true, bind_val, Poly.changeRepresentationC_val, Ksk.keySwitchC_val]
  · simp only [h, if_false, Ksk.keySwitchC_val]

theorem multiplyWithStrategyC_val (x y : BfvCipherText) (k : RelinearizationKey) : (multiplyWithStrategyC pr x y k).val = multiplyWithStrategy pr x y k := by
  simp only [multiplyWithStrategyC, multiplyWithStrategy, bind_val, lift_val, pure_val, RqScaler.scaleC_val, Poly.mulC_val, RelinearizationKey.relinearizePolyC_val]

theorem BfvCipherText.mulPlainC_val (x : BfvCipherText) (p : Plaintext) : (x.mulPlainC pr p).val = x.mulPlain pr p := by
  simp only [mulPlainC, mulPlain, bind_val, lift_val, pure_val, Poly.mulC_val, Poly.changeRepresentationC_val]

theorem Omr.innerProductC_val (cts : List BfvCipherText) (polys : List Poly) : (Omr.innerProductC pr cts polys).val = Omr.innerProduct pr cts polys := by
  simp only [innerProductC, innerProduct, ipStepC, bind_val, lift_val, fold_val, BfvCipherText.mulPolyC_val]
  rfl

end Values

/-! ### Sizes and work -/

namespace RqScaler

theorem scalePower_dim {s : RqScaler} {p r : Poly} (hd : s.src.degree = s.dst.degree) (hm : s.dst.moduli64.length = s.dst.moduli.length)
    (hp : p.Dim s.src .powerBasis) (h : s.scalePower pr p = .ok r) : r.Dim s.dst .powerBasis := by
  unfold scalePower at h
  obtain ⟨cols, h1, h⟩ := bind_eq_ok.mp h
  obtain ⟨rows, h2, h⟩ := bind_eq_ok.mp h
  obtain rfl := Except.ok.inj h
  refine ⟨rfl, rfl, ?_⟩
  obtain ⟨l2, e2⟩ := mapR_eq_ok h2
  rw [List.length_range] at l2
  refine List.eq_replicate_iff.mpr ⟨by rw [List.length_map, l2], fun b hb => ?_⟩
  obtain ⟨row, hrow, rfl⟩ := List.mem_map.mp hb
  obtain ⟨i, hi, hri⟩ := mem_of_mapR h2 hrow
  by_cases hin : i < s.numberCommonModuli
  · rw [if_pos hin] at hri
    rw [hp.row (List.mem_of_getElem? (idx_eq_ok.mp hri)), hd]
  · rw [if_neg hin] at hri
    rw [(mapR_eq_ok hri).1]
    unfold scaleColumns at h1
    rw [if_pos (by have := List.mem_range.mp hi; omega)] at h1
    rw [(mapR_eq_ok h1).1, List.length_range, hd]

theorem scaleC_ntt_costs {s : RqScaler} (hs : s.src = c) (ht : s.dst = d) (hc : c.Dim K n) (hd : d.Dim K e) (hm : d.moduli64.length = d.moduli.length) {p : Poly}
    (hp : p.Dim c .ntt) : Costs (s.scaleC pr p) ⟨(n + e) * (K * 2 ^ (K - 1)), n * 2 ^ K⟩ (Poly.Dim d .ntt) := by
  subst hs ht
  refine .liftBind fun _ _ => ?_
  rw [if_neg (by rw [hp.2.1]; simp), hp.2.1]
  refine Costs.cast ((Poly.changeRepresentationC_power_costs pr hc hp).bind fun x hx => .liftBind fun y hy =>
    Poly.changeRepresentationC_ntt_costs pr hd (scalePower_dim pr (hc.deg.trans hd.deg.symm) hm hx hy)) ?_
  work

theorem scaleC_power_costs {s : RqScaler} (hs : s.src = c) (ht : s.dst = d) (hc : c.Dim K n) (hd : d.Dim K e) (hm : d.moduli64.length = d.moduli.length) {p : Poly}
    (hp : p.Dim c .powerBasis) : Costs (s.scaleC pr p) 0 (Poly.Dim d .powerBasis) := by
  subst hs ht
  refine .liftBind fun _ _ => ?_
  rw [if_pos hp.2.1]
  exact .lift fun y hy => scalePower_dim pr (hc.deg.trans hd.deg.symm) hm hp hy

end RqScaler

namespace RelinearizationKey

theorem relinearizePolyC_ntt_costs (hc : c.Dim K n) {k : RelinearizationKey} (hk : k.ksk.Dim c) {p : Poly} (hp : p.Dim c .ntt) :
    Costs (k.relinearizePolyC pr p) ⟨(n ^ 2 + n) * (K * 2 ^ (K - 1)), (2 * n ^ 2 + n) * 2 ^ K⟩ fun r => r.1.Dim c .ntt ∧ r.2.Dim c .ntt := by
  unfold relinearizePolyC
  rw [if_pos hp.2.1]
  refine Costs.cast ((Poly.changeRepresentationC_power_costs pr hc hp).bind fun x hx => Ksk.keySwitchC_costs pr hc hk hx) ?_
  unfold Work.switch
  work

theorem relinearizePolyC_power_costs (hc : c.Dim K n) {k : RelinearizationKey} (hk : k.ksk.Dim c) {p : Poly} (hp : p.Dim c .powerBasis) :
    Costs (k.relinearizePolyC pr p) (Work.switch K n) fun r => r.1.Dim c .ntt ∧ r.2.Dim c .ntt := by
  unfold relinearizePolyC
  rw [if_neg (by rw [hp.2.1]; simp)]
  exact Ksk.keySwitchC_costs pr hc hk hp

end RelinearizationKey

/-- Scalers between two contexts of given sizes. -/
structure MultiplicationParameters.Dim (K n e : Nat) (c d : RqContext) (m : MultiplicationParameters) : Prop where
  src : c.Dim K n
  dst : d.Dim K e
  srcLen : c.moduli64.length = c.moduli.length
  dstLen : d.moduli64.length = d.moduli.length
  up : m.upScaler.src = c ∧ m.upScaler.dst = d
  down : m.downScaler.src = d ∧ m.downScaler.dst = c

theorem multiplyWithStrategyC_costs {m : MultiplicationParameters} (hm : m.Dim K n e c d) {x y : BfvCipherText} (hmp : x.params.mulParams[x.level]? = some m)
    (hx : x.Dim c) (hy : y.Dim c) {k : RelinearizationKey} (hk : k.ksk.Dim c) :
    Costs (multiplyWithStrategyC pr x y k) ⟨(n ^ 2 + 8 * n + 7 * e) * (K * 2 ^ (K - 1)), (2 * n ^ 2 + 5 * n + 7 * e) * 2 ^ K⟩ (BfvCipherText.Dim c) := by
  have at' : ∀ {z : BfvCipherText} {j : Nat} {p : Poly}, z.Dim c → idx z.cts j = .ok p → p.Dim c .ntt := fun hz hp =>
    hz _ (List.mem_of_getElem? (idx_eq_ok.mp hp))
  refine .liftBind fun _ _ => .liftBind fun _ _ => .liftBind fun _ _ => .liftBind fun _ _ => .liftBind fun _ _ => .liftBind fun m' hm' => ?_
  obtain rfl : m' = m := Option.some.inj ((idx_eq_ok.mp hm').symm.trans hmp)
  have up := fun {p : Poly} (hp : p.Dim c .ntt) => RqScaler.scaleC_ntt_costs pr hm.up.1 hm.up.2 hm.src hm.dst hm.dstLen hp
  have down := fun {p : Poly} (hp : p.Dim d .ntt) => RqScaler.scaleC_ntt_costs pr hm.down.1 hm.down.2 hm.dst hm.src hm.srcLen hp
  refine Costs.cast (.liftBind fun l0 h0 => (up (at' hx h0)).bind fun c00 d00 => .liftBind fun l1 h1 => (up (at' hx h1)).bind fun c01 d01 =>
    .liftBind fun r0 g0 => (up (at' hy g0)).bind fun c10 d10 => .liftBind fun r1 g1 => (up (at' hy g1)).bind fun c11 d11 =>
    (Poly.mulC_costs pr hm.dst d00 d10).bind fun c0 e0 => (Poly.mulC_costs pr hm.dst d00 d11).bind fun u eu => (Poly.mulC_costs pr hm.dst d10 d01).bind fun v _ =>
    .liftBind fun c1 e1 => (Poly.mulC_costs pr hm.dst d01 d11).bind fun c2 e2 => (down e0).bind fun f0 k0 => (down (Poly.add_dim pr eu e1)).bind fun f1 k1 =>
    (down e2).bind fun f2 k2 => (RelinearizationKey.relinearizePolyC_ntt_costs pr hm.src hk k2).bind fun r _ =>
    .liftBind fun z0 hz0 => .liftBind fun z1 hz1 => .pure ?_) ?_
  · intro p hp
    simp only [List.mem_cons, List.not_mem_nil, or_false] at hp
    rcases hp with rfl | rfl
    · exact Poly.add_dim pr k0 hz0
    · exact Poly.add_dim pr k1 hz1
  · work

theorem Repair.multiplyOnceC_costs {m : MultiplicationParameters} (hm : m.Dim K n e c d) {x y : BfvCipherText} (hmp : x.params.mulParams[x.level]? = some m)
    (hx : x.Dim c) (hy : y.Dim c) {k : RelinearizationKey} (hk : k.ksk.Dim c) :
    Costs (Repair.multiplyOnceC pr x y k) ⟨(n ^ 2 + 6 * n + 7 * e) * (K * 2 ^ (K - 1)), (2 * n ^ 2 + 4 * n + 7 * e) * 2 ^ K⟩ (BfvCipherText.Dim c) := by
  have at' : ∀ {z : BfvCipherText} {j : Nat} {p : Poly}, z.Dim c → idx z.cts j = .ok p → p.Dim c .ntt := fun hz hp =>
    hz _ (List.mem_of_getElem? (idx_eq_ok.mp hp))
  refine .liftBind fun _ _ => .liftBind fun _ _ => .liftBind fun _ _ => .liftBind fun _ _ => .liftBind fun _ _ => .liftBind fun m' hm' => ?_
  obtain rfl : m' = m := Option.some.inj ((idx_eq_ok.mp hm').symm.trans hmp)
  have up := fun {p : Poly} (hp : p.Dim c .ntt) => RqScaler.scaleC_ntt_costs pr hm.up.1 hm.up.2 hm.src hm.dst hm.dstLen hp
  have down := fun {p : Poly} (hp : p.Dim d .ntt) => RqScaler.scaleC_ntt_costs pr hm.down.1 hm.down.2 hm.dst hm.src hm.srcLen hp
  have down' := fun {p : Poly} (hp : p.Dim d .powerBasis) => RqScaler.scaleC_power_costs pr hm.down.1 hm.down.2 hm.dst hm.src hm.srcLen hp
  refine Costs.cast (.liftBind fun l0 h0 => (up (at' hx h0)).bind fun c00 d00 => .liftBind fun l1 h1 => (up (at' hx h1)).bind fun c01 d01 =>
    .liftBind fun r0 g0 => (up (at' hy g0)).bind fun c10 d10 => .liftBind fun r1 g1 => (up (at' hy g1)).bind fun c11 d11 =>
    (Poly.mulC_costs pr hm.dst d00 d10).bind fun c0 e0 => (Poly.mulC_costs pr hm.dst d00 d11).bind fun u eu => (Poly.mulC_costs pr hm.dst d10 d01).bind fun v _ =>
    .liftBind fun c1 e1 => (Poly.mulC_costs pr hm.dst d01 d11).bind fun c2 e2 => (down e0).bind fun f0 k0 => (down (Poly.add_dim pr eu e1)).bind fun f1 k1 =>
    (Poly.changeRepresentationC_power_costs pr hm.dst e2).bind fun c2' e2' => (down' e2').bind fun f2 k2 =>
    (RelinearizationKey.relinearizePolyC_power_costs pr hm.src hk k2).bind fun r _ =>
    .liftBind fun z0 hz0 => .liftBind fun z1 hz1 => .pure ?_) ?_
  · intro p hp
    simp only [List.mem_cons, List.not_mem_nil, or_false] at hp
    rcases hp with rfl | rfl
    · exact Poly.add_dim pr k0 hz0
    · exact Poly.add_dim pr k1 hz1
  · unfold Work.switch
    work

theorem BfvCipherText.mulPlainC_costs (hc : c.Dim K n) {x : BfvCipherText} (hq : x.params.qCtxs[x.level]? = some c) (hx : x.Dim c) (p : Plaintext) :
    Costs (x.mulPlainC pr p) ⟨n * (K * 2 ^ (K - 1)), 2 * n * 2 ^ K⟩ fun _ => True := by
  refine .liftBind fun _ _ => .liftBind fun c' hc' => .liftBind fun q hq' => ?_
  obtain rfl : c' = c := Option.some.inj ((idx_eq_ok.mp hc').symm.trans hq)
  refine Costs.cast ((Poly.changeRepresentationC_ntt_costs pr hc (Poly.fromRows_dim hq')).bind fun u hu => .liftBind fun a0 h0 =>
    (Poly.mulC_costs pr hc (hx _ (List.mem_of_getElem? (idx_eq_ok.mp h0))) hu).bind fun _ _ => .liftBind fun a1 h1 =>
    (Poly.mulC_costs pr hc (hx _ (List.mem_of_getElem? (idx_eq_ok.mp h1))) hu).bindPure fun _ _ => trivial) ?_
  work

theorem Omr.innerProductC_costs (hc : c.Dim K n) {cts : List BfvCipherText} {polys : List Poly} (hcts : ∀ x ∈ cts, x.Dim c) (hp : ∀ p ∈ polys, p.Dim c .ntt)
    (hne : cts ≠ []) : Costs (Omr.innerProductC pr cts polys) ⟨0, cts.length * (2 * n) * 2 ^ K⟩ fun _ => True := by
  refine .liftBind fun _ _ => .liftBind fun c0 h0 => .liftBind fun p0 g0 => ?_
  have one : ∀ {j : Nat} {x : BfvCipherText} {p : Poly}, idx cts j = .ok x → idx polys j = .ok p → Costs (x.mulPolyC pr p) ⟨0, 2 * n * 2 ^ K⟩ (BfvCipherText.Dim c) :=
    fun hx hp' => BfvCipherText.mulPolyC_costs pr hc (hcts _ (List.mem_of_getElem? (idx_eq_ok.mp hx))) (hp _ (List.mem_of_getElem? (idx_eq_ok.mp hp')))
  refine Costs.cast ((one h0 g0).bind fun x hx => (Costs.foldConst (w := ⟨0, 2 * n * 2 ^ K⟩) (I := fun _ => True) (fun st j _ _ => ?_) trivial)) ?_
  · refine Costs.cast (.liftBind fun c' hc' => .liftBind fun q hq => (one hc' hq).bind fun y _ => .lift fun _ _ => trivial) ?_
    work
  · obtain ⟨m, hm⟩ : ∃ m, cts.length = m + 1 := ⟨cts.length - 1, by have := List.length_pos_iff.mpr hne; omega⟩
    rw [List.length_range, hm, Nat.add_sub_cancel]
    work

/-! ### The variant computes the same ciphertext -/

namespace BfvMul
open Rg Poly

/-- Scaling down in the power basis gives the same polynomial as scaling down in the other representation. -/
theorem down_both {P : BfvParameters} {ext : List Nat} (hP : P.WF K ext) {i : Nat} {L : BfvLevel} (hL : P.At K ext i L) (pr : Profile)
    (g : Rg (2 ^ K)) : ∃ D : Rg (2 ^ K), L.mul.downScaler.scale pr (enc L.eCtx .powerBasis g) = .ok (enc L.qCtx .powerBasis D) ∧
      L.mul.downScaler.scale pr (enc L.eCtx .ntt g) = .ok (enc L.qCtx .ntt D) := by
  have hlen := elen_le hP hL
  obtain ⟨pr', hn⟩ := hL.wf.down
  have hQE : L.qCtx.Q ∣ L.eCtx.Q := by rw [eQ hL]; exact Dvd.intro _ rfl
  obtain ⟨x, y, -, h1, h2⟩ := RqScaler.scale_enc hL.wf.ectx hL.wf.ctx pr (by omega) hL.wf.ctx.Q_pos hn
    (Or.inl (hQE.mul_left _)) (fun he => absurd he (hL.t_lt_Q hP).ne)
    (SecretKey.prod_le hL.wf.ectx hlen) g
  exact ⟨_, h1, h2⟩

theorem multiplyOnce_val {P : BfvParameters} {ext : List Nat} (hP : P.WF K ext) {i : Nat} {L : BfvLevel} (hL : P.At K ext i L) (pr : Profile) {x y : BfvCipherText}
    (hx : x.params = P) (hy : y.params = P) (hxl : x.level = i) (hyl : y.level = i) {f0 f1 g0 g1 : Rg (2 ^ K)}
    (hxc : x.cts = [enc L.qCtx .ntt f0, enc L.qCtx .ntt f1]) (hyc : y.cts = [enc L.qCtx .ntt g0, enc L.qCtx .ntt g1])
    {rlk : RelinearizationKey} (hrp : rlk.params = P) :
    (Repair.multiplyOnceC pr x y rlk).val = multiplyWithStrategy pr x y rlk := by
  have he := hL.wf.ectx
  have hc := hL.wf.ctx
  obtain ⟨F0, u0, -⟩ := up hP hL pr f0
  obtain ⟨F1, u1, -⟩ := up hP hL pr f1
  obtain ⟨G0, v0, -⟩ := up hP hL pr g0
  obtain ⟨G1, v1, -⟩ := up hP hL pr g1
  obtain ⟨D0, -, d0, -⟩ := down hP hL pr (F0 * G0)
  obtain ⟨D1, -, d1, -⟩ := down hP hL pr (F0 * G1 + G0 * F1)
  obtain ⟨D2, b2, d2⟩ := down_both hP hL pr (F1 * G1)
  have hr : rlk.relinearizePoly pr (enc L.qCtx .powerBasis D2) = rlk.relinearizePoly pr (enc L.qCtx .ntt D2) := by
    unfold RelinearizationKey.relinearizePoly
    rw [if_neg (show (enc L.qCtx .powerBasis D2).representation ≠ .ntt by simp [enc]), if_pos (show (enc L.qCtx .ntt D2).representation = .ntt from rfl),
      Poly.toPower_enc hc, res_ok_bind]
  simp only [Repair.multiplyOnceC, multiplyWithStrategy, bind_val, lift_val, pure_val, RqScaler.scaleC_val, Poly.mulC_val, RelinearizationKey.relinearizePolyC_val,
    Poly.changeRepresentationC_val]
  rw [rassert_ok (hxl.trans hyl.symm), res_ok_bind, rassert_ok (hx.trans hy.symm), res_ok_bind, rassert_ok (hx.trans hrp.symm), res_ok_bind,
    rassert_ok (show x.cts.length = 2 by rw [hxc]; rfl), res_ok_bind, rassert_ok (show y.cts.length = 2 by rw [hyc]; rfl), res_ok_bind,
    hx, hxl, idx_of hL.mp, res_ok_bind, hxc, hyc]
  simp only [show ∀ a b : Poly, idx [a, b] 0 = .ok a from fun _ _ => rfl, show ∀ a b : Poly, idx [a, b] 1 = .ok b from fun _ _ => rfl,
    res_ok_bind, u0, u1, v0, v1, mul_enc he, add_enc he, d0, d1, d2, b2, Poly.toPower_enc he, hr]

end BfvMul
end OnionPIR
