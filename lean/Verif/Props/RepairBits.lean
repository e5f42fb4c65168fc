import Verif.Props.Repair
import Verif.Props.RqExtra
import Verif.Props.Prints
import Verif.Proofs.Unsafe
/-
C80, for C56: the bit decomposition of a polynomial with the corrected number of bits and the digits stored.
-/
namespace OnionPIR
open Rg Poly Spec

variable {N : Nat} {l : List Nat}

namespace RepairBits

theorem sum_pad {L k : Nat} {ds : List Nat} (h : ds.length ≤ L) :
    ∑ i ∈ Finset.range L, (ds ++ List.replicate (L - ds.length) 0).getD i 0 * 2 ^ (k * i) =
      ∑ i ∈ Finset.range ds.length, ds.getD i 0 * 2 ^ (k * i) := by
  rw [← Finset.sum_subset (Finset.range_subset_range.mpr h)]
  · refine Finset.sum_congr rfl fun i hi => ?_
    have hi := Finset.mem_range.mp hi
    simp [List.getD, List.getElem?_append, hi]
  · intro i _ hi
    have hi : ds.length ≤ i := by simpa using hi
    simp only [List.getD, List.getElem?_append, not_lt.mpr hi, if_false, List.getElem?_replicate]
    split_ifs <;> simp

theorem digits_le {n k L : Nat} (hk : 1 ≤ k) : (n + k - 1) / k ≤ L ↔ n ≤ k * L := by
  rw [Nat.div_le_iff_le_mul_add_pred (by omega)]
  omega

/-- The moduli of a context, and the number of bits of each. -/
theorem moduli {c : RqContext} (hc : IsContext N l c) (pr : Profile) : c.moduli.length = l.length ∧ c.moduli64 = l ∧ c.degree = N ∧
    ∀ (i : Nat) q, c.moduli[i]? = some q → l[i]? = some q.p ∧ q.p < 2 ^ 62 ∧ Repair.bits pr q = .ok (Nat.size q.p) := by
  obtain ⟨K, rfl, hw, rfl⟩ := RqP.ctx hc
  have hm : c.moduli64 = c.moduli.map fun q => q.p := by rw [hw.core.m64_ops, hw.moduli_eq]; simp
  refine ⟨by rw [hm]; simp, rfl, hw.core.deg, fun i q hq => ?_⟩
  have hmem : q ∈ c.nttOps.map (·.p) := hw.moduli_eq ▸ List.mem_of_getElem? hq
  obtain ⟨op, hop, rfl⟩ := List.mem_map.mp hmem
  have hwf := hw.opp_wf hop
  have h2 := hwf.two_le
  have hlt := hwf.lt
  refine ⟨by rw [hm, List.getElem?_map, hq]; rfl, hlt, ?_⟩
  have hs : Nat.size op.p.p = op.p.p.log2 + 1 := by
    apply le_antisymm
    · exact Nat.size_le.mpr Nat.lt_log2_self
    · exact Nat.lt_size.mpr (Nat.log2_self_le (by omega))
  have hlog : op.p.p.log2 < 62 := (Nat.log2_lt (by omega)).mpr hlt
  unfold Repair.bits leadingZeros
  rw [if_neg (by omega), subW_ok (by omega), hs]
  congr 1; omega

/-- One coefficient. -/
theorem step (pr : Profile) {q : Modulus} (hq : q.p < 2 ^ 62) (hb : Repair.bits pr q = .ok (Nat.size q.p)) {k L v : Nat} (hk : 1 ≤ k) (hv : v < q.p) :
    ∃ ds, decomposeBits pr v (Nat.size q.p) k = .ok ds ∧ (ds.length ≤ L ↔ Nat.size q.p ≤ k * L) ∧ (∀ d ∈ ds, d < 2 ^ k) ∧
      ∑ i ∈ Finset.range ds.length, ds.getD i 0 * 2 ^ (k * i) = v := by
  have hs : Nat.size q.p ≤ 62 := Nat.size_le.mpr hq
  obtain ⟨ds, d1, d2, d3, d4⟩ := c08_decompose_bits pr (m := v) (n := Nat.size q.p) (k := k) (by omega) (by omega)
    (hv.trans (Nat.lt_size_self _)) hk
  exact ⟨ds, d1, by rw [d2]; exact digits_le hk, d3, d4⟩

theorem zip_getElem {c : RqContext} (hc : IsContext N l c) (pr : Profile) {rows : List (List Nat)} (h2 : ValidRows c rows) {i : Nat}
    {rq : List Nat × Modulus} (h : (rows.zip c.moduli)[i]? = some rq) :
    rq.1 = rows.getD i [] ∧ rq.1.length = N ∧ (∀ v ∈ rq.1, v < rq.2.p) ∧ l[i]? = some rq.2.p ∧ rq.2.p < 2 ^ 62 ∧
      Repair.bits pr rq.2 = .ok (Nat.size rq.2.p) := by
  obtain ⟨m1, m2, m3, m4⟩ := moduli hc pr
  obtain ⟨z1, z2⟩ := List.getElem?_zip_eq_some.mp h
  obtain ⟨a, b, d⟩ := m4 i _ z2
  have hi : i < l.length := (List.getElem?_eq_some_iff.mp a).1
  have hrow := h2.2 i (m2 ▸ hi)
  have hr : rows.getD i [] = rq.1 := by rw [List.getD, z1]; rfl
  rw [hr, m3, m2, List.getD, a] at hrow
  exact ⟨hr.symm, hrow.1, hrow.2, a, b, d⟩

end RepairBits

open RepairBits in
/-- C80, for C56: if the array has room for the digits of every modulus, the digits of every coefficient are below `2^base` and recompose to it. -/
theorem c80_bit_decomposition {c : RqContext} (hc : IsContext N l c) (pr : Profile) {p : Poly} (h1 : p.context = c) (h2 : ValidRows c p.coefficients)
    (hbase : 1 ≤ c.bitDecomposition.base) (hfit : ∀ q ∈ l, Nat.size q ≤ c.bitDecomposition.base * c.bitDecomposition.l)
    (hcap : 8 * (l.length * c.bitDecomposition.l * N) < 2 ^ 63) :
    ∃ D, Repair.applyBitDecomposition pr p = .ok D ∧ D.length = l.length ∧ ∀ (i : Nat) row, D[i]? = some row → row.length = N ∧
      ∀ (j : Nat) ds, row[j]? = some ds → ds.length = c.bitDecomposition.l ∧ (∀ d ∈ ds, d < 2 ^ c.bitDecomposition.base) ∧
        ∑ k ∈ Finset.range c.bitDecomposition.l, ds.getD k 0 * 2 ^ (c.bitDecomposition.base * k) = (p.coefficients.getD i []).getD j 0 := by
  subst h1
  obtain ⟨m1, m2, m3, m4⟩ := moduli hc pr
  have hne : 0 < l.length := by
    obtain ⟨K, rfl, hw, rfl⟩ := RqP.ctx hc
    exact List.length_pos_iff.mpr hw.core.ne
  have hN : 0 < N := by obtain ⟨K, rfl, -⟩ := RqP.ctx hc; positivity
  have hL : 0 < p.context.bitDecomposition.l := by
    obtain ⟨q, hq⟩ := List.exists_mem_of_length_pos hne
    have h62 : 1 ≤ q := by
      obtain ⟨K, rfl, hw, rfl⟩ := RqP.ctx hc
      rw [hw.core.m64_ops] at hq
      obtain ⟨op, hop, rfl⟩ := List.mem_map.mp hq
      exact (hw.opp_wf hop).pos
    have := hfit q hq
    have h3 : 0 < Nat.size q := Nat.size_pos.mpr h62
    by_contra h0
    rw [show p.context.bitDecomposition.l = 0 by omega] at this
    omega
  have hz : Poly.zeros3 p.context.moduli.length p.context.bitDecomposition.l p.context.degree = .ok () := by
    unfold Poly.zeros3
    rw [m1, m3, max_eq_left hne, max_eq_left hL, max_eq_left hN, if_pos ⟨by omega, hcap⟩]
  unfold Repair.applyBitDecomposition
  rw [hz, res_ok_bind]
  obtain ⟨D, d1, d2, d3⟩ := Prints.mapR_exists (L := p.coefficients.zip p.context.moduli)
    (f := fun (rq : List Nat × Modulus) => mapR (fun v => do
      let b ← Repair.bits pr rq.2
      let ds ← decomposeBits pr v b p.context.bitDecomposition.base
      if ds.length ≤ p.context.bitDecomposition.l then .ok (ds ++ List.replicate (p.context.bitDecomposition.l - ds.length) 0) else .error .bounds)
      rq.1)
    (Q := fun i row => row.length = N ∧ ∀ (j : Nat) ds, row[j]? = some ds → ds.length = p.context.bitDecomposition.l ∧
      (∀ d ∈ ds, d < 2 ^ p.context.bitDecomposition.base) ∧
        ∑ k ∈ Finset.range p.context.bitDecomposition.l, ds.getD k 0 * 2 ^ (p.context.bitDecomposition.base * k) =
          (p.coefficients.getD i []).getD j 0) (by
    intro i rq hrq
    obtain ⟨a1, a2, a3, a4, a5, a6⟩ := zip_getElem hc pr h2 hrq
    obtain ⟨row, r1, r2, r3⟩ := Prints.mapR_exists (L := rq.1) (f := fun v => do
        let b ← Repair.bits pr rq.2
        let ds ← decomposeBits pr v b p.context.bitDecomposition.base
        if ds.length ≤ p.context.bitDecomposition.l then .ok (ds ++ List.replicate (p.context.bitDecomposition.l - ds.length) 0) else .error .bounds)
      (Q := fun j ds => ds.length = p.context.bitDecomposition.l ∧ (∀ d ∈ ds, d < 2 ^ p.context.bitDecomposition.base) ∧
        ∑ k ∈ Finset.range p.context.bitDecomposition.l, ds.getD k 0 * 2 ^ (p.context.bitDecomposition.base * k) = rq.1.getD j 0) (by
      intro j v hv
      obtain ⟨ds, e1, e2, e3, e4⟩ := step pr (L := p.context.bitDecomposition.l) a5 a6 hbase (a3 v (List.mem_of_getElem? hv))
      have hlen := e2.mpr (hfit _ (List.mem_of_getElem? a4))
      refine ⟨ds ++ List.replicate (p.context.bitDecomposition.l - ds.length) 0, ?_, by simp; omega, ?_, ?_⟩
      · rw [a6, res_ok_bind, e1, res_ok_bind, if_pos hlen]
      · intro d hd
        rcases List.mem_append.mp hd with hd | hd
        · exact e3 d hd
        · rw [(List.mem_replicate.mp hd).2]; positivity
      · rw [sum_pad hlen, e4, List.getD, hv]; rfl)
    exact ⟨row, r1, r2.trans a2, fun j ds hj => a1 ▸ r3 j ds hj⟩)
  refine ⟨D, d1, ?_, d3⟩
  rw [d2, List.length_zip, h2.1, m1, m2, min_self]

open RepairBits in
/-- C80, for C56: the room is needed. If the digits of some modulus do not fit, the corrected function panics as well, whatever the coefficients. -/
theorem c80_bit_decomposition_short {c : RqContext} (hc : IsContext N l c) (pr : Profile) {p : Poly} (h1 : p.context = c)
    (h2 : ValidRows c p.coefficients) (hbase : 1 ≤ c.bitDecomposition.base)
    (hcap : 8 * (l.length * c.bitDecomposition.l * N) < 2 ^ 63) (hl : 1 ≤ c.bitDecomposition.l)
    (hshort : ∃ q ∈ l, c.bitDecomposition.base * c.bitDecomposition.l < Nat.size q) :
    Repair.applyBitDecomposition pr p = .error .bounds := by
  subst h1
  obtain ⟨m1, m2, m3, m4⟩ := moduli hc pr
  obtain ⟨q, hq, hsz⟩ := hshort
  obtain ⟨i, hi⟩ := List.mem_iff_getElem?.mp hq
  have hil : i < l.length := (List.getElem?_eq_some_iff.mp hi).1
  have hN : 0 < N := by obtain ⟨K, rfl, -⟩ := RqP.ctx hc; positivity
  have hz : Poly.zeros3 p.context.moduli.length p.context.bitDecomposition.l p.context.degree = .ok () := by
    unfold Poly.zeros3
    rw [m1, m3, max_eq_left (show 1 ≤ l.length by omega), max_eq_left hl, max_eq_left hN, if_pos ⟨by omega, hcap⟩]
  have hlen : (p.coefficients.zip p.context.moduli).length = l.length := by rw [List.length_zip, h2.1, m1, m2, min_self]
  unfold Repair.applyBitDecomposition
  rw [hz, res_ok_bind]
  have hone : ∀ (i : Nat) rq, (p.coefficients.zip p.context.moduli)[i]? = some rq → ∀ v ∈ rq.1,
      (Nat.size rq.2.p ≤ p.context.bitDecomposition.base * p.context.bitDecomposition.l → Total (do
        let b ← Repair.bits pr rq.2
        let ds ← decomposeBits pr v b p.context.bitDecomposition.base
        if ds.length ≤ p.context.bitDecomposition.l then .ok (ds ++ List.replicate (p.context.bitDecomposition.l - ds.length) 0) else .error .bounds)) ∧
      (¬ Nat.size rq.2.p ≤ p.context.bitDecomposition.base * p.context.bitDecomposition.l → (do
        let b ← Repair.bits pr rq.2
        let ds ← decomposeBits pr v b p.context.bitDecomposition.base
        if ds.length ≤ p.context.bitDecomposition.l then .ok (ds ++ List.replicate (p.context.bitDecomposition.l - ds.length) 0)
          else (.error .bounds : Res (List Nat))) = .error .bounds) := by
    intro i rq hrq v hv
    obtain ⟨a1, a2, a3, a4, a5, a6⟩ := zip_getElem hc pr h2 hrq
    obtain ⟨ds, e1, e2, -⟩ := step pr (L := p.context.bitDecomposition.l) a5 a6 hbase (a3 v hv)
    rw [a6, res_ok_bind, e1, res_ok_bind]
    exact ⟨fun h => by rw [if_pos (e2.mpr h)]; exact ⟨_, rfl⟩, fun h => by rw [if_neg fun h' => h (e2.mp h')]⟩
  obtain ⟨rq, hrq⟩ : ∃ rq, (p.coefficients.zip p.context.moduli)[i]? = some rq := ⟨_, List.getElem?_eq_getElem (hlen ▸ hil)⟩
  have hrow : ∀ (i : Nat) rq, (p.coefficients.zip p.context.moduli)[i]? = some rq →
      ¬ Nat.size rq.2.p ≤ p.context.bitDecomposition.base * p.context.bitDecomposition.l → mapR (fun v => do
        let b ← Repair.bits pr rq.2
        let ds ← decomposeBits pr v b p.context.bitDecomposition.base
        if ds.length ≤ p.context.bitDecomposition.l then .ok (ds ++ List.replicate (p.context.bitDecomposition.l - ds.length) 0)
          else (.error .bounds : Res (List Nat))) rq.1 = .error .bounds := by
    intro i rq hrq h
    obtain ⟨a1, a2, -⟩ := zip_getElem hc pr h2 hrq
    obtain ⟨v, hv⟩ := List.exists_mem_of_length_pos (show 0 < rq.1.length by omega)
    exact RnsScaler.mapR_bounds (fun x hx => .inr ((hone i rq hrq x hx).2 h)) hv ((hone i rq hrq v hv).2 h)
  refine RnsScaler.mapR_bounds (fun x hx => ?_) (List.mem_of_getElem? hrq) ?_
  · obtain ⟨k, hk⟩ := List.mem_iff_getElem?.mp hx
    by_cases hs : Nat.size x.2.p ≤ p.context.bitDecomposition.base * p.context.bitDecomposition.l
    · exact .inl (BfvParameters.mapR_exists fun v hv => (hone k x hk v hv).1 hs)
    · exact .inr (hrow k x hk hs)
  · refine hrow i rq hrq ?_
    obtain ⟨-, -, -, a4, -⟩ := zip_getElem hc pr h2 hrq
    rw [hi] at a4
    rw [← Option.some.inj a4]
    omega

/-- C80, for C56: with more than `2^60` words, the array cannot be allocated. -/
theorem c80_bit_decomposition_capacity {c : RqContext} (hc : IsContext N l c) (pr : Profile) {p : Poly} (h1 : p.context = c)
    (hcap : 2 ^ 63 ≤ 8 * (l.length * c.bitDecomposition.l * N)) : Repair.applyBitDecomposition pr p = .error .capacity := by
  subst h1
  obtain ⟨m1, m2, m3, m4⟩ := RepairBits.moduli hc pr
  unfold Repair.applyBitDecomposition Poly.zeros3
  rw [m1, m3, if_neg fun h => by omega]
  rfl

/-- The context keeps the decomposition it is created with. -/
theorem c80_context {pr : Profile} {sample : Nat → Nat → Nat} {degree : Nat} {bd : BitDecomposition} {c : RqContext}
    (h : RqContext.new pr sample l degree bd = .ok c) : c.bitDecomposition = bd := by
  have hf : ∀ {l rns ops next} {c : RqContext}, RqContext.finish pr l degree bd rns ops next = .ok c → c.bitDecomposition = bd := by
    intro l rns ops next c h
    unfold RqContext.finish at h
    obtain ⟨_, -, h⟩ := bind_eq_ok.mp h
    obtain ⟨_, -, h⟩ := bind_eq_ok.mp h
    rw [← Except.ok.inj h]
  unfold RqContext.new at h
  cases hl : l.length with
  | zero =>
    rw [hl] at h
    unfold RqContext.newAux at h
    obtain ⟨_, -, h⟩ := bind_eq_ok.mp h
    obtain ⟨_, -, h⟩ := bind_eq_ok.mp h
    exact hf h
  | succ n =>
    rw [hl] at h
    unfold RqContext.newAux at h
    obtain ⟨_, -, h⟩ := bind_eq_ok.mp h
    obtain ⟨_, -, h⟩ := bind_eq_ok.mp h
    split at h
    · obtain ⟨_, -, h⟩ := bind_eq_ok.mp h
      exact hf h
    · exact hf h

/-- C80, for C56: the decomposition of the code base, eight digits of four bits (one test has three), has no room for a modulus of more than 32 bits. -/
theorem c80_bit_decomposition_shipped {c : RqContext} (hc : IsContext N l c) (pr : Profile) (hbd : c.bitDecomposition = ⟨4, 8⟩) {p : Poly}
    (h1 : p.context = c) (h2 : ValidRows c p.coefficients) (hcap : l.length * N < 2 ^ 57) (hq : ∃ q ∈ l, 2 ^ 32 ≤ q) :
    Repair.applyBitDecomposition pr p = .error .bounds := by
  obtain ⟨q, hq, h32⟩ := hq
  refine c80_bit_decomposition_short hc pr h1 h2 (by rw [hbd]; norm_num) ?_ (by rw [hbd]; norm_num) ⟨q, hq, ?_⟩
  · rw [hbd]
    show 8 * (l.length * 8 * N) < 2 ^ 63
    rw [Nat.mul_right_comm]
    omega
  · rw [hbd]
    exact Nat.lt_size.mpr h32

theorem RepairBits.exists_context (bd : BitDecomposition) : ∃ c, IsContext 8 [17, 97] c ∧ c.bitDecomposition = bd := by
  obtain ⟨c, h, hc⟩ := c20_context_exists .debug (K := 3) (by norm_num) (by norm_num) (l := [17, 97]) (by simp) (by decide)
    (by intro q hq; fin_cases hq <;> norm_num) exSample_lt
    (by
      intro q hq
      fin_cases hq
      · exact ⟨1, by decide⟩
      · exact ⟨3, by decide⟩) bd
  exact ⟨c, hc, c80_context h⟩

/-- Two digits of four bits hold the residues modulo 17 and 97, one does not: the same polynomial is decomposed with the one and panics with the
other; the code panics with both. -/
example : (∃ c p D, IsContext 8 [17, 97] c ∧ c.bitDecomposition = ⟨4, 2⟩ ∧ Denotes c .ntt (cf (xx : Rg 8)) p ∧
      Repair.applyBitDecomposition .debug p = .ok D ∧ p.applyBitDecomposition .debug = .error .capacity) ∧
    ∃ c p, IsContext 8 [17, 97] c ∧ c.bitDecomposition = ⟨4, 1⟩ ∧ Denotes c .ntt (cf (xx : Rg 8)) p ∧
      Repair.applyBitDecomposition .debug p = .error .bounds := by
  constructor
  · obtain ⟨c, hc, hb⟩ := RepairBits.exists_context ⟨4, 2⟩
    obtain ⟨p, hp⟩ := RqP.exists_denotes hc xx
    obtain ⟨D, hD, -⟩ := c80_bit_decomposition hc .debug hp.1 hp.2.2.1 (by rw [hb]; norm_num) (by
      rw [hb]; intro q hq; fin_cases hq <;> decide) (by rw [hb]; norm_num)
    exact ⟨c, p, D, hc, hb, hp, hD, c56_panics hc .debug hp.1 hp.2.2.1⟩
  · obtain ⟨c, hc, hb⟩ := RepairBits.exists_context ⟨4, 1⟩
    obtain ⟨p, hp⟩ := RqP.exists_denotes hc xx
    exact ⟨c, p, hc, hb, hp, c80_bit_decomposition_short hc .debug hp.1 hp.2.2.1 (by rw [hb]; norm_num) (by rw [hb]; norm_num)
      (by rw [hb]) ⟨97, by simp, by rw [hb]; decide⟩⟩

/-- An array of `2^61` words cannot be allocated. -/
example : ∃ c p, IsContext 8 [17, 97] c ∧ Denotes c .ntt (cf (xx : Rg 8)) p ∧ Repair.applyBitDecomposition .release p = .error .capacity := by
  obtain ⟨c, hc, hb⟩ := RepairBits.exists_context ⟨4, 2 ^ 57⟩
  obtain ⟨p, hp⟩ := RqP.exists_denotes hc xx
  exact ⟨c, p, hc, hp, c80_bit_decomposition_capacity hc .release hp.1 (by rw [hb]; norm_num)⟩

/-- The first modulus of `trial` (src/ksk.rs:181) with the decomposition of the tests. -/
example : ∃ c p, IsContext 8 [1125899906840833] c ∧ c.bitDecomposition = ⟨4, 8⟩ ∧ Denotes c .ntt (cf (xx : Rg 8)) p ∧
    Repair.applyBitDecomposition .release p = .error .bounds := by
  have hpr : Nat.Prime 1125899906840833 := Ex.pratt_prime _ (by decide +kernel)
  obtain ⟨c, h, hc⟩ := c20_context_exists .debug (K := 3) (by norm_num) (by norm_num) (l := [1125899906840833]) (by simp) (by simp)
    (by intro q hq; rw [List.mem_singleton.mp hq]; exact ⟨hpr, by norm_num, by norm_num⟩) Ex.goodSample_lt
    (by intro q hq; rw [List.mem_singleton.mp hq]; exact ⟨0, by norm_num, Ex.goodSample_good hpr (by norm_num)⟩) ⟨4, 8⟩
  obtain ⟨p, hp⟩ := RqP.exists_denotes hc xx
  exact ⟨c, p, hc, c80_context h, hp, c80_bit_decomposition_shipped hc .release (c80_context h) hp.1 hp.2.2.1 (by norm_num) ⟨_, List.mem_singleton.mpr rfl, by norm_num⟩⟩

end OnionPIR
