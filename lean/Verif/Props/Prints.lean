import Verif.Model.Prints
import Verif.Spec.Prints
import Verif.Proofs.Scatter
import Verif.Props.Tests
import Verif.Props.Simd
import Verif.Props.Noise
import Verif.Props.Concrete

/-! C90: what the tests of the repository print, for all inputs and all randomness. -/

namespace OnionPIR
open Rg Poly Spec

variable {N t : Nat} {l : List Nat} {variance : Nat} {P : BfvParameters}

/-! ### SIMD encoding -/

namespace Prints

theorem find_last {N : Nat} {f : Nat → Nat} {x : Nat} :
    (∃ k, k < N ∧ f k = x ∧ (∀ k', k < k' → k' < N → f k' ≠ x) ∧ (List.range N).reverse.find? (fun k => f k == x) = some k) ∨
      ((∀ k, k < N → f k ≠ x) ∧ (List.range N).reverse.find? (fun k => f k == x) = none) := by
  induction N with
  | zero => right; simp
  | succ n ih =>
    rw [List.range_succ, List.reverse_append, List.reverse_singleton, List.singleton_append, List.find?_cons]
    by_cases hn : f n = x
    · left
      exact ⟨n, by omega, hn, fun k' a b => by omega, by simp [hn]⟩
    · rw [show (f n == x) = false by simpa using hn]
      rcases ih with ⟨k, h1, h2, h3, h4⟩ | ⟨h1, h2⟩
      · refine .inl ⟨k, by omega, h2, fun k' a b => ?_, h4⟩
        rcases Nat.lt_or_ge k' n with hk | hk
        · exact h3 k' a hk
        · rwa [show k' = n by omega]
      · refine .inr ⟨fun k hk => ?_, h2⟩
        rcases Nat.lt_or_ge k n with hk' | hk'
        · exact h1 k hk'
        · rwa [show k = n by omega]

theorem slotValue_lt (ht : 0 < t) {vals : List Nat} (hv : ∀ v ∈ vals, v < t) (x : Nat) : slotValue N vals x < t := by
  unfold slotValue
  split
  · rename_i k _
    by_cases hk : k < vals.length
    · rw [getD_eq_getElem' _ _ _ hk]; exact hv _ (List.getElem_mem hk)
    · simp [List.getD, not_lt.mp hk, ht]
  · exact ht

end Prints

/-- C90: SIMD encoding and decoding. The polynomial of an encoded vector takes, at the root with exponent `x`, the value of the last slot with this
exponent, and vanishes at the roots that belong to no slot; decoding evaluates at the exponents of the slots. -/
theorem c90_simd (h : IsParams N t l variance P) : ∃ psi : ZMod t, psi ^ N = -1 ∧
    (∀ (pr : Profile) (lev : Nat) (m : Rg N), ∃ out, (⟨P, lev, .simd, residues t m⟩ : Plaintext).decode pr = .ok out ∧ SlotsOf t psi m out) ∧
    ∀ (pr : Profile) (vals : List Nat) (lev : Nat), IsVec t N vals → ∃ pt, Plaintext.new pr P vals lev .simd = .ok pt ∧ IsVec t N pt.values ∧
      pt = ⟨P, lev, .simd, pt.values⟩ ∧ ∀ x, Odd x → ev (psi ^ x) (msgRing N pt.values) = (slotValue N vals (x % (2 * N)) : ZMod t) := by
  have hpar := h
  obtain ⟨K, ext, rfl, hw, rfl, rfl, rfl⟩ := BfvP.params h
  have hs := Plaintext.simdWF hw
  have hpos : 0 < 2 ^ K := by positivity
  obtain ⟨op, psi, psiInv, hop, ho, hp⟩ := hs.ntt
  rw [← hp]
  refine ⟨psi, ho.psi_pow, fun pr lev m => ?_, fun pr vals lev hv => ?_⟩
  · refine ⟨(List.range (2 ^ K)).map fun i => (rowN m op).getD (P.matrixRepsIndexMap.getD i 0) 0, ?_, ?_, ?_⟩
    · unfold Plaintext.decode
      simp only
      rw [hop, show unwrapR (some op) = .ok op from rfl, res_ok_bind, show residues op.p.p m = rowP m op.p.p from rfl, forward_row ho,
        res_ok_bind, Plaintext.gather_ok hs (length_rowN m op)]
    · simp
    · intro k hk
      have hm := hs.map.2 k hk
      have := NeZero.mk (Nat.pos_iff_ne_zero.mp ho.mod.pos)
      rw [NttOperator.getD_map_of_lt _ _ _ 0 0 (by simpa using hk), show (List.range (2 ^ K)).getD k 0 = k by simp [List.getD, hk],
        getD_rowN m op hm]
      refine ⟨ZMod.val_lt _, ?_⟩
      rw [ZMod.natCast_zmod_val, ptOf, psiOf_eq ho, Simd.slotExp_eq hw hk]
  · have hv' : ∀ v ∈ vals, v < P.plaintextModulus := by rw [← hp]; exact hv.2
    obtain ⟨e, e1, e2, e3, e4⟩ := Plaintext.scatter_ok hs hv.1.ge hw.t_prime.pos hv'
    obtain ⟨b, b1, b2, b3, b4⟩ := NttOperator.forward_backward ho pr e2 (by rw [hp]; exact e3)
    refine ⟨⟨P, lev, .simd, b⟩, ?_, ⟨b2, b3⟩, rfl, fun x hx => ?_⟩
    · unfold Plaintext.new Plaintext.encode
      simp only
      rw [e1, res_ok_bind, hop, show unwrapR (some op) = .ok op from rfl, res_ok_bind, b1, res_ok_bind]
    · have hne := NeZero.mk (Nat.pos_iff_ne_zero.mp ho.mod.pos)
      have hb : rowN (msgRing (2 ^ K) b) op = e := by
        have h1 := forward_row ho pr (msgRing (2 ^ K) b)
        rw [show rowP (msgRing (2 ^ K) b) op.p.p = residues op.p.p (msgRing (2 ^ K) b) from rfl, Simd.residues_msg hpos ⟨b2, b3⟩, b4] at h1
        exact (Except.ok.inj h1).symm
      have hpow : (psi : ZMod op.p.p) ^ x = psi ^ (x % (2 * 2 ^ K)) := by
        have h1 : (psi : ZMod op.p.p) ^ (2 * 2 ^ K) = 1 := by rw [mul_comm, pow_mul, ho.psi_pow]; ring
        conv_lhs => rw [← Nat.div_add_mod x (2 * 2 ^ K), pow_add, pow_mul, h1, one_pow, one_mul]
      have hx' : (x % (2 * 2 ^ K)) % 2 = 1 := by rw [Nat.mod_mul_right_mod]; exact Nat.odd_iff.mp hx
      have hxl := Nat.mod_lt x (show 0 < 2 * 2 ^ K by positivity)
      rw [hpow]
      generalize x % (2 * 2 ^ K) = y at hx' hxl
      obtain ⟨z, rfl⟩ : ∃ z, y = 2 * z + 1 := ⟨y / 2, by omega⟩
      have hz : z < 2 ^ K := by omega
      have hzr := reverseBits_reverseBits K z hz
      have hzl : reverseBits K z < 2 ^ K := reverseBits_lt K z
      have hslot : ∀ i, i < 2 ^ K → (slotExp (2 ^ K) i = 2 * z + 1 ↔ P.matrixRepsIndexMap.getD i 0 = reverseBits K z) := by
        intro i hi
        rw [← Simd.slotExp_eq hw hi]
        constructor
        · intro h1
          rw [← show reverseBits K (P.matrixRepsIndexMap.getD i 0) = z by omega, reverseBits_reverseBits _ _ (hs.map.2 i hi)]
        · intro h1
          rw [h1, hzr]
      have hval : ev ((psi : ZMod op.p.p) ^ (2 * z + 1)) (msgRing (2 ^ K) b) = (e.getD (reverseBits K z) 0 : ZMod op.p.p) := by
        rw [← hb, getD_rowN _ op hzl, ZMod.natCast_zmod_val, ptOf, psiOf_eq ho, hzr]
      rw [hval]
      congr 1
      unfold slotValue
      rcases Prints.find_last (N := 2 ^ K) (f := slotExp (2 ^ K)) (x := 2 * z + 1) with ⟨k, h1, h2, h3, h4⟩ | ⟨h1, h2⟩
      · rw [h4]
        have hk := (hslot k h1).mp h2
        have := e4 k h1 fun i' a b hc => h3 i' a b ((hslot i' b).mpr (hc.trans hk))
        rwa [hk] at this
      · rw [h2]
        exact Plaintext.scatter_unused hs hv.1.ge e1 hzl fun i hi hc => h1 i hi ((hslot i hi).mpr hc)

/-- C90: decoding an encoded vector returns in every slot the last value among the slots with the same exponent. This sharpens C28, which says
when the vector itself is returned. -/
theorem c90_round_trip (h : IsParams N t l variance P) (pr pr' : Profile) {vals : List Nat} (hv : IsVec t N vals) (lev : Nat) :
    ∃ pt, Plaintext.new pr P vals lev .simd = .ok pt ∧ pt.decode pr' = .ok ((List.range N).map fun k => slotValue N vals (slotExp N k)) := by
  have hN := Simd.pos h
  obtain ⟨psi, hp, hd, he⟩ := c90_simd h
  obtain ⟨pt, p1, p2, p3, p4⟩ := he pr vals lev hv
  obtain ⟨out, o1, o2, o3⟩ := hd pr' lev (msgRing N pt.values)
  rw [Simd.residues_msg hN p2, ← p3] at o1
  refine ⟨pt, p1, ?_⟩
  rw [o1, Simd.eq_map out _ o2 fun k hk => ?_]
  have hodd := Simd.slotExp_odd hN k
  have hlt : slotExp N k < 2 * N := by unfold slotExp; split_ifs <;> exact Nat.mod_lt _ (by omega)
  rw [← Nat.mod_eq_of_lt (Prints.slotValue_lt (N := N) (Simd.t_pos h) hv.2 (slotExp N k))]
  refine Simd.nat_of_cast (o3 k hk).1 ?_
  rw [(o3 k hk).2, p4 _ hodd, Nat.mod_eq_of_lt hlt]

/-- C90: `simd_slot_rotations` of bfv.rs. For every odd exponent `e`, the slot `k` of the result holds what the encoding stored for the exponent
`e` times that of the slot: the value of another slot, or zero where no slot has this exponent. -/
theorem c90_slot_rotations (h : TestParams N t l P) (pr : Profile) {e : Nat} (he : Odd e) {skRng : Nat → Nat} (hs : ∀ i, skRng i < 2 ^ 64)
    {vals : List Nat} (hv : IsVec t N vals) {a : Nat → Nat → Nat} (ha : TapeAt l 0 a) {r : Nat → Nat} (hr : ∀ i, r i < 2 ^ 64)
    {aGk : Nat → Nat → Nat → Nat} (haG : ∀ j, TapeAt l 0 (aGk j)) {rGk : Nat → Nat → Nat} (hrG : ∀ j i, rGk j i < 2 ^ 64) :
    Tests.simdSlotRotations pr P e skRng vals a r aGk rGk =
      .ok ((List.range N).map fun k => slotValue N vals (slotExp N k * e % (2 * N))) := by
  have hN := h.N_pos
  have ht : t < 2 ^ 64 := h.pt.trans (by norm_num)
  have ht' : (t : ℤ) ≤ 2 ^ 21 := by exact_mod_cast h.pt.le
  obtain ⟨sk, k1, k2, -⟩ := h.key pr hs
  obtain ⟨c, hc, hci⟩ := h.ctx0
  obtain ⟨psi, hp, hd, henc⟩ := c90_simd h.params
  obtain ⟨pt, p1, p2, p3, p4⟩ := henc pr vals 0 hv
  obtain ⟨ct, f0, f1, c1, c2, c3⟩ := h.enc pr k2 p2.1.le (fun x hx => (p2.2 x hx).trans ht) ha hr .simd
  rw [← p3] at c1
  obtain ⟨sub, g, g1, g2, g3, -⟩ := c37_galois h.params k2 pr pr (by norm_num) (by norm_num) (by have := h.two; omega)
    (h.deg.trans (by norm_num)) hc he haG hrG
  obtain ⟨ct', r0, r1, E, x1, x2, -, -, x5⟩ := g3 ct f0 f1 c2
  have x6 := x5 _ _ c3
  have hroom := h.room
  have hsn := h.switch_nonneg
  have b4 : (t : ℤ) * (switchNoise N l 0 * (2 * (10 : Nat))) ≤ t * (switchNoise N l 0 * 40) := by gcongr; norm_num
  obtain ⟨rpt, d1, d2, d3, d4⟩ := h.dec pr k2 x2 (by norm_num at b4 hroom ⊢; linarith) x6
  obtain ⟨out, o1, o2, o3⟩ := hd pr 0 (sg e (msgRing N pt.values))
  unfold Tests.simdSlotRotations
  rw [k1, res_ok_bind, p1, res_ok_bind, c1, res_ok_bind, idx_of hc, res_ok_bind, g1, res_ok_bind, g2, res_ok_bind, x1, res_ok_bind, d1,
    res_ok_bind]
  have e1 : (rpt.setEncoding .simd).decode pr = .ok out := by
    rw [← o1]
    unfold Plaintext.setEncoding
    rw [d2, d3, d4]
  rw [e1, Simd.eq_map out _ o2 fun k hk => ?_]
  have hodd := Simd.slotExp_odd hN k
  rw [← Nat.mod_eq_of_lt (Prints.slotValue_lt (N := N) (Simd.t_pos h.params) hv.2 (slotExp N k * e % (2 * N)))]
  refine Simd.nat_of_cast (o3 k hk).1 ?_
  rw [(o3 k hk).2, ev_sg hN _ (Simd.slot_pow hp hodd), ← pow_mul, p4 _ (hodd.mul he)]

/-- C90: what the test prints for the constants it uses, degree 8 and exponent 15: five zeros and three of the values, for every vector. A swap of
the two rows would show `vals[4..8], vals[0..4]`. -/
theorem c90_slot_rotations_15 (h : TestParams 8 t l P) (pr : Profile) {skRng : Nat → Nat} (hs : ∀ i, skRng i < 2 ^ 64)
    {v0 v1 v2 v3 v4 v5 v6 v7 : Nat} (hv : IsVec t 8 [v0, v1, v2, v3, v4, v5, v6, v7]) {a : Nat → Nat → Nat} (ha : TapeAt l 0 a) {r : Nat → Nat}
    (hr : ∀ i, r i < 2 ^ 64) {aGk : Nat → Nat → Nat → Nat} (haG : ∀ j, TapeAt l 0 (aGk j)) {rGk : Nat → Nat → Nat}
    (hrG : ∀ j i, rGk j i < 2 ^ 64) :
    Tests.simdSlotRotations pr P 15 skRng [v0, v1, v2, v3, v4, v5, v6, v7] a r aGk rGk = .ok [0, v6, 0, 0, v1, 0, v1, 0] := by
  rw [c90_slot_rotations h pr (by decide) hs hv ha hr haG hrG]
  rfl

/-! ### Key-switching keys whose pairs are multiplied by an RGSW ciphertext -/

namespace Prints

theorem mapR_exists {α β : Type} {f : α → Res β} : ∀ {L : List α} {Q : Nat → β → Prop},
    (∀ j x, L[j]? = some x → ∃ y, f x = .ok y ∧ Q j y) → ∃ ys, mapR f L = .ok ys ∧ ys.length = L.length ∧ ∀ j y, ys[j]? = some y → Q j y := by
  intro L
  induction L with
  | nil => exact fun _ => ⟨[], rfl, rfl, fun j y h => by simp at h⟩
  | cons x L ih =>
    intro Q h
    obtain ⟨y, y1, y2⟩ := h 0 x rfl
    obtain ⟨ys, z1, z2, z3⟩ := ih (Q := fun j => Q (j + 1)) fun j x hx => h (j + 1) x (by simpa using hx)
    refine ⟨y :: ys, by rw [mapR, y1, res_ok_bind, z1, res_ok_bind], by simp [z2], fun j y' hy => ?_⟩
    cases j with
    | zero => simp at hy; subst hy; exact y2
    | succ j => exact z3 j y' (by simpa using hy)

theorem forall₂_getD {R : Rg N → Poly → Prop} {fs : List (Rg N)} {ps : List Poly} (h : List.Forall₂ R fs ps) {j : Nat} {p : Poly}
    (hj : ps[j]? = some p) : R (fs.getD j 0) p := by
  induction h generalizing j with
  | nil => simp at hj
  | cons h1 _ ih =>
    cases j with
    | zero => simp at hj; subst hj; simpa using h1
    | succ j => simpa using ih (by simpa using hj)

theorem forall₂_of {R : Rg N → Poly → Prop} {F : Nat → Rg N} {ps : List Poly} (h : ∀ j p, ps[j]? = some p → R (F j) p) :
    List.Forall₂ R ((List.range ps.length).map F) ps := by
  rw [List.forall₂_iff_get]
  refine ⟨by simp, fun i h1 h2 => ?_⟩
  simp only [List.get_eq_getElem, List.getElem_map, List.getElem_range]
  exact h i _ (List.getElem?_eq_getElem h2)

/-- The products of the pairs of a key for `M` with an RGSW ciphertext of `a` form a key for `a M`. -/
theorem rows (h : IsParams N t l variance P) (pr : Profile) {s a M : Rg N} {A B B0 B1 : ℤ} {g : RgswCt} (hg : IsRgsw P l 0 s a B0 B1 g)
    (hA : Bdd A a) {k : Ksk} (hk : IsKsk P l 0 s M B k) :
    ∃ ps, Tests.rowProducts pr P g k = .ok ps ∧ ps.length = l.length ∧
      IsKsk P l 0 s (a * M) (N * B * A + switchNoise N l 0 * (B0 + B1)) ⟨P, ps.map (fun x => x.1), ps.map (fun x => x.2), k.ctContext, k.ctContext⟩ ∧
      ∀ j x, ps[j]? = some x → ∃ r0 r1 : Rg N, PolyAt P 0 r0 x.1 ∧ PolyAt P 0 r1 x.2 ∧
        RlweGarner l 0 j s (a * M) (N * B * A + switchNoise N l 0 * (B0 + B1)) r0 r1 := by
  have hN := Simd.pos h
  have hlev : (levelModuli l 0).length = l.length := by unfold levelModuli; simp
  obtain ⟨k1, k2, bs, as, k3, k4, k5, k6, k7⟩ := hk
  obtain ⟨ps, p1, p2, p3⟩ := mapR_exists (L := k.c0.zip k.c1)
    (f := fun (x : Poly × Poly) => g.externalProduct pr { params := P, cts := [x.1, x.2], level := 0 })
    (Q := fun j x => ∃ r0 r1 : Rg N, PolyAt P 0 r0 x.1 ∧ PolyAt P 0 r1 x.2 ∧
      RlweGarner l 0 j s (a * M) (N * B * A + switchNoise N l 0 * (B0 + B1)) r0 r1) (by
    intro j x hx
    rw [List.getElem?_zip_eq_some] at hx
    have hj : j < k.c0.length := (List.getElem?_eq_some_iff.mp hx.1).1
    have u0 := forall₂_getD k3 hx.1
    have u1 := forall₂_getD k4 hx.2
    obtain ⟨gc, gc1, e, e1, e2⟩ := k7 j (by rw [← k5, k3.length_eq]; exact hj)
    obtain ⟨q0, q1, r0, r1, E, y1, ⟨-, -, y2⟩, y3, y4, -⟩ := c39_external_product h pr hg (ct := ⟨P, [x.1, x.2], 0⟩)
      ⟨rfl, rfl, .cons u0 (.cons u1 .nil)⟩
    simp only [List.forall₂_cons, List.forall₂_nil_right_iff, and_true] at y2
    refine ⟨(q0, q1), y1, r0, r1, y2.1, y2.2, gc, gc1, e * a + E, (e1.mul hN hA).add hN y3, ?_⟩
    rw [BfvP.phase_two, BfvP.phase_two] at y4
    obtain ⟨w, hw⟩ := y4
    obtain ⟨z, hz⟩ := e2
    exact ⟨w + a * z, by linear_combination hw + a * hz⟩)
  have hlen : ps.length = l.length := by
    rw [p2, List.length_zip, ← k3.length_eq, ← k4.length_eq, k5, k6, hlev, min_self]
  refine ⟨ps, p1, hlen, ?_, p3⟩
  have hF : ∀ j, ∃ r0 r1 : Rg N, ∀ x, ps[j]? = some x → PolyAt P 0 r0 x.1 ∧ PolyAt P 0 r1 x.2 ∧
      RlweGarner l 0 j s (a * M) (N * B * A + switchNoise N l 0 * (B0 + B1)) r0 r1 := by
    intro j
    cases hj : ps[j]? with
    | none => exact ⟨0, 0, fun x hx => by cases hx⟩
    | some x =>
      obtain ⟨r0, r1, h1⟩ := p3 j x hj
      exact ⟨r0, r1, fun x' hx => by cases hx; exact h1⟩
  choose F0 F1 hF using hF
  refine ⟨k1, rfl, (List.range ps.length).map F0, (List.range ps.length).map F1, ?_, ?_, by simp [hlen, hlev], by simp [hlen, hlev], ?_⟩
  · have := forall₂_of (R := PolyAt P 0) (F := F0) (ps := ps.map fun x => x.1) fun j p hp => by
      rw [List.getElem?_map, Option.map_eq_some_iff] at hp
      obtain ⟨x, hx, rfl⟩ := hp
      exact (hF j x hx).1
    simpa using this
  · have := forall₂_of (R := PolyAt P 0) (F := F1) (ps := ps.map fun x => x.2) fun j p hp => by
      rw [List.getElem?_map, Option.map_eq_some_iff] at hp
      obtain ⟨x, hx, rfl⟩ := hp
      exact (hF j x hx).2.1
    simpa using this
  · intro j hj
    have hj' : j < ps.length := by omega
    have := (hF j ps[j] (List.getElem?_eq_getElem hj')).2.2
    simpa [List.getD, hj'] using this

/-- A key for a plaintext scaled by `Q/t`. -/
theorem scaled (h : TestParams N t l P) {sk : SecretKey} (hk : IsKey P sk) (pr : Profile) {v : List Nat} (hv : v.length ≤ N)
    (hv2 : ∀ x ∈ v, x < t) (e : Encoding) {a : Nat → Nat → Nat → Nat} (ha : ∀ j, TapeAt l 0 (a j)) {r : Nat → Nat → Nat} (hr : ∀ j i, r j i < 2 ^ 64) :
    ∃ k, ∃ M : Rg N, Ksk.newWithPt pr sk ⟨P, 0, e, v⟩ 0 0 a r = .ok k ∧ IsKsk P l 0 (keyRing N sk) M 20 k ∧
      Encodes t (levelQ l 0) (msgRing N v) M (2 * t) := by
  have hN := h.N_pos
  have ht : t < 2 ^ 64 := h.pt.trans (by norm_num)
  have ht0 := h.t_pos
  obtain ⟨k, M, m1, -, m3, m4⟩ := c70_ksk_with_pt h.params hk pr (by norm_num) (by norm_num) (pt := ⟨P, 0, e, v⟩) rfl
    (by have := h.two; show 0 < _; omega) hv (fun x hx => (hv2 x hx).trans ht) ha hr
  refine ⟨k, M, m1, by simpa using m3, ((t : ℤ) : Rg N) * M - ((levelQ l 0 : ℤ) : Rg N) * msgRing N v, 0, fun j hj => ?_, by ring⟩
  rw [cf_sub hN, cf_int_mul hN, cf_int_mul hN]
  have hw' : v.getD j 0 < t := by
    by_cases hj' : j < v.length
    · simp only [List.getD, List.getElem?_eq_getElem hj', Option.getD_some]
      exact hv2 _ (List.getElem_mem hj')
    · simp only [List.getD, List.getElem?_eq_none (not_lt.mp hj'), Option.getD_none]
      omega
  have hcf : cf (msgRing N v) j = (v.getD j 0 : ℤ) := by unfold msgRing; rw [cf_ofCoeffs hN _ hj]
  have h4 := m4 j hj
  simp only [Nat.mod_eq_of_lt hw'] at h4
  rw [hcf]
  generalize v.getD j 0 = x at *
  have d1 := Nat.div_mul_le_self (levelQ l 0 * x) t
  have d2 := Nat.lt_div_mul_add (a := levelQ l 0 * x) (b := t) (by omega)
  generalize levelQ l 0 * x / t = d at *
  have d1' : (d : ℤ) * t ≤ levelQ l 0 * x := by exact_mod_cast d1
  have d2' : (levelQ l 0 : ℤ) * x < d * t + t := by exact_mod_cast d2
  have ht0' : (2 : ℤ) ≤ t := by exact_mod_cast ht0
  rw [abs_le]
  rcases h4 with h4 | h4 <;> rw [h4] <;> constructor <;> nlinarith

theorem pad {v : List Nat} (ht : 0 < t) (h1 : v.length ≤ N) (h2 : ∀ x ∈ v, x < t) :
    (v ++ List.replicate (N - v.length) 0).length ≤ N ∧ ∀ x ∈ v ++ List.replicate (N - v.length) 0, x < t := by
  refine ⟨by simp; omega, fun x hx => ?_⟩
  rcases List.mem_append.mp hx with hx | hx
  · exact h2 x hx
  · rw [(List.mem_replicate.mp hx).2]; exact ht

end Prints

/-! ### ksk.rs -/

/-- C90: `trial` of ksk.rs shows the product of message and factor, for all of them. The test encrypts 1 and multiplies with 10000. -/
theorem c90_trial (h : TestParams N t l P) (pr : Profile) {skRng : Nat → Nat} (hs : ∀ i, skRng i < 2 ^ 64) {g v : List Nat} (hg : g.length ≤ N)
    (hg2 : ∀ x ∈ g, x < 2 ^ 64) (hv : v.length ≤ N) (hv2 : ∀ x ∈ v, x < t) {a : Nat → Nat → Nat} (ha : TapeAt l 0 a) {r : Nat → Nat}
    (hr : ∀ i, r i < 2 ^ 64) :
    Tests.trial pr P skRng g v a r = .ok (residues t (msgRing N v * msgRing N g)) := by
  have hN := h.N_pos
  have ht : t < 2 ^ 64 := h.pt.trans (by norm_num)
  have ht' : (t : ℤ) ≤ 2 ^ 21 := by exact_mod_cast h.pt.le
  have hN' : (N : ℤ) ≤ 2 ^ 11 := by exact_mod_cast h.deg
  obtain ⟨sk, k1, k2, -⟩ := h.key pr hs
  obtain ⟨c, hc, hci⟩ := h.ctx0
  obtain ⟨p, p1, p2⟩ := c25_from_bigint hci hg
  obtain ⟨p', q1, -, -, -, -, q2⟩ := c20_round_trip hci pr p2.1 (r := .powerBasis) (r' := .ntt) (by simp) (by simp) p2.2.1 p2.2.2.1
  have hpp := (q2 _).mp (TestParams.denotes_msg hci hN (by simp) p2)
  have hpad := Prints.pad (N := N) (by have := h.t_pos; omega) hv hv2
  obtain ⟨ct, f0, f1, c1, c2, c3⟩ := h.enc pr k2 hpad.1 (fun x hx => (hpad.2 x hx).trans ht) ha hr .poly
  rw [TestParams.msgRing_pad] at c3
  obtain ⟨z, z1, z2, -, z4⟩ := c34_mul_poly h.params pr c2 ⟨c, hc, hpp⟩ (keyRing N sk)
  have hb : Bdd (2 ^ 64) (msgRing N g) := by
    obtain ⟨K, ext, rfl, -⟩ := BfvP.params h.params
    have := BfvP.msgRing_bdd (K := K) (B := 2 ^ 64) fun x hx => (hg2 x hx).le
    simpa only [Nat.cast_pow, Nat.cast_ofNat] using this
  have b5 : (N : ℤ) * (22 * t) * 2 ^ 64 ≤ 2 ^ 11 * (22 * 2 ^ 21) * 2 ^ 64 := by gcongr
  obtain ⟨pt, d1, -, -, d4⟩ := h.dec pr k2 z2 (b5.trans (by norm_num)) (z4 _ _ _ c3 hb)
  unfold Tests.trial
  rw [k1, res_ok_bind, idx_of hc, res_ok_bind, p1, res_ok_bind, q1, res_ok_bind, h.plain pr hv, res_ok_bind, c1, res_ok_bind, z1,
    res_ok_bind, d1, res_ok_bind, d4]

/-! ### rgsw.rs -/

/-- C90: `contruct_ksk_from_rgsw` of rgsw.rs shows the product of the two messages and the factor, for all of them, if the ciphertext modulus
exceeds the noise of two nested key switches. The test multiplies 2, 2 and 3. -/
theorem c90_construct_ksk (h : TestParams N t l P) (hQ : t * 2 ^ 165 ≤ l.prod) (pr : Profile) {skRng : Nat → Nat} (hs : ∀ i, skRng i < 2 ^ 64) {v w f : List Nat}
    (hv : v.length ≤ N) (hv2 : ∀ x ∈ v, x < t) (hw : w.length ≤ N) (hw2 : ∀ x ∈ w, x < t) (hf : f.length ≤ N) (hf2 : ∀ x ∈ f, x < t)
    {a0 a1 aK : Nat → Nat → Nat → Nat} (ha0 : ∀ j, TapeAt l 0 (a0 j)) (ha1 : ∀ j, TapeAt l 0 (a1 j)) (haK : ∀ j, TapeAt l 0 (aK j))
    {r0 r1 rK : Nat → Nat → Nat} (hr0 : ∀ j i, r0 j i < 2 ^ 64) (hr1 : ∀ j i, r1 j i < 2 ^ 64) (hrK : ∀ j i, rK j i < 2 ^ 64) :
    Tests.constructKskFromRgsw pr P skRng v w f a0 a1 r0 r1 aK rK = .ok (residues t (msgRing N v * msgRing N w * msgRing N f)) := by
  have hN := h.N_pos
  have ht : t < 2 ^ 64 := h.pt.trans (by norm_num)
  have ht0 : 0 < t := by have := h.t_pos; omega
  obtain ⟨sk, k1, k2, -⟩ := h.key pr hs
  obtain ⟨c, hc, hci⟩ := h.ctx0
  have hd : P.degree = N := (c51_levels h.params).1
  obtain ⟨sp, sp1, -⟩ := c25_from_i64 hci pr (hd ▸ k2.2.1) k2.2.2
  have pv := Prints.pad (N := N) ht0 hv hv2
  have pw := Prints.pad (N := N) ht0 hw hw2
  obtain ⟨g, g1, g2⟩ := c39_encrypt h.params k2 pr (by norm_num) (by norm_num) (pt := ⟨P, 0, .poly, v ++ List.replicate (N - v.length) 0⟩) rfl
    (by have := h.two; show 0 < _; omega) pv.1 (fun x hx => (pv.2 x hx).trans ht) ha0 ha1 hr0 hr1
  dsimp only at g1 g2
  rw [TestParams.msgRing_pad] at g2
  obtain ⟨k, M, m1, m2, m3⟩ := Prints.scaled h k2 pr pw.1 pw.2 .poly haK hrK
  rw [TestParams.msgRing_pad] at m3
  obtain ⟨ps, p1, -, p3, -⟩ := Prints.rows h.params pr g2 (h.bdd_msg hv2) m2
  have hctx : k.ctContext = c := Option.some.inj (m2.1.symm.trans hc)
  rw [hctx] at p3
  obtain ⟨p, -, q1, q2, -, -⟩ := h.import_words pr hc hf (fun x hx => (hf2 x hx).trans ht)
  obtain ⟨e0, e1, s0, s1, E, x1, x2, x3, x4, x5⟩ := c36_key_switch h.params pr p3 q2
  have h6 := BfvP.Encodes.addError hN (BfvP.Encodes.mul hN (BfvP.Encodes.mul hN m3 (h.bdd_msg hv2)) (h.bdd_msg hf2)) x4
  have h7 := BfvP.Encodes.congr (phi' := phase (keyRing N sk) [s0, s1]) h6 (by
    rw [BfvP.phase_two]
    obtain ⟨z, hz⟩ := x5
    exact ⟨z, by linear_combination hz⟩)
  have hlev : levelQ l 0 = l.prod := by unfold levelQ levelModuli; simp
  have ht' : (t : ℤ) ≤ 2 ^ 21 := by exact_mod_cast h.pt.le
  have hN' : (N : ℤ) ≤ 2 ^ 11 := by exact_mod_cast h.deg
  have hl' : (l.length : ℤ) ≤ 40 := by exact_mod_cast h.few
  have hsw : switchNoise N l 0 ≤ 2 ^ 11 * (40 * 2 ^ 62) := h.switch.trans (by gcongr)
  have hsn := h.switch_nonneg
  have b1 : (N : ℤ) * (N * (2 * t) * t) * t + t * (switchNoise N l 0 * (N * 20 * t + switchNoise N l 0 * 40)) ≤
      2 ^ 11 * (2 ^ 11 * (2 * t) * 2 ^ 21) * 2 ^ 21 + t * ((2 ^ 11 * (40 * 2 ^ 62)) * (2 ^ 11 * 20 * 2 ^ 21 + (2 ^ 11 * (40 * 2 ^ 62)) * 40)) := by
    gcongr
  have hQ' : (t * 2 ^ 165 : ℤ) ≤ levelQ l 0 := by rw [hlev]; exact_mod_cast hQ
  obtain ⟨pt, d1, -, -, d4⟩ := c30_decrypt h.params k2 pr (by simp) (ct := ⟨P, [e0, e1], 0⟩) (fs := [s0, s1]) (i := 0)
    ⟨rfl, rfl, .cons x2 (.cons x3 .nil)⟩ h.h2t h7 (by norm_num at b1 hQ' ⊢; linarith)
  unfold Tests.constructKskFromRgsw
  rw [k1, res_ok_bind, idx_of hc, res_ok_bind, sp1, res_ok_bind, h.plain pr hv, res_ok_bind, g1, res_ok_bind, h.plain pr hw, res_ok_bind, m1,
    res_ok_bind, p1, res_ok_bind, res_ok_bind, q1, res_ok_bind]
  rw [x1, res_ok_bind]
  dsimp only
  rw [d1, res_ok_bind, d4]
  congr 2
  ring

namespace Prints

/-- The secret key in NTT form. -/
theorem key_poly (h : IsParams N t l variance P) {sk : SecretKey} (hk : IsKey P sk) (pr : Profile) {c : RqContext} (hc : P.qCtxs[0]? = some c)
    (hci : IsContext N l c) : ∃ skp, sk.polyNtt pr c = .ok skp ∧ Denotes c .ntt (cf (keyRing N sk)) skp := by
  have hd : P.degree = N := (c51_levels h).1
  obtain ⟨p, p1, p2⟩ := c25_from_i64 hci pr (hd ▸ hk.2.1) hk.2.2
  obtain ⟨p', q1, -, -, -, -, q2⟩ := c20_round_trip hci pr p2.1 (r := .powerBasis) (r' := .ntt) (by simp) (by simp) p2.2.1 p2.2.2.1
  refine ⟨p', by unfold SecretKey.polyNtt; rw [p1, res_ok_bind, q1], ?_⟩
  refine den_congr hci (by simp) ((q2 _).mp p2) fun k hk => ?_
  unfold keyRing; rw [cf_ofCoeffs (Simd.pos h) _ hk]

/-- `encrypt_poly` with the error it samples. -/
theorem enc_exact (h : IsParams N t l variance P) {sk : SecretKey} (hk : IsKey P sk) (pr : Profile) (hv1 : 1 ≤ variance)
    (hv2 : variance ≤ 16) {M : Rg N} {p : Poly} (hp : PolyAt P 0 M p) {aTape : Nat → Nat → Nat} (ha : TapeAt l 0 aTape) {rng : Nat → Nat}
    (hr : ∀ i, rng i < 2 ^ 64) :
    ∃ ct e, ∃ f0 f1 : Rg N, sk.encryptPoly pr p aTape rng = .ok ct ∧ sampleVecCbd pr rng N variance = .ok e ∧ IsCt P 0 [f0, f1] ct ∧
      phase (keyRing N sk) [f0, f1] = M + smallRing N e := by
  obtain ⟨K, ext, rfl, hw, rfl, rfl, rfl⟩ := BfvP.params h
  obtain ⟨L, hL⟩ := hw.levels 0 (BfvP.level_lt hw hp)
  obtain ⟨a, ha⟩ := (c77_mask h (BfvP.level_lt hw hp) ha).1
  have hsk := BfvP.key hw hk
  have hp' := hk.1
  subst hp'
  rw [(BfvP.polyAt_iff hL _ _).mp hp]
  have hct := SecretKey.encryptPoly_exact hsk pr hL.wf.ctx hv1 hv2 M ((Rlwe.mask_iff hL _ _).mp ha) hr
  refine ⟨_, _, _, _, hct, sampleVecCbd_ok pr hr hv1 hv2 _, (BfvP.isCt_iff hL _ _).mpr ⟨rfl, rfl, rfl⟩, ?_⟩
  rw [BfvP.phase_two, BfvP.keyRing_eq]
  show _ - a * sk.ring K + M + a * sk.ring K = M + ofList K _
  ring

theorem smallRing_bdd (hN : 0 < N) {pr : Profile} {rng : Nat → Nat} (hr : ∀ i, rng i < 2 ^ 64) {e : List Int} (h : sampleVecCbd pr rng N 10 = .ok e) :
    Bdd 20 (smallRing N e) := by
  intro k hk
  unfold smallRing
  rw [cf_ofCoeffs hN _ hk]
  by_cases hj : k < e.length
  · simp only [List.getD, List.getElem?_eq_getElem hj, Option.getD_some]
    simpa using sample_bound hr h (List.getElem_mem hj)
  · simp [List.getD, List.getElem?_eq_none (not_lt.mp hj)]

end Prints

/-- C90: `construct_full_from_half` of rgsw.rs. The upper half is built from the key of `b`, and `b` is scaled by `Q/t` while the values are encrypted
as they are. What the test shows beside the values is therefore not `b` times the values: it is `b` times the sum of the values and the error sampled
for their encryption. The noise shown is that of the values themselves. -/
theorem c90_construct_full (h : TestParams N t l P) (hQ : t * 2 ^ 165 ≤ l.prod) (pr : Profile) {skRng : Nat → Nat} (hs : ∀ i, skRng i < 2 ^ 64)
    {b m : List Nat} (hb : b.length ≤ N) (hb2 : ∀ x ∈ b, x < t) (hm : IsVec t N m)
    {a0 a1 aK : Nat → Nat → Nat → Nat} (ha0 : ∀ j, TapeAt l 0 (a0 j)) (ha1 : ∀ j, TapeAt l 0 (a1 j)) (haK : ∀ j, TapeAt l 0 (aK j))
    {r0 r1 rK : Nat → Nat → Nat} (hr0 : ∀ j i, r0 j i < 2 ^ 64) (hr1 : ∀ j i, r1 j i < 2 ^ 64) (hrK : ∀ j i, rK j i < 2 ^ 64)
    {a : Nat → Nat → Nat} (ha : TapeAt l 0 a) {r : Nat → Nat} (hr : ∀ i, r i < 2 ^ 64) :
    ∃ e noise, sampleVecCbd pr r N 10 = .ok e ∧
      Tests.constructFullFromHalf pr P skRng b m a0 a1 r0 r1 aK rK a r =
        .ok (residues t (msgRing N b * (msgRing N m + smallRing N e)), m, noise) ∧ (noise = 0 ∨ 2 ^ (noise - 1) < t + 22) := by
  have hN := h.N_pos
  have ht : t < 2 ^ 64 := h.pt.trans (by norm_num)
  have ht0 : 0 < t := by have := h.t_pos; omega
  have hlev : levelQ l 0 = l.prod := by unfold levelQ levelModuli; simp
  have ht' : (t : ℤ) ≤ 2 ^ 21 := by exact_mod_cast h.pt.le
  have hN' : (N : ℤ) ≤ 2 ^ 11 := by exact_mod_cast h.deg
  have hl' : (l.length : ℤ) ≤ 40 := by exact_mod_cast h.few
  have hsw : switchNoise N l 0 ≤ 2 ^ 11 * (40 * 2 ^ 62) := h.switch.trans (by gcongr)
  have hsn := h.switch_nonneg
  have ht0' : (1 : ℤ) ≤ t := by exact_mod_cast ht0
  have hQ' : (t * 2 ^ 165 : ℤ) ≤ levelQ l 0 := by rw [hlev]; exact_mod_cast hQ
  obtain ⟨sk, k1, k2, k3⟩ := h.key pr hs
  obtain ⟨c, hc, hci⟩ := h.ctx0
  obtain ⟨skp, s1, s2⟩ := Prints.key_poly h.params k2 pr hc hci
  obtain ⟨g, g1, g2⟩ := c39_encrypt_poly h.params k2 pr (by norm_num) (by norm_num) ⟨c, hc, s2⟩ ha0 ha1 hr0 hr1
  obtain ⟨k, M, m1, m2, m3⟩ := Prints.scaled h k2 pr hb hb2 .poly haK hrK
  obtain ⟨ps, p1, p2, -, p4⟩ := Prints.rows h.params pr g2 k3 m2
  obtain ⟨k0, u1, u2⟩ := c40_assembled_ksk h.params (cts := ps.map fun x => ⟨P, [x.1, x.2], 0⟩) (by simpa using p2) fun j ct hj => by
    rw [List.getElem?_map, Option.map_eq_some_iff] at hj
    obtain ⟨x, hx, rfl⟩ := hj
    obtain ⟨f0, f1, x1, x2, x3⟩ := p4 j x hx
    exact ⟨f0, f1, ⟨rfl, rfl, .cons x1 (.cons x2 .nil)⟩, x3⟩
  obtain ⟨p, p', q1, -, q3, q4⟩ := h.import_words pr hc hm.1.le (fun x hx => (hm.2 x hx).trans ht)
  obtain ⟨ct, e, f0, f1, c1, c2, c3, c4⟩ := Prints.enc_exact h.params k2 pr (by norm_num) (by norm_num) q4 ha hr
  obtain ⟨z0, z1, w0, w1, E, y1, y2, y3, y4, -⟩ := c39_external_product h.params pr (g := RgswCt.tryFromKsks k0 k) ⟨u2, m2⟩ c3
  have he := Prints.smallRing_bdd hN hr c2
  have hme : Bdd (t + 20) (msgRing N m + smallRing N e) := (h.bdd_msg hm.2).add hN he
  have h6 := BfvP.Encodes.addError hN (BfvP.Encodes.mul hN m3 hme) y3
  have h7 := BfvP.Encodes.congr (phi' := phase (keyRing N sk) [w0, w1]) h6 (by rw [c4] at y4; exact y4)
  have b1 : (N : ℤ) * (2 * t) * (t + 20) + t * (switchNoise N l 0 * (N * 20 * 20 + switchNoise N l 0 * 40 + 20)) ≤
      2 ^ 11 * (2 * t) * (2 ^ 21 + 20) + t * ((2 ^ 11 * (40 * 2 ^ 62)) * (2 ^ 11 * 20 * 20 + (2 ^ 11 * (40 * 2 ^ 62)) * 40 + 20)) := by
    gcongr
  obtain ⟨pt, d1, -, -, d4⟩ := c30_decrypt h.params k2 pr (by simp) y2 h.h2t h7 (by norm_num at b1 hQ' ⊢; linarith)
  have h8 : Encodes t (levelQ l 0) (0 : Rg N) (phase (keyRing N sk) [f0, f1]) (t * (t + 20)) := by
    refine ⟨((t : ℤ) : Rg N) * (msgRing N m + smallRing N e), 0, ?_, by rw [c4]; ring⟩
    have := hme.int_mul hN (t : ℤ)
    rwa [abs_of_nonneg (by linarith)] at this
  have b2 : (t : ℤ) * (t + 20) ≤ t * (2 ^ 21 + 20) := by gcongr
  obtain ⟨noise, n1, n2⟩ := c75_encoded h.params k2 pr c3 h.h2t h8 (by norm_num at b2 hQ' ⊢; linarith)
  refine ⟨e, noise, c2, ?_, n2.imp_right fun n2 => ?_⟩
  · unfold Tests.constructFullFromHalf
    rw [k1, res_ok_bind, idx_of hc, res_ok_bind, s1, res_ok_bind, g1, res_ok_bind, m1, res_ok_bind, p1, res_ok_bind, u1, res_ok_bind, q1,
      res_ok_bind, q3, res_ok_bind, c1, res_ok_bind]
    dsimp only
    rw [y1, res_ok_bind]
    dsimp only
    rw [d1, res_ok_bind, n1, res_ok_bind, d4]
  · have n3 : (t : ℤ) * 2 ^ (noise - 1) < t * (t + 22) := by linarith
    have n4 : (2 : ℤ) ^ (noise - 1) < t + 22 := lt_of_mul_lt_mul_left n3 (by linarith)
    exact_mod_cast n4

/-- C90: with the selector 1 of the test, the product shown equals the values if and only if every sampled error is zero. -/
theorem c90_construct_full_one (h : TestParams N t l P) (h20 : 20 < t) {pr : Profile} {r : Nat → Nat} (hr : ∀ i, r i < 2 ^ 64) {e : List Int}
    (he : sampleVecCbd pr r N 10 = .ok e) {m : List Nat} (hm : IsVec t N m) :
    residues t (msgRing N [1] * (msgRing N m + smallRing N e)) = m ↔ ∀ k, k < N → e.getD k 0 = 0 := by
  have hN := h.N_pos
  have hone : msgRing N [1] = 1 := by
    apply ext_cf hN
    intro k hk
    rw [← Int.cast_one, cf_int hN]
    unfold msgRing
    rw [cf_ofCoeffs hN _ hk]
    cases k <;> simp
  have hsm : ∀ k, k < N → cf (smallRing N e) k = e.getD k 0 := fun k hk => by unfold smallRing; rw [cf_ofCoeffs hN _ hk]
  have hbd := Prints.smallRing_bdd hN hr he
  have hmk : ∀ k, k < N → cf (msgRing N m) k = (m.getD k 0 : ℤ) := fun k hk => by unfold msgRing; rw [cf_ofCoeffs hN _ hk]
  have hmt : ∀ k, k < N → (m.getD k 0 : ℤ) < t := fun k hk => by
    have hj : k < m.length := by rw [hm.1]; exact hk
    simp only [List.getD, List.getElem?_eq_getElem hj, Option.getD_some]
    exact_mod_cast hm.2 _ (List.getElem_mem hj)
  rw [hone, one_mul]
  have ht : (20 : ℤ) < t := by exact_mod_cast h20
  constructor
  · intro h1 k hk
    have h2 := congrArg (fun v => v.getD k 0) h1
    unfold residues at h2
    simp only [List.getD, List.getElem?_map, List.getElem?_range hk, Option.map_some, Option.getD_some] at h2
    rw [cf_add hN, hmk k hk, hsm k hk] at h2
    have h4 := hmt k hk
    have h5 := abs_le.mp (hbd k hk)
    rw [hsm k hk] at h5
    have h6 : ((m.getD k 0 : ℤ) + e.getD k 0) % t = m.getD k 0 := by
      have h7 := Int.emod_nonneg ((m.getD k 0 : ℤ) + e.getD k 0) (show (t : ℤ) ≠ 0 by linarith)
      rw [← Int.toNat_of_nonneg h7]
      exact_mod_cast h2
    generalize (m.getD k 0 : ℤ) = x at *
    generalize e.getD k 0 = y at *
    have h7 : (t : ℤ) ∣ y := by
      exact ⟨(x + y) / t, by have := Int.emod_add_mul_ediv (x + y) t; linarith⟩
    obtain ⟨z, rfl⟩ := h7
    have hz : z = 0 := by
      rcases lt_trichotomy z 0 with h8 | h8 | h8
      · nlinarith
      · exact h8
      · nlinarith
    rw [hz, mul_zero]
  · intro h1
    have h2 : smallRing N e = 0 := by
      apply ext_cf hN
      intro k hk
      rw [hsm k hk, h1 k hk, cf_zero hN]
    rw [h2, add_zero, TestParams.residues_msg hN hm]

/-- C90: the hypothesis on the size holds for `BfvParameters::default` with three to six moduli, as in the tests. -/
theorem c90_default_size (h : TestParams N 1153 l P) (hn : 3 ≤ l.length) (hq : ∀ q ∈ l, 2 ^ 61 ≤ q ∧ q < 2 ^ 62) : 1153 * 2 ^ 165 ≤ l.prod := by
  have h1 : ∀ l : List Nat, (∀ q ∈ l, 2 ^ 61 ≤ q) → (2 ^ 61) ^ l.length ≤ l.prod := by
    intro l
    induction l with
    | nil => simp
    | cons q l ih =>
      intro hq
      rw [List.length_cons, pow_succ, List.prod_cons, mul_comm]
      exact Nat.mul_le_mul (hq q (by simp)) (ih fun x hx => hq x (by simp [hx]))
  have h2 := h1 l fun q hq' => (hq q hq').1
  have h3 : (2 ^ 61) ^ 3 ≤ (2 ^ 61) ^ l.length := Nat.pow_le_pow_right (by norm_num) hn
  have h4 : 1153 * 2 ^ 165 ≤ (2 ^ 61) ^ 3 := by norm_num
  omega

namespace Prints

theorem ctx0 (h : IsParams N t l variance P) : ∃ c, P.qCtxs[0]? = some c ∧ IsContext N l c := by
  obtain ⟨-, -, -, -, -, -, -, ext, -, -, h1⟩ := c51_levels h
  have hl0 : 0 < l.length := by
    obtain ⟨K, ext, -, hw, -, rfl, -⟩ := BfvP.params h
    exact List.length_pos_iff.mpr hw.ne
  obtain ⟨q, e, h2, -, h3, -⟩ := h1 0 hl0
  have : levelModuli l 0 = l := by unfold levelModuli; simp
  exact ⟨q, h2, this ▸ h3⟩

theorem garner_unique (h : IsParams N t l variance P) {j : Nat} {g g' : ℤ} (hg : IsGarner l 0 j g) (hg' : IsGarner l 0 j g') :
    (levelQ l 0 : ℤ) ∣ g - g' := by
  obtain ⟨c, hc, hci⟩ := Prints.ctx0 h
  have hlev : levelModuli l 0 = l := by unfold levelModuli; simp
  unfold IsGarner at hg hg'
  unfold levelQ
  rw [hlev] at hg hg' ⊢
  have hcop : l.Pairwise Nat.Coprime := by
    obtain ⟨K, -, hw, h7⟩ := RqP.ctx hci
    rw [← h7, hw.core.m64]
    exact hw.core.rns.cop
  rw [← RqContext.prod_dvd_int hcop]
  intro q hq
  obtain ⟨k, hk, rfl⟩ := List.mem_iff_getElem.mp hq
  have h1 := hg k hk
  have h2 := hg' k hk
  rw [getD_eq_getElem' _ _ _ hk] at h1 h2
  have := dvd_sub h1 h2
  rwa [sub_sub_sub_cancel_right] at this

theorem print_bits {Q n : Nat} {F G H : Nat → Nat} (hF : ∀ a, F a ≤ Q) (hG : ∀ a, G a ≤ Q) (hH : ∀ a, H a ≤ Q) :
    mapR (fun (y : Nat × Nat × Nat) => do
      let e ← Tests.subBig Q y.1
      let p ← Tests.subBig Q y.2.1
      let s ← Tests.subBig Q y.2.2
      .ok (SecretKey.bitLength e, SecretKey.bitLength p, SecretKey.bitLength s)) ((List.range n).map fun a => (F a, G a, H a)) =
    .ok ((List.range n).map fun a => (SecretKey.bitLength (Q - F a), SecretKey.bitLength (Q - G a), SecretKey.bitLength (Q - H a))) := by
  refine mapR_map fun a _ => ?_
  dsimp only [Tests.subBig]
  rw [if_pos (hF a), if_pos (hG a), if_pos (hH a), res_ok_bind, res_ok_bind, res_ok_bind]

/-- One pair of the loop of `encrypt_poly`, for phases that differ by a small error. -/
theorem compare (h : IsParams N t l variance P) (pr : Profile) {c : RqContext} (hc : P.qCtxs[0]? = some c) (hci : IsContext N l c) {s : Rg N}
    {skp : Poly} (hs : Denotes c .ntt (cf s) skp) {x0 x1 y0 y1 : Poly} {b0 b1 r0 r1 E : Rg N} (hx0 : PolyAt P 0 b0 x0) (hx1 : PolyAt P 0 b1 x1)
    (hy0 : PolyAt P 0 r0 y0) (hy1 : PolyAt P 0 r1 y1) (hE : Cong (levelQ l 0) (b0 + b1 * s - (r0 + r1 * s)) E) {B : ℤ} (hB : Bdd B E)
    (hBQ : B < levelQ l 0) :
    ∃ out, Tests.comparePair pr P skp (x0, x1, (y0, y1)) = .ok out ∧ out.length = N ∧ ∀ k, k < N → ∃ x, out[k]? = some x ∧
      x.2.2 = if cf E k < 0 then SecretKey.bitLength (cf E k).natAbs else SecretKey.bitLength (levelQ l 0 - (cf E k).natAbs) := by
  have hN := Simd.pos h
  have hP : P.ciphertextModuli = l := (c51_levels h).2.2.1
  have hQ : levelQ l 0 = l.prod := by unfold levelQ levelModuli; simp
  obtain ⟨c', hc', hx0⟩ := hx0
  obtain rfl := Option.some.inj (hc.symm.trans hc')
  obtain ⟨c', hc', hx1⟩ := hx1
  obtain rfl := Option.some.inj (hc.symm.trans hc')
  obtain ⟨c', hc', hy0⟩ := hy0
  obtain rfl := Option.some.inj (hc.symm.trans hc')
  obtain ⟨c', hc', hy1⟩ := hy1
  obtain rfl := Option.some.inj (hc.symm.trans hc')
  obtain ⟨p1, a1, a1'⟩ := c21_mul hci pr hx1 hs
  obtain ⟨p2, a2, a2'⟩ := c21_add hci pr a1' hx0
  obtain ⟨p3, a3, a3'⟩ := c21_mul hci pr hy1 hs
  obtain ⟨p4, a4, a4'⟩ := c21_add hci pr a3' hy0
  obtain ⟨p5, a5, a5'⟩ := c21_sub hci pr a2' a4'
  obtain ⟨q2, e2, -, -, -, -, e2'⟩ := c20_round_trip hci pr a2'.1 (r := .ntt) (r' := .powerBasis) (by simp) (by simp) a2'.2.1 a2'.2.2.1
  obtain ⟨q4, e4, -, -, -, -, e4'⟩ := c20_round_trip hci pr a4'.1 (r := .ntt) (r' := .powerBasis) (by simp) (by simp) a4'.2.1 a4'.2.2.1
  obtain ⟨q5, e5, -, -, -, -, e5'⟩ := c20_round_trip hci pr a5'.1 (r := .ntt) (r' := .powerBasis) (by simp) (by simp) a5'.2.1 a5'.2.2.1
  have d2 := c25_export hci ((e2' _).mp a2')
  have d4 := c25_export hci ((e4' _).mp a4')
  have d5' : Denotes c .powerBasis (cf E) q5 := by
    refine (c20_denotes_unique hci (by simp) ((e5' _).mp a5')).mpr fun k hk => ?_
    rw [← cf_mul hN _ _ hk, ← cf_mul hN _ _ hk, ← cf_add hN, ← cf_add hN, ← cf_sub hN]
    obtain ⟨w, hw⟩ := hE
    have : b1 * s + b0 - (r1 * s + r0) = E + ((levelQ l 0 : ℤ) : Rg N) * w := by linear_combination hw
    rw [this, cf_add hN, cf_int_mul hN, hQ]
    exact Int.modEq_iff_dvd.mpr ⟨-(cf w k), by ring⟩
  have d5 := c25_export hci d5'
  obtain ⟨rns, t1⟩ := (c18_new_iff l).mpr (by
    obtain ⟨K, -, hw, h7⟩ := RqP.ctx hci
    rw [← h7, hw.core.m64]
    exact ⟨hw.core.rns.bound, hw.core.rns.cop⟩)
  have t2 : rns.product = l.prod := c18_modulus t1
  have hpos : (0 : ℤ) < l.prod := by
    rw [← hQ]
    exact (hB.nonneg hN).trans_lt hBQ
  have hsub : ∀ A : ℤ, (A % (l.prod : ℤ)).toNat ≤ l.prod := fun A => by
    have := Int.emod_lt_of_pos A hpos
    omega
  unfold Tests.comparePair
  dsimp only
  rw [a1, res_ok_bind, a2, res_ok_bind, a3, res_ok_bind, a4, res_ok_bind, a5, res_ok_bind, e2, res_ok_bind, e4, res_ok_bind, e5, res_ok_bind,
    hP, t1, res_ok_bind, d2, res_ok_bind, d4, res_ok_bind, d5, res_ok_bind, t2]
  rw [List.zip_map', List.zip_map']
  refine ⟨_, print_bits (fun _ => hsub _) (fun _ => hsub _) (fun _ => hsub _), by simp, ?_⟩
  · intro k hk
    refine ⟨_, by rw [List.getElem?_map, List.getElem?_range hk, Option.map_some], ?_⟩
    dsimp only
    have hk' := abs_le.mp (hB k hk)
    rw [hQ] at hBQ ⊢
    generalize cf E k = E at *
    split_ifs with h0
    · have : E % (l.prod : ℤ) = l.prod + E := by
        rw [← Int.add_emod_right, Int.emod_eq_of_lt (by omega) (by omega)]; ring
      rw [this]
      congr 1
      omega
    · rw [Int.emod_eq_of_lt (by omega) (by omega)]
      congr 1
      omega

end Prints

/-- C90: `encrypt_poly` of rgsw.rs. The upper half of an RGSW ciphertext and the external products of the lower half with the encrypted key have
phases that differ by at most `20 + 400 N + 40 N (Σ q_j)`. So the third number printed for each coefficient is either the size of a negative
difference, or, if the difference is not negative, that of the modulus minus the difference. Nothing overflows. -/
theorem c90_encrypt_poly (h : IsParams N t l 10 P) (hQ : 20 + (N * 20 * 20 + switchNoise N l 0 * 40) < levelQ l 0) (pr : Profile) {skRng : Nat → Nat}
    (hs : ∀ i, skRng i < 2 ^ 64) {v : List Nat} (hv : v.length ≤ N) (hv2 : ∀ x ∈ v, x < 2 ^ 64)
    {a0 a1 b0 b1 : Nat → Nat → Nat → Nat} (ha0 : ∀ j, TapeAt l 0 (a0 j)) (ha1 : ∀ j, TapeAt l 0 (a1 j)) (hb0 : ∀ j, TapeAt l 0 (b0 j))
    (hb1 : ∀ j, TapeAt l 0 (b1 j)) {r0 r1 u0 u1 : Nat → Nat → Nat} (hr0 : ∀ j i, r0 j i < 2 ^ 64) (hr1 : ∀ j i, r1 j i < 2 ^ 64)
    (hu0 : ∀ j i, u0 j i < 2 ^ 64) (hu1 : ∀ j i, u1 j i < 2 ^ 64) :
    ∃ out, Tests.rgswEncryptPoly pr P skRng v a0 a1 r0 r1 b0 b1 u0 u1 = .ok out ∧ out.length = l.length ∧
      ∀ (j : Nat) row, out[j]? = some row → row.length = N ∧ ∀ (k : Nat) x, row[k]? = some x → ∃ d : ℤ, |d| ≤ 20 + (N * 20 * 20 + switchNoise N l 0 * 40) ∧
        x.2.2 = if d < 0 then SecretKey.bitLength d.natAbs else SecretKey.bitLength (levelQ l 0 - d.natAbs) := by
  have hN := Simd.pos h
  have hlev : (levelModuli l 0).length = l.length := by unfold levelModuli; simp
  have hl0 : 0 < l.length := by
    obtain ⟨K, ext, -, hw, -, rfl, -⟩ := BfvP.params h
    exact List.length_pos_iff.mpr hw.ne
  obtain ⟨sk, k1, k2, k3⟩ := c30_generate h pr (by norm_num) (by norm_num) hs
  have k3 : Bdd 20 (keyRing N sk) := by simpa using k3
  obtain ⟨c, hc, hci⟩ := Prints.ctx0 h
  obtain ⟨skp, s1, s2⟩ := Prints.key_poly h k2 pr hc hci
  obtain ⟨g, g1, g2⟩ := c39_encrypt_poly h k2 pr (by norm_num) (by norm_num) ⟨c, hc, s2⟩ ha0 ha1 hr0 hr1
  have hd : P.degree = N := (c51_levels h).1
  have hplain : Plaintext.new pr P v 0 .poly = .ok ⟨P, 0, .poly, v ++ List.replicate (N - v.length) 0⟩ := by
    unfold Plaintext.new Plaintext.encode copyPrefix
    simp [hd, hv, res_ok_bind]
  obtain ⟨x, x1, ⟨-, -, bs, as, e3, e4, e5, e6, e7⟩, x3⟩ := c39_encrypt h k2 pr (by norm_num) (by norm_num)
    (pt := ⟨P, 0, .poly, v ++ List.replicate (N - v.length) 0⟩) rfl hl0 (by simp; omega)
    (fun y hy => by
      rcases List.mem_append.mp hy with hy | hy
      · exact hv2 y hy
      · rw [(List.mem_replicate.mp hy).2]; norm_num) hb0 hb1 hu0 hu1
  dsimp only at x1 x3 e3 e4 e5 e6 e7
  obtain ⟨ps, p1, p2, -, p4⟩ := Prints.rows h pr g2 k3 x3
  obtain ⟨out, o1, o2, o3⟩ := Prints.mapR_exists (L := x.ksk0.c0.zip (x.ksk0.c1.zip ps)) (f := Tests.comparePair pr P skp)
    (Q := fun _ row => row.length = N ∧ ∀ (k : Nat) x, row[k]? = some x → ∃ d : ℤ, |d| ≤ 20 + (N * 20 * 20 + switchNoise N l 0 * 40) ∧
        x.2.2 = if d < 0 then SecretKey.bitLength d.natAbs else SecretKey.bitLength (levelQ l 0 - d.natAbs)) (by
    intro j y hy
    obtain ⟨y0, y1, z0, z1⟩ := y
    rw [List.getElem?_zip_eq_some, List.getElem?_zip_eq_some] at hy
    have hj : j < x.ksk0.c0.length := (List.getElem?_eq_some_iff.mp hy.1).1
    obtain ⟨w0, w1, q0, q1, q2⟩ := p4 j _ hy.2.2
    have q3 := e7 j (by rw [← e5, e3.length_eq]; exact hj)
    obtain ⟨E, hE, hcong⟩ : ∃ E : Rg N, Bdd (20 + (N * 20 * 20 + switchNoise N l 0 * 40)) E ∧
        Cong (levelQ l 0) (bs.getD j 0 + as.getD j 0 * keyRing N sk - (w0 + w1 * keyRing N sk)) E := by
      obtain ⟨g3, hg3, d1, d2, d3⟩ := q3
      obtain ⟨g4, hg4, d4, d5, d6⟩ := q2
      refine ⟨d1 - d4, (d2.sub hN d5).mono (by norm_num), ?_⟩
      obtain ⟨z, hz⟩ := Prints.garner_unique h hg3 hg4
      obtain ⟨w, hw⟩ := d3
      obtain ⟨w', hw'⟩ := d6
      refine ⟨w - w' + keyRing N sk * msgRing N (v ++ List.replicate (N - v.length) 0) * ((z : ℤ) : Rg N), ?_⟩
      have hz' : ((g3 : ℤ) : Rg N) - ((g4 : ℤ) : Rg N) = ((levelQ l 0 : ℤ) : Rg N) * ((z : ℤ) : Rg N) := by exact_mod_cast congrArg (fun y : ℤ => (y : Rg N)) hz
      linear_combination hw - hw' + keyRing N sk * msgRing N (v ++ List.replicate (N - v.length) 0) * hz'
    obtain ⟨row, c1, c2, c3⟩ := Prints.compare h pr hc hci s2 (Prints.forall₂_getD e3 hy.1) (Prints.forall₂_getD e4 hy.2.1) q0 q1 hcong hE hQ
    refine ⟨row, c1, c2, fun k x hx => ?_⟩
    have hk : k < N := by rw [← c2]; exact (List.getElem?_eq_some_iff.mp hx).1
    obtain ⟨x', h1, h2⟩ := c3 k hk
    obtain rfl := Option.some.inj (hx.symm.trans h1)
    exact ⟨cf E k, hE k hk, h2⟩)
  refine ⟨out, ?_, ?_, o3⟩
  · unfold Tests.rgswEncryptPoly
    rw [k1, res_ok_bind, idx_of hc, res_ok_bind, s1, res_ok_bind, res_ok_bind, g1, res_ok_bind, hplain, res_ok_bind, x1, res_ok_bind, p1, res_ok_bind, o1]
  · rw [o2, List.length_zip, List.length_zip, ← e3.length_eq, ← e4.length_eq, e5, e6, p2, hlev, min_self, min_self]

namespace Prints

theorem bits_lt {x n : Nat} (h : x < 2 ^ n) : SecretKey.bitLength x ≤ n := by
  unfold SecretKey.bitLength
  split
  · omega
  · rename_i h0
    have := (Nat.log2_lt h0).mpr h
    omega

theorem bits_eq {x n : Nat} (h1 : 2 ^ n ≤ x) (h2 : x < 2 ^ (n + 1)) : SecretKey.bitLength x = n + 1 := by
  have h0 : x ≠ 0 := by have := Nat.two_pow_pos n; omega
  unfold SecretKey.bitLength
  rw [if_neg h0]
  have a := (Nat.log2_lt h0).mpr h2
  have b := (Nat.le_log2 h0).mpr h1
  omega

end Prints

/-- C90: with the parameters of the test, made with the generator of the code, each line printed ends with a number up to 74 or with 183. -/
theorem c90_encrypt_poly_printed (pr : Profile) {sample : Nat → Nat → Nat} (hsam : SeedZero sample) (bd : BitDecomposition) :
    ∃ P l, generateModuli pr [61, 61, 61] 64 = .ok (some l) ∧ BfvParameters.new pr sample 64 1152921504577486849 l 10 bd = .ok P ∧
      ∀ (skRng : Nat → Nat) (v : List Nat) (a0 a1 b0 b1 : Nat → Nat → Nat → Nat) (r0 r1 u0 u1 : Nat → Nat → Nat), (∀ i, skRng i < 2 ^ 64) →
        v.length ≤ 64 → (∀ x ∈ v, x < 2 ^ 64) → (∀ j, TapeAt l 0 (a0 j)) → (∀ j, TapeAt l 0 (a1 j)) → (∀ j, TapeAt l 0 (b0 j)) →
        (∀ j, TapeAt l 0 (b1 j)) → (∀ j i, r0 j i < 2 ^ 64) → (∀ j i, r1 j i < 2 ^ 64) → (∀ j i, u0 j i < 2 ^ 64) → (∀ j i, u1 j i < 2 ^ 64) →
        ∃ out, Tests.rgswEncryptPoly pr P skRng v a0 a1 r0 r1 b0 b1 u0 u1 = .ok out ∧ out.length = 3 ∧
          ∀ row ∈ out, row.length = 64 ∧ ∀ x ∈ row, x.2.2 ≤ 74 ∨ x.2.2 = 183 := by
  obtain ⟨h1, P, h2, h3⟩ := c89_encrypt_poly pr hsam 10 bd
  have hsw : switchNoise 64 [2305843009213689601, 2305843009213689089, 2305843009213687297] 0 = 64 * (2305843009213689601 + 2305843009213689089 + 2305843009213687297) := by
    decide +kernel
  have hQ : levelQ [2305843009213689601, 2305843009213689089, 2305843009213687297] 0 = 2305843009213689601 * 2305843009213689089 * 2305843009213687297 := by
    decide +kernel
  refine ⟨P, _, h1, h2, fun skRng v a0 a1 b0 b1 r0 r1 u0 u1 hs hv hv2 ha0 ha1 hb0 hb1 hr0 hr1 hu0 hu1 => ?_⟩
  obtain ⟨out, o1, o2, o3⟩ := c90_encrypt_poly h3 (by rw [hsw, hQ]; norm_num) pr hs hv hv2 ha0 ha1 hb0 hb1 hr0 hr1 hu0 hu1
  refine ⟨out, o1, o2, fun row hrow => ?_⟩
  obtain ⟨j, hj⟩ := List.mem_iff_getElem?.mp hrow
  obtain ⟨o4, o5⟩ := o3 j row hj
  refine ⟨o4, fun x hx => ?_⟩
  obtain ⟨k, hk⟩ := List.mem_iff_getElem?.mp hx
  obtain ⟨d, d1, d2⟩ := o5 k x hk
  rw [hsw] at d1
  rw [hQ] at d2
  norm_num at d1 d2
  rw [abs_le] at d1
  rw [d2]
  split_ifs with h0
  · exact Or.inl (Prints.bits_lt (by omega))
  · exact Or.inr (Prints.bits_eq (n := 182) (by omega) (by omega))

/-! ### rq.rs -/

/-- C90: `substitute` of rq.rs shows the polynomial with `X^(e1 e2)` for `X`. -/
theorem c90_substitute {c : RqContext} (hc : IsContext N l c) (hN31 : N ≤ 2 ^ 31) (pr : Profile) {e1 e2 : Nat} (h1 : Odd e1) (h2 : Odd e2)
    {tape : Nat → Nat → Nat} (ht : ∀ i, i < l.length → ∀ j, tape i j < l.getD i 1) :
    ∃ A p, Denotes c .powerBasis A (Poly.random c tape .powerBasis) ∧
      Tests.substitute pr c e1 e2 tape = .ok (p, Poly.random c tape .powerBasis) ∧ Denotes c .powerBasis (subst N (e1 * e2) A) p := by
  obtain ⟨A, a1, -⟩ := c20_denotes hc (p := Poly.random c tape .powerBasis) rfl (by simp [Poly.random]) (random_valid hc ht _)
  replace a1 : Denotes c .powerBasis A (Poly.random c tape .powerBasis) := a1
  have a1' := a1
  obtain ⟨K, rfl, h, rfl⟩ := RqP.ctx hc
  have hN : 0 < 2 ^ K := by positivity
  have hK : K ≤ 31 := (Nat.pow_le_pow_iff_right (by norm_num)).mp hN31
  rw [RqP.denotes_iff h (by simp)] at a1'
  refine ⟨A, enc c .powerBasis (sg (e1 * e2) (ofCoeffs (2 ^ K) A)), a1, ?_, RqP.denotes_enc h (by simp) _ fun j hj => subst_eq hN _ A hj⟩
  have s1 := Poly.substitution_new_ok h pr hK h1
  have s2 := Poly.substitution_new_ok h pr hK h2
  unfold Tests.substitute
  dsimp only
  rw [a1', toNtt_enc h, res_ok_bind, s1, res_ok_bind, Poly.substitute_enc h pr hK h1 s1, res_ok_bind, s2, res_ok_bind,
    Poly.substitute_enc h pr hK h2 s2, res_ok_bind, toPower_enc h, res_ok_bind, sg_sg hN h2, mul_comm e2]

/-- C90: for inverse exponents modulo twice the degree, such as 3 and 11 for degree 8, it shows the same polynomial twice. -/
theorem c90_substitute_inverse {c : RqContext} (hc : IsContext N l c) (hN31 : N ≤ 2 ^ 31) (pr : Profile) {e1 e2 : Nat} (h12 : e1 * e2 % (2 * N) = 1)
    {tape : Nat → Nat → Nat} (ht : ∀ i, i < l.length → ∀ j, tape i j < l.getD i 1) :
    Tests.substitute pr c e1 e2 tape = .ok (Poly.random c tape .powerBasis, Poly.random c tape .powerBasis) := by
  have hodd : Odd (e1 * e2) := by
    rw [Nat.odd_iff]
    have := Nat.mod_mod_of_dvd (e1 * e2) (Dvd.intro N rfl : 2 ∣ 2 * N)
    omega
  obtain ⟨h1, h2⟩ := Nat.odd_mul.mp hodd
  obtain ⟨A, p, a1, a2, a3⟩ := c90_substitute hc hN31 pr h1 h2 ht
  obtain ⟨K, rfl, h, rfl⟩ := RqP.ctx hc
  have hN : 0 < 2 ^ K := by positivity
  rw [RqP.denotes_iff h (by simp)] at a1 a3
  have : ofCoeffs (2 ^ K) (subst (2 ^ K) (e1 * e2) A) = ofCoeffs (2 ^ K) A := by
    apply ext_cf hN
    intro k hk
    rw [cf_ofCoeffs hN _ hk, subst_eq hN _ _ hk, ← sg_mod, h12, sg_one hN]
  rw [a2, a3, this, ← a1]

/-! ### The hypotheses can be met -/

/-- The vector 0 … 7 of `simd_slot_rotations`: the round trip does not return it, and the rotation shows `[0, 6, 0, 0, 1, 0, 1, 0]`. -/
example : ∃ P l, TestParams 8 1153 l P ∧ l.length = 6 ∧
    (∃ pt, Plaintext.new .debug P [0, 1, 2, 3, 4, 5, 6, 7] 0 .simd = .ok pt ∧ pt.decode .debug = .ok [0, 1, 7, 3, 6, 7, 6, 7]) ∧
    Tests.simdSlotRotations .debug P 15 (fun i => i % 1000) [0, 1, 2, 3, 4, 5, 6, 7] (fun _ _ => 0) (fun i => i % 1000) (fun _ _ _ => 0)
      (fun _ i => i % 1000) = .ok [0, 6, 0, 0, 1, 0, 1, 0] := by
  obtain ⟨P, l, -, h, hl, -⟩ := Ex.test_default (n := 6) (by norm_num) (by norm_num)
  have ht := Ex.tape0 (i := 0) (Ex.test_gt h)
  obtain ⟨pt, h1, h2⟩ := c90_round_trip h.params .debug .debug (vals := [0, 1, 2, 3, 4, 5, 6, 7]) ⟨rfl, by decide⟩ 0
  exact ⟨P, l, h, hl, ⟨pt, h1, h2.trans (by decide +kernel)⟩,
    c90_slot_rotations_15 h .debug Ex.wordTape ⟨rfl, by decide⟩ ht Ex.wordTape (fun _ => ht) (fun _ => Ex.wordTape)⟩

/-- The tests of ksk.rs and rgsw.rs with the values they use. -/
example : ∃ P l, TestParams 8 1153 l P ∧ l.length = 6 ∧
    Tests.trial .debug P (fun i => i % 1000) [10000] [1] (fun _ _ => 0) (fun i => i % 1000) = .ok (residues 1153 (msgRing 8 [1] * msgRing 8 [10000])) ∧
    Tests.constructKskFromRgsw .debug P (fun i => i % 1000) [2] [2] [3] (fun _ _ _ => 0) (fun _ _ _ => 0) (fun _ i => i % 1000) (fun _ i => i % 1000)
      (fun _ _ _ => 0) (fun _ i => i % 1000) = .ok (residues 1153 (msgRing 8 [2] * msgRing 8 [2] * msgRing 8 [3])) := by
  obtain ⟨P, l, -, h, hl, hq⟩ := Ex.test_default (n := 6) (by norm_num) (by norm_num)
  have ht := Ex.tape0 (i := 0) (Ex.test_gt h)
  exact ⟨P, l, h, hl, c90_trial h .debug Ex.wordTape (by decide) (by decide) (by decide) (by decide) ht Ex.wordTape,
    c90_construct_ksk h (c90_default_size h (by omega) hq) .debug Ex.wordTape (by decide) (by decide) (by decide) (by decide) (by decide) (by decide)
      (fun _ => ht) (fun _ => ht) (fun _ => ht) (fun _ => Ex.wordTape) (fun _ => Ex.wordTape) (fun _ => Ex.wordTape)⟩

/-- `construct_full_from_half`, with three moduli as there, on a tape that gives an error: the product shown is not the vector. -/
example : ∃ P l e noise, TestParams 8 1153 l P ∧ l.length = 3 ∧
    Tests.constructFullFromHalf .debug P (fun i => i % 1000) [1] [1, 2, 3, 4, 5, 6, 7, 1152] (fun _ _ _ => 0) (fun _ _ _ => 0) (fun _ i => i % 1000)
      (fun _ i => i % 1000) (fun _ _ _ => 0) (fun _ i => i % 1000) (fun _ _ => 0) (fun i => i % 1000) =
      .ok (residues 1153 (msgRing 8 [1] * (msgRing 8 [1, 2, 3, 4, 5, 6, 7, 1152] + smallRing 8 e)), [1, 2, 3, 4, 5, 6, 7, 1152], noise) ∧
    residues 1153 (msgRing 8 [1] * (msgRing 8 [1, 2, 3, 4, 5, 6, 7, 1152] + smallRing 8 e)) ≠ [1, 2, 3, 4, 5, 6, 7, 1152] := by
  obtain ⟨P, l, -, h, hl, hq⟩ := Ex.test_default (n := 3) (by norm_num) (by norm_num)
  have ht := Ex.tape0 (i := 0) (Ex.test_gt h)
  obtain ⟨e, noise, h1, h2, -⟩ := c90_construct_full h (c90_default_size h (by omega) hq) .debug Ex.wordTape (b := [1])
    (m := [1, 2, 3, 4, 5, 6, 7, 1152]) (by decide) (by decide) ⟨rfl, by decide⟩ (fun _ => ht) (fun _ => ht) (fun _ => ht) (fun _ => Ex.wordTape)
    (fun _ => Ex.wordTape) (fun _ => Ex.wordTape) ht Ex.wordTape
  refine ⟨P, l, e, noise, h, hl, h2, fun h3 => ?_⟩
  have h4 := (c90_construct_full_one h (by norm_num) Ex.wordTape h1 ⟨rfl, by decide⟩).mp h3
  have h5 : sampleVecCbd .debug (fun i => i % 1000) 8 10 ≠ .ok [0, 0, 0, 0, 0, 0, 0, 0] := by decide +kernel
  have h6 : e.length = 8 := by
    rw [sampleVecCbd_ok .debug Ex.wordTape (by norm_num) (by norm_num)] at h1
    rw [← Except.ok.inj h1]; simp
  refine h5 (h1.trans (congrArg _ (List.ext_getElem (by simp [h6]) fun k a b => ?_)))
  have := h4 k (by omega)
  rw [getD_eq_getElem' _ _ _ a] at this
  rw [this]
  have hk : k < 8 := by omega
  interval_cases k <;> rfl

/-- `encrypt_poly` with smaller moduli. -/
example : ∃ P out, Tests.rgswEncryptPoly .debug P (fun i => i % 1000) [1] (fun _ _ _ => 0) (fun _ _ _ => 0) (fun _ i => i % 1000) (fun _ i => i % 1000)
    (fun _ _ _ => 0) (fun _ _ _ => 0) (fun _ i => i % 1000) (fun _ i => i % 1000) = .ok out ∧ out.length = 3 := by
  obtain ⟨P, sk, h, hk⟩ := Ex.setup_key
  obtain ⟨out, h1, h2, -⟩ := c90_encrypt_poly h (by
      rw [Ex.levelQ_mods0, show switchNoise 8 Ex.mods 0 = 8 * (1048609 + 1048721 + 1048897) by decide +kernel]; norm_num) .debug Ex.wordTape (v := [1])
    (by decide) (by decide) Ex.tapes Ex.tapes Ex.tapes Ex.tapes (fun _ => Ex.wordTape) (fun _ => Ex.wordTape) (fun _ => Ex.wordTape) (fun _ => Ex.wordTape)
  exact ⟨P, out, h1, h2⟩

/-- `substitute` with 3 and 11. -/
example : ∃ c, IsContext 8 [17, 97] c ∧ Tests.substitute .release c 3 11 (fun i j => i + j % 9) =
    .ok (Poly.random c (fun i j => i + j % 9) .powerBasis, Poly.random c (fun i j => i + j % 9) .powerBasis) := by
  obtain ⟨c, hc⟩ := exists_context
  refine ⟨c, hc, c90_substitute_inverse hc (by norm_num) .release (by norm_num) fun i hi j => ?_⟩
  have hi : i < 2 := hi
  have := Nat.mod_lt j (show 0 < 9 by norm_num)
  interval_cases i <;> simp <;> omega

/-- `c90_simd` and `c90_substitute` on actual parameters; `c90_slot_rotations` with the exponent 9. -/
example : ∃ P l, TestParams 8 1153 l P ∧ l.length = 6 ∧ (∃ psi : ZMod 1153, psi ^ 8 = -1 ∧ ∀ (pr : Profile) (lev : Nat) (m : Rg 8), ∃ out,
      (⟨P, lev, .simd, residues 1153 m⟩ : Plaintext).decode pr = .ok out ∧ SlotsOf 1153 psi m out) ∧
    Tests.simdSlotRotations .debug P 9 (fun i => i % 1000) [0, 1, 2, 3, 4, 5, 6, 7] (fun _ _ => 0) (fun i => i % 1000) (fun _ _ _ => 0)
      (fun _ i => i % 1000) = .ok ((List.range 8).map fun k => slotValue 8 [0, 1, 2, 3, 4, 5, 6, 7] (slotExp 8 k * 9 % 16)) := by
  obtain ⟨P, l, -, h, hl, -⟩ := Ex.test_default (n := 6) (by norm_num) (by norm_num)
  have ht := Ex.tape0 (i := 0) (Ex.test_gt h)
  obtain ⟨psi, h1, h2, -⟩ := c90_simd h.params
  exact ⟨P, l, h, hl, ⟨psi, h1, h2⟩, c90_slot_rotations h .debug (e := 9) (by decide) Ex.wordTape ⟨rfl, by decide⟩ ht Ex.wordTape (fun _ => ht)
    (fun _ => Ex.wordTape)⟩

/-- `c90_substitute` with the exponents 3 and 5. -/
example : ∃ c A p, IsContext 8 [17, 97] c ∧ Denotes c .powerBasis A (Poly.random c (fun i j => i + j % 9) .powerBasis) ∧
    Tests.substitute .release c 3 5 (fun i j => i + j % 9) = .ok (p, Poly.random c (fun i j => i + j % 9) .powerBasis) ∧
    Denotes c .powerBasis (subst 8 (3 * 5) A) p := by
  obtain ⟨c, hc⟩ := exists_context
  obtain ⟨A, p, h1, h2, h3⟩ := c90_substitute hc (by norm_num) .release (e1 := 3) (e2 := 5) (by decide) (by decide) (tape := fun i j => i + j % 9) fun i hi j => by
    have hi : i < 2 := hi
    have := Nat.mod_lt j (show 0 < 9 by norm_num)
    interval_cases i <;> simp <;> omega
  exact ⟨c, A, p, hc, h1, h2, h3⟩

end OnionPIR
