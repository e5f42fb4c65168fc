import Verif.Props.Ntt
import Verif.Props.Contracts
/-
C92 (src/ntt.rs): which vectors the transforms accept. The debug build refuses exactly the vectors with an entry outside of the lazy range, and
within it the transform is that of the residues.
-/
namespace OnionPIR
open NttOperator

namespace NttContracts
variable {K psi psiInv : Nat} {op : NttOperator}

/-- A loop over `0..n` that fails at every bad index and keeps the other indices fails if there is a bad one. -/
theorem fold_refuses {σ : Type} {g : σ → Nat → Res σ} {n : Nat} {e : Panic} (Inv : Nat → σ → Prop) (Good : Nat → σ → Prop)
    (hok : ∀ j st, j < n → Inv j st → Good j st → ∃ st', g st j = .ok st' ∧ Inv (j + 1) st' ∧ ∀ i, i < n → i ≠ j → (Good i st' ↔ Good i st))
    (hbad : ∀ j st, j < n → Inv j st → ¬ Good j st → g st j = .error e) {st : σ} (h0 : Inv 0 st) (hb : ∃ j, j < n ∧ ¬ Good j st) :
    foldR g st (List.range n) = .error e := by
  have key : ∀ d j st, j + d = n → Inv j st → (∃ i, j ≤ i ∧ i < n ∧ ¬ Good i st) → foldR g st (List.range' j d) = .error e := by
    intro d
    induction d with
    | zero => rintro j st hj - ⟨i, h1, h2, -⟩; omega
    | succ d ih =>
      rintro j st hj hI ⟨i, h1, h2, h3⟩
      rw [List.range'_succ, foldR_cons]
      by_cases hg : Good j st
      · obtain ⟨st', e1, e2, e3⟩ := hok j st (by omega) hI hg
        have hij : i ≠ j := by rintro rfl; exact h3 hg
        rw [e1, res_ok_bind]
        exact ih (j + 1) st' (by omega) e2 ⟨i, by omega, h2, fun hh => h3 ((e3 i h2 hij).mp hh)⟩
      · rw [hbad j st (by omega) hI hg]; rfl
  obtain ⟨j, h1, h2⟩ := hb
  rw [List.range_eq_range']
  exact key n 0 st (by omega) h0 ⟨j, by omega, h1, h2⟩

theorem updatePair_error {a : List Nat} {j l : Nat} {f : Nat → Nat → Res (Nat × Nat)} {e : Panic} (hj : j + l < a.length)
    (hf : f (a.getD j 0) (a.getD (j + l) 0) = .error e) : updatePair a j l f = .error e := by
  unfold updatePair
  rw [idx_getD 0 (by omega), res_ok_bind, idx_getD 0 hj, res_ok_bind, hf]; rfl

theorem butterfly_refuses {x y w ws : Nat} (h : ¬ (x < 4 * op.p.p ∧ y < 4 * op.p.p)) : op.butterfly .debug x y w ws = .error .debugAssert := by
  unfold butterfly
  by_cases hx : x < op.p.p * 4
  · rw [dassert_ok hx, res_ok_bind, Contracts.dassert_fail (by omega)]; rfl
  · rw [Contracts.dassert_fail hx]; rfl

theorem butterflyInv_refuses {x y w ws : Nat} (h : ¬ (x < op.pTwice ∧ y < op.pTwice)) : op.butterflyInv .debug x y w ws = .error .debugAssert := by
  unfold butterflyInv
  by_cases hx : x < op.pTwice
  · rw [dassert_ok hx, res_ok_bind, Contracts.dassert_fail (by omega)]; rfl
  · rw [Contracts.dassert_fail hx]; rfl

theorem bad_index {a : List Nat} {B : Nat} (h : ∃ x ∈ a, ¬ x < B) : ∃ i, i < a.length ∧ ¬ a.getD i 0 < B := by
  obtain ⟨x, hx, hB⟩ := h
  obtain ⟨i, hi, rfl⟩ := List.getElem_of_mem hx
  exact ⟨i, hi, by rwa [List.getD, List.getElem?_eq_getElem hi]⟩

theorem forward_refuses (h : op.WF K psi psiInv) {a : List Nat} (ha : a.length = 2 ^ K) (hb : ∃ x ∈ a, ¬ x < 4 * op.p.p) :
    op.forward .debug a = .error .debugAssert := by
  have h3 := h.three_le
  have hK : 2 ^ K = 2 * 2 ^ (K - 1) := by rw [← pow_succ']; congr 1; omega
  have hl4 : 4 ≤ 2 ^ (K - 1) := by
    calc 4 = 2 ^ 2 := rfl
      _ ≤ 2 ^ (K - 1) := Nat.pow_le_pow_right (by norm_num) (by omega)
  have hhalf : op.size >>> 1 = 2 ^ (K - 1) := by rw [h.size, Nat.shiftRight_eq_div_pow, hK]; omega
  have hw : op.omegas.getD 1 0 < op.p.p := by rw [h.om 1 (by omega)]; exact Nat.mod_lt _ h.mod.pos
  unfold forward
  rw [rassert_ok (by rw [ha, h.size]), res_ok_bind, hhalf, forwardLoop, dif_neg (by omega)]
  have hblock : op.forwardBlock .debug (2 ^ (K - 1)) 0 (op.omegas.getD 1 0) (op.omegas.getD 1 0 * 2 ^ 64 / op.p.p) a = .error .debugAssert := by
    unfold forwardBlock
    simp only [Nat.mul_zero, Nat.zero_mul, Nat.zero_add]
    rw [if_neg (by omega)]
    refine fold_refuses (Inv := fun _ b => b.length = 2 ^ K)
      (Good := fun j b => b.getD j 0 < 4 * op.p.p ∧ b.getD (j + 2 ^ (K - 1)) 0 < 4 * op.p.p) ?_ ?_ ha ?_
    · intro j b hj hb hg
      replace hb : b.length = 2 ^ K := hb
      obtain ⟨r, hr, -⟩ := butterfly_ok h .debug hg.1 hg.2 hw
      obtain ⟨b', e1, e2, e3, e4, e5⟩ := updatePair_ok (a := b) (j := j)
        (f := fun x y => op.butterfly .debug x y (op.omegas.getD 1 0) (op.omegas.getD 1 0 * 2 ^ 64 / op.p.p)) (show 0 < 2 ^ (K - 1) by omega) (by omega) hr
      refine ⟨b', e1, by omega, fun i hi hij => ?_⟩
      rw [e5 _ (by omega) (by omega), e5 _ (by omega) (by omega)]
    · intro j b hj hb hg
      replace hb : b.length = 2 ^ K := hb
      exact updatePair_error (by omega) (butterfly_refuses hg)
    · obtain ⟨i, h1, h2⟩ := bad_index hb
      by_cases hi : i < 2 ^ (K - 1)
      · exact ⟨i, hi, fun hh => h2 hh.1⟩
      · refine ⟨i - 2 ^ (K - 1), by omega, fun hh => h2 ?_⟩
        have := hh.2
        rwa [Nat.sub_add_cancel (by omega)] at this
  have hlayer : op.forwardLayer .debug (2 ^ (K - 1)) 1 1 a = .error .debugAssert := by
    unfold forwardLayer
    rw [List.range_one, foldR_cons]
    simp only []
    rw [idx_getD 0 (by rw [h.om_len]; omega), res_ok_bind,
      idx_getD 0 (by rw [h.oms, List.length_map, h.om_len]; omega), res_ok_bind, h.oms,
      getD_map_of_lt _ _ _ 0 _ (by rw [h.om_len]; omega), hblock]
    rfl
  rw [hlayer]; rfl

theorem backward_refuses (h : op.WF K psi psiInv) {a : List Nat} (ha : a.length = 2 ^ K) (hb : ∃ x ∈ a, ¬ x < 2 * op.p.p) :
    op.backward .debug a = .error .debugAssert := by
  have h3 := h.three_le
  have hK : 2 ^ K = 2 * 2 ^ (K - 1) := by rw [← pow_succ']; congr 1; omega
  have hl4 : 0 < 2 ^ (K - 1) := by positivity
  have hhalf : op.size >>> 1 = 2 ^ (K - 1) := by rw [h.size, Nat.shiftRight_eq_div_pow, hK]; omega
  unfold backward
  rw [rassert_ok (by rw [ha, h.size]), res_ok_bind, hhalf, backwardLoop, dif_neg (by omega)]
  have hlayer : op.backwardLayer .debug 1 (2 ^ (K - 1)) 0 a = .error .debugAssert := by
    unfold backwardLayer
    refine fold_refuses (Inv := fun j (st : List Nat × Nat) => st.1.length = 2 ^ K ∧ st.2 = j)
      (Good := fun j st => st.1.getD (2 * j) 0 < 2 * op.p.p ∧ st.1.getD (2 * j + 1) 0 < 2 * op.p.p) ?_ ?_ ⟨ha, rfl⟩ ?_
    · rintro j ⟨b, k⟩ hj ⟨hb, rfl⟩ hg
      replace hb : b.length = 2 ^ K := hb
      simp only at hj hg ⊢
      have hz : op.zetasInv.getD k 0 < op.p.p := by rw [h.ze k (by omega)]; exact Nat.mod_lt _ h.mod.pos
      rw [idx_getD 0 (by rw [h.ze_len]; omega), res_ok_bind,
        idx_getD 0 (by rw [h.zes, List.length_map, h.ze_len]; omega), res_ok_bind, h.zes,
        getD_map_of_lt _ _ _ 0 _ (by rw [h.ze_len]; omega), List.range_one, foldR_cons, Nat.mul_one, Nat.add_zero]
      obtain ⟨r, hr, -⟩ := butterflyInv_ok h .debug hg.1 hg.2 hz
      obtain ⟨b', e1, e2, e3, e4, e5⟩ := updatePair_ok (a := b) (j := 2 * k)
        (f := fun x y => op.butterflyInv .debug x y (op.zetasInv.getD k 0) (op.zetasInv.getD k 0 * 2 ^ 64 / op.p.p)) (show 0 < 1 by omega) (by omega) hr
      rw [e1, res_ok_bind, foldR_nil, res_ok_bind]
      refine ⟨_, rfl, ⟨by simp only; omega, rfl⟩, fun i hi hij => ?_⟩
      simp only
      rw [e5 _ (by omega) (by omega), e5 _ (by omega) (by omega)]
    · rintro j ⟨b, k⟩ hj ⟨hb, rfl⟩ hg
      replace hb : b.length = 2 ^ K := hb
      simp only at hj hg ⊢
      rw [idx_getD 0 (by rw [h.ze_len]; omega), res_ok_bind,
        idx_getD 0 (by rw [h.zes, List.length_map, h.ze_len]; omega), res_ok_bind, List.range_one, foldR_cons, Nat.mul_one, Nat.add_zero,
        updatePair_error (f := fun x y => op.butterflyInv .debug x y _ _) (by omega) (butterflyInv_refuses (by rw [h.twice]; exact hg))]
      rfl
    · obtain ⟨i, h1, h2⟩ := bad_index hb
      rcases Nat.mod_two_eq_zero_or_one i with hi | hi
      · refine ⟨i / 2, by omega, fun hh => h2 ?_⟩
        have := hh.1
        rwa [show 2 * (i / 2) = i by omega] at this
      · refine ⟨i / 2, by omega, fun hh => h2 ?_⟩
        have := hh.2
        rwa [show 2 * (i / 2) + 1 = i by omega] at this
  rw [hlayer]; rfl

/-- Two reduced vectors with the same residues are equal. -/
theorem eq_of_vals {p n : Nat} (hp : 0 < p) {a b : List Nat} (ha : a.length = n) (hb : b.length = n) (ha2 : ∀ x ∈ a, x < p) (hb2 : ∀ x ∈ b, x < p)
    (h : ∀ x, x < n → vals p a x = vals p b x) : a = b := by
  refine List.ext_getElem (by omega) fun i h1 h2 => ?_
  have := h i (by omega)
  rw [vals, vals, List.getD, List.getD, List.getElem?_eq_getElem h1, List.getElem?_eq_getElem h2, Option.getD_some, Option.getD_some,
    ZMod.natCast_eq_natCast_iff, Nat.ModEq, Nat.mod_eq_of_lt (ha2 _ (List.getElem_mem _)), Nat.mod_eq_of_lt (hb2 _ (List.getElem_mem _))] at this
  exact this

theorem vals_mod (p : Nat) (a : List Nat) : vals p (a.map (· % p)) = vals p a := by
  funext x
  unfold vals
  by_cases hx : x < a.length
  · simp [List.getD, hx]
  · simp [List.getD, hx]

end NttContracts

open NttContracts

variable {q n : Nat} {p : Modulus} {sample : Nat → Nat} {op : NttOperator}

/-- C92: the debug build of the forward transform accepts exactly the vectors of the right length with entries below `4q`. -/
theorem c92_forward_debug (hp : Modulus.new q = .ok p) (pr : Profile) (hn : n < 2 ^ 64) (hs : ∀ i, sample i < q)
    (hop : NttOperator.new pr sample p n = .ok op) {a : List Nat} (ha : a.length = n) :
    ((∀ x ∈ a, x < 4 * q) → ∃ b, op.forward .debug a = .ok b) ∧ ((∃ x ∈ a, ¬ x < 4 * q) → op.forward .debug a = .error .debugAssert) := by
  obtain ⟨h2, hlt, rfl, hw⟩ := Modulus.new_inv hp
  obtain ⟨K, psi, psiInv, h, rfl, rfl⟩ := new_wf hw pr hn sample hs hop
  refine ⟨fun hr => ?_, fun hb => forward_refuses h (by rw [ha, h.size]) hb⟩
  obtain ⟨b, hb, -⟩ := forward_ok h .debug (by rw [ha, h.size]) hr
  exact ⟨b, hb⟩

/-- C92: the debug build of the backward transform accepts exactly the vectors of the right length with entries below `2q`. -/
theorem c92_backward_debug (hp : Modulus.new q = .ok p) (pr : Profile) (hn : n < 2 ^ 64) (hs : ∀ i, sample i < q)
    (hop : NttOperator.new pr sample p n = .ok op) {a : List Nat} (ha : a.length = n) :
    ((∀ x ∈ a, x < 2 * q) → ∃ b, op.backward .debug a = .ok b) ∧ ((∃ x ∈ a, ¬ x < 2 * q) → op.backward .debug a = .error .debugAssert) := by
  obtain ⟨h2, hlt, rfl, hw⟩ := Modulus.new_inv hp
  obtain ⟨K, psi, psiInv, h, rfl, rfl⟩ := new_wf hw pr hn sample hs hop
  refine ⟨fun hr => ?_, fun hb => backward_refuses h (by rw [ha, h.size]) hb⟩
  obtain ⟨b, hb, -⟩ := backward_ok h .debug (by rw [ha, h.size]) hr
  exact ⟨b, hb⟩

/-- C92: within the accepted range, both builds transform the residues. -/
theorem c92_lazy (hp : Modulus.new q = .ok p) (pr pr' : Profile) (hn : n < 2 ^ 64) (hs : ∀ i, sample i < q)
    (hop : NttOperator.new pr' sample p n = .ok op) {a : List Nat} (ha : a.length = n) :
    ((∀ x ∈ a, x < 4 * q) → op.forward pr a = op.forward pr (a.map (· % q))) ∧
    ((∀ x ∈ a, x < 2 * q) → op.backward pr a = op.backward pr (a.map (· % q))) := by
  obtain ⟨h2, hlt, rfl, hw⟩ := Modulus.new_inv hp
  obtain ⟨K, psi, psiInv, h, rfl, rfl⟩ := new_wf hw pr' hn sample hs hop
  have hm : ∀ B, 1 ≤ B → ∀ x ∈ a.map (· % op.p.p), x < B * op.p.p := by
    intro B hB x hx
    obtain ⟨y, -, rfl⟩ := List.mem_map.mp hx
    have := Nat.mod_lt y h.mod.pos
    calc y % op.p.p < op.p.p := this
      _ ≤ B * op.p.p := Nat.le_mul_of_pos_left _ hB
  have hal : a.length = 2 ^ K := by rw [ha, h.size]
  constructor <;> intro hr
  · obtain ⟨b, b1, b2, b3, b4⟩ := forward_ok h pr hal hr
    obtain ⟨c, c1, c2, c3, c4⟩ := forward_ok h pr (a := a.map (· % op.p.p)) (by simpa using hal) (hm 4 (by norm_num))
    rw [b1, c1, eq_of_vals h.mod.pos b2 c2 b3 c3 fun x hx => by rw [b4 x hx, c4 x hx, vals_mod]]
  · obtain ⟨b, b1, b2, b3, b4⟩ := backward_ok h pr hal hr
    obtain ⟨c, c1, c2, c3, c4⟩ := backward_ok h pr (a := a.map (· % op.p.p)) (by simpa using hal) (hm 2 (by norm_num))
    rw [b1, c1, eq_of_vals h.mod.pos b2 c2 b3 c3 fun x hx => by rw [b4 x hx, c4 x hx, vals_mod]]

/-- Modulo 17: 67 is accepted by the forward and not by the backward transform, 68 by neither; 33 and 16 give the same result. -/
example : ∃ (op : NttOperator) (b : List Nat), op.forward .debug [1, 67, 3, 0, 16, 5, 40, 2] = .ok b ∧
    op.backward .debug [1, 67, 3, 0, 16, 5, 40, 2] = .error .debugAssert ∧ op.forward .debug [1, 68, 3, 0, 16, 5, 40, 2] = .error .debugAssert ∧
    op.backward .release [33, 0, 0, 0, 0, 0, 0, 0] = op.backward .release [16, 0, 0, 0, 0, 0, 0, 0] := by
  obtain ⟨p, op, hp, hop⟩ := Ex.ntt17
  obtain ⟨b, hb⟩ := (c92_forward_debug hp .debug (by norm_num) (by simp) hop (a := [1, 67, 3, 0, 16, 5, 40, 2]) rfl).1 (by simp)
  exact ⟨op, b, hb, (c92_backward_debug hp .debug (by norm_num) (by simp) hop (a := [1, 67, 3, 0, 16, 5, 40, 2]) rfl).2 ⟨67, by simp, by norm_num⟩,
    (c92_forward_debug hp .debug (by norm_num) (by simp) hop (a := [1, 68, 3, 0, 16, 5, 40, 2]) rfl).2 ⟨68, by simp, by norm_num⟩,
    (c92_lazy hp .release .debug (by norm_num) (by simp) hop (a := [33, 0, 0, 0, 0, 0, 0, 0]) rfl).2 (by simp)⟩

end OnionPIR
