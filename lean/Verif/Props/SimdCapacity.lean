import Verif.Props.RepairSimd
import Mathlib.Data.Set.Card
/-
C28, continued: exactly which vectors survive SIMD encoding, and how many. The slots of the code share evaluation points (Spec/Simd, `slotExp`):
positions `i` and `i + N/4` of the second row always do, and every odd position of the second row shares its point with a slot of the first.
-/
namespace OnionPIR
open Rg Spec

variable {N t : Nat} {l : List Nat} {variance : Nat} {P : BfvParameters}

namespace Simd

theorem slotExp_lt (hN : 0 < N) (k : Nat) : slotExp N k < 2 * N := by
  unfold slotExp
  split_ifs <;> exact Nat.mod_lt _ (by omega)

theorem slotExp_inj_iff {K : Nat} {ext : List Nat} (hw : P.WF K ext) {i j : Nat} (hi : i < 2 ^ K) (hj : j < 2 ^ K) :
    P.matrixRepsIndexMap.getD i 0 = P.matrixRepsIndexMap.getD j 0 ↔ slotExp (2 ^ K) i = slotExp (2 ^ K) j := by
  rw [← slotExp_eq hw hi, ← slotExp_eq hw hj]
  obtain ⟨-, hm⟩ := Plaintext.map_spec hw
  constructor
  · intro h; rw [h]
  · intro h
    have h1 : reverseBits K (P.matrixRepsIndexMap.getD i 0) = reverseBits K (P.matrixRepsIndexMap.getD j 0) := by omega
    rw [← reverseBits_reverseBits _ _ (hm i hi), h1, reverseBits_reverseBits _ _ (hm j hj)]

theorem three_pow_even (k : Nat) : 3 ^ (2 * k) % 8 = 1 := by
  rw [pow_mul, Nat.pow_mod]; norm_num

theorem three_pow_odd' (k : Nat) : 3 ^ (2 * k + 1) % 8 = 3 := by
  rw [pow_succ, Nat.mul_mod, three_pow_even]

/-- The exponents of the second row modulo 8. -/
theorem second_mod_eight {n i : Nat} : slotExp (8 * n) (4 * n + i) % 8 = (7 + 6 * (3 ^ i % 8)) % 8 ∨ n = 0 := by
  rcases Nat.eq_zero_or_pos n with h0 | h0
  · exact Or.inr h0
  left
  unfold slotExp
  rw [if_neg (by omega), show 4 * n + i - 8 * n / 2 = i by omega]
  have h1 : 3 ^ i % (2 * (8 * n)) % 8 = 3 ^ i % 8 := Nat.mod_mod_of_dvd _ ⟨2 * n, by ring⟩
  have h2 := Nat.mod_lt (3 ^ i) (show 0 < 2 * (8 * n) by omega)
  rw [Nat.mod_mod_of_dvd _ (⟨2 * n, by ring⟩ : 8 ∣ 2 * (8 * n))]
  omega

theorem first_mod_eight {n i : Nat} (hi : i < 4 * n) : slotExp (8 * n) i % 8 = 3 ^ i % 8 := by
  unfold slotExp
  rw [if_pos (by omega)]
  exact Nat.mod_mod_of_dvd _ ⟨2 * n, by ring⟩

theorem second_period {j i : Nat} : slotExp (8 * 2 ^ j) (4 * 2 ^ j + (2 * 2 ^ j + i)) = slotExp (8 * 2 ^ j) (4 * 2 ^ j + i) := by
  have hp : 0 < 2 ^ j := by positivity
  have h8 : 0 < 8 * 2 ^ j := by omega
  have e : 8 * 2 ^ j / 2 = 4 * 2 ^ j := by omega
  have ho := BfvParameters.three_pow_order j
  have hz : (slotExp (8 * 2 ^ j) (4 * 2 ^ j + (2 * 2 ^ j + i)) : ZMod (2 * (8 * 2 ^ j))) = slotExp (8 * 2 ^ j) (4 * 2 ^ j + i) := by
    have a := cast_second h8 (2 * 2 ^ j + i)
    have b := cast_second h8 i
    rw [e] at a b
    rw [a, b]
    have hd := Nat.div_add_mod (3 ^ 2 ^ (j + 1)) (2 ^ (j + 3))
    rw [ho] at hd
    have h2 : 2 * (3 : Nat) ^ (2 * 2 ^ j + i) = (2 * (8 * 2 ^ j)) * (3 ^ 2 ^ (j + 1) / 2 ^ (j + 3) * 3 ^ i) + 2 * 3 ^ i := by
      rw [pow_add 3, ← pow_succ']
      rw [show 2 ^ (j + 3) = 8 * 2 ^ j by rw [pow_add]; ring] at hd ⊢
      generalize 3 ^ 2 ^ (j + 1) / (8 * 2 ^ j) = q at hd ⊢
      rw [← hd]; ring
    have h3 : (2 : ZMod (2 * (8 * 2 ^ j))) * 3 ^ (2 * 2 ^ j + i) = 2 * 3 ^ i := by
      have := congrArg (Nat.cast : Nat → ZMod (2 * (8 * 2 ^ j))) h2
      rw [Nat.cast_add, Nat.cast_mul (2 * (8 * 2 ^ j)), ZMod.natCast_self, zero_mul, zero_add] at this
      push_cast at this
      exact this
    rw [h3]
  rw [ZMod.natCast_eq_natCast_iff', Nat.mod_eq_of_lt (slotExp_lt h8 _), Nat.mod_eq_of_lt (slotExp_lt h8 _)] at hz
  exact hz

theorem second_inj {j a b : Nat} (ha : a < 2 ^ j) (hb : b < 2 ^ j)
    (h : slotExp (8 * 2 ^ j) (4 * 2 ^ j + 2 * a) = slotExp (8 * 2 ^ j) (4 * 2 ^ j + 2 * b)) : a = b := by
  rcases Nat.eq_zero_or_pos j with rfl | hj
  · omega
  have hp : 0 < 2 ^ j := by positivity
  have h8 : 0 < 8 * 2 ^ j := by omega
  have e : 8 * 2 ^ j / 2 = 4 * 2 ^ j := by omega
  have hz : (slotExp (8 * 2 ^ j) (4 * 2 ^ j + 2 * a) : ZMod (2 * (8 * 2 ^ j))) = slotExp (8 * 2 ^ j) (4 * 2 ^ j + 2 * b) := by rw [h]
  have c1 := cast_second h8 (2 * a)
  have c2 := cast_second h8 (2 * b)
  rw [e] at c1 c2
  rw [c1, c2, neg_inj, add_left_inj] at hz
  have h1 : ((2 * 3 ^ (2 * a) : Nat) : ZMod (2 * (8 * 2 ^ j))) = (2 * 3 ^ (2 * b) : Nat) := by push_cast; exact hz
  rw [ZMod.natCast_eq_natCast_iff', Nat.mul_mod_mul_left, Nat.mul_mod_mul_left] at h1
  have h2 : 3 ^ (2 * a) % (8 * 2 ^ j) = 3 ^ (2 * b) % (8 * 2 ^ j) := by omega
  have hK : 8 * 2 ^ j = 2 * 2 ^ (j + 2) := by rw [pow_add]; ring
  rw [hK, ← ZMod.natCast_eq_natCast_iff'] at h2
  push_cast at h2
  have ho := Repair.order_three (K := j + 2) (by omega)
  rw [show j + 2 - 1 = j + 1 by omega] at ho
  have hs : 2 ^ (j + 1) = 2 * 2 ^ j := pow_succ' 2 j
  have := pow_injOn_Iio_orderOf (x := (3 : ZMod (2 * 2 ^ (j + 2)))) (by rw [ho]; simp only [Set.mem_Iio]; omega) (by rw [ho]; simp only [Set.mem_Iio]; omega) h2
  omega

theorem first_inj {j a b : Nat} (ha : a < 4 * 2 ^ j) (hb : b < 4 * 2 ^ j) (h : slotExp (8 * 2 ^ j) a = slotExp (8 * 2 ^ j) b) : a = b := by
  have hz : (slotExp (8 * 2 ^ j) a : ZMod (2 * (8 * 2 ^ j))) = slotExp (8 * 2 ^ j) b := by rw [h]
  rw [cast_first (by omega), cast_first (by omega)] at hz
  have hK : 8 * 2 ^ j = 2 ^ (j + 3) := by rw [pow_add]; ring
  rw [hK] at hz
  have ho := Repair.order_three (K := j + 3) (by omega)
  rw [show j + 3 - 1 = j + 2 by omega] at ho
  have hs : 2 ^ (j + 2) = 4 * 2 ^ j := by rw [pow_add]; ring
  exact pow_injOn_Iio_orderOf (x := (3 : ZMod (2 * 2 ^ (j + 3)))) (by rw [ho]; simp only [Set.mem_Iio]; omega) (by rw [ho]; simp only [Set.mem_Iio]; omega) hz

/-- The exponents of the first row are all residues 1 and 3 modulo 8. -/
theorem first_image (j : Nat) : (Finset.range (4 * 2 ^ j)).image (slotExp (8 * 2 ^ j)) =
    (Finset.range (2 * 2 ^ j)).image (fun k => 8 * k + 1) ∪ (Finset.range (2 * 2 ^ j)).image (fun k => 8 * k + 3) := by
  have hp : 0 < 2 ^ j := by positivity
  apply Finset.eq_of_subset_of_card_le
  · intro x hx
    obtain ⟨i, hi, rfl⟩ := Finset.mem_image.mp hx
    rw [Finset.mem_range] at hi
    have h1 := slotExp_lt (show 0 < 8 * 2 ^ j by omega) i
    have h2 := first_mod_eight hi
    rw [Finset.mem_union, Finset.mem_image, Finset.mem_image]
    rcases three_pow_mod_eight i with h3 | h3
    · exact Or.inl ⟨slotExp (8 * 2 ^ j) i / 8, by rw [Finset.mem_range]; omega, by omega⟩
    · exact Or.inr ⟨slotExp (8 * 2 ^ j) i / 8, by rw [Finset.mem_range]; omega, by omega⟩
  · rw [Finset.card_image_of_injOn (fun a ha b hb h => first_inj (by simpa using ha) (by simpa using hb) h), Finset.card_range]
    refine (Finset.card_union_le _ _).trans ?_
    refine (Nat.add_le_add Finset.card_image_le Finset.card_image_le).trans ?_
    rw [Finset.card_range]
    omega

theorem image_card (j : Nat) : ((Finset.range (8 * 2 ^ j)).image (slotExp (8 * 2 ^ j))).card = 5 * 2 ^ j := by
  have hp : 0 < 2 ^ j := by positivity
  have key : (Finset.range (8 * 2 ^ j)).image (slotExp (8 * 2 ^ j)) = (Finset.range (4 * 2 ^ j)).image (slotExp (8 * 2 ^ j)) ∪
      (Finset.range (2 ^ j)).image (fun k => slotExp (8 * 2 ^ j) (4 * 2 ^ j + 2 * k)) := by
    ext x
    rw [Finset.mem_union]
    constructor
    · intro hx
      obtain ⟨i, hi, rfl⟩ := Finset.mem_image.mp hx
      rw [Finset.mem_range] at hi
      rcases Nat.lt_or_ge i (4 * 2 ^ j) with h1 | h1
      · exact Or.inl (Finset.mem_image_of_mem _ (Finset.mem_range.mpr h1))
      obtain ⟨i, rfl⟩ : ∃ i', i = 4 * 2 ^ j + i' := ⟨i - 4 * 2 ^ j, by omega⟩
      rcases Nat.even_or_odd' i with ⟨k, rfl | rfl⟩
      · right
        rw [Finset.mem_image]
        rcases Nat.lt_or_ge k (2 ^ j) with h2 | h2
        · exact ⟨k, Finset.mem_range.mpr h2, rfl⟩
        · refine ⟨k - 2 ^ j, Finset.mem_range.mpr (by omega), ?_⟩
          rw [← second_period]
          congr 1
          omega
      · left
        rw [first_image, Finset.mem_union]
        left
        have h2 := slotExp_lt (show 0 < 8 * 2 ^ j by omega) (4 * 2 ^ j + (2 * k + 1))
        have h3 := (second_mod_eight (n := 2 ^ j) (i := 2 * k + 1)).resolve_right (by omega)
        rw [three_pow_odd'] at h3
        exact Finset.mem_image.mpr ⟨slotExp (8 * 2 ^ j) (4 * 2 ^ j + (2 * k + 1)) / 8, by rw [Finset.mem_range]; omega, by omega⟩
    · rintro (hx | hx)
      · obtain ⟨i, hi, rfl⟩ := Finset.mem_image.mp hx
        rw [Finset.mem_range] at hi
        exact Finset.mem_image_of_mem _ (Finset.mem_range.mpr (by omega))
      · obtain ⟨k, hk, rfl⟩ := Finset.mem_image.mp hx
        rw [Finset.mem_range] at hk
        exact Finset.mem_image_of_mem _ (Finset.mem_range.mpr (by omega))
  rw [key, Finset.card_union_of_disjoint, Finset.card_image_of_injOn (fun a ha b hb h => first_inj (by simpa using ha) (by simpa using hb) h),
    Finset.card_image_of_injOn (fun a ha b hb h => second_inj (by simpa using ha) (by simpa using hb) h), Finset.card_range, Finset.card_range]
  · omega
  · rw [Finset.disjoint_left]
    intro x h1 h2
    obtain ⟨i, hi, rfl⟩ := Finset.mem_image.mp h1
    obtain ⟨k, hk, he⟩ := Finset.mem_image.mp h2
    rw [Finset.mem_range] at hi
    have a := first_mod_eight hi
    have b := (second_mod_eight (n := 2 ^ j) (i := 2 * k)).resolve_right (by omega)
    rw [three_pow_even] at b
    have c := three_pow_mod_eight i
    omega

/-- Functions constant on the fibres of `e` are functions on its image. -/
theorem card_constant {n t : Nat} (e : Fin n → Nat) :
    Set.ncard {v : Fin n → Fin t | ∀ i j, e i = e j → v i = v j} = t ^ (Finset.univ.image e).card := by
  classical
  let E : {v : Fin n → Fin t // ∀ i j, e i = e j → v i = v j} ≃ ({x // x ∈ Finset.univ.image e} → Fin t) :=
    { toFun := fun v x => v.1 (Finset.mem_image.mp x.2).choose
      invFun := fun g => ⟨fun i => g ⟨e i, Finset.mem_image_of_mem e (Finset.mem_univ i)⟩, fun i j h => by simp only [h]⟩
      left_inv := fun v => by
        apply Subtype.ext
        funext i
        exact v.2 _ _ (Finset.mem_image.mp (Finset.mem_image_of_mem e (Finset.mem_univ i))).choose_spec.2
      right_inv := fun g => by
        funext x
        simp only
        congr 1
        exact Subtype.ext (Finset.mem_image.mp x.2).choose_spec.2 }
  have h1 : Nat.card {v : Fin n → Fin t // ∀ i j, e i = e j → v i = v j} = t ^ (Finset.univ.image e).card := by
    rw [Nat.card_congr E, Nat.card_fun, Nat.card_eq_fintype_card, Nat.card_eq_fintype_card, Fintype.card_fin, Fintype.card_coe]
  exact h1

end Simd

/-- C28, which vectors survive: those that agree on the slots with a common evaluation point. Missing: the others. -/
theorem c28_round_trip_iff_partial (h : IsParams N t l variance P) (pr pr' : Profile) {values : List Nat} (hl : values.length = N)
    (hv : ∀ v ∈ values, v < t) (level : Nat) :
    ∃ pt out, Plaintext.new pr P values level .simd = .ok pt ∧ pt.decode pr' = .ok out ∧ out.length = N ∧
      (out = values ↔ ∀ i j, i < N → j < N → slotExp N i = slotExp N j → values.getD i 0 = values.getD j 0) := by
  obtain ⟨pt, out, h1, h2, h3, h4⟩ := c28_simd_round_trip_partial h pr pr' hl hv level
  refine ⟨pt, out, h1, h2, h3, ?_⟩
  obtain ⟨K, ext, rfl, hw, -, -, -⟩ := BfvP.params h
  rw [h4]
  exact ⟨fun g i j hi hj he => g i j hi hj ((Simd.slotExp_inj_iff hw hi hj).mpr he),
    fun g i j hi hj he => g i j hi hj ((Simd.slotExp_inj_iff hw hi hj).mp he)⟩

/-- C28, which slots coincide: `i` and `i + N/4` of the second row, and every odd position of the second row with one of the first row. There are
`5 N / 8` different slots. -/
theorem c28_capacity (h : IsParams N t l variance P) :
    (∀ i, i < N / 4 → slotExp N (N / 2 + i) = slotExp N (N / 2 + N / 4 + i)) ∧
    (∀ i, i < N / 2 → i % 2 = 1 → ∃ j, j < N / 2 ∧ slotExp N (N / 2 + i) = slotExp N j) ∧
    8 * ((Finset.range N).image (slotExp N)).card = 5 * N := by
  obtain ⟨K, ext, rfl, hw, -, -, -⟩ := BfvP.params h
  obtain ⟨j, hj⟩ : ∃ j, K = j + 3 := ⟨K - 3, by have := hw.three; omega⟩
  have hN : 2 ^ K = 8 * 2 ^ j := by rw [hj, pow_add]; ring
  have hp : 0 < 2 ^ j := by positivity
  rw [hN]
  refine ⟨fun i _ => ?_, fun i hi ho => ?_, ?_⟩
  · rw [show 8 * 2 ^ j / 2 + 8 * 2 ^ j / 4 + i = 4 * 2 ^ j + (2 * 2 ^ j + i) by omega, show 8 * 2 ^ j / 2 + i = 4 * 2 ^ j + i by omega,
      Simd.second_period]
  · have h1 : slotExp (8 * 2 ^ j) (8 * 2 ^ j / 2 + i) ∈ (Finset.range (4 * 2 ^ j)).image (slotExp (8 * 2 ^ j)) := by
      rw [Simd.first_image, Finset.mem_union]
      left
      have h2 := Simd.slotExp_lt (show 0 < 8 * 2 ^ j by omega) (8 * 2 ^ j / 2 + i)
      have h3 := (Simd.second_mod_eight (n := 2 ^ j) (i := i)).resolve_right (by omega)
      rw [show i = 2 * (i / 2) + 1 by omega, Simd.three_pow_odd', show 2 * (i / 2) + 1 = i by omega,
        show 4 * 2 ^ j + i = 8 * 2 ^ j / 2 + i by omega] at h3
      exact Finset.mem_image.mpr ⟨slotExp (8 * 2 ^ j) (8 * 2 ^ j / 2 + i) / 8, by rw [Finset.mem_range]; omega, by omega⟩
    obtain ⟨k, hk, he⟩ := Finset.mem_image.mp h1
    rw [Finset.mem_range] at hk
    exact ⟨k, by omega, he.symm⟩
  · rw [Simd.image_card]; ring

/-- C28, how many vectors survive: `t^(5N/8)` of the `t^N` vectors of residues. -/
theorem c28_survivors (h : IsParams N t l variance P) (pr pr' : Profile) (level : Nat) :
    Set.ncard {values : List Nat | values.length = N ∧ (∀ v ∈ values, v < t) ∧
      ∃ pt, Plaintext.new pr P values level .simd = .ok pt ∧ pt.decode pr' = .ok values} = t ^ (5 * N / 8) := by
  have hc : ((Finset.range N).image (slotExp N)).card = 5 * N / 8 := by
    have := (c28_capacity h).2.2
    omega
  have hi : Finset.univ.image (fun i : Fin N => slotExp N i) = (Finset.range N).image (slotExp N) := by
    ext x
    simp only [Finset.mem_image, Finset.mem_univ, true_and, Finset.mem_range]
    exact ⟨fun ⟨i, hi⟩ => ⟨i, i.2, hi⟩, fun ⟨i, h1, h2⟩ => ⟨⟨i, h1⟩, h2⟩⟩
  rw [← hc, ← hi, ← Simd.card_constant (t := t)]
  have hinj : Function.Injective (fun v : Fin N → Fin t => List.ofFn fun i => (v i : Nat)) := by
    intro v w hvw
    have := List.ofFn_injective hvw
    funext i
    exact Fin.ext (congrFun this i)
  rw [← Set.ncard_image_of_injective _ hinj]
  congr 1
  ext values
  simp only [Set.mem_ofPred_eq, Set.mem_image]
  constructor
  · rintro ⟨hl, hv, pt, h1, h2⟩
    obtain ⟨pt', out, g1, g2, g3, g4⟩ := c28_round_trip_iff_partial h pr pr' hl hv level
    cases h1.symm.trans g1
    cases h2.symm.trans g2
    have hg := g4.mp rfl
    refine ⟨fun i => ⟨values.getD i 0, ?_⟩, fun i j he => ?_, ?_⟩
    · have hlt : (i : Nat) < values.length := by rw [hl]; exact i.2
      rw [getD_eq_getElem' _ _ _ hlt]
      exact hv _ (List.getElem_mem hlt)
    · exact Fin.ext (hg i j i.2 j.2 he)
    · apply List.ext_getElem
      · simp [hl]
      · intro n h3 h4
        simp only [List.getElem_ofFn]
        exact getD_eq_getElem' _ _ _ h4
  · rintro ⟨v, hv, rfl⟩
    have hl : (List.ofFn fun i => (v i : Nat)).length = N := by simp
    have hlt : ∀ x ∈ List.ofFn (fun i => (v i : Nat)), x < t := by
      intro x hx
      obtain ⟨i, rfl⟩ := (List.mem_ofFn' _ _).mp hx
      exact (v i).2
    obtain ⟨pt', out, g1, g2, g3, g4⟩ := c28_round_trip_iff_partial h pr pr' hl hlt level
    have : out = _ := g4.mpr (by
      intro i j hi hj he
      rw [getD_eq_getElem' _ _ _ (by rw [hl]; exact hi), getD_eq_getElem' _ _ _ (by rw [hl]; exact hj)]
      simp only [List.getElem_ofFn]
      rw [hv ⟨i, hi⟩ ⟨j, hj⟩ he])
    exact ⟨hl, hlt, pt', g1, by rw [g2, this]⟩

/-- For degree 8 and plaintext modulus 17, `17^5` of the `17^8` vectors survive. -/
example : ∃ P, IsParams 8 17 Ex.mods 10 P ∧ Set.ncard {values : List Nat | values.length = 8 ∧ (∀ v ∈ values, v < 17) ∧
      ∃ pt, Plaintext.new .debug P values 0 .simd = .ok pt ∧ pt.decode .release = .ok values} = 17 ^ 5 := by
  obtain ⟨P, h⟩ := Ex.exists_params
  exact ⟨P, h, c28_survivors h .debug .release 0⟩

/-- The exponents of the eight slots. -/
example : (List.range 8).map (slotExp 8) = [1, 3, 9, 11, 13, 9, 13, 9] := by decide

/-- A vector that survives though it is not constant, and its agreeing slots. -/
example : ∃ P pt, IsParams 8 17 Ex.mods 10 P ∧ Plaintext.new .debug P [1, 2, 3, 4, 5, 3, 5, 3] 0 .simd = .ok pt ∧
    pt.decode .debug = .ok [1, 2, 3, 4, 5, 3, 5, 3] := by
  obtain ⟨P, h⟩ := Ex.exists_params
  obtain ⟨pt, out, h1, h2, -, h3⟩ := c28_round_trip_iff_partial h .debug .debug (values := [1, 2, 3, 4, 5, 3, 5, 3]) rfl (by decide) 0
  have : out = [1, 2, 3, 4, 5, 3, 5, 3] := h3.mpr (by
    intro i j hi hj
    interval_cases i <;> interval_cases j <;> decide)
  exact ⟨P, pt, h, h1, by rw [h2, this]⟩

/-- Five of the eight slot exponents of degree 8 are distinct. -/
example : ∃ P, IsParams 8 17 Ex.mods 10 P ∧ 8 * ((Finset.range 8).image (slotExp 8)).card = 5 * 8 := by
  obtain ⟨P, h⟩ := Ex.exists_params
  exact ⟨P, h, (c28_capacity h).2.2⟩

end OnionPIR
