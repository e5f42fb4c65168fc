import Verif.Proofs.BfvParams
/- The SIMD index map, encoding and decoding of plaintexts. -/
namespace OnionPIR

theorem bitrevIndex_mod (K x : Nat) (hK : K ≤ 63) : bitrevIndex (2 ^ K) x = reverseBits K (x % 2 ^ K) := by
  have hlz : leadingZeros 64 (2 ^ K) = 63 - K := by
    unfold leadingZeros
    rw [if_neg (by positivity), Nat.log2_two_pow]
  unfold bitrevIndex
  rw [hlz]
  have h := reverseBits_split K (64 - K) (x % 2 ^ K) (x / 2 ^ K) (Nat.mod_lt _ (by positivity))
  rw [Nat.mod_add_div, show K + (64 - K) = 64 by omega] at h
  rw [h, show 63 - K + 1 = 64 - K by omega, Nat.shiftRight_eq_div_pow, Nat.mul_comm, Nat.mul_add_div (by positivity),
    Nat.div_eq_of_lt (reverseBits_lt _ _), Nat.add_zero]

theorem three_pow_odd (i m : Nat) (_ : 0 < m) : 3 ^ i % (2 * m) % 2 = 1 := by
  rw [Nat.mod_mul_right_mod, Nat.pow_mod]; norm_num

namespace BfvParameters

theorem WF.K60 {K : Nat} {P : BfvParameters} {ext : List Nat} (h : P.WF K ext) : K ≤ 60 := by
  by_contra hK
  have h1 := h.t_cong
  have h2 := h.t_lt
  have h3 : 2 ^ 61 ≤ 2 ^ K := Nat.pow_le_pow_right (by norm_num) (by omega)
  rw [Nat.mod_eq_of_lt (by omega)] at h1
  exact absurd h.t_prime (by rw [h1]; exact Nat.not_prime_one)

/-- The entries of `matrix_reps_index_map`. -/
theorem indexMap_ok (pr : Profile) {K : Nat} (h2 : 2 ≤ K) (hK : K ≤ 60) :
    ∃ l, indexMap pr (2 ^ K) = .ok l ∧ l.length = 2 ^ K ∧ (∀ k, k < 2 ^ K → l.getD k 0 < 2 ^ K) ∧
      ∀ i, i < 2 ^ (K - 1) → l.getD i 0 = reverseBits K (3 ^ i % (2 * 2 ^ K) / 2) ∧
        l.getD (2 ^ (K - 1) + i) 0 = reverseBits K ((2 * 2 ^ K - 3 ^ i % (2 * 2 ^ K) - 1) % 2 ^ K) := by
  have hKK : 2 ^ K = 2 * 2 ^ (K - 1) := by rw [← pow_succ']; congr 1; omega
  have hKb : 2 ^ K ≤ 2 ^ 60 := Nat.pow_le_pow_right (by norm_num) hK
  have hrow : 2 ^ K >>> 1 = 2 ^ (K - 1) := by rw [Nat.shiftRight_eq_div_pow, hKK]; omega
  have hm : (2 ^ K <<< 1) % 2 ^ 64 = 2 * 2 ^ K := by rw [Nat.shiftLeft_eq, Nat.mod_eq_of_lt (by omega)]; omega
  have h1m : 1 < 2 * 2 ^ K := by
    have : 0 < 2 ^ K := by positivity
    omega
  unfold indexMap
  rw [hrow, hm]
  obtain ⟨s, hs, ⟨i1, i2, i3, i4⟩⟩ := foldR_range_ok (f := indexStep pr (2 ^ K) (2 ^ (K - 1)) (2 * 2 ^ K)) (n := 2 ^ (K - 1))
    (s := (List.replicate (2 ^ K) 0, 1))
    (fun j (st : List Nat × Nat) => st.1.length = 2 ^ K ∧ st.2 = 3 ^ j % (2 * 2 ^ K) ∧ (∀ k, k < 2 ^ K → st.1.getD k 0 < 2 ^ K) ∧
      ∀ i, i < j → st.1.getD i 0 = reverseBits K (3 ^ i % (2 * 2 ^ K) / 2) ∧
        st.1.getD (2 ^ (K - 1) + i) 0 = reverseBits K ((2 * 2 ^ K - 3 ^ i % (2 * 2 ^ K) - 1) % 2 ^ K))
    ⟨by simp, by simp only; rw [pow_zero, Nat.mod_eq_of_lt h1m], fun k hk => by
        simp only [List.getD, List.getElem?_replicate, hk, if_true, Option.getD_some]; positivity, by intro i hi; omega⟩ (by
      rintro j ⟨l, pos⟩ hj ⟨h1, h2, h3, h4⟩
      simp only at h1 h2 h3 h4
      have hodd := three_pow_odd j (2 ^ K) (by positivity)
      have hlt := Nat.mod_lt (3 ^ j) (show 0 < 2 * 2 ^ K by positivity)
      rw [← h2] at hodd hlt
      have hor : 2 ^ (K - 1) ||| j = 2 ^ (K - 1) + j := by
        have := Nat.two_pow_add_eq_or_of_lt hj 1
        simpa using this.symm
      have hmask : (pos * 3) &&& (2 * 2 ^ K - 1) = 3 ^ (j + 1) % (2 * 2 ^ K) := by
        rw [show 2 * 2 ^ K = 2 ^ (K + 1) by rw [pow_succ]; ring, Nat.and_two_pow_sub_one_eq_mod, h2,
          show 2 * 2 ^ K = 2 ^ (K + 1) by rw [pow_succ]; ring, pow_succ 3 j, Nat.mod_mul_mod]
      unfold indexStep
      simp only
      rw [subW_ok (by omega), res_ok_bind, subW_ok (by omega), res_ok_bind, subW_ok (by omega), res_ok_bind, setR_ok (by omega),
        res_ok_bind, hor, setR_ok (by simp; omega), res_ok_bind, mulW_ok (by omega), res_ok_bind, subW_ok (by omega), res_ok_bind,
        hmask, bitrevIndex_mod K _ (by omega), bitrevIndex_mod K _ (by omega)]
      have e1 : ((pos - 1) >>> 1) % 2 ^ K = pos / 2 := by
        rw [Nat.shiftRight_eq_div_pow, Nat.mod_eq_of_lt (by omega)]; omega
      rw [e1]
      refine ⟨_, rfl, by simp [h1], rfl, ?_, ?_⟩
      · intro k hk
        rw [Poly.getD_set (by simp; omega)]
        split_ifs
        · exact reverseBits_lt _ _
        · rw [Poly.getD_set (by omega)]
          split_ifs
          · exact reverseBits_lt _ _
          · exact h3 k hk
      · intro i hi
        simp only
        have g : ∀ k, k < 2 ^ K → ∀ a b, ((l.set j a).set (2 ^ (K - 1) + j) b).getD k 0 =
            if 2 ^ (K - 1) + j = k then b else if j = k then a else l.getD k 0 := by
          intro k hk a b
          rw [Poly.getD_set (by simp; omega), Poly.getD_set (by omega)]
        rw [g _ (by omega), g _ (by omega)]
        rcases Nat.lt_or_ge i j with hij | hij
        · obtain ⟨a, b⟩ := h4 i hij
          rw [if_neg (by omega), if_neg (by omega), if_neg (by omega), if_neg (by omega)]
          exact ⟨a, b⟩
        · have : i = j := by omega
          subst this
          rw [if_neg (by omega), if_pos rfl, if_pos rfl, h2]
          exact ⟨rfl, rfl⟩)
  rw [hs, res_ok_bind]
  exact ⟨_, rfl, i1, i3, i4⟩

theorem three_pow_order (K : Nat) : 3 ^ (2 ^ (K + 1)) % 2 ^ (K + 3) = 1 := by
  induction K with
  | zero => norm_num
  | succ K ih =>
    have hd := Nat.div_add_mod (3 ^ (2 ^ (K + 1))) (2 ^ (K + 3))
    rw [ih] at hd
    rw [show 2 ^ (K + 1 + 1) = 2 ^ (K + 1) * 2 by rw [pow_succ], pow_mul, ← hd]
    set d := 3 ^ (2 ^ (K + 1)) / 2 ^ (K + 3)
    have : (2 ^ (K + 3) * d + 1) ^ 2 = 2 ^ (K + 1 + 3) * (2 ^ (K + 2) * d * d + d) + 1 := by
      rw [show K + 1 + 3 = (K + 3) + 1 by ring, pow_succ 2 (K + 3), show K + 3 = (K + 2) + 1 by ring, pow_succ 2 (K + 2)]; ring
    rw [this, Nat.mul_add_mod, Nat.mod_eq_of_lt (Nat.one_lt_two_pow (by omega))]

/-- The index map is never injective: entries `N/2` and `3N/4` coincide. -/
theorem indexMap_collision {pr : Profile} {K : Nat} (h3 : 3 ≤ K) (hK : K ≤ 60) {l : List Nat} (h : indexMap pr (2 ^ K) = .ok l) :
    l.getD (2 ^ (K - 1)) 0 = l.getD (2 ^ (K - 1) + 2 ^ (K - 2)) 0 := by
  obtain ⟨l', h', h1, h2, h4⟩ := indexMap_ok pr (show 2 ≤ K by omega) hK
  rw [h] at h'
  cases h'
  have a := (h4 0 (by positivity)).2
  have b := (h4 (2 ^ (K - 2)) (Nat.pow_lt_pow_right (by norm_num) (by omega))).2
  rw [Nat.add_zero] at a
  rw [a, b]
  congr 1
  have ho := three_pow_order (K - 3)
  rw [show K - 3 + 1 = K - 2 by omega, show K - 3 + 3 = K by omega] at ho
  have h8 : 2 ^ 3 ≤ 2 ^ K := Nat.pow_le_pow_right (by norm_num) h3
  have hx := Nat.mod_lt (3 ^ 2 ^ (K - 2)) (show 0 < 2 * 2 ^ K by positivity)
  have hmod : 3 ^ 2 ^ (K - 2) % (2 * 2 ^ K) % 2 ^ K = 1 := by rw [Nat.mod_mul_left_mod, ho]
  generalize 3 ^ 2 ^ (K - 2) % (2 * 2 ^ K) = x at *
  rw [pow_zero, Nat.mod_eq_of_lt (show 1 < 2 * 2 ^ K by omega)]
  have hc : x = 1 ∨ x = 2 ^ K + 1 := by
    have hd := Nat.div_add_mod x (2 ^ K)
    rw [hmod] at hd
    have : x / 2 ^ K < 2 := Nat.div_lt_of_lt_mul (by omega)
    interval_cases hq : x / 2 ^ K <;> omega
  rcases hc with rfl | rfl
  · rfl
  · rw [show 2 * 2 ^ K - 1 - 1 = (2 * 2 ^ K - (2 ^ K + 1) - 1) + 2 ^ K by omega, Nat.add_mod_right]

end BfvParameters

namespace Plaintext
open BfvParameters

variable {K : Nat} {P : BfvParameters} {ext : List Nat}

theorem map_spec (h : P.WF K ext) : P.matrixRepsIndexMap.length = 2 ^ K ∧
    ∀ k, k < 2 ^ K → P.matrixRepsIndexMap.getD k 0 < 2 ^ K := by
  obtain ⟨pr, hm⟩ := h.map
  obtain ⟨l, hl, h1, h2, -⟩ := indexMap_ok pr (show 2 ≤ K by have := h.three; omega) h.K60
  rw [h.deg, hl] at hm
  cases hm
  exact ⟨h1, h2⟩

/-- What SIMD encoding uses of the parameters. -/
structure SimdWF (K : Nat) (P : BfvParameters) : Prop where
  deg : P.degree = 2 ^ K
  t_pos : 0 < P.plaintextModulus
  ntt : ∃ op psi psiInv, P.ptNtt = some op ∧ op.WF K psi psiInv ∧ op.p.p = P.plaintextModulus
  map : P.matrixRepsIndexMap.length = 2 ^ K ∧ ∀ k, k < 2 ^ K → P.matrixRepsIndexMap.getD k 0 < 2 ^ K

theorem simdWF (h : P.WF K ext) : SimdWF K P := ⟨h.deg, h.t_prime.pos, h.ntt, map_spec h⟩

theorem idx_getD {l : List Nat} {i : Nat} (h : i < l.length) : idx l i = .ok (l.getD i 0) := by
  rw [idx_ok h, getD_eq_getElem' _ _ _ h]

theorem scatter_ok (h : SimdWF K P) {values : List Nat} (hv : 2 ^ K ≤ values.length) {t : Nat} (ht : 0 < t) (hvt : ∀ v ∈ values, v < t) :
    ∃ e, scatter P values (List.replicate P.degree 0) = .ok e ∧ e.length = 2 ^ K ∧ (∀ v ∈ e, v < t) ∧
      ∀ i, i < 2 ^ K → (∀ i', i < i' → i' < 2 ^ K → P.matrixRepsIndexMap.getD i' 0 ≠ P.matrixRepsIndexMap.getD i 0) →
        e.getD (P.matrixRepsIndexMap.getD i 0) 0 = values.getD i 0 := by
  obtain ⟨m1, m2⟩ := h.map
  unfold scatter
  rw [h.deg]
  obtain ⟨e, he, i1, i2, i3⟩ := foldR_range_ok (f := fun enc i => do
      let k ← idx P.matrixRepsIndexMap i
      let v ← idx values i
      setR enc k v) (n := 2 ^ K) (s := List.replicate (2 ^ K) 0)
    (fun j (e : List Nat) => e.length = 2 ^ K ∧ (∀ v ∈ e, v < t) ∧
      ∀ i, i < j → (∀ i', i < i' → i' < j → P.matrixRepsIndexMap.getD i' 0 ≠ P.matrixRepsIndexMap.getD i 0) →
        e.getD (P.matrixRepsIndexMap.getD i 0) 0 = values.getD i 0)
    ⟨by simp, fun v hv => by rw [List.mem_replicate] at hv; omega, by intro i hi; omega⟩ (by
      rintro j e hj ⟨h1, h2, h3⟩
      have hmj := m2 j hj
      rw [idx_getD (by omega), res_ok_bind, idx_getD (by omega), res_ok_bind, setR_ok (by omega)]
      refine ⟨_, rfl, by simp [h1], ?_, ?_⟩
      · intro v hv
        rcases List.mem_or_eq_of_mem_set hv with hv | rfl
        · exact h2 v hv
        · rw [getD_eq_getElem' _ _ _ (by omega)]; exact hvt _ (List.getElem_mem _)
      · intro i hi hl
        rw [Poly.getD_set (by rw [h1]; exact m2 i (by omega))]
        rcases Nat.lt_or_ge i j with hij | hij
        · rw [if_neg (hl j hij (by omega))]
          exact h3 i hij (fun i' a b => hl i' a (by omega))
        · have : i = j := by omega
          subst this
          rw [if_pos rfl])
  exact ⟨e, he, i1, i2, i3⟩

theorem gather_ok (h : SimdWF K P) {values : List Nat} (hv : values.length = 2 ^ K) :
    gather P values (List.replicate P.degree 0) =
      .ok ((List.range (2 ^ K)).map fun i => values.getD (P.matrixRepsIndexMap.getD i 0) 0) := by
  obtain ⟨m1, m2⟩ := h.map
  unfold gather
  rw [h.deg]
  obtain ⟨e, he, i1, i2⟩ := foldR_range_ok (f := fun vals i => do
      let k ← idx P.matrixRepsIndexMap i
      let v ← idx values k
      setR vals i v) (n := 2 ^ K) (s := List.replicate (2 ^ K) 0)
    (fun j (e : List Nat) => e.length = 2 ^ K ∧ ∀ i, i < j → e.getD i 0 = values.getD (P.matrixRepsIndexMap.getD i 0) 0)
    ⟨by simp, by intro i hi; omega⟩ (by
      rintro j e hj ⟨h1, h2⟩
      have hmj := m2 j hj
      rw [idx_getD (by omega), res_ok_bind, idx_getD (by omega), res_ok_bind, setR_ok (by omega)]
      refine ⟨_, rfl, by simp [h1], ?_⟩
      intro i hi
      rw [Poly.getD_set (by omega)]
      split_ifs with hij
      · subst hij; rfl
      · exact h2 i (by omega))
  rw [he]
  congr 1
  apply List.ext_getElem (by simp [i1])
  intro i h1 h2
  have := i2 i (by omega)
  rw [getD_eq_getElem' _ _ _ h1] at this
  rw [this]
  simp

/-- Encoding then decoding in SIMD form. -/
theorem simd_ok (h : SimdWF K P) (pr pr' : Profile) {values : List Nat} (hv : 2 ^ K ≤ values.length)
    (hvt : ∀ v ∈ values, v < P.plaintextModulus) (lev : Nat) :
    ∃ (pt : Plaintext) (e : List Nat), Plaintext.new pr P values lev .simd = .ok pt ∧
      pt.decode pr' = .ok ((List.range (2 ^ K)).map fun i => e.getD (P.matrixRepsIndexMap.getD i 0) 0) ∧
      ∀ i, i < 2 ^ K → (∀ i', i < i' → i' < 2 ^ K → P.matrixRepsIndexMap.getD i' 0 ≠ P.matrixRepsIndexMap.getD i 0) →
        e.getD (P.matrixRepsIndexMap.getD i 0) 0 = values.getD i 0 := by
  obtain ⟨e, e1, e2, e3, e4⟩ := scatter_ok h hv h.t_pos hvt
  obtain ⟨op, psi, psiInv, hop, hw, hp⟩ := h.ntt
  obtain ⟨b, b1, b2, b3, b4⟩ := NttOperator.forward_backward hw pr e2 (by rw [hp]; exact e3)
  obtain ⟨b', c1, c2, c3, c4⟩ := NttOperator.forward_backward hw pr' e2 (by rw [hp]; exact e3)
  refine ⟨⟨P, lev, .simd, b⟩, e, ?_, ?_, e4⟩
  · unfold Plaintext.new encode
    simp only
    rw [e1, res_ok_bind, hop, show unwrapR (some op) = .ok op from rfl, res_ok_bind, b1, res_ok_bind]
  · unfold decode
    simp only
    have hb : op.forward pr' b = .ok e := by
      obtain ⟨d, d1, d2, d3, d4⟩ := NttOperator.backward_forward hw pr' b2 b3
      -- both are the unique preimage of `b`
      have hfb : op.forward pr b = .ok e := b4
      obtain ⟨x, x1, x2, x3, x4⟩ := NttOperator.forward_eval hw pr b2 (fun v hv => by have := b3 v hv; omega)
      obtain ⟨y, y1, y2, y3, y4⟩ := NttOperator.forward_eval hw pr' b2 (fun v hv => by have := b3 v hv; omega)
      rw [x1] at hfb
      cases hfb
      rw [y1]
      congr 1
      refine NttOperator.eq_of_vals y2 x2 y3 x3 (fun i hi => ?_)
      rw [x4 i hi, y4 i hi]
    rw [hop, show unwrapR (some op) = .ok op from rfl, res_ok_bind, hb, res_ok_bind, gather_ok h e2]

/-- SIMD decoding inverts encoding exactly on vectors that are constant on the fibres of the index map. -/
theorem simd_round_trip (h : SimdWF K P) (pr pr' : Profile) {values : List Nat} (hv : values.length = 2 ^ K)
    (hvt : ∀ v ∈ values, v < P.plaintextModulus) (lev : Nat) :
    ∃ pt out, Plaintext.new pr P values lev .simd = .ok pt ∧ pt.decode pr' = .ok out ∧ out.length = 2 ^ K ∧
      (out = values ↔ ∀ i j, i < 2 ^ K → j < 2 ^ K → P.matrixRepsIndexMap.getD i 0 = P.matrixRepsIndexMap.getD j 0 →
        values.getD i 0 = values.getD j 0) := by
  obtain ⟨pt, e, h1, h2, h3⟩ := simd_ok h pr pr' hv.ge hvt lev
  refine ⟨pt, _, h1, h2, by simp, ?_, ?_⟩
  · intro hout i j hi hj hij
    have hg : ∀ i, i < 2 ^ K → values.getD i 0 = e.getD (P.matrixRepsIndexMap.getD i 0) 0 := fun i hi => by
      conv_lhs => rw [← hout]
      rw [NttOperator.getD_map_of_lt _ _ _ 0 _ (by simpa using hi)]
      congr 2
      rw [getD_eq_getElem' _ _ _ (by simpa using hi), List.getElem_range]
    rw [hg i hi, hg j hj, hij]
  · intro hc
    apply List.ext_getElem (by simp [hv])
    intro i a b
    have hi : i < 2 ^ K := by simpa using a
    rw [List.getElem_map, List.getElem_range]
    -- the last index of the fibre
    obtain ⟨m, m0, m3⟩ := Finset.exists_max_image ((Finset.range (2 ^ K)).filter
      (fun j => P.matrixRepsIndexMap.getD j 0 = P.matrixRepsIndexMap.getD i 0)) id ⟨i, by simp [hi]⟩
    rw [Finset.mem_filter, Finset.mem_range] at m0
    obtain ⟨m1, m2⟩ := m0
    have hm := h3 m m1 (fun i' q1 q2 hq => by
      have := m3 i' (by rw [Finset.mem_filter, Finset.mem_range]; exact ⟨q2, hq.trans m2⟩)
      simp at this; omega)
    rw [← m2, hm, hc m i m1 hi m2, getD_eq_getElem' _ _ _ b]

theorem poly_round_trip (P : BfvParameters) (pr pr' : Profile) {values : List Nat} (hv : values.length ≤ P.degree) (lev : Nat) :
    ∃ pt, Plaintext.new pr P values lev .poly = .ok pt ∧
      pt.decode pr' = .ok (values ++ List.replicate (P.degree - values.length) 0) := by
  refine ⟨⟨P, lev, .poly, values ++ List.replicate (P.degree - values.length) 0⟩, ?_, ?_⟩
  · unfold Plaintext.new encode copyPrefix
    simp [hv, res_ok_bind]
  · unfold decode copyFromSlice
    simp only
    rw [if_pos (by simp; omega)]

end Plaintext
end OnionPIR
