import Verif.Model.Repair
import Verif.Props.Simd
/-
C80, continued: SIMD encoding with the corrected index map. The parameters `{P with matrixRepsIndexMap := tab}` are those of `BfvParameters::new`
with the corrected table.
-/
namespace OnionPIR
open Rg Spec

variable {N t : Nat} {l : List Nat} {variance : Nat} {P : BfvParameters}

/-- Slot `k` of the first row belongs to the exponent `3^k`, slot `k` of the second to `-3^k`, modulo `2 N`. -/
def Spec.rowExp (N k : Nat) : Nat := if k < N / 2 then 3 ^ k % (2 * N) else 2 * N - 3 ^ (k - N / 2) % (2 * N)

/-- The slots of `out` are the values of `m` at the powers `rowExp` of `psi`. -/
def Spec.RowsOf (t : Nat) (psi : ZMod t) (m : Rg N) (out : List Nat) : Prop :=
  out.length = N ∧ ∀ k, k < N → out.getD k 0 < t ∧ (out.getD k 0 : ZMod t) = ev (psi ^ rowExp N k) m

namespace Repair

theorem indexMap_ok (pr : Profile) {K : Nat} (h2 : 2 ≤ K) (hK : K ≤ 60) :
    ∃ l, indexMap pr (2 ^ K) = .ok l ∧ l.length = 2 ^ K ∧ (∀ k, k < 2 ^ K → l.getD k 0 < 2 ^ K) ∧
      ∀ i, i < 2 ^ (K - 1) → l.getD i 0 = reverseBits K (3 ^ i % (2 * 2 ^ K) / 2) ∧
        l.getD (2 ^ (K - 1) + i) 0 = reverseBits K ((2 * 2 ^ K - 3 ^ i % (2 * 2 ^ K)) / 2) := by
  have hKK : 2 ^ K = 2 * 2 ^ (K - 1) := by rw [← pow_succ']; congr 1; omega
  have hKb : 2 ^ K ≤ 2 ^ 60 := Nat.pow_le_pow_right (by norm_num) hK
  have hrow : 2 ^ K >>> 1 = 2 ^ (K - 1) := by rw [Nat.shiftRight_eq_div_pow, hKK]; omega
  have hm : (2 ^ K <<< 1) % 2 ^ 64 = 2 * 2 ^ K := by rw [Nat.shiftLeft_eq, Nat.mod_eq_of_lt (by omega)]; omega
  have h1m : 1 < 2 * 2 ^ K := by
    have : 0 < 2 ^ K := by positivity
    omega
  unfold indexMap
  rw [hrow, hm]
  obtain ⟨s, hs, ⟨i1, i2, i3, i4⟩⟩ := foldR_range_ok (f := indexStep pr (2 ^ K) (2 ^ (K - 1)) (2 * 2 ^ K)) (n := 2 ^ (K - 1))
    (s := (List.replicate (2 ^ K) 0, 1))
    (fun j (st : List Nat × Nat) => st.1.length = 2 ^ K ∧ st.2 = 3 ^ j % (2 * 2 ^ K) ∧ (∀ k, k < 2 ^ K → st.1.getD k 0 < 2 ^ K) ∧
      ∀ i, i < j → st.1.getD i 0 = reverseBits K (3 ^ i % (2 * 2 ^ K) / 2) ∧
        st.1.getD (2 ^ (K - 1) + i) 0 = reverseBits K ((2 * 2 ^ K - 3 ^ i % (2 * 2 ^ K)) / 2))
    ⟨by simp, by simp only; rw [pow_zero, Nat.mod_eq_of_lt h1m], fun k hk => by
        simp only [List.getD, List.getElem?_replicate, hk, if_true, Option.getD_some]; positivity, by intro i hi; omega⟩ (by
      rintro j ⟨l, pos⟩ hj ⟨h1, h2, h3, h4⟩
      simp only at h1 h2 h3 h4
      have hodd := three_pow_odd j (2 ^ K) (by positivity)
      have hlt := Nat.mod_lt (3 ^ j) (show 0 < 2 * 2 ^ K by positivity)
      rw [← h2] at hodd hlt
      have hor : 2 ^ (K - 1) ||| j = 2 ^ (K - 1) + j := by
        have := Nat.two_pow_add_eq_or_of_lt hj 1
        simpa using this.symm
      have hmask : (pos * 3) &&& (2 * 2 ^ K - 1) = 3 ^ (j + 1) % (2 * 2 ^ K) := by
        rw [show 2 * 2 ^ K = 2 ^ (K + 1) by rw [pow_succ]; ring, Nat.and_two_pow_sub_one_eq_mod, h2,
          show 2 * 2 ^ K = 2 ^ (K + 1) by rw [pow_succ]; ring, pow_succ 3 j, Nat.mod_mul_mod]
      unfold indexStep
      simp only
      rw [subW_ok (by omega), res_ok_bind, subW_ok (by omega), res_ok_bind, subW_ok (by omega), res_ok_bind, setR_ok (by omega),
        res_ok_bind, hor, setR_ok (by simp; omega), res_ok_bind, mulW_ok (by omega), res_ok_bind, subW_ok (by omega), res_ok_bind,
        hmask, bitrevIndex_mod K _ (by omega), bitrevIndex_mod K _ (by omega)]
      have e1 : ((pos - 1) >>> 1) % 2 ^ K = pos / 2 := by
        rw [Nat.shiftRight_eq_div_pow, Nat.mod_eq_of_lt (by omega)]; omega
      have e2 : ((2 * 2 ^ K - pos - 1) >>> 1) % 2 ^ K = (2 * 2 ^ K - pos) / 2 := by
        rw [Nat.shiftRight_eq_div_pow, Nat.mod_eq_of_lt (by omega)]; omega
      rw [e1, e2]
      refine ⟨_, rfl, by simp [h1], rfl, ?_, ?_⟩
      · intro k hk
        rw [Poly.getD_set (by simp; omega)]
        split_ifs
        · exact reverseBits_lt _ _
        · rw [Poly.getD_set (by omega)]
          split_ifs
          · exact reverseBits_lt _ _
          · exact h3 k hk
      · intro i hi
        simp only
        have g : ∀ k, k < 2 ^ K → ∀ a b, ((l.set j a).set (2 ^ (K - 1) + j) b).getD k 0 =
            if 2 ^ (K - 1) + j = k then b else if j = k then a else l.getD k 0 := by
          intro k hk a b
          rw [Poly.getD_set (by simp; omega), Poly.getD_set (by omega)]
        rw [g _ (by omega), g _ (by omega)]
        rcases Nat.lt_or_ge i j with hij | hij
        · obtain ⟨a, b⟩ := h4 i hij
          rw [if_neg (by omega), if_neg (by omega), if_neg (by omega), if_neg (by omega)]
          exact ⟨a, b⟩
        · have : i = j := by omega
          subst this
          rw [if_neg (by omega), if_pos rfl, if_pos rfl, h2]
          exact ⟨rfl, rfl⟩)
  rw [hs, res_ok_bind]
  exact ⟨_, rfl, i1, i3, i4⟩

/-- `3` has order exactly `N/2` modulo `2 N`. -/
theorem three_pow_half (j : Nat) : 3 ^ 2 ^ (j + 1) % 2 ^ (j + 4) = 2 ^ (j + 3) + 1 := by
  induction j with
  | zero => norm_num
  | succ j ih =>
    have hd := Nat.div_add_mod (3 ^ 2 ^ (j + 1)) (2 ^ (j + 4))
    rw [ih] at hd
    rw [show 2 ^ (j + 1 + 1) = 2 ^ (j + 1) * 2 by rw [pow_succ], pow_mul, ← hd]
    generalize 3 ^ 2 ^ (j + 1) / 2 ^ (j + 4) = d
    have : (2 ^ (j + 4) * d + (2 ^ (j + 3) + 1)) ^ 2 =
        2 ^ (j + 1 + 4) * (2 ^ (j + 3) * d * d + 2 ^ (j + 3) * d + d + 2 ^ (j + 1)) + (2 ^ (j + 1 + 3) + 1) := by
      ring
    rw [this, Nat.mul_add_mod, Nat.mod_eq_of_lt]
    have : 2 ^ (j + 1 + 4) = 2 * 2 ^ (j + 1 + 3) := by rw [← pow_succ']
    have h1 : 1 < 2 ^ (j + 1 + 3) := Nat.one_lt_two_pow (by omega)
    omega

theorem order_three {K : Nat} (h3 : 3 ≤ K) : orderOf (3 : ZMod (2 * 2 ^ K)) = 2 ^ (K - 1) := by
  obtain ⟨j, rfl⟩ : ∃ j, K = j + 3 := ⟨K - 3, by omega⟩
  have hM : 2 * 2 ^ (j + 3) = 2 ^ (j + 4) := by rw [← pow_succ']
  rw [show j + 3 - 1 = j + 1 + 1 by omega, hM]
  apply orderOf_eq_prime_pow
  · intro hc
    have h1 : ((3 ^ 2 ^ (j + 1) : Nat) : ZMod (2 ^ (j + 4))) = (1 : Nat) := by push_cast; exact hc
    rw [ZMod.natCast_eq_natCast_iff', three_pow_half, Nat.mod_eq_of_lt (Nat.one_lt_two_pow (by omega))] at h1
    have : 0 < 2 ^ (j + 3) := by positivity
    omega
  · have ho := BfvParameters.three_pow_order (j + 1)
    have : ((3 ^ 2 ^ (j + 1 + 1) : Nat) : ZMod (2 ^ (j + 4))) = (1 : Nat) := by
      rw [ZMod.natCast_eq_natCast_iff', show j + 4 = j + 1 + 3 by omega, ho, Nat.mod_eq_of_lt (Nat.one_lt_two_pow (by omega))]
    push_cast at this
    exact this

theorem cast_first {k : Nat} (hk : k < N / 2) : (rowExp N k : ZMod (2 * N)) = 3 ^ k := by
  unfold rowExp
  rw [if_pos hk, ZMod.natCast_mod, Nat.cast_pow, Nat.cast_ofNat]

theorem cast_second (hN : 0 < N) (i : Nat) : (rowExp N (N / 2 + i) : ZMod (2 * N)) = -3 ^ i := by
  unfold rowExp
  have := Nat.mod_lt (3 ^ i) (show 0 < 2 * N by omega)
  rw [if_neg (by omega), Nat.add_sub_cancel_left, Nat.cast_sub (by omega), ZMod.natCast_self, ZMod.natCast_mod, Nat.cast_pow, Nat.cast_ofNat,
    zero_sub]

theorem rowExp_odd (hN : 0 < N) (k : Nat) : Odd (rowExp N k) := by
  rw [Nat.odd_iff]
  unfold rowExp
  split_ifs
  · exact three_pow_odd k N hN
  · have := Nat.mod_lt (3 ^ (k - N / 2)) (show 0 < 2 * N by omega)
    have := three_pow_odd (k - N / 2) N hN
    omega

theorem rowExp_lt (hN : 0 < N) (k : Nat) : rowExp N k < 2 * N := by
  unfold rowExp
  split_ifs
  · exact Nat.mod_lt _ (by omega)
  · have := three_pow_odd (k - N / 2) N hN
    omega

/-- The exponents of the slots are distinct. -/
theorem rowExp_inj {K : Nat} (h3 : 3 ≤ K) {i j : Nat} (hi : i < 2 ^ K) (hj : j < 2 ^ K) (h : rowExp (2 ^ K) i = rowExp (2 ^ K) j) : i = j := by
  have hKK : 2 ^ K = 2 * 2 ^ (K - 1) := by rw [← pow_succ']; congr 1; omega
  have hh : 2 ^ K / 2 = 2 ^ (K - 1) := by omega
  have hp : 0 < 2 ^ K := by positivity
  have hinj : ∀ a b, a < 2 ^ (K - 1) → b < 2 ^ (K - 1) → (3 : ZMod (2 * 2 ^ K)) ^ a = 3 ^ b → a = b := by
    intro a b ha hb hab
    rw [← order_three h3] at ha hb
    exact pow_injOn_Iio_orderOf ha hb hab
  have hmix : ∀ a b : Nat, (3 : ZMod (2 * 2 ^ K)) ^ a ≠ -3 ^ b := by
    intro a b hab
    have h1 : ((3 ^ a + 3 ^ b : Nat) : ZMod (2 * 2 ^ K)) = 0 := by
      push_cast
      rw [hab]; ring
    rw [ZMod.natCast_eq_zero_iff] at h1
    have h8 : 8 ∣ 2 * 2 ^ K := by
      have : (2 : Nat) ^ 3 ∣ 2 ^ K := pow_dvd_pow 2 h3
      exact (this.trans (Dvd.intro_left 2 rfl))
    have h9 := h8.trans h1
    have h10 := Simd.three_pow_mod_eight a
    have h11 := Simd.three_pow_mod_eight b
    omega
  have hz : (rowExp (2 ^ K) i : ZMod (2 * 2 ^ K)) = rowExp (2 ^ K) j := by rw [h]
  rcases Nat.lt_or_ge i (2 ^ K / 2) with h1 | h1 <;> rcases Nat.lt_or_ge j (2 ^ K / 2) with h2 | h2
  · rw [cast_first h1, cast_first h2] at hz
    exact hinj i j (by omega) (by omega) hz
  · obtain ⟨b, rfl⟩ : ∃ b, j = 2 ^ K / 2 + b := ⟨j - 2 ^ K / 2, by omega⟩
    rw [cast_first h1, cast_second hp] at hz
    exact absurd hz (hmix _ _)
  · obtain ⟨a, rfl⟩ : ∃ a, i = 2 ^ K / 2 + a := ⟨i - 2 ^ K / 2, by omega⟩
    rw [cast_first h2, cast_second hp] at hz
    exact absurd hz.symm (hmix _ _)
  · obtain ⟨a, rfl⟩ : ∃ a, i = 2 ^ K / 2 + a := ⟨i - 2 ^ K / 2, by omega⟩
    obtain ⟨b, rfl⟩ : ∃ b, j = 2 ^ K / 2 + b := ⟨j - 2 ^ K / 2, by omega⟩
    rw [cast_second hp, cast_second hp, neg_inj] at hz
    rw [hinj a b (by omega) (by omega) hz]

/-- The corrected table: the exponents of its entries, and what SIMD encoding needs of it. -/
theorem table {K : Nat} {ext : List Nat} (hw : P.WF K ext) {pr : Profile} {tab : List Nat} (ht : indexMap pr (2 ^ K) = .ok tab) :
    Plaintext.SimdWF K {P with matrixRepsIndexMap := tab} ∧
      ∀ k, k < 2 ^ K → 2 * reverseBits K (tab.getD k 0) + 1 = rowExp (2 ^ K) k := by
  have h3 := hw.three
  obtain ⟨lm, hlm, h1, h2, h4⟩ := indexMap_ok pr (show 2 ≤ K by omega) hw.K60
  rw [hlm] at ht
  cases ht
  have hs := Plaintext.simdWF hw
  refine ⟨⟨hs.deg, hs.t_pos, hs.ntt, h1, h2⟩, fun k hk => ?_⟩
  have hKK : 2 ^ K = 2 * 2 ^ (K - 1) := by rw [← pow_succ']; congr 1; omega
  have hh : 2 ^ K / 2 = 2 ^ (K - 1) := by omega
  have hp : 0 < 2 ^ K := by positivity
  have hlt := rowExp_lt hp k
  have hodd := Nat.odd_iff.mp (rowExp_odd hp k)
  have key : tab.getD k 0 = reverseBits K (rowExp (2 ^ K) k / 2) := by
    unfold rowExp
    rw [hh]
    split_ifs with hlt
    · exact (h4 k hlt).1
    · obtain ⟨i, rfl⟩ : ∃ i, k = 2 ^ (K - 1) + i := ⟨k - 2 ^ (K - 1), by omega⟩
      rw [(h4 i (by omega)).2, Nat.add_sub_cancel_left]
  rw [key, reverseBits_reverseBits _ _ (by omega)]
  omega

end Repair

/-- C80, for C28: with the corrected table every vector survives SIMD encoding and decoding. -/
theorem c80_simd_round_trip (h : IsParams N t l variance P) {tab : List Nat} {pr0 : Profile} (htab : Repair.indexMap pr0 N = .ok tab)
    (pr pr' : Profile) {values : List Nat} (hl : values.length = N) (hv : ∀ v ∈ values, v < t) (level : Nat) :
    ∃ pt, Plaintext.new pr {P with matrixRepsIndexMap := tab} values level .simd = .ok pt ∧ pt.decode pr' = .ok values := by
  obtain ⟨K, ext, rfl, hw, rfl, -⟩ := BfvP.params h
  obtain ⟨hs, he⟩ := Repair.table hw htab
  obtain ⟨pt, out, h1, h2, -, h4⟩ := Plaintext.simd_round_trip hs pr pr' hl hv level
  refine ⟨pt, h1, ?_⟩
  rw [h2, h4.mpr]
  intro i j hi hj hij
  dsimp only at hij
  rw [Repair.rowExp_inj hw.three hi hj (by rw [← he i hi, ← he j hj, hij])]

/-- The corrected table exists for every degree, in both builds. -/
theorem c80_index_map (h : IsParams N t l variance P) (pr : Profile) : ∃ tab, Repair.indexMap pr N = .ok tab ∧ tab.length = N := by
  obtain ⟨K, ext, rfl, hw, -⟩ := BfvP.params h
  obtain ⟨tab, h1, h2, -⟩ := Repair.indexMap_ok pr (show 2 ≤ K by have := hw.three; omega) hw.K60
  exact ⟨tab, h1, h2⟩

/-- C80: with the corrected table SIMD decoding evaluates the plaintext at the powers `±3^k` of one root. -/
theorem c80_simd_decode (h : IsParams N t l variance P) {tab : List Nat} {pr0 : Profile} (htab : Repair.indexMap pr0 N = .ok tab) :
    ∃ psi : ZMod t, psi ^ N = -1 ∧ ∀ (pr : Profile) (lev : Nat) (m : Rg N),
      ∃ out, (⟨{P with matrixRepsIndexMap := tab}, lev, .simd, residues t m⟩ : Plaintext).decode pr = .ok out ∧ RowsOf t psi m out := by
  obtain ⟨K, ext, rfl, hw, rfl, rfl, rfl⟩ := BfvP.params h
  obtain ⟨hs, he⟩ := Repair.table hw htab
  obtain ⟨psi, hp, hd⟩ := Simd.decode_at hs
  refine ⟨psi, hp, fun pr lev m => ?_⟩
  obtain ⟨out, o1, o2, o3⟩ := hd pr lev m
  refine ⟨out, o1, o2, fun k hk => ?_⟩
  rw [← he k hk]
  exact o3 k hk

/-- C80, for C73, on plaintexts: the substitution `X ↦ X^e` with `e ≡ 3^r` rotates both rows of slots by `r`. -/
theorem c80_rotate_plain (h : IsParams N t l variance P) {tab : List Nat} {pr0 : Profile} (htab : Repair.indexMap pr0 N = .ok tab)
    (pr : Profile) (lev : Nat) (m : Rg N) {e r : Nat} (he : e % (2 * N) = 3 ^ r % (2 * N)) :
    ∃ o o', (⟨{P with matrixRepsIndexMap := tab}, lev, .simd, residues t m⟩ : Plaintext).decode pr = .ok o ∧
      (⟨{P with matrixRepsIndexMap := tab}, lev, .simd, residues t (sg e m)⟩ : Plaintext).decode pr = .ok o' ∧ o.length = N ∧ o'.length = N ∧
      ∀ k, k < N / 2 → o'.getD k 0 = o.getD ((k + r) % (N / 2)) 0 ∧ o'.getD (N / 2 + k) 0 = o.getD (N / 2 + (k + r) % (N / 2)) 0 := by
  have hN := Simd.pos h
  obtain ⟨psi, hp, hd⟩ := c80_simd_decode h htab
  obtain ⟨o, o1, o2, o3⟩ := hd pr lev m
  obtain ⟨o', p1, p2, p3⟩ := hd pr lev (sg e m)
  have he' : (e : ZMod (2 * N)) = 3 ^ r := by
    have := (ZMod.natCast_eq_natCast_iff' e (3 ^ r) (2 * N)).mpr he
    push_cast at this
    exact this
  have key : ∀ a b, a < N → b < N → ((rowExp N a : ZMod (2 * N)) * 3 ^ r = rowExp N b) → o'.getD a 0 = o.getD b 0 := by
    intro a b ha hb hab
    obtain ⟨a1, a2⟩ := p3 a ha
    obtain ⟨b1, b2⟩ := o3 b hb
    rw [← Nat.mod_eq_of_lt b1]
    apply Simd.nat_of_cast a1
    rw [a2, b2, ev_sg hN _ (Simd.slot_pow hp (Repair.rowExp_odd hN a)), ← pow_mul]
    congr 1
    apply Simd.pow_congr hp
    rw [Nat.cast_mul, he', hab]
  refine ⟨o, o', o1, p1, o2, p2, fun k hk => ?_⟩
  have hk' : (k + r) % (N / 2) < N / 2 := Nat.mod_lt _ (by omega)
  refine ⟨key _ _ (by omega) (by omega) ?_, key _ _ (by omega) (by omega) ?_⟩
  · rw [Repair.cast_first hk, Repair.cast_first hk', Simd.three_pow_mod h, pow_add]
  · rw [Repair.cast_second hN, Repair.cast_second hN, Simd.three_pow_mod h, pow_add, neg_mul]

/-- C80, for C73, on plaintexts: the substitution `X ↦ X^(2N-1)` exchanges the rows of slots. -/
theorem c80_swap_plain (h : IsParams N t l variance P) {tab : List Nat} {pr0 : Profile} (htab : Repair.indexMap pr0 N = .ok tab)
    (pr : Profile) (lev : Nat) (m : Rg N) :
    ∃ o o', (⟨{P with matrixRepsIndexMap := tab}, lev, .simd, residues t m⟩ : Plaintext).decode pr = .ok o ∧
      (⟨{P with matrixRepsIndexMap := tab}, lev, .simd, residues t (sg (2 * N - 1) m)⟩ : Plaintext).decode pr = .ok o' ∧
      o.length = N ∧ o'.length = N ∧ ∀ k, k < N / 2 → o'.getD k 0 = o.getD (N / 2 + k) 0 ∧ o'.getD (N / 2 + k) 0 = o.getD k 0 := by
  have hN := Simd.pos h
  obtain ⟨psi, hp, hd⟩ := c80_simd_decode h htab
  obtain ⟨o, o1, o2, o3⟩ := hd pr lev m
  obtain ⟨o', p1, p2, p3⟩ := hd pr lev (sg (2 * N - 1) m)
  have he' : ((2 * N - 1 : Nat) : ZMod (2 * N)) = -1 := by
    rw [Nat.cast_sub (by omega), ZMod.natCast_self, Nat.cast_one, zero_sub]
  have key : ∀ a b, a < N → b < N → (-(rowExp N a : ZMod (2 * N)) = rowExp N b) → o'.getD a 0 = o.getD b 0 := by
    intro a b ha hb hab
    obtain ⟨a1, a2⟩ := p3 a ha
    obtain ⟨b1, b2⟩ := o3 b hb
    rw [← Nat.mod_eq_of_lt b1]
    apply Simd.nat_of_cast a1
    rw [a2, b2, ev_sg hN _ (Simd.slot_pow hp (Repair.rowExp_odd hN a)), ← pow_mul]
    congr 1
    apply Simd.pow_congr hp
    rw [Nat.cast_mul, he', ← hab]
    ring
  refine ⟨o, o', o1, p1, o2, p2, fun k hk => ⟨key _ _ (by omega) (by omega) ?_, key _ _ (by omega) (by omega) ?_⟩⟩
  · rw [Repair.cast_first hk, Repair.cast_second hN]
  · rw [Repair.cast_first hk, Repair.cast_second hN, neg_neg]

/-- The plaintext with SIMD encoding, for the parameters with the table `tab`. -/
def Spec.withTable (tab : List Nat) (p : Plaintext) : Plaintext := ⟨{p.params with matrixRepsIndexMap := tab}, p.level, .simd, p.values⟩

theorem Repair.decode_decrypted (h : IsParams N t l variance P) {tab : List Nat} {psi : ZMod t} (hd : ∀ (pr : Profile) (lev : Nat) (m : Rg N),
      ∃ out, (⟨{P with matrixRepsIndexMap := tab}, lev, .simd, residues t m⟩ : Plaintext).decode pr = .ok out ∧ RowsOf t psi m out)
    (pr : Profile) {sk : SecretKey} (hk : IsKey P sk) {ct : BfvCipherText} {i : Nat} {fs : List (Rg N)} {m : Rg N} {V : ℤ} (hne : fs ≠ [])
    (hct : IsCt P i fs ct) (h2t : 2 * t ≤ l.getD 0 0) (he : Encodes t (levelQ l i) m (phase (keyRing N sk) fs) V) (hV : 4 * V ≤ levelQ l i) :
    ∃ pt out, sk.decrypt pr ct = .ok pt ∧ (withTable tab pt).decode pr = .ok out ∧ RowsOf t psi m out := by
  obtain ⟨pt, p1, p2, p3, p4⟩ := c30_decrypt h hk pr hne hct h2t he hV
  obtain ⟨out, o1, o2⟩ := hd pr i m
  refine ⟨pt, out, p1, ?_, o2⟩
  rw [← o1]
  unfold withTable
  rw [← p2, ← p3, ← p4]

/-- C80, for C73, on ciphertexts: a Galois key for `e ≡ 3^r` rotates both rows of slots by `r`, within the noise budget. -/
theorem c80_rotate (h : IsParams N t l variance P) {tab : List Nat} {pr0 : Profile} (htab : Repair.indexMap pr0 N = .ok tab)
    {sk : SecretKey} (hk : IsKey P sk) (pr : Profile) (hv1 : 1 ≤ variance)
    (hv2 : variance ≤ 16) (hl : l.length ≠ 1) (hN : N ≤ 2 ^ 31) {i : Nat} {c : RqContext} (hi : P.qCtxs[i]? = some c) {e r : Nat}
    (he : e % (2 * N) = 3 ^ r % (2 * N)) {aTape : Nat → Nat → Nat → Nat} (ha : ∀ j, TapeAt l i (aTape j)) {rng : Nat → Nat → Nat}
    (hr : ∀ j i, rng j i < 2 ^ 64) (h2t : 2 * t ≤ l.getD 0 0) :
    ∃ sub g, Substitution.new pr c e = .ok sub ∧ GaliosKey.new pr sk sub i aTape rng = .ok g ∧
      ∀ ct, ∀ f0 f1 m : Rg N, ∀ V, IsCt P i [f0, f1] ct → Encodes t (levelQ l i) m (phase (keyRing N sk) [f0, f1]) V →
        4 * (V + t * (switchNoise N l i * (2 * variance))) ≤ levelQ l i →
        ∃ ct' p p' o o', g.relinearize pr ct = .ok ct' ∧ sk.decrypt pr ct = .ok p ∧ sk.decrypt pr ct' = .ok p' ∧
          (withTable tab p).decode pr = .ok o ∧ (withTable tab p').decode pr = .ok o' ∧ o.length = N ∧ o'.length = N ∧
          ∀ k, k < N / 2 → o'.getD k 0 = o.getD ((k + r) % (N / 2)) 0 ∧ o'.getD (N / 2 + k) 0 = o.getD (N / 2 + (k + r) % (N / 2)) 0 := by
  have hN0 := Simd.pos h
  have hodd : Odd e := by
    rw [Nat.odd_iff, ← Nat.mod_mul_right_mod e 2 N, he]
    exact three_pow_odd r N hN0
  obtain ⟨sub, g, h1, h2, h3, -⟩ := c37_galois h hk pr pr hv1 hv2 hl hN hi hodd ha hr
  refine ⟨sub, g, h1, h2, fun ct f0 f1 m V hct henc hV => ?_⟩
  obtain ⟨ct', r0, r1, E, g1, g2, -, -, g3⟩ := h3 ct f0 f1 hct
  have hn : (0 : ℤ) ≤ t * (switchNoise N l i * (2 * variance)) := by
    have := Circuit.switchNoise_nonneg N l i
    positivity
  obtain ⟨p, p1, p2, p3, p4⟩ := c30_decrypt h hk pr (by simp) hct h2t henc (by linarith)
  obtain ⟨p', q1, q2, q3, q4⟩ := c30_decrypt h hk pr (by simp) g2 h2t (g3 _ _ henc) hV
  obtain ⟨o, o', o1, o2, o3, o4, o5⟩ := c80_rotate_plain h htab pr i m he
  refine ⟨ct', p, p', o, o', g1, p1, q1, ?_, ?_, o3, o4, o5⟩
  · rw [← o1]
    unfold withTable
    rw [← p2, ← p3, ← p4]
  · rw [← o2]
    unfold withTable
    rw [← q2, ← q3, ← q4]

/-- C80, for C73, on ciphertexts: a Galois key for `2N - 1` exchanges the rows of slots, within the noise budget. -/
theorem c80_swap (h : IsParams N t l variance P) {tab : List Nat} {pr0 : Profile} (htab : Repair.indexMap pr0 N = .ok tab)
    {sk : SecretKey} (hk : IsKey P sk) (pr : Profile) (hv1 : 1 ≤ variance)
    (hv2 : variance ≤ 16) (hl : l.length ≠ 1) (hN : N ≤ 2 ^ 31) {i : Nat} {c : RqContext} (hi : P.qCtxs[i]? = some c)
    {aTape : Nat → Nat → Nat → Nat} (ha : ∀ j, TapeAt l i (aTape j)) {rng : Nat → Nat → Nat}
    (hr : ∀ j i, rng j i < 2 ^ 64) (h2t : 2 * t ≤ l.getD 0 0) :
    ∃ sub g, Substitution.new pr c (2 * N - 1) = .ok sub ∧ GaliosKey.new pr sk sub i aTape rng = .ok g ∧
      ∀ ct, ∀ f0 f1 m : Rg N, ∀ V, IsCt P i [f0, f1] ct → Encodes t (levelQ l i) m (phase (keyRing N sk) [f0, f1]) V →
        4 * (V + t * (switchNoise N l i * (2 * variance))) ≤ levelQ l i →
        ∃ ct' p p' o o', g.relinearize pr ct = .ok ct' ∧ sk.decrypt pr ct = .ok p ∧ sk.decrypt pr ct' = .ok p' ∧
          (withTable tab p).decode pr = .ok o ∧ (withTable tab p').decode pr = .ok o' ∧ o.length = N ∧ o'.length = N ∧
          ∀ k, k < N / 2 → o'.getD k 0 = o.getD (N / 2 + k) 0 ∧ o'.getD (N / 2 + k) 0 = o.getD k 0 := by
  have hN0 := Simd.pos h
  have hodd : Odd (2 * N - 1) := by rw [Nat.odd_iff]; omega
  obtain ⟨sub, g, h1, h2, h3, -⟩ := c37_galois h hk pr pr hv1 hv2 hl hN hi hodd ha hr
  refine ⟨sub, g, h1, h2, fun ct f0 f1 m V hct henc hV => ?_⟩
  obtain ⟨ct', r0, r1, E, g1, g2, -, -, g3⟩ := h3 ct f0 f1 hct
  have hn : (0 : ℤ) ≤ t * (switchNoise N l i * (2 * variance)) := by
    have := Circuit.switchNoise_nonneg N l i
    positivity
  obtain ⟨p, p1, p2, p3, p4⟩ := c30_decrypt h hk pr (by simp) hct h2t henc (by linarith)
  obtain ⟨p', q1, q2, q3, q4⟩ := c30_decrypt h hk pr (by simp) g2 h2t (g3 _ _ henc) hV
  obtain ⟨o, o', o1, o2, o3, o4, o5⟩ := c80_swap_plain h htab pr i m
  refine ⟨ct', p, p', o, o', g1, p1, q1, ?_, ?_, o3, o4, o5⟩
  · rw [← o1]
    unfold withTable
    rw [← p2, ← p3, ← p4]
  · rw [← o2]
    unfold withTable
    rw [← q2, ← q3, ← q4]

/-- C80, for C72: with the corrected table all vectors, not only those that agree on slots sharing an index, are added, subtracted and
multiplied slot by slot by encoding, encryption, the homomorphic operation, decryption and decoding. -/
theorem c80_encoded (h : IsParams N t l variance P) {tab : List Nat} {pr0 : Profile} (htab : Repair.indexMap pr0 N = .ok tab)
    {sk : SecretKey} (hk : IsKey P sk) {S : ℤ} (hS : Bdd S (keyRing N sk)) (pr : Profile)
    (hNn : N * 2 ^ l.length ≤ 2 ^ 57) (hv1 : 1 ≤ variance) (hv2 : variance ≤ 16) (h2t : 2 * t ≤ l.getD 0 0)
    (hV : 4 * productNoise N t l 0 S (2 * t * variance + 2 * t) (2 * t * variance + 2 * t) (2 * variance) ≤ levelQ l 0)
    {v w : List Nat} (hv : IsVec t N v) (hw : IsVec t N w)
    {a1 a2 : Nat → Nat → Nat} (ha1 : TapeAt l 0 a1) (ha2 : TapeAt l 0 a2) {r1 r2 : Nat → Nat} (hr1 : ∀ i, r1 i < 2 ^ 64)
    (hr2 : ∀ i, r2 i < 2 ^ 64) {aR : Nat → Nat → Nat → Nat} (haR : ∀ j, TapeAt l 0 (aR j)) {rR : Nat → Nat → Nat}
    (hrR : ∀ j i, rR j i < 2 ^ 64) :
    ∃ p q x y rlk z z' z'' d d' d'', Plaintext.new pr {P with matrixRepsIndexMap := tab} v 0 .simd = .ok p ∧
      Plaintext.new pr {P with matrixRepsIndexMap := tab} w 0 .simd = .ok q ∧
      sk.encrypt pr ⟨P, 0, .simd, p.values⟩ a1 r1 = .ok x ∧ sk.encrypt pr ⟨P, 0, .simd, q.values⟩ a2 r2 = .ok y ∧
      RelinearizationKey.new pr sk 0 aR rR = .ok rlk ∧
      x.add pr y = .ok z ∧ x.sub pr y = .ok z' ∧ multiplyWithStrategy pr x y rlk = .ok z'' ∧
      sk.decrypt pr z = .ok d ∧ sk.decrypt pr z' = .ok d' ∧ sk.decrypt pr z'' = .ok d'' ∧
      (withTable tab d).decode pr = .ok ((List.range N).map fun k => (v.getD k 0 + w.getD k 0) % t) ∧
      (withTable tab d').decode pr = .ok ((List.range N).map fun k => (v.getD k 0 + (t - w.getD k 0)) % t) ∧
      (withTable tab d'').decode pr = .ok ((List.range N).map fun k => v.getD k 0 * w.getD k 0 % t) := by
  have hN := Simd.pos h
  have ht := Simd.t_pos h
  have ht64 : t < 2 ^ 64 := by
    obtain ⟨K, ext, -, hP, rfl, -⟩ := BfvP.params h
    exact hP.t_lt.trans (by norm_num)
  have hl0 : 0 < l.length := by
    obtain ⟨K, ext, -, hP, -, rfl, -⟩ := BfvP.params h
    exact List.length_pos_iff.mpr hP.ne
  obtain ⟨psi, hp, hd⟩ := c80_simd_decode h htab
  have enc : ∀ (u : List Nat), IsVec t N u → ∀ (a : Nat → Nat → Nat), TapeAt l 0 a → ∀ (r : Nat → Nat), (∀ i, r i < 2 ^ 64) →
      ∃ p x, ∃ m f0 f1 : Rg N, Plaintext.new pr {P with matrixRepsIndexMap := tab} u 0 .simd = .ok p ∧
        sk.encrypt pr ⟨P, 0, .simd, p.values⟩ a r = .ok x ∧ IsCt P 0 [f0, f1] x ∧
        Encodes t (levelQ l 0) m (phase (keyRing N sk) [f0, f1]) (2 * t * variance + 2 * t) ∧ Bdd t m ∧ RowsOf t psi m u := by
    intro u hu a ha r hr
    obtain ⟨p, p1, p2⟩ := c80_simd_round_trip h htab pr pr hu.1 hu.2 0
    obtain ⟨p5, p6⟩ : IsVec t N p.values ∧ p = ⟨{P with matrixRepsIndexMap := tab}, 0, .simd, p.values⟩ := by
      obtain ⟨K, ext, rfl, hP, rfl, -⟩ := BfvP.params h
      obtain ⟨hs, -⟩ := Repair.table hP htab
      obtain ⟨e, e1, e2, e3, e4⟩ := Plaintext.scatter_ok hs hu.1.ge hP.t_prime.pos hu.2
      obtain ⟨op, psi, psiInv, hop, how, hp⟩ := hs.ntt
      obtain ⟨b, b1, b2, b3, b4⟩ := NttOperator.forward_backward how pr e2 (by rw [hp]; exact e3)
      unfold Plaintext.new Plaintext.encode at p1
      simp only at p1 hop e1
      have hop' : unwrapR P.ptNtt = .ok op := by rw [hop]; rfl
      rw [e1, res_ok_bind, hop', res_ok_bind, b1, res_ok_bind] at p1
      cases p1
      exact ⟨⟨b2, by rw [hp] at b3; exact b3⟩, rfl⟩
    obtain ⟨x, f0, f1, x1, x2, x3⟩ := c30_encrypt h hk pr hv1 hv2 (pt := ⟨P, 0, .simd, p.values⟩) rfl rfl p5.1.le
      (fun y hy => (p5.2 y hy).trans ht64) ha hr
    obtain ⟨o, o1, o2⟩ := hd pr 0 (msgRing N p.values)
    rw [Simd.residues_msg hN p5, ← p6, p2] at o1
    cases o1
    refine ⟨p, x, _, f0, f1, p1, x1, x2, x3, ?_, o2⟩
    obtain ⟨K, ext, rfl, -⟩ := BfvP.params h
    exact BfvP.msgRing_bdd fun y hy => (p5.2 y hy).le
  obtain ⟨p, x, m1, f0, f1, p1, x1, x2, x3, x4, s1⟩ := enc v hv a1 ha1 r1 hr1
  obtain ⟨q, y, m2, g0, g1, q1, y1, y2, y3, y4, s2⟩ := enc w hw a2 ha2 r2 hr2
  obtain ⟨rlk, k1, k2, k3, -⟩ := c38_relinearize h hk pr pr hv1 hv2 hl0 haR hrR
  have hV0 : (0 : ℤ) ≤ 2 * t * variance + 2 * t := by positivity
  have hle := Circuit.le_product (N := N) (t := t) (by exact_mod_cast hN) (by exact_mod_cast ht) (hS.nonneg hN) hV0 hV0
    (mul_nonneg (Circuit.switchNoise_nonneg N l 0) (Circuit.isKsk_nonneg h k3))
  have hVs : 4 * ((2 * t * variance + 2 * t : ℤ) + (2 * t * variance + 2 * t)) ≤ levelQ l 0 := by
    unfold productNoise at hV
    linarith
  obtain ⟨z, z1, z2, -, z3⟩ := c32_add h pr x2 y2 (keyRing N sk)
  obtain ⟨z', z1', z2', -, z3'⟩ := c32_sub h pr x2 y2 (keyRing N sk)
  obtain ⟨z'', e0, e1, z1'', z2'', z3''⟩ := c50_multiply h hNn pr x2 y2 k2 hS k3 x3 y3 x4 y4 (by linarith) (by linarith)
  obtain ⟨d, o, b1, b2, b3, b4⟩ := Repair.decode_decrypted h hd pr hk (by simp) z2 h2t (z3 _ _ _ _ x3 y3) hVs
  obtain ⟨d', o', b1', b2', b3', b4'⟩ := Repair.decode_decrypted h hd pr hk (by simp) z2' h2t (z3' _ _ _ _ x3 y3) hVs
  obtain ⟨d'', o'', b1'', b2'', b3'', b4''⟩ := Repair.decode_decrypted h hd pr hk (by simp) z2'' h2t z3'' hV
  refine ⟨p, q, x, y, rlk, z, z', z'', d, d', d'', p1, q1, x1, y1, k1, z1, z1', z1'', b1, b1', b1'', ?_, ?_, ?_⟩
  · rw [b2]
    congr 1
    refine Simd.eq_map o _ b3 fun k hk => Simd.nat_of_cast (b4 k hk).1 ?_
    rw [(b4 k hk).2, ev_add hN, Nat.cast_add, (s1.2 k hk).2, (s2.2 k hk).2]
  · rw [b2']
    congr 1
    refine Simd.eq_map o' _ b3' fun k hk => Simd.nat_of_cast (b4' k hk).1 ?_
    rw [(b4' k hk).2, ev_sub hN, Nat.cast_add, Nat.cast_sub (s2.2 k hk).1.le, (s1.2 k hk).2, (s2.2 k hk).2, ZMod.natCast_self]
    ring
  · rw [b2'']
    congr 1
    refine Simd.eq_map o'' _ b3'' fun k hk => Simd.nat_of_cast (b4'' k hk).1 ?_
    rw [(b4'' k hk).2, ev_mul hN _ (Simd.slot_pow hp (Repair.rowExp_odd hN k)), Nat.cast_mul, (s1.2 k hk).2, (s2.2 k hk).2]

/-- A vector of eight different values, which does not survive the code's own encoding (`c28_simd_not_round_trip`). -/
example : ∃ P tab pt, IsParams 8 17 Ex.mods 10 P ∧ Repair.indexMap .debug 8 = .ok tab ∧
    Plaintext.new .debug {P with matrixRepsIndexMap := tab} [0, 1, 2, 3, 4, 5, 6, 7] 0 .simd = .ok pt ∧
    pt.decode .release = .ok [0, 1, 2, 3, 4, 5, 6, 7] := by
  obtain ⟨P, h⟩ := Ex.exists_params
  obtain ⟨tab, h1, -⟩ := c80_index_map h .debug
  obtain ⟨pt, h2, h3⟩ := c80_simd_round_trip h h1 .debug .release (values := [0, 1, 2, 3, 4, 5, 6, 7]) rfl (by decide) 0
  exact ⟨P, tab, pt, h, h1, h2, h3⟩

/-- The corrected and the actual table for degree 8. -/
example : Repair.indexMap .debug 8 = .ok [0, 4, 1, 5, 7, 3, 6, 2] ∧ BfvParameters.indexMap .debug 8 = .ok [0, 4, 1, 5, 3, 1, 3, 1] := by
  decide +kernel

/-- The product of two arbitrary vectors, and the rotation and exchange of the rows of an actual encryption. -/
example : ∃ P sk tab z'' d'', IsParams 8 17 Ex.mods 10 P ∧ IsKey P sk ∧ Repair.indexMap .debug 8 = .ok tab ∧ sk.decrypt .debug z'' = .ok d'' ∧
    (withTable tab d'').decode .debug = .ok [0, 1, 4, 9, 16, 8, 2, 15] := by
  obtain ⟨P, sk, -, -, -, h, hk, hb, -, -⟩ := Ex.setup
  obtain ⟨tab, ht, -⟩ := c80_index_map h .debug
  obtain ⟨_, _, _, _, _, z, z', z'', d, d', d'', -, -, -, -, -, -, -, -, h1, h2, h3, h4, h5, h6⟩ := c80_encoded h ht hk hb .debug
    (by norm_num [Ex.mods]) (by norm_num) (by norm_num) (by decide) (by
      unfold productNoise
      rw [Ex.levelQ_mods0, show switchNoise 8 Ex.mods 0 = 8 * (1048609 + 1048721 + 1048897) by decide +kernel]; norm_num)
    (v := [0, 1, 2, 3, 4, 5, 6, 7]) (w := [0, 1, 2, 3, 4, 5, 6, 7]) ⟨rfl, by decide⟩ ⟨rfl, by decide⟩
    (Ex.tape0 Ex.mods_gt) (Ex.tape0 Ex.mods_gt) Ex.wordTape Ex.wordTape Ex.tapes (fun _ => Ex.wordTape)
  exact ⟨P, sk, tab, z'', d'', h, hk, ht, h3, h6⟩

/-- Rotation of both rows of an actual encryption by one slot, and the exchange of its rows. -/
example : ∃ P sk ct tab g g' ct' ct'' p p' p'' o o' o'', IsParams 8 17 Ex.mods 10 P ∧ IsKey P sk ∧ Repair.indexMap .debug 8 = .ok tab ∧
    GaliosKey.relinearize .debug g ct = .ok ct' ∧ GaliosKey.relinearize .debug g' ct = .ok ct'' ∧
    sk.decrypt .debug ct = .ok p ∧ sk.decrypt .debug ct' = .ok p' ∧ sk.decrypt .debug ct'' = .ok p'' ∧
    (withTable tab p).decode .debug = .ok o ∧ (withTable tab p').decode .debug = .ok o' ∧ (withTable tab p'').decode .debug = .ok o'' ∧
    o'.getD 4 0 = o.getD 5 0 ∧ o'.getD 7 0 = o.getD 4 0 ∧ o''.getD 0 0 = o.getD 4 0 ∧ o''.getD 5 0 = o.getD 1 0 := by
  obtain ⟨P, sk, ct, f0, f1, h, hk, -, hct, he⟩ := Ex.setup
  obtain ⟨tab, ht, -⟩ := c80_index_map h .debug
  obtain ⟨c, hc⟩ : ∃ c, P.qCtxs[0]? = some c := by
    obtain ⟨p, c, hc, -⟩ := c33_exists_poly h (i := 0) (by decide) (1 : Rg 8)
    exact ⟨c, hc⟩
  obtain ⟨sub, g, -, -, h3⟩ := c80_rotate h ht hk .debug (by norm_num) (by norm_num) (by decide) (by norm_num) hc (e := 3) (r := 1)
    (by norm_num) Ex.tapes (fun _ => Ex.wordTape) (by decide)
  obtain ⟨sub', g', -, -, h3'⟩ := c80_swap h ht hk .debug (by norm_num) (by norm_num) (by decide) (by norm_num) hc
    Ex.tapes (fun _ => Ex.wordTape) (by decide)
  obtain ⟨ct', p, p', o, o', h4, h5, h6, h7, h8, -, -, h9⟩ := h3 ct f0 f1 _ _ hct he
    (by rw [Ex.levelQ_mods0, show switchNoise 8 Ex.mods 0 = 8 * (1048609 + 1048721 + 1048897) by decide +kernel]; norm_num)
  obtain ⟨ct'', q, p'', o2, o'', k4, k5, k6, k7, k8, -, -, k9⟩ := h3' ct f0 f1 _ _ hct he
    (by rw [Ex.levelQ_mods0, show switchNoise 8 Ex.mods 0 = 8 * (1048609 + 1048721 + 1048897) by decide +kernel]; norm_num)
  obtain rfl := Except.ok.inj (h5.symm.trans k5)
  obtain rfl := Except.ok.inj (h7.symm.trans k7)
  exact ⟨P, sk, ct, tab, g, g', ct', ct'', p, p', p'', o, o', o'', h, hk, ht, h4, k4, h5, h6, k6, h7, h8, k8, (h9 0 (by norm_num)).2,
    (h9 3 (by norm_num)).2, (k9 0 (by norm_num)).1, (k9 1 (by norm_num)).2⟩

/-- `c80_simd_decode`, `c80_rotate_plain` and `c80_swap_plain` on the message `1 + 2X`. -/
example : ∃ P tab out o o' q q', ∃ psi : ZMod 17, IsParams 8 17 Ex.mods 10 P ∧ Repair.indexMap .debug 8 = .ok tab ∧
    (⟨{P with matrixRepsIndexMap := tab}, 0, .simd, residues 17 (msgRing 8 [1, 2])⟩ : Plaintext).decode .release = .ok out ∧
    RowsOf 17 psi (msgRing 8 [1, 2]) out ∧
    (⟨{P with matrixRepsIndexMap := tab}, 0, .simd, residues 17 (msgRing 8 [1, 2])⟩ : Plaintext).decode .debug = .ok o ∧
    (⟨{P with matrixRepsIndexMap := tab}, 0, .simd, residues 17 (sg 9 (msgRing 8 [1, 2]))⟩ : Plaintext).decode .debug = .ok o' ∧
    o'.getD 5 0 = o.getD 7 0 ∧
    (⟨{P with matrixRepsIndexMap := tab}, 0, .simd, residues 17 (msgRing 8 [1, 2])⟩ : Plaintext).decode .debug = .ok q ∧
    (⟨{P with matrixRepsIndexMap := tab}, 0, .simd, residues 17 (sg (2 * 8 - 1) (msgRing 8 [1, 2]))⟩ : Plaintext).decode .debug = .ok q' ∧
    q'.getD 1 0 = q.getD 5 0 := by
  obtain ⟨P, h⟩ := Ex.exists_params
  obtain ⟨tab, ht, -⟩ := c80_index_map h .debug
  obtain ⟨psi, -, h1⟩ := c80_simd_decode h ht
  obtain ⟨out, h2, h3⟩ := h1 .release 0 (msgRing 8 [1, 2])
  obtain ⟨o, o', h4, h5, -, -, h6⟩ := c80_rotate_plain h ht .debug 0 (msgRing 8 [1, 2]) (e := 9) (r := 2) (by norm_num)
  obtain ⟨q, q', h7, h8, -, -, h9⟩ := c80_swap_plain h ht .debug 0 (msgRing 8 [1, 2])
  exact ⟨P, tab, out, o, o', q, q', psi, h, ht, h2, h3, h4, h5, (h6 1 (by norm_num)).2, h7, h8, (h9 1 (by norm_num)).1⟩

end OnionPIR
