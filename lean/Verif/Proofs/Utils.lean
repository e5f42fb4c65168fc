import Verif.Model.Utils
import Verif.Proofs.Machine
import Mathlib.Data.Nat.Bitwise
import Mathlib.Data.Nat.Log
import Mathlib.Order.Nat
import Mathlib.Order.ConditionallyCompleteLattice.Basic
import Mathlib.Data.Nat.Lattice
import Mathlib.Algebra.BigOperators.Intervals
import Mathlib.Algebra.Order.BigOperators.Group.Finset
/- Lemmas about the utils model. -/
namespace OnionPIR

/-! ### bit vectors -/

theorem bitVectorLoop_ok (value index : Nat) (bits : List Bool) (hi : index ≤ bits.length)
    (hv : value < 2 ^ (bits.length - index)) (hb : ∀ k, index ≤ k → bits.getD k false = false) :
    ∃ r, bitVectorLoop value index bits = .ok r ∧ r.length = bits.length ∧
      (∀ k, k < index → r.getD k false = bits.getD k false) ∧
      (∀ k, r.getD (index + k) false = value.testBit k) := by
  induction value using Nat.strongRecOn generalizing index bits with
  | _ value ih =>
  unfold bitVectorLoop
  by_cases h0 : value = 0
  · subst h0
    refine ⟨bits, by simp, rfl, fun _ _ => rfl, fun k => ?_⟩
    rw [hb _ (by omega)]; simp
  · have hlt : index < bits.length := by
      by_contra hc
      have : bits.length - index = 0 := by omega
      rw [this] at hv; omega
    rw [dif_neg h0, if_pos hlt]
    have hlen : (bits.set index (decide (value % 2 = 1))).length = bits.length := by simp
    have hsplit : bits.length - index = (bits.length - (index + 1)) + 1 := by omega
    have hv' : value / 2 < 2 ^ ((bits.set index (decide (value % 2 = 1))).length - (index + 1)) := by
      rw [hlen]; rw [hsplit, pow_succ] at hv; omega
    obtain ⟨r, h1, h2, h3, h4⟩ := ih (value / 2) (by omega) (index + 1) (bits.set index (decide (value % 2 = 1)))
      (by rw [hlen]; omega) hv' (by
        intro k hk
        rw [List.getD, List.getElem?_set_ne (by omega)]
        exact hb k (by omega))
    refine ⟨r, h1, by rw [h2, hlen], ?_, ?_⟩
    · intro k hk
      rw [h3 k (by omega), List.getD, List.getElem?_set_ne (by omega)]; rfl
    · intro k
      cases k with
      | zero =>
        rw [Nat.add_zero, h3 index (by omega), List.getD, List.getElem?_set_self hlt]
        simp [Nat.testBit_zero]
      | succ k =>
        rw [show index + (k + 1) = index + 1 + k by omega, h4 k, Nat.testBit_succ]

theorem bitVectorLoop_panic (value index : Nat) (bits : List Bool) (hi : index ≤ bits.length)
    (hv : 2 ^ (bits.length - index) ≤ value) : bitVectorLoop value index bits = .error .bounds := by
  induction value using Nat.strongRecOn generalizing index bits with
  | _ value ih =>
  unfold bitVectorLoop
  have hpos : 0 < 2 ^ (bits.length - index) := by positivity
  have hv0 : value ≠ 0 := by omega
  rw [dif_neg hv0]
  by_cases hlt : index < bits.length
  · rw [if_pos hlt]
    have hsplit : bits.length - index = (bits.length - (index + 1)) + 1 := by omega
    rw [hsplit, pow_succ] at hv
    exact ih _ (by omega) _ _ (by simp; omega) (by simp; omega)
  · rw [if_neg hlt]

/-- Value of a little-endian bit list. -/
def bitsVal : List Bool → Nat
  | [] => 0
  | b :: bs => b.toNat + 2 * bitsVal bs

theorem bitsVal_lt (l : List Bool) : bitsVal l < 2 ^ l.length := by
  induction l with
  | nil => simp [bitsVal]
  | cons b bs ih => simp only [bitsVal, List.length_cons, pow_succ]; have := Bool.toNat_le b; omega

theorem bitsVal_eq (l : List Bool) (m : Nat) (hm : m < 2 ^ l.length) (h : ∀ k, l.getD k false = m.testBit k) :
    bitsVal l = m := by
  induction l generalizing m with
  | nil => simp at hm; simp [bitsVal, hm]
  | cons b bs ih =>
    have h0 := h 0
    simp [Nat.testBit_zero] at h0
    have := ih (m / 2) (by rw [List.length_cons, pow_succ] at hm; omega) (fun k => by
      have := h (k + 1); rw [Nat.testBit_succ] at this; simpa using this)
    rw [bitsVal, this, h0]
    rcases Nat.mod_two_eq_zero_or_one m with hm2 | hm2 <;> simp [hm2] <;> omega

theorem bitsVal_append (a b : List Bool) : bitsVal (a ++ b) = bitsVal a + 2 ^ a.length * bitsVal b := by
  induction a with
  | nil => simp [bitsVal]
  | cons x xs ih => simp only [List.cons_append, bitsVal, ih, List.length_cons, pow_succ]; ring

theorem chunkValue_ok (pr : Profile) (c : List Bool) (h : bitsVal c < 2 ^ 64) : chunkValue pr c = .ok (bitsVal c) := by
  induction c with
  | nil => rfl
  | cons b bs ih =>
    simp only [bitsVal] at h ⊢
    have := ih (by omega)
    unfold chunkValue at this ⊢
    rw [List.reverse_cons, foldR_append, this, res_ok_bind]
    simp only [foldR]
    rw [mulW_ok (by omega), res_ok_bind, addW_ok (by omega), res_ok_bind]
    congr 1; ring

/-- `Σ digit_i * B^i`, the value of a little-endian digit list in base `B`. -/
def digitsVal (B : Nat) : List Nat → Nat
  | [] => 0
  | d :: ds => d + B * digitsVal B ds

theorem chunks_cons {α : Type _} {k : Nat} {l : List α} (hk : k ≠ 0) (hl : l ≠ []) :
    chunks k l = l.take k :: chunks k (l.drop k) := by
  rw [chunks, dif_neg (by simp [hk, hl])]
theorem chunks_nil {α : Type _} {k : Nat} : chunks k ([] : List α) = [] := by
  rw [chunks, dif_pos (by simp)]

theorem chunks_decomp (pr : Profile) {k : Nat} (hk : k ≠ 0) (l : List Bool) (h : bitsVal l < 2 ^ 64) :
    ∃ ds, mapR (chunkValue pr) (chunks k l) = .ok ds ∧ digitsVal (2 ^ k) ds = bitsVal l ∧
      (∀ d ∈ ds, d < 2 ^ k) ∧ ds.length = (l.length + k - 1) / k := by
  induction hn : l.length using Nat.strongRecOn generalizing l with
  | _ n ih =>
  by_cases hl : l = []
  · subst hl
    simp at hn
    subst hn
    refine ⟨[], by simp [chunks_nil, mapR], by simp [digitsVal, bitsVal], by simp, ?_⟩
    simp; symm; apply Nat.div_eq_of_lt; omega
  · rw [chunks_cons hk hl]
    have hsplit : bitsVal l = bitsVal (l.take k) + 2 ^ (l.take k).length * bitsVal (l.drop k) := by
      rw [← bitsVal_append, List.take_append_drop]
    have hle : bitsVal (l.drop k) ≤ 2 ^ (l.take k).length * bitsVal (l.drop k) :=
      Nat.le_mul_of_pos_left _ (by positivity)
    have hpos : 0 < l.length := List.length_pos_iff.mpr hl
    obtain ⟨ds, h1, h2, h3, h4⟩ := ih (l.drop k).length (by simp; omega) (l.drop k) (by omega) rfl
    refine ⟨bitsVal (l.take k) :: ds, ?_, ?_, ?_, ?_⟩
    · simp [mapR, chunkValue_ok pr (l.take k) (by omega), h1]
    · simp only [digitsVal, h2, hsplit]
      by_cases hlk : k ≤ l.length
      · rw [List.length_take, min_eq_left hlk]
      · rw [List.drop_eq_nil_of_le (by omega)]; simp [bitsVal]
    · intro d hd
      rcases List.mem_cons.mp hd with rfl | hd
      · exact lt_of_lt_of_le (bitsVal_lt _) (Nat.pow_le_pow_right (by norm_num) (by simp))
      · exact h3 d hd
    · simp only [List.length_cons, h4, List.length_drop]
      rw [← hn]
      by_cases hlk : k ≤ l.length
      · rw [show l.length + k - 1 = (l.length - k + k - 1) + k by omega, Nat.add_div_right _ (by omega)]
      · rw [show l.length - k + k - 1 = k - 1 by omega, Nat.div_eq_of_lt (by omega)]
        symm; rw [Nat.div_eq_iff (by omega)]; omega

/-! ### leading zeros -/

theorem leadingZeros_eq {x n : Nat} (hn : 1 ≤ n) (hn' : n ≤ 64) (hx : x < 2 ^ 64) :
    leadingZeros 64 x = 64 - n ↔ 2 ^ (n - 1) ≤ x ∧ x < 2 ^ n := by
  unfold leadingZeros
  by_cases h0 : x = 0
  · subst h0; simp; omega
  · rw [if_neg h0]
    have hlog : x.log2 < 64 := (Nat.log2_lt h0).mpr hx
    rw [← Nat.le_log2 h0, ← Nat.log2_lt h0]
    omega

theorem leadingZeros_log {w x : Nat} (h0 : x ≠ 0) : leadingZeros w x = w - 1 - Nat.log 2 x := by
  unfold leadingZeros; rw [if_neg h0, Nat.log2_eq_log_two]

/-! ### centered binomial sampler -/

theorem countOnes_eq (w x : Nat) : countOnes w x = ∑ k ∈ Finset.range w, (x.testBit k).toNat := by
  induction w generalizing x with
  | zero => simp [countOnes]
  | succ w ih =>
    rw [countOnes, Finset.sum_range_succ', ih]
    simp only [Nat.testBit_succ, Nat.testBit_zero]
    rw [Nat.add_comm]
    congr 1
    rcases Nat.mod_two_eq_zero_or_one x with h | h <;> simp [h]

/-- Bit `j` of the concatenated RNG output. -/
def streamBit (rng : Nat → Nat) (j : Nat) : Bool := (rng (j / 64)).testBit (j % 64)

/-- `i`-th centered binomial value read off the stream. -/
def cbdValue (rng : Nat → Nat) (v i : Nat) : Int :=
  ((∑ k ∈ Finset.range (2 * v), (streamBit rng (4 * v * i + k)).toNat : Nat) : Int) -
  ((∑ k ∈ Finset.range (2 * v), (streamBit rng (4 * v * i + 2 * v + k)).toNat : Nat) : Int)

structure CbdInv (rng : Nat → Nat) (v i : Nat) (s : CbdState) : Prop where
  bits : ∀ k, s.pool.testBit k = (decide (k < s.nbits) && streamBit rng (4 * v * i + k))
  pos : 64 * s.pos = 4 * v * i + s.nbits
  nb : s.nbits < 64
  out : s.out = (List.range i).map (cbdValue rng v)

theorem cbdStep_inv (pr : Profile) {rng : Nat → Nat} (hr : ∀ i, rng i < 2 ^ 64) {v i : Nat} (hv1 : 1 ≤ v) (hv2 : v ≤ 16)
    {s : CbdState} (h : CbdInv rng v i s) : ∃ s', cbdStep pr rng v s = .ok s' ∧ CbdInv rng v (i + 1) s' := by
  obtain ⟨hb, hp, hnb, ho⟩ := h
  -- the state after a possible refill
  let s1 : CbdState := if s.nbits < 4 * v then
      { s with pool := s.pool ||| ((rng s.pos <<< s.nbits) % 2 ^ 128), nbits := s.nbits + 64, pos := s.pos + 1 }
    else s
  have hs1 : s1 = if s.nbits < 4 * v then
      { s with pool := s.pool ||| ((rng s.pos <<< s.nbits) % 2 ^ 128), nbits := s.nbits + 64, pos := s.pos + 1 }
    else s := rfl
  have h1 : (∀ k, s1.pool.testBit k = (decide (k < s1.nbits) && streamBit rng (4 * v * i + k))) ∧
      64 * s1.pos = 4 * v * i + s1.nbits ∧ 4 * v ≤ s1.nbits ∧ s1.nbits < 64 + 4 * v ∧ s1.out = s.out := by
    by_cases hc : s.nbits < 4 * v
    · have e : s1 = { s with pool := s.pool ||| ((rng s.pos <<< s.nbits) % 2 ^ 128), nbits := s.nbits + 64, pos := s.pos + 1 } := if_pos hc
      rw [e]
      refine ⟨?_, by simp only; omega, by simp only; omega, by simp only; omega, rfl⟩
      intro k
      simp only [Nat.testBit_or, Nat.testBit_mod_two_pow, Nat.testBit_shiftLeft, hb]
      have hbig : ∀ j, 64 ≤ j → (rng s.pos).testBit j = false := fun j hj =>
        Nat.testBit_lt_two_pow (lt_of_lt_of_le (hr _) (Nat.pow_le_pow_right (by norm_num) hj))
      by_cases hk : k < s.nbits
      · simp [hk, show k < s.nbits + 64 by omega, show ¬ s.nbits ≤ k by omega]
      · by_cases hk2 : k < s.nbits + 64
        · have e1 : (4 * v * i + k) / 64 = s.pos := by omega
          have e2 : (4 * v * i + k) % 64 = k - s.nbits := by omega
          simp [hk, hk2, show s.nbits ≤ k by omega, streamBit, e1, e2]
          intro _; omega
        · simp [hk, hk2, hbig (k - s.nbits) (by omega)]
    · have e : s1 = s := if_neg hc
      rw [e]
      exact ⟨hb, hp, by omega, by omega, rfl⟩
  obtain ⟨g1, g2, g3, g4, g5⟩ := h1
  have hmask : ((2 ^ 64 - 1) >>> (64 - 4 * v)) >>> (2 * v) = 2 ^ (2 * v) - 1 := by
    apply Nat.eq_of_testBit_eq
    intro k
    rw [Nat.testBit_shiftRight, Nat.testBit_shiftRight, Nat.testBit_two_pow_sub_one, Nat.testBit_two_pow_sub_one]
    congr 1; simp only [eq_iff_iff]; omega
  have hadd : countOnes 128 (s1.pool &&& (2 ^ (2 * v) - 1)) =
      ∑ k ∈ Finset.range (2 * v), (streamBit rng (4 * v * i + k)).toNat := by
    rw [countOnes_eq]
    rw [← Finset.sum_subset (Finset.range_mono (show 2 * v ≤ 128 by omega))]
    · apply Finset.sum_congr rfl
      intro k hk
      rw [Finset.mem_range] at hk
      simp [Nat.testBit_and, Nat.testBit_two_pow_sub_one, hk, g1, show k < s1.nbits by omega]
    · intro k _ hk
      rw [Finset.mem_range, not_lt] at hk
      simp [Nat.testBit_and, Nat.testBit_two_pow_sub_one, show ¬ k < 2 * v by omega]
  have hsub : countOnes 128 (s1.pool &&& (((2 ^ (2 * v) - 1) <<< (2 * v)) % 2 ^ 128)) =
      ∑ k ∈ Finset.range (2 * v), (streamBit rng (4 * v * i + 2 * v + k)).toNat := by
    have hbit : ∀ k, (s1.pool &&& (((2 ^ (2 * v) - 1) <<< (2 * v)) % 2 ^ 128)).testBit k =
        (decide (2 * v ≤ k ∧ k < 4 * v) && streamBit rng (4 * v * i + k)) := by
      intro k
      rw [Nat.testBit_and, Nat.testBit_mod_two_pow, Nat.testBit_shiftLeft, Nat.testBit_two_pow_sub_one, g1]
      by_cases hk : 2 * v ≤ k ∧ k < 4 * v
      · simp [hk, show k < s1.nbits by omega, show k < 128 by omega, show k - 2 * v < 2 * v by omega]
      · have : ¬ (2 * v ≤ k ∧ k - 2 * v < 2 * v) := by omega
        rw [not_and_or] at this
        rcases this with h | h
        · simp [h]
        · simp [hk, h]
    rw [countOnes_eq]
    rw [← Finset.sum_subset (Finset.range_mono (show 2 * v + 2 * v ≤ 128 by omega))]
    · rw [Finset.sum_range_add]
      rw [Finset.sum_eq_zero, zero_add]
      · apply Finset.sum_congr rfl
        intro k hk
        rw [Finset.mem_range] at hk
        rw [hbit, show 4 * v * i + 2 * v + k = 4 * v * i + (2 * v + k) by ring]
        simp [show 2 * v + k < 4 * v by omega]
      · intro k hk
        rw [Finset.mem_range] at hk
        rw [hbit]; simp [show ¬ 2 * v ≤ k by omega]
    · intro k _ hk
      rw [Finset.mem_range, not_lt] at hk
      rw [hbit]; simp [show ¬ k < 4 * v by omega]
  clear_value s1
  refine ⟨{ pool := s1.pool >>> (4 * v), nbits := s1.nbits - 4 * v, pos := s1.pos, out := s1.out ++ [cbdValue rng v i] }, ?_, ?_⟩
  · have hval : (countOnes 128 (s1.pool &&& ((2 ^ 64 - 1) >>> (64 - 4 * v)) >>> (2 * v)) : Int) -
        (countOnes 128 (s1.pool &&& ((((2 ^ 64 - 1) >>> (64 - 4 * v)) >>> (2 * v)) <<< (2 * v)) % 2 ^ 128) : Int) =
        cbdValue rng v i := by
      rw [hmask, hadd, hsub]; rfl
    unfold cbdStep
    simp only [← hs1, dassert_ok g3, res_ok_bind, subW_ok g3, hval]
  · constructor
    · intro k
      simp only [Nat.testBit_shiftRight, g1]
      rw [show 4 * v * (i + 1) + k = 4 * v * i + (4 * v + k) by ring]
      have e : (4 * v + k < s1.nbits) ↔ (k < s1.nbits - 4 * v) := by omega
      simp only [e]
    · simp only; rw [g2, Nat.mul_add]; omega
    · simp only; omega
    · simp only
      rw [g5, ho, List.range_succ, List.map_append]; rfl

theorem sampleVecCbd_ok (pr : Profile) {rng : Nat → Nat} (hr : ∀ i, rng i < 2 ^ 64) {v : Nat} (hv1 : 1 ≤ v)
    (hv2 : v ≤ 16) (n : Nat) : sampleVecCbd pr rng n v = .ok ((List.range n).map (cbdValue rng v)) := by
  have h0 : CbdInv rng v 0 ⟨0, 0, 0, []⟩ := ⟨by simp, by simp, by simp, by simp⟩
  obtain ⟨s, h1, h2⟩ := foldR_range_ok (f := fun s _ => cbdStep pr rng v s) (n := n) (CbdInv rng v) h0
    (fun i s _ hs => cbdStep_inv pr hr hv1 hv2 hs)
  unfold sampleVecCbd
  rw [rassert_ok ⟨hv1, hv2⟩, res_ok_bind, h1, res_ok_bind, h2.out]

theorem cbdValue_bound (rng : Nat → Nat) (v i : Nat) : -(2 * v : Int) ≤ cbdValue rng v i ∧ cbdValue rng v i ≤ 2 * v := by
  have h : ∀ a : Nat, ∑ k ∈ Finset.range (2 * v), (streamBit rng (a + k)).toNat ≤ 2 * v := by
    intro a
    calc _ ≤ ∑ _k ∈ Finset.range (2 * v), 1 := Finset.sum_le_sum fun k _ => Bool.toNat_le _
      _ = 2 * v := by simp
  have h1 := h (4 * v * i)
  have h2 := h (4 * v * i + 2 * v)
  unfold cbdValue
  omega

/-! ### prime search -/

theorem genPrimeAlign_spec (lz modulo t : Nat) :
    genPrimeAlign lz modulo t ≤ t ∧
    (∀ x, genPrimeAlign lz modulo t < x → x ≤ t → leadingZeros 64 x = lz ∧ x % modulo ≠ 1) ∧
    (leadingZeros 64 (genPrimeAlign lz modulo t) ≠ lz ∨ genPrimeAlign lz modulo t % modulo = 1 ∨ genPrimeAlign lz modulo t = 0) := by
  induction t using Nat.strongRecOn with
  | _ t ih =>
  rw [genPrimeAlign]
  split_ifs with h
  · obtain ⟨h1, h2, h3⟩ := ih (t - 1) (by omega)
    refine ⟨by omega, ?_, h3⟩
    intro x hx hxt
    by_cases hx1 : x = t
    · subst hx1; exact ⟨h.2.1, h.1⟩
    · exact h2 x hx (by omega)
  · refine ⟨le_refl _, fun x h1 h2 => by omega, ?_⟩
    by_contra hc
    push Not at hc
    apply h
    exact ⟨hc.2.1, hc.1, by omega⟩

theorem genPrimeSearch_spec (lz modulo t : Nat) (hm : 0 < modulo) :
    genPrimeSearch lz modulo t ≤ t ∧ genPrimeSearch lz modulo t % modulo = t % modulo ∧
    (∀ x, genPrimeSearch lz modulo t < x → x ≤ t → x % modulo = t % modulo → ¬ x.Prime) ∧
    (leadingZeros 64 (genPrimeSearch lz modulo t) ≠ lz ∨ (genPrimeSearch lz modulo t).Prime ∨
      genPrimeSearch lz modulo t < modulo ∨ genPrimeSearch lz modulo t = 0) := by
  induction t using Nat.strongRecOn with
  | _ t ih =>
  rw [genPrimeSearch]
  split_ifs with h
  · obtain ⟨h1, h2, h3, h4⟩ := ih (t - modulo) (by omega)
    have e : (t - modulo) % modulo = t % modulo := by
      conv_rhs => rw [show t = (t - modulo) + modulo by omega]
      simp
    refine ⟨by omega, by rw [h2, e], ?_, h4⟩
    intro x hx hxt hxm
    by_cases hx1 : x ≤ t - modulo
    · exact h3 x hx hx1 (by rw [hxm, e])
    · -- t - modulo < x ≤ t, same residue: x = t
      have : x = t := by
        have d1 := Nat.div_add_mod x modulo
        have d2 := Nat.div_add_mod t modulo
        rw [hxm] at d1
        have hle : x / modulo ≤ t / modulo := Nat.div_le_div_right hxt
        rcases Nat.eq_or_lt_of_le hle with he | hl
        · rw [he] at d1; omega
        · have : modulo * (x / modulo + 1) ≤ modulo * (t / modulo) := Nat.mul_le_mul_left _ hl
          rw [Nat.mul_add, Nat.mul_one] at this
          omega
      subst this
      have := h.2.1
      simpa [isPrime] using this
  · refine ⟨le_refl _, rfl, fun x h1 h2 => by omega, ?_⟩
    by_contra hc
    push Not at hc
    apply h
    exact ⟨hc.1, by simpa [isPrime] using hc.2.1, by omega, hm, by omega⟩

theorem generatePrime_ok (pr : Profile) {nb modulo ub : Nat} (h1 : 10 ≤ nb) (h2 : nb ≤ 62) (hm : 2 ≤ modulo)
    (hu1 : 1 ≤ ub) (hu2 : ub ≤ 2 ^ nb) :
    ∃ o, generatePrime pr nb modulo ub = .ok o ∧
      ∀ p, o = some p ↔ IsGreatest {p : Nat | p.Prime ∧ 2 ^ (nb - 1) ≤ p ∧ p < 2 ^ nb ∧ p % modulo = 1 ∧ p < ub} p := by
  have hpw : 2 ^ nb ≤ 2 ^ 62 := Nat.pow_le_pow_right (by norm_num) h2
  obtain ⟨a1, a2, a3⟩ := genPrimeAlign_spec (64 - nb) modulo (ub - 1)
  generalize hA : genPrimeAlign (64 - nb) modulo (ub - 1) = A at *
  obtain ⟨b1, b2, b3, b4⟩ := genPrimeSearch_spec (64 - nb) modulo A (by omega)
  generalize hB : genPrimeSearch (64 - nb) modulo A = B at *
  have hlz : ∀ x, x ≤ ub - 1 → (leadingZeros 64 x = 64 - nb ↔ 2 ^ (nb - 1) ≤ x ∧ x < 2 ^ nb) := fun x hx =>
    leadingZeros_eq (by omega) (by omega) (by omega)
  have hpos : 0 < 2 ^ (nb - 1) := by positivity
  have hgp : generatePrime pr nb modulo ub =
      if leadingZeros 64 B = 64 - nb ∧ isPrime B = true then .ok (some B) else .ok none := by
    unfold generatePrime
    rw [if_neg (by omega), dassert_ok hu2, res_ok_bind, subW_ok hu1, res_ok_bind, if_neg (by omega), hA]
    simp only [hB]
  -- any admissible prime is ≤ A, and if A is in the bit range then all are ≤ B
  have key : ∀ x, (x.Prime ∧ 2 ^ (nb - 1) ≤ x ∧ x < 2 ^ nb ∧ x % modulo = 1 ∧ x < ub) → x ≤ B ∧ A % modulo = 1 := by
    rintro x ⟨xp, x1, x2, x3, x4⟩
    have hxA : x ≤ A := by
      by_contra hc
      exact (a2 x (by omega) (by omega)).2 x3
    have hAl : leadingZeros 64 A = 64 - nb := (hlz A a1).mpr ⟨by omega, by omega⟩
    have hAm : A % modulo = 1 := by
      rcases a3 with h | h | h
      · exact absurd hAl h
      · exact h
      · omega
    refine ⟨?_, hAm⟩
    by_contra hc
    exact b3 x (by omega) hxA (by rw [x3, hAm]) xp
  rw [hgp]
  by_cases hc : leadingZeros 64 B = 64 - nb ∧ isPrime B = true
  · rw [if_pos hc]
    have hBp : B.Prime := by simpa [isPrime] using hc.2
    have hBr := (hlz B (by omega)).mp hc.1
    have hAm : A % modulo = 1 := by
      have hAl : leadingZeros 64 A = 64 - nb := (hlz A a1).mpr ⟨by omega, by omega⟩
      rcases a3 with h | h | h
      · exact absurd hAl h
      · exact h
      · omega
    refine ⟨_, rfl, fun p => ?_⟩
    have hg : IsGreatest {p : Nat | p.Prime ∧ 2 ^ (nb - 1) ≤ p ∧ p < 2 ^ nb ∧ p % modulo = 1 ∧ p < ub} B :=
      ⟨⟨hBp, hBr.1, hBr.2, by rw [b2, hAm], by omega⟩, fun x hx => (key x hx).1⟩
    constructor
    · intro h; cases h; exact hg
    · intro h; rw [hg.unique h]
  · rw [if_neg hc]
    refine ⟨_, rfl, fun p => ?_⟩
    constructor
    · intro h; cases h
    · rintro ⟨hp, -⟩
      exfalso
      obtain ⟨k1, k2⟩ := key p hp
      obtain ⟨pp, p1, p2, p3, p4⟩ := hp
      have hBl : leadingZeros 64 B = 64 - nb := (hlz B (by omega)).mpr ⟨by omega, by omega⟩
      have hBnp : ¬ B.Prime := fun h => hc ⟨hBl, by simpa [isPrime] using h⟩
      rcases b4 with h | h | h | h
      · exact h hBl
      · exact hBnp h
      · -- B < modulo and B % modulo = 1, so B = 1
        have : B % modulo = 1 := by rw [b2, k2]
        rw [Nat.mod_eq_of_lt h] at this
        have : 2 ^ 9 ≤ 2 ^ (nb - 1) := Nat.pow_le_pow_right (by norm_num) (by omega)
        omega
      · omega

/-- One `generate_moduli` size: terminates, and a found modulus is an admissible prime not used before. -/
theorem genModuliLoop_ok (pr : Profile) {size degree : Nat} {moduli : List Nat} (h1 : 10 ≤ size) (h2 : size ≤ 62)
    (hd : 1 ≤ degree) (hd2 : 2 * degree < 2 ^ 64) (fuel ub : Nat) (hf : ub ≤ fuel) (hu1 : 1 ≤ ub) (hu2 : ub ≤ 2 ^ size) :
    ∃ o, genModuliLoop pr size degree moduli fuel ub = .ok o ∧
      ((o = none ∧ ∀ p, p.Prime → 2 ^ (size - 1) ≤ p → p < 2 ^ size → p % (2 * degree) = 1 → p < ub → p ∈ moduli) ∨
       (∃ p, o = some (moduli ++ [p]) ∧ p.Prime ∧ 2 ^ (size - 1) ≤ p ∧ p < 2 ^ size ∧ p % (2 * degree) = 1 ∧ p ∉ moduli ∧
          ∀ p', p'.Prime → 2 ^ (size - 1) ≤ p' → p' < 2 ^ size → p' % (2 * degree) = 1 → p' < ub → p' ∉ moduli → p' ≤ p)) := by
  induction fuel generalizing ub with
  | zero => omega
  | succ fuel ih =>
    obtain ⟨o, ho, hspec⟩ := generatePrime_ok pr h1 h2 (show 2 ≤ 2 * degree by omega) hu1 hu2
    unfold genModuliLoop
    rw [mulW_ok hd2, res_ok_bind, ho, res_ok_bind]
    cases o with
    | none =>
      refine ⟨none, rfl, Or.inl ⟨rfl, ?_⟩⟩
      intro p pp p1 p2 p3 p4
      exfalso
      -- the set is non-empty and bounded, so it has a greatest element
      have hne : ({p : Nat | p.Prime ∧ 2 ^ (size - 1) ≤ p ∧ p < 2 ^ size ∧ p % (2 * degree) = 1 ∧ p < ub}).Nonempty :=
        ⟨p, pp, p1, p2, p3, p4⟩
      have hbd : BddAbove {p : Nat | p.Prime ∧ 2 ^ (size - 1) ≤ p ∧ p < 2 ^ size ∧ p % (2 * degree) = 1 ∧ p < ub} :=
        ⟨ub, fun x hx => hx.2.2.2.2.le⟩
      have hg := (hspec (sSup _)).mpr ⟨Nat.sSup_mem hne hbd, fun x hx => le_csSup hbd hx⟩
      cases hg
    | some p =>
      obtain ⟨⟨pp, p1, p2, p3, p4⟩, hmax⟩ := (hspec p).mp rfl
      by_cases hc : moduli.contains p
      · simp only [hc, if_true]
        obtain ⟨o, g1, g2⟩ := ih p (by omega) pp.one_lt.le p2.le
        refine ⟨o, g1, ?_⟩
        have hpm : p ∈ moduli := by simpa using hc
        have hle : ∀ x, x.Prime → 2 ^ (size - 1) ≤ x → x < 2 ^ size → x % (2 * degree) = 1 → x < ub → x ≤ p :=
          fun x xp x1 x2 x3 x4 => hmax ⟨xp, x1, x2, x3, x4⟩
        rcases g2 with ⟨rfl, g⟩ | ⟨r, rfl, r1, r2, r3, r4, r5, r6⟩
        · refine Or.inl ⟨rfl, fun x xp x1 x2 x3 x4 => ?_⟩
          rcases Nat.eq_or_lt_of_le (hle x xp x1 x2 x3 x4) with rfl | hlt
          · exact hpm
          · exact g x xp x1 x2 x3 hlt
        · refine Or.inr ⟨r, rfl, r1, r2, r3, r4, r5, fun x xp x1 x2 x3 x4 x5 => ?_⟩
          rcases Nat.eq_or_lt_of_le (hle x xp x1 x2 x3 x4) with rfl | hlt
          · exact absurd hpm x5
          · exact r6 x xp x1 x2 x3 hlt x5
      · simp only [hc]
        refine ⟨_, rfl, Or.inr ⟨p, rfl, pp, p1, p2, p3, by simpa using hc, ?_⟩⟩
        intro x xp x1 x2 x3 x4 _
        exact hmax ⟨xp, x1, x2, x3, x4⟩

theorem genModuliSizes_ok (pr : Profile) {degree : Nat} (hd : 1 ≤ degree) (hd2 : 2 * degree < 2 ^ 64)
    (sizes : List Nat) (hs : ∀ s ∈ sizes, 10 ≤ s ∧ s ≤ 62) (moduli : List Nat) (hn : moduli.Nodup) :
    ∃ o, genModuliSizes pr degree sizes moduli = .ok o ∧ ∀ r, o = some r →
      ∃ ps, r = moduli ++ ps ∧ r.Nodup ∧
        List.Forall₂ (fun s p => p.Prime ∧ 2 ^ (s - 1) ≤ p ∧ p < 2 ^ s ∧ p % (2 * degree) = 1) sizes ps := by
  induction sizes generalizing moduli with
  | nil => exact ⟨_, rfl, fun r hr => ⟨[], by cases hr; simp, by cases hr; exact hn, .nil⟩⟩
  | cons s sizes ih =>
    have hs0 := hs s (by simp)
    have hlt : 1 ≤ 2 ^ s := Nat.one_le_two_pow
    obtain ⟨o, h1, h2⟩ := genModuliLoop_ok pr (moduli := moduli) hs0.1 hs0.2 hd hd2 (2 ^ s) (2 ^ s) le_rfl hlt le_rfl
    unfold genModuliSizes
    rw [rassert_ok ⟨hs0.2, hs0.1⟩, res_ok_bind, h1, res_ok_bind]
    rcases h2 with ⟨rfl, -⟩ | ⟨p, rfl, p1, p2, p3, p4, p5, -⟩
    · exact ⟨none, rfl, fun r hr => by cases hr⟩
    · obtain ⟨o, g1, g2⟩ := ih (fun x hx => hs x (by simp [hx])) (moduli ++ [p]) (by
        rw [List.nodup_append]; exact ⟨hn, by simp, by
          intro a ha b hb hab; simp at hb; subst hb hab; exact p5 ha⟩)
      refine ⟨o, g1, fun r hr => ?_⟩
      obtain ⟨ps, e1, e2, e3⟩ := g2 r hr
      exact ⟨p :: ps, by simp [e1], e2, .cons ⟨p1, p2, p3, p4⟩ e3⟩

/-! ### U256 -/

namespace U256

/-- Limbs are 64-bit. -/
def WF (x : U256) : Prop := x.l0 < 2 ^ 64 ∧ x.l1 < 2 ^ 64 ∧ x.l2 < 2 ^ 64 ∧ x.l3 < 2 ^ 64

/-- The represented integer. -/
def val (x : U256) : Nat := x.l0 + x.l1 * 2 ^ 64 + x.l2 * 2 ^ 128 + x.l3 * 2 ^ 192

theorem val_lt {x : U256} (h : x.WF) : x.val < 2 ^ 256 := by
  obtain ⟨h0, h1, h2, h3⟩ := h
  unfold val; omega

theorem ovAdd_spec (b c : Nat) (hb : b < 2 ^ 64) (hc : c < 2 ^ 64) :
    (ovAdd b c).1 + 2 ^ 64 * (ovAdd b c).2.toNat = b + c ∧ (ovAdd b c).1 < 2 ^ 64 := by
  unfold ovAdd
  by_cases h : 2 ^ 64 ≤ b + c
  · simp only [h, decide_true, Bool.toNat_true]; omega
  · simp only [h, decide_false, Bool.toNat_false]; omega

theorem ovSub_spec (b c : Nat) (hb : b < 2 ^ 64) (hc : c < 2 ^ 64) :
    (ovSub b c).1 + c = b + 2 ^ 64 * (ovSub b c).2.toNat ∧ (ovSub b c).1 < 2 ^ 64 := by
  unfold ovSub
  by_cases h : b < c
  · simp only [h, decide_true, Bool.toNat_true]; omega
  · simp only [h, decide_false, Bool.toNat_false]; omega

theorem adc_spec (b c : Nat) (ci : Bool) (hb : b < 2 ^ 64) (hc : c < 2 ^ 64) :
    (ovAdd (ovAdd b c).1 ci.toNat).1 + 2 ^ 64 * ((ovAdd b c).2 || (ovAdd (ovAdd b c).1 ci.toNat).2).toNat = b + c + ci.toNat ∧
      (ovAdd (ovAdd b c).1 ci.toNat).1 < 2 ^ 64 := by
  have hci := Bool.toNat_le ci
  obtain ⟨h1, h2⟩ := ovAdd_spec b c hb hc
  obtain ⟨h3, h4⟩ := ovAdd_spec (ovAdd b c).1 ci.toNat h2 (by omega)
  generalize (ovAdd (ovAdd b c).1 ci.toNat).1 = s at *
  generalize (ovAdd (ovAdd b c).1 ci.toNat).2 = k2 at *
  generalize (ovAdd b c).1 = t at *
  generalize (ovAdd b c).2 = k1 at *
  generalize ci.toNat = z at *
  cases k1 <;> cases k2 <;> simp only [Bool.toNat_true, Bool.toNat_false, Bool.or_true, Bool.or_false] at * <;> omega

theorem sbb_spec (b c : Nat) (bi : Bool) (hb : b < 2 ^ 64) (hc : c < 2 ^ 64) :
    (ovSub (ovSub b c).1 bi.toNat).1 + c + bi.toNat = b + 2 ^ 64 * ((ovSub b c).2 || (ovSub (ovSub b c).1 bi.toNat).2).toNat ∧
      (ovSub (ovSub b c).1 bi.toNat).1 < 2 ^ 64 := by
  have hci := Bool.toNat_le bi
  obtain ⟨h1, h2⟩ := ovSub_spec b c hb hc
  obtain ⟨h3, h4⟩ := ovSub_spec (ovSub b c).1 bi.toNat h2 (by omega)
  generalize (ovSub (ovSub b c).1 bi.toNat).1 = s at *
  generalize (ovSub (ovSub b c).1 bi.toNat).2 = k2 at *
  generalize (ovSub b c).1 = t at *
  generalize (ovSub b c).2 = k1 at *
  generalize bi.toNat = z at *
  cases k1 <;> cases k2 <;> simp only [Bool.toNat_true, Bool.toNat_false, Bool.or_true, Bool.or_false] at * <;> omega

theorem wrappingAdd_spec {x y : U256} (hx : x.WF) (hy : y.WF) :
    (x.wrappingAdd y).WF ∧ (x.wrappingAdd y).val = (x.val + y.val) % 2 ^ 256 := by
  obtain ⟨x0, x1, x2, x3⟩ := x
  obtain ⟨y0, y1, y2, y3⟩ := y
  obtain ⟨a0, a1, a2, a3⟩ := hx
  obtain ⟨b0, b1, b2, b3⟩ := hy
  simp only at *
  obtain ⟨e1, f1⟩ := ovAdd_spec x0 y0 a0 b0
  obtain ⟨e2, f2⟩ := adc_spec x1 y1 (ovAdd x0 y0).2 a1 b1
  obtain ⟨e3, f3⟩ := adc_spec x2 y2 ((ovAdd x1 y1).2 || (ovAdd (ovAdd x1 y1).1 (ovAdd x0 y0).2.toNat).2) a2 b2
  simp only [wrappingAdd, val, WF]
  generalize (ovAdd x0 y0).1 = r0 at *
  generalize (ovAdd x0 y0).2 = k0 at *
  generalize (ovAdd (ovAdd x1 y1).1 k0.toNat).1 = r1 at *
  generalize ((ovAdd x1 y1).2 || (ovAdd (ovAdd x1 y1).1 k0.toNat).2) = k1 at *
  generalize (ovAdd (ovAdd x2 y2).1 k1.toNat).1 = r2 at *
  generalize ((ovAdd x2 y2).2 || (ovAdd (ovAdd x2 y2).1 k1.toNat).2) = k2 at *
  generalize k0.toNat = z0 at *
  generalize k1.toNat = z1 at *
  generalize k2.toNat = z2 at *
  refine ⟨⟨f1, f2, f3, Nat.mod_lt _ (by norm_num)⟩, ?_⟩
  omega

theorem wrappingSub_spec {x y : U256} (hx : x.WF) (hy : y.WF) :
    (x.wrappingSub y).WF ∧ (x.wrappingSub y).val = (x.val + 2 ^ 256 - y.val) % 2 ^ 256 := by
  obtain ⟨x0, x1, x2, x3⟩ := x
  obtain ⟨y0, y1, y2, y3⟩ := y
  obtain ⟨a0, a1, a2, a3⟩ := hx
  obtain ⟨b0, b1, b2, b3⟩ := hy
  simp only at *
  obtain ⟨e1, f1⟩ := ovSub_spec x0 y0 a0 b0
  obtain ⟨e2, f2⟩ := sbb_spec x1 y1 (ovSub x0 y0).2 a1 b1
  obtain ⟨e3, f3⟩ := sbb_spec x2 y2 ((ovSub x1 y1).2 || (ovSub (ovSub x1 y1).1 (ovSub x0 y0).2.toNat).2) a2 b2
  simp only [wrappingSub, val, WF]
  generalize (ovSub x0 y0).1 = r0 at *
  generalize (ovSub x0 y0).2 = k0 at *
  generalize (ovSub (ovSub x1 y1).1 k0.toNat).1 = r1 at *
  generalize ((ovSub x1 y1).2 || (ovSub (ovSub x1 y1).1 k0.toNat).2) = k1 at *
  generalize (ovSub (ovSub x2 y2).1 k1.toNat).1 = r2 at *
  generalize ((ovSub x2 y2).2 || (ovSub (ovSub x2 y2).1 k1.toNat).2) = k2 at *
  have t2 := Bool.toNat_le k2
  generalize k0.toNat = z0 at *
  generalize k1.toNat = z1 at *
  generalize k2.toNat = z2 at *
  refine ⟨⟨f1, f2, f3, Nat.mod_lt _ (by norm_num)⟩, ?_⟩
  omega

theorem not_spec {x : U256} (hx : x.WF) : x.not.WF ∧ x.not.val = 2 ^ 256 - 1 - x.val := by
  obtain ⟨h0, h1, h2, h3⟩ := hx
  unfold not val WF
  refine ⟨by simp only; omega, by simp only; omega⟩

theorem msb_spec {x : U256} (hx : x.WF) : x.msb = x.val / 2 ^ 255 := by
  obtain ⟨h0, h1, h2, h3⟩ := hx
  unfold msb val
  rw [Nat.shiftRight_eq_div_pow]; omega

theorem ofU128s_spec {a b : Nat} (ha : a < 2 ^ 128) (hb : b < 2 ^ 128) :
    (ofU128s a b).WF ∧ (ofU128s a b).val = a + b * 2 ^ 128 := by
  unfold ofU128s val WF
  simp only [Nat.shiftRight_eq_div_pow]
  refine ⟨by omega, by omega⟩

theorem toU128_ok (pr : Profile) {x : U256} (hx : x.WF) (h : x.val < 2 ^ 128) : x.toU128 pr = .ok x.val := by
  obtain ⟨h0, h1, h2, h3⟩ := hx
  unfold val at h
  unfold toU128 val
  rw [dassert_ok (by omega), res_ok_bind, Nat.shiftLeft_eq, addW_ok (by omega)]
  congr 1; omega

/-- Limb of a shifted number. -/
theorem limb_shift {a b s : Nat} (ha : a < 2 ^ 64) (h0 : 0 < s) (hs : s < 64) :
    (a >>> s) ||| shl64 b (64 - s) = a / 2 ^ s + (b % 2 ^ s) * 2 ^ (64 - s) := by
  have hPQ : 2 ^ s * 2 ^ (64 - s) = 2 ^ 64 := by rw [← pow_add]; congr 1; omega
  have h1 : shl64 b (64 - s) = (b % 2 ^ s) <<< (64 - s) := by
    unfold shl64
    rw [Nat.shiftLeft_eq, Nat.shiftLeft_eq, ← hPQ, Nat.mul_mod_mul_right]
  have h2 : a >>> s < 2 ^ (64 - s) := by
    rw [Nat.shiftRight_eq_div_pow]; apply Nat.div_lt_of_lt_mul; rw [hPQ]; exact ha
  rw [h1, Nat.or_comm, ← Nat.shiftLeft_add_eq_or_of_lt h2, Nat.shiftLeft_eq, Nat.shiftRight_eq_div_pow, Nat.add_comm]

theorem limb_lt {a b s : Nat} (ha : a < 2 ^ 64) (h0 : 0 < s) (hs : s < 64) :
    a / 2 ^ s + (b % 2 ^ s) * 2 ^ (64 - s) < 2 ^ 64 := by
  have hPQ : 2 ^ s * 2 ^ (64 - s) = 2 ^ 64 := by rw [← pow_add]; congr 1; omega
  have h2 : a / 2 ^ s < 2 ^ (64 - s) := by apply Nat.div_lt_of_lt_mul; rw [hPQ]; exact ha
  have h3 : b % 2 ^ s + 1 ≤ 2 ^ s := Nat.mod_lt _ (by positivity)
  have h4 : (b % 2 ^ s + 1) * 2 ^ (64 - s) ≤ 2 ^ s * 2 ^ (64 - s) := Nat.mul_le_mul_right _ h3
  rw [hPQ, Nat.add_mul] at h4
  omega

/-- Shift of a four-limb number by `0 < s < 64`. -/
theorem val_shift {a b c d s : Nat} (h0 : 0 < s) (hs : s < 64) :
    (a / 2 ^ s + (b % 2 ^ s) * 2 ^ (64 - s)) + (b / 2 ^ s + (c % 2 ^ s) * 2 ^ (64 - s)) * 2 ^ 64 +
      (c / 2 ^ s + (d % 2 ^ s) * 2 ^ (64 - s)) * 2 ^ 128 + (d / 2 ^ s) * 2 ^ 192 =
    (a + b * 2 ^ 64 + c * 2 ^ 128 + d * 2 ^ 192) / 2 ^ s := by
  have hPQ : 2 ^ s * 2 ^ (64 - s) = 2 ^ 64 := by rw [← pow_add]; congr 1; omega
  have hP : 0 < 2 ^ s := by positivity
  generalize 2 ^ s = P at *
  generalize 2 ^ (64 - s) = Q at *
  have ea := Nat.div_add_mod a P
  have eb := Nat.div_add_mod b P
  have ec := Nat.div_add_mod c P
  have ed := Nat.div_add_mod d P
  have la := Nat.mod_lt a hP
  generalize a / P = ha at *
  generalize a % P = ra at *
  generalize b / P = hb at *
  generalize b % P = rb at *
  generalize c / P = hc at *
  generalize c % P = rc at *
  generalize d / P = hd at *
  generalize d % P = rd at *
  have e2 : (2 : Nat) ^ 128 = 2 ^ 64 * 2 ^ 64 := by norm_num
  have e3 : (2 : Nat) ^ 192 = 2 ^ 64 * 2 ^ 64 * 2 ^ 64 := by norm_num
  rw [e2, e3]
  symm
  rw [Nat.div_eq_iff hP]
  have : a + b * 2 ^ 64 + c * (2 ^ 64 * 2 ^ 64) + d * (2 ^ 64 * 2 ^ 64 * 2 ^ 64) =
    ((ha + rb * Q) + (hb + rc * Q) * 2 ^ 64 + (hc + rd * Q) * (2 ^ 64 * 2 ^ 64) + hd * (2 ^ 64 * 2 ^ 64 * 2 ^ 64)) * P + ra := by
    rw [← ea, ← eb, ← ec, ← ed, ← hPQ]; ring
  rw [this]
  omega

theorem shr_spec (pr : Profile) {x : U256} (hx : x.WF) {k : Nat} (hk : k < 256) :
    ∃ y, x.shr pr k = .ok y ∧ y.WF ∧ y.val = x.val / 2 ^ k := by
  obtain ⟨x0, x1, x2, x3⟩ := x
  obtain ⟨a0, a1, a2, a3⟩ := hx
  simp only at a0 a1 a2 a3
  have z : (0 : Nat) < 2 ^ 64 := by norm_num
  have sm : ∀ a s : Nat, a < 2 ^ 64 → a / 2 ^ s < 2 ^ 64 := fun a s h => lt_of_le_of_lt (Nat.div_le_self _ _) h
  unfold shr
  rw [dassert_ok hk, res_ok_bind]
  by_cases h1 : k ≥ 192
  · rw [if_pos h1]
    refine ⟨_, rfl, ?_, ?_⟩
    · simp only [WF, Nat.shiftRight_eq_div_pow]; exact ⟨sm _ _ a3, z, z, z⟩
    · obtain ⟨s, rfl⟩ : ∃ s, k = 192 + s := ⟨k - 192, by omega⟩
      simp only [val, Nat.shiftRight_eq_div_pow]
      rw [show (192 + s - 192) % 64 = s by omega, pow_add, ← Nat.div_div_eq_div_mul,
        show (x0 + x1 * 2 ^ 64 + x2 * 2 ^ 128 + x3 * 2 ^ 192) / 2 ^ 192 = x3 by omega]
      simp
  rw [if_neg h1]
  by_cases h2 : k > 128
  · rw [if_pos h2]
    obtain ⟨s, rfl, hs0, hs⟩ : ∃ s, k = 128 + s ∧ 0 < s ∧ s < 64 := ⟨k - 128, by omega, by omega, by omega⟩
    refine ⟨_, rfl, ?_⟩
    rw [show 128 + s - 128 = s by omega, show 192 - (128 + s) = 64 - s by omega, limb_shift a2 hs0 hs]
    refine ⟨⟨limb_lt a2 hs0 hs, by simp only [Nat.shiftRight_eq_div_pow]; exact sm _ _ a3, z, z⟩, ?_⟩
    have := val_shift (a := x2) (b := x3) (c := 0) (d := 0) hs0 hs
    simp only [val, Nat.shiftRight_eq_div_pow, pow_add]
    rw [← Nat.div_div_eq_div_mul, show (x0 + x1 * 2 ^ 64 + x2 * 2 ^ 128 + x3 * 2 ^ 192) / 2 ^ 128 = x2 + x3 * 2 ^ 64 by omega]
    simpa using this
  rw [if_neg h2]
  by_cases h3 : k = 128
  · rw [if_pos h3]; subst h3
    refine ⟨_, rfl, ⟨a2, a3, z, z⟩, ?_⟩
    simp only [val]; omega
  rw [if_neg h3]
  by_cases h4 : k > 64
  · rw [if_pos h4]
    obtain ⟨s, rfl, hs0, hs⟩ : ∃ s, k = 64 + s ∧ 0 < s ∧ s < 64 := ⟨k - 64, by omega, by omega, by omega⟩
    refine ⟨_, rfl, ?_⟩
    rw [show 64 + s - 64 = s by omega, show 128 - (64 + s) = 64 - s by omega, limb_shift a1 hs0 hs, limb_shift a2 hs0 hs]
    refine ⟨⟨limb_lt a1 hs0 hs, limb_lt a2 hs0 hs, by simp only [Nat.shiftRight_eq_div_pow]; exact sm _ _ a3, z⟩, ?_⟩
    have := val_shift (a := x1) (b := x2) (c := x3) (d := 0) hs0 hs
    simp only [val, Nat.shiftRight_eq_div_pow, pow_add]
    rw [← Nat.div_div_eq_div_mul, show (x0 + x1 * 2 ^ 64 + x2 * 2 ^ 128 + x3 * 2 ^ 192) / 2 ^ 64 = x1 + x2 * 2 ^ 64 + x3 * 2 ^ 128 by omega]
    simpa using this
  rw [if_neg h4]
  by_cases h5 : k = 64
  · rw [if_pos h5]; subst h5
    refine ⟨_, rfl, ⟨a1, a2, a3, z⟩, ?_⟩
    simp only [val]; omega
  rw [if_neg h5]
  by_cases h6 : k > 0
  · rw [if_pos h6]
    have hs : k < 64 := by omega
    refine ⟨_, rfl, ?_⟩
    rw [limb_shift a0 h6 hs, limb_shift a1 h6 hs, limb_shift a2 h6 hs]
    refine ⟨⟨limb_lt a0 h6 hs, limb_lt a1 h6 hs, limb_lt a2 h6 hs, by simp only [Nat.shiftRight_eq_div_pow]; exact sm _ _ a3⟩, ?_⟩
    simp only [val, Nat.shiftRight_eq_div_pow]
    exact val_shift h6 hs
  · rw [if_neg h6]
    have : k = 0 := by omega
    subst this
    exact ⟨_, rfl, ⟨a0, a1, a2, a3⟩, by simp⟩

end U256
end OnionPIR
