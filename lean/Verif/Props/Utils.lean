import Verif.Proofs.Utils
import Mathlib.Algebra.BigOperators.Ring.Finset
import Mathlib.Data.Int.ModEq
import Mathlib.Tactic.NormNum.Prime
/-
Properties C08–C13 (src/utils.rs, generate_moduli of src/bfv.rs).
-/
namespace OnionPIR

/-- C08, `bit_vector`: exactly `bit_size` entries, entry `i` is bit `i`. -/
theorem c08_bit_vector {n m : Nat} (hn : n < 2 ^ 63) (h : m < 2 ^ n) :
    ∃ r, bitVector n m = .ok r ∧ r.length = n ∧ ∀ i, r.getD i false = m.testBit i := by
  obtain ⟨r, h1, h2, -, h4⟩ := bitVectorLoop_ok m 0 (List.replicate n false) (by simp) (by simpa using h) (by
    intro k _; by_cases hk : k < n <;> simp [List.getD, hk])
  exact ⟨r, by unfold bitVector; rw [if_pos hn, h1], by simpa using h2, fun i => by simpa using h4 i⟩

example : ∃ r, bitVector 9 200 = .ok r ∧ r.length = 9 ∧ ∀ i, r.getD i false = (200).testBit i := c08_bit_vector (by norm_num) (by norm_num)

theorem c08_bit_vector_panics {n m : Nat} (hm64 : m < 2 ^ 64) (h : 2 ^ n ≤ m) : bitVector n m = .error .bounds := by
  have hn : n < 64 := (Nat.pow_lt_pow_iff_right (by norm_num)).mp (h.trans_lt hm64)
  unfold bitVector
  rw [if_pos (by omega), bitVectorLoop_panic m 0 _ (by simp) (by simpa using h)]

example : bitVector 7 200 = .error .bounds := c08_bit_vector_panics (by norm_num) (by norm_num)

/-- C08: sizes that no allocation can have panic. -/
theorem c08_capacity_panics (pr : Profile) {n m k : Nat} (hn : 2 ^ 63 ≤ n) :
    bitVector n m = .error .capacity ∧ decomposeBits pr m n k = .error .capacity := by
  have h : bitVector n m = .error .capacity := by unfold bitVector; rw [if_neg (by omega)]
  exact ⟨h, by unfold decomposeBits; rw [h]; rfl⟩

example : bitVector (2 ^ 63) 5 = .error .capacity := (c08_capacity_panics .debug (k := 1) (by norm_num)).1

/-- C08, `decompose_bits`: the digits recompose to `m`, are below `2^decomp_bits` and there are
`ceil(parent_bits/decomp_bits)` of them. The sum is written out with `List.sum` over the indexed digits. -/
theorem c08_decompose_bits (pr : Profile) {m n k : Nat} (hm64 : m < 2 ^ 64) (hn : n < 2 ^ 63) (hm : m < 2 ^ n) (hk : 1 ≤ k) :
    ∃ ds, decomposeBits pr m n k = .ok ds ∧ ds.length = (n + k - 1) / k ∧ (∀ d ∈ ds, d < 2 ^ k) ∧
      ∑ i ∈ Finset.range ds.length, ds.getD i 0 * 2 ^ (k * i) = m := by
  obtain ⟨r, h1, h2, h3⟩ := c08_bit_vector hn hm
  have hv : bitsVal r = m := bitsVal_eq r m (by rw [h2]; exact hm) h3
  obtain ⟨ds, g1, g2, g3, g4⟩ := chunks_decomp pr (show k ≠ 0 by omega) r (by omega)
  refine ⟨ds, ?_, by rw [g4, h2], g3, ?_⟩
  · unfold decomposeBits
    rw [h1, res_ok_bind, rassert_ok (by omega), res_ok_bind, g1]
  · rw [← hv, ← g2]
    clear g1 g2 g3 g4
    induction ds with
    | nil => simp [digitsVal]
    | cons d ds ih =>
      rw [List.length_cons, Finset.sum_range_succ', digitsVal, ← ih, Finset.mul_sum]
      simp only [List.getD_cons_succ, List.getD_cons_zero, Nat.mul_zero, pow_zero, Nat.mul_one]
      rw [Nat.add_comm]
      congr 1
      apply Finset.sum_congr rfl
      intro i _
      rw [Nat.mul_add, Nat.mul_one, pow_add]; ring

example : ∃ ds, decomposeBits .debug 200 9 4 = .ok ds ∧ ds.length = 3 := by
  obtain ⟨ds, h1, h2, -⟩ := c08_decompose_bits .debug (m := 200) (n := 9) (k := 4) (by norm_num) (by norm_num) (by norm_num) (by norm_num)
  exact ⟨ds, h1, h2⟩

theorem c08_decompose_bits_panics (pr : Profile) {m n k : Nat} (hm64 : m < 2 ^ 64) (hm : 2 ^ n ≤ m) :
    decomposeBits pr m n k = .error .bounds := by
  unfold decomposeBits; rw [c08_bit_vector_panics hm64 hm]; rfl

example : decomposeBits .debug 200 7 4 = .error .bounds := c08_decompose_bits_panics _ (by norm_num) (by norm_num)

theorem c08_zero_chunk_panics (pr : Profile) {m n : Nat} (hn : n < 2 ^ 63) (hm : m < 2 ^ n) : decomposeBits pr m n 0 = .error .assert := by
  obtain ⟨r, h1, -⟩ := c08_bit_vector hn hm
  unfold decomposeBits; rw [h1, res_ok_bind]; rfl

example : decomposeBits .debug 200 9 0 = .error .assert := c08_zero_chunk_panics _ (by norm_num) (by norm_num)

example : (200 : Nat) < 2 ^ 64 ∧ (200 : Nat) < 2 ^ 9 ∧ 1 ≤ 4 := by norm_num

/-- C09. The sampler's outputs are the centered binomial values of consecutive, disjoint windows of the RNG stream:
output `i` is popcount of stream bits `[4vi, 4vi+2v)` minus popcount of bits `[4vi+2v, 4vi+4v)`,
where stream bit `j` is bit `j % 64` of the `(j/64)`-th word. -/
theorem c09_sample_vec_cbd (pr : Profile) {rng : Nat → Nat} (hr : ∀ i, rng i < 2 ^ 64) {v : Nat} (hv1 : 1 ≤ v)
    (hv2 : v ≤ 16) (n : Nat) :
    ∃ out, sampleVecCbd pr rng n v = .ok out ∧ out.length = n ∧ ∀ i, i < n →
      out[i]? = some (((∑ k ∈ Finset.range (2 * v), ((rng ((4 * v * i + k) / 64)).testBit ((4 * v * i + k) % 64)).toNat : Nat) : Int) -
        ((∑ k ∈ Finset.range (2 * v), ((rng ((4 * v * i + 2 * v + k) / 64)).testBit ((4 * v * i + 2 * v + k) % 64)).toNat : Nat) : Int)) := by
  refine ⟨_, sampleVecCbd_ok pr hr hv1 hv2 n, by simp, ?_⟩
  intro i hi
  simp [hi, cbdValue, streamBit]

example : ∃ out, sampleVecCbd .debug (fun i => i % 1000) 5 10 = .ok out ∧ out.length = 5 := by
  obtain ⟨out, h1, h2, -⟩ := c09_sample_vec_cbd .debug (rng := fun i => i % 1000) (fun i => by omega) (v := 10) (by norm_num) (by norm_num) 5
  exact ⟨out, h1, h2⟩

theorem c09_bounded (pr : Profile) {rng : Nat → Nat} (hr : ∀ i, rng i < 2 ^ 64) {v : Nat} (hv1 : 1 ≤ v)
    (hv2 : v ≤ 16) (n : Nat) :
    ∃ out, sampleVecCbd pr rng n v = .ok out ∧ out.length = n ∧ ∀ x ∈ out, -(2 * v : Int) ≤ x ∧ x ≤ 2 * v := by
  refine ⟨_, sampleVecCbd_ok pr hr hv1 hv2 n, by simp, ?_⟩
  intro x hx
  obtain ⟨i, -, rfl⟩ := List.mem_map.mp hx
  exact cbdValue_bound rng v i

example : ∃ out, sampleVecCbd .debug (fun i => i % 1000) 5 10 = .ok out ∧ ∀ x ∈ out, -20 ≤ x ∧ x ≤ 20 := by
  obtain ⟨out, h1, -, h2⟩ := c09_bounded .debug (rng := fun i => i % 1000) (fun i => by omega) (v := 10) (by norm_num) (by norm_num) 5
  exact ⟨out, h1, by simpa using h2⟩

theorem c09_panics (pr : Profile) (rng : Nat → Nat) {v : Nat} (hv : v = 0 ∨ 16 < v) (n : Nat) :
    sampleVecCbd pr rng n v = .error .assert := by
  unfold sampleVecCbd; rw [rassert_fail (by omega)]; rfl

example : sampleVecCbd .debug (fun i => i) 5 17 = .error .assert := c09_panics _ _ (by norm_num) 5

/-- The bounds of C09 are attained: with an all-ones low half the value is `2v`. -/
example : sampleVecCbd .debug (fun _ => 2 ^ 20 - 1) 2 10 = .ok [20, -16] := by decide +kernel

/-- C10. -/
theorem c10_generate_prime (pr : Profile) {nb modulo ub : Nat} (h1 : 10 ≤ nb) (h2 : nb ≤ 62) (hm : 2 ≤ modulo)
    (hu1 : 1 ≤ ub) (hu2 : ub ≤ 2 ^ nb) :
    ∃ o, generatePrime pr nb modulo ub = .ok o ∧
      ∀ p, o = some p ↔ IsGreatest {p : Nat | p.Prime ∧ (2 ^ (nb - 1) ≤ p ∧ p < 2 ^ nb) ∧ p ≡ 1 [MOD modulo] ∧ p < ub} p := by
  obtain ⟨o, h, hs⟩ := generatePrime_ok pr h1 h2 hm hu1 hu2
  refine ⟨o, h, fun p => ?_⟩
  rw [hs p]
  have : {p : Nat | p.Prime ∧ 2 ^ (nb - 1) ≤ p ∧ p < 2 ^ nb ∧ p % modulo = 1 ∧ p < ub} =
      {p : Nat | p.Prime ∧ (2 ^ (nb - 1) ≤ p ∧ p < 2 ^ nb) ∧ p ≡ 1 [MOD modulo] ∧ p < ub} := by
    ext x
    simp only [Set.mem_ofPred_eq, Nat.ModEq, Nat.mod_eq_of_lt (show 1 < modulo by omega), and_assoc]
  rw [this]

/-- C10: `Some` is returned exactly when an admissible prime exists. -/
theorem c10_none_iff (pr : Profile) {nb modulo ub : Nat} (h1 : 10 ≤ nb) (h2 : nb ≤ 62) (hm : 2 ≤ modulo)
    (hu1 : 1 ≤ ub) (hu2 : ub ≤ 2 ^ nb) :
    generatePrime pr nb modulo ub = .ok none ↔
      ¬ ∃ p : Nat, p.Prime ∧ (2 ^ (nb - 1) ≤ p ∧ p < 2 ^ nb) ∧ p ≡ 1 [MOD modulo] ∧ p < ub := by
  obtain ⟨o, h, hs⟩ := c10_generate_prime pr h1 h2 hm hu1 hu2
  rw [h]
  constructor
  · rintro h0 ⟨p, hp⟩
    cases h0
    have hbd : BddAbove {p : Nat | p.Prime ∧ (2 ^ (nb - 1) ≤ p ∧ p < 2 ^ nb) ∧ p ≡ 1 [MOD modulo] ∧ p < ub} :=
      ⟨ub, fun x hx => hx.2.2.2.le⟩
    have := (hs _).mpr ⟨Nat.sSup_mem ⟨p, hp⟩ hbd, fun x hx => le_csSup hbd hx⟩
    cases this
  · intro hne
    cases o with
    | none => rfl
    | some p => exact absurd ⟨p, ((hs p).mp rfl).1⟩ hne

example : generatePrime .debug 10 512 (2 ^ 10) = .ok none := by
  rw [c10_none_iff .debug (by norm_num) (by norm_num) (by norm_num) (by norm_num) (by norm_num)]
  rintro ⟨p, hp, ⟨h1, h2⟩, h3, -⟩
  unfold Nat.ModEq at h3
  norm_num at h1 h2 h3
  obtain rfl : p = 513 := by omega
  norm_num at hp

theorem c10_out_of_range (pr : Profile) {nb modulo ub : Nat} (h : nb < 10 ∨ 62 < nb) :
    generatePrime pr nb modulo ub = .ok none := by
  unfold generatePrime; rw [if_pos (by omega)]

example : generatePrime .debug 63 16 (2 ^ 63) = .ok none := c10_out_of_range _ (by norm_num)

/-- Non-vacuity: there is a 10-bit prime `≡ 1 mod 16` below `2^10`, and the function finds the largest one, 1009. -/
example : generatePrime .debug 10 16 (2 ^ 10) = .ok (some 1009) := by
  obtain ⟨o, h, hs⟩ := c10_generate_prime .debug (nb := 10) (modulo := 16) (ub := 2 ^ 10) (by norm_num) (by norm_num)
    (by norm_num) (by norm_num) (by norm_num)
  rw [h, (hs 1009).mpr]
  refine ⟨⟨by norm_num, by norm_num, by decide, by norm_num⟩, ?_⟩
  rintro x ⟨-, -, h1, h2⟩
  unfold Nat.ModEq at h1
  norm_num at h1 h2
  omega

/-- C11, for every returned list of moduli. The size assertion, and `2*degree` fitting in 64 bits, are necessary. -/
theorem c11_generate_moduli (pr : Profile) {degree : Nat} (hd : 1 ≤ degree) (hd2 : 2 * degree < 2 ^ 64)
    {sizes : List Nat} (hs : ∀ s ∈ sizes, 10 ≤ s ∧ s ≤ 62) :
    ∃ o, generateModuli pr sizes degree = .ok o ∧ ∀ ms, o = some ms →
      ms.length = sizes.length ∧ ms.Pairwise (fun a b => a ≠ b ∧ Nat.Coprime a b) ∧
      ∀ (i s : Nat), sizes[i]? = some s → ∃ p, ms[i]? = some p ∧ p.Prime ∧ Nat.log 2 p + 1 = s ∧ p ≡ 1 [MOD 2 * degree] := by
  obtain ⟨o, h1, h2⟩ := genModuliSizes_ok pr hd hd2 sizes hs [] (by simp)
  refine ⟨o, h1, fun ms hms => ?_⟩
  obtain ⟨ps, hps, hnd, hf⟩ := h2 ms hms
  rw [List.nil_append] at hps
  subst hps
  have hlen := hf.length_eq
  have hget : ∀ (i s : Nat), sizes[i]? = some s → ∃ p, ms[i]? = some p ∧ p.Prime ∧ Nat.log 2 p + 1 = s ∧ p ≡ 1 [MOD 2 * degree] := by
    intro i s his
    obtain ⟨hi, rfl⟩ := List.getElem?_eq_some_iff.mp his
    have hi' : i < ms.length := by omega
    obtain ⟨pp, p1, p2, p3⟩ := hf.get hi hi'
    simp only [List.get_eq_getElem] at pp p1 p2 p3
    have hsz := hs _ (List.getElem_mem hi)
    refine ⟨ms[i], List.getElem?_eq_getElem hi', pp, ?_, ?_⟩
    · have hlog : Nat.log 2 ms[i] = sizes[i] - 1 := by
        apply Nat.log_eq_of_pow_le_of_lt_pow p1
        rw [show sizes[i] - 1 + 1 = sizes[i] by omega]; exact p2
      omega
    · unfold Nat.ModEq; rw [Nat.mod_eq_of_lt (show 1 < 2 * degree by omega)]; exact p3
  refine ⟨hlen.symm, ?_, hget⟩
  have hprime : ∀ p ∈ ms, p.Prime := by
    intro p hp
    obtain ⟨i, hi, rfl⟩ := List.mem_iff_getElem.mp hp
    exact (hf.get (show i < sizes.length by omega) hi).1
  rw [List.nodup_iff_pairwise_ne] at hnd
  exact hnd.imp_of_mem fun ha hb hne => ⟨hne, (Nat.coprime_primes (hprime _ ha) (hprime _ hb)).mpr hne⟩

example : ∃ o, generateModuli .debug [10, 62, 62] 4096 = .ok o := by
  obtain ⟨o, h, -⟩ := c11_generate_moduli .debug (degree := 4096) (by norm_num) (by norm_num) (sizes := [10, 62, 62]) (by simp)
  exact ⟨o, h⟩

/-- C11: the inner search loop never runs out of the fuel the model gives it (it terminates), whatever was found before. -/
theorem c11_terminates (pr : Profile) {degree : Nat} (hd : 1 ≤ degree) (hd2 : 2 * degree < 2 ^ 64)
    {sizes : List Nat} (hs : ∀ s ∈ sizes, 10 ≤ s ∧ s ≤ 62) : generateModuli pr sizes degree ≠ .error .diverge := by
  obtain ⟨o, h1, -⟩ := c11_generate_moduli pr hd hd2 hs
  rw [h1]; simp

example : generateModuli .debug [10, 62, 62] 4096 ≠ .error .diverge := c11_terminates _ (by norm_num) (by norm_num) (by simp)

theorem c11_panics_on_size (pr : Profile) (degree s : Nat) (sizes : List Nat) (hs : s < 10 ∨ 62 < s) :
    generateModuli pr (s :: sizes) degree = .error .assert := by
  unfold generateModuli genModuliSizes
  rw [rassert_fail (by omega)]; rfl

example : generateModuli .debug [63, 30] 8 = .error .assert := c11_panics_on_size _ _ _ _ (by norm_num)

/-- Non-vacuity: two 10-bit moduli for degree 8, 1009 and then the next smaller one, 977. -/
example : generateModuli .debug [10, 10] 8 = .ok (some [1009, 977]) := by
  have hg : ∀ ub p, ub ≤ 2 ^ 10 → 1 ≤ ub → p.Prime → 2 ^ 9 ≤ p → p < ub → p % 16 = 1 →
      (∀ x, x < ub → x % 16 = 1 → x.Prime → x ≤ p) → generatePrime .debug 10 16 ub = .ok (some p) := by
    intro ub p h1 h2 h3 h4 h5 h6 h7
    obtain ⟨o, h, hs⟩ := generatePrime_ok .debug (nb := 10) (modulo := 16) (ub := ub) (by norm_num) (by norm_num)
      (by norm_num) h2 h1
    rw [h, (hs p).mpr]
    exact ⟨⟨h3, h4, by omega, h6, h5⟩, fun x hx => h7 x hx.2.2.2.2 hx.2.2.2.1 hx.1⟩
  have e1 := hg (2 ^ 10) 1009 (by norm_num) (by norm_num) (by norm_num) (by norm_num) (by norm_num) (by norm_num)
    (fun x h1 h2 _ => by norm_num at h1; omega)
  have e2 := hg 1009 977 (by norm_num) (by norm_num) (by norm_num) (by norm_num) (by norm_num) (by norm_num)
    (fun x h1 h2 h3 => by
      by_contra hc
      have : x = 993 := by omega
      subst this; norm_num at h3)
  have l1 : genModuliLoop .debug 10 8 [] (2 ^ 10) (2 ^ 10) = .ok (some [1009]) := by
    rw [show 2 ^ 10 = 1023 + 1 by norm_num, genModuliLoop]
    norm_num at e1
    simp [mulW, fit, e1]
  have l2 : genModuliLoop .debug 10 8 [1009] (2 ^ 10) (2 ^ 10) = .ok (some [1009, 977]) := by
    rw [show 2 ^ 10 = 1022 + 1 + 1 by norm_num, genModuliLoop]
    norm_num at e1
    have l3 : genModuliLoop .debug 10 8 [1009] (1022 + 1) 1009 = .ok (some [1009, 977]) := by
      rw [genModuliLoop]; simp [mulW, fit, e2]
    simp [mulW, fit, e1, -Nat.reduceAdd, l3]
  simp only [generateModuli, genModuliSizes]
  rw [rassert_ok (by norm_num), res_ok_bind, l1, res_ok_bind]
  simp only [l2, res_ok_bind]

/-- C12. -/
theorem c12_wrapping_add {x y : U256} (hx : x.WF) (hy : y.WF) :
    (x.wrappingAdd y).WF ∧ (x.wrappingAdd y).val = (x.val + y.val) % 2 ^ 256 := U256.wrappingAdd_spec hx hy
theorem c12_wrapping_sub {x y : U256} (hx : x.WF) (hy : y.WF) :
    (x.wrappingSub y).WF ∧ ((x.wrappingSub y).val : Int) = ((x.val : Int) - y.val) % 2 ^ 256 := by
  obtain ⟨h1, h2⟩ := U256.wrappingSub_spec hx hy
  refine ⟨h1, ?_⟩
  have a := U256.val_lt hx
  have b := U256.val_lt hy
  rw [h2]
  omega

example : (U256.wrappingAdd ⟨2 ^ 64 - 1, 2 ^ 64 - 1, 2 ^ 64 - 1, 2 ^ 64 - 1⟩ ⟨2, 0, 0, 0⟩).val = 1 ∧
    ((U256.wrappingSub ⟨1, 0, 0, 0⟩ ⟨2, 0, 0, 0⟩).val : Int) = 2 ^ 256 - 1 := by
  constructor
  · rw [(c12_wrapping_add (by norm_num [U256.WF]) (by norm_num [U256.WF])).2]
    norm_num [U256.val]
  · rw [(c12_wrapping_sub (by norm_num [U256.WF]) (by norm_num [U256.WF])).2]
    norm_num [U256.val]

theorem c12_not {x : U256} (hx : x.WF) : x.not.WF ∧ x.not.val = 2 ^ 256 - 1 - x.val := U256.not_spec hx
theorem c12_msb {x : U256} (hx : x.WF) : x.msb = if 2 ^ 255 ≤ x.val then 1 else 0 := by
  have h := U256.val_lt hx
  rw [U256.msb_spec hx]
  split_ifs <;> omega

example : (U256.not ⟨5, 0, 0, 0⟩).val = 2 ^ 256 - 6 ∧ U256.msb ⟨0, 0, 0, 2 ^ 63⟩ = 1 := by
  constructor
  · rw [(c12_not (by norm_num [U256.WF])).2]
    norm_num [U256.val]
  · rw [c12_msb (by norm_num [U256.WF])]
    norm_num [U256.val]

theorem c12_shr (pr : Profile) {x : U256} (hx : x.WF) {k : Nat} (hk : k < 256) :
    ∃ y, x.shr pr k = .ok y ∧ y.WF ∧ y.val = x.val / 2 ^ k := U256.shr_spec pr hx hk

example : ∃ y, U256.shr .debug ⟨5, 2 ^ 64 - 1, 0, 7⟩ 130 = .ok y ∧ y.WF ∧ y.val = (⟨5, 2 ^ 64 - 1, 0, 7⟩ : U256).val / 2 ^ 130 :=
  c12_shr _ (by norm_num [U256.WF]) (by norm_num)

theorem c12_of_u128s {a b : Nat} (ha : a < 2 ^ 128) (hb : b < 2 ^ 128) :
    (U256.ofU128s a b).WF ∧ (U256.ofU128s a b).val = a + b * 2 ^ 128 := U256.ofU128s_spec ha hb
theorem c12_to_u128 (pr : Profile) {x : U256} (hx : x.WF) (h : x.val < 2 ^ 128) : x.toU128 pr = .ok x.val :=
  U256.toU128_ok pr hx h

example : (U256.ofU128s (2 ^ 100) 3).val = 2 ^ 100 + 3 * 2 ^ 128 ∧ U256.toU128 .debug ⟨5, 7, 0, 0⟩ = .ok (5 + 7 * 2 ^ 64) := by
  refine ⟨(c12_of_u128s (by norm_num) (by norm_num)).2, ?_⟩
  rw [c12_to_u128 _ (by norm_num [U256.WF]) (by norm_num [U256.val])]
  norm_num [U256.val]

example : U256.WF ⟨5, 2 ^ 64 - 1, 0, 7⟩ ∧ (U256.shr .debug ⟨5, 2 ^ 64 - 1, 0, 7⟩ 130 = .ok ⟨13835058055282163712, 1, 0, 0⟩) := by
  constructor
  · norm_num [U256.WF]
  · decide +kernel

/-- C13. -/
theorem c13_ilog2 (pr : Profile) {w v : Nat} (hw : 1 ≤ w) (hv : 1 ≤ v) (hlt : v < 2 ^ w) :
    ∃ r, ilog2 w pr v = .ok r ∧ 2 ^ r ≤ v ∧ v < 2 ^ (r + 1) := by
  have hl : Nat.log 2 v < w := Nat.log_lt_of_lt_pow (by omega) hlt
  refine ⟨Nat.log 2 v, ?_, Nat.pow_log_le_self 2 (by omega), Nat.lt_pow_succ_log_self (by norm_num) v⟩
  unfold ilog2
  rw [leadingZeros_log (by omega), subW_ok (by omega)]
  congr 1; omega

example : ∃ r, ilog2 64 .debug 1000 = .ok r ∧ 2 ^ r ≤ 1000 ∧ 1000 < 2 ^ (r + 1) := c13_ilog2 _ (by norm_num) (by norm_num) (by norm_num)

theorem c13_div_ceil (pr : Profile) {w a b : Nat} (hb : 1 ≤ b) (h : a + b < 2 ^ w) :
    ∃ r, divCeil w pr a b = .ok r ∧ a ≤ r * b ∧ ∀ r', a ≤ r' * b → r ≤ r' := by
  refine ⟨(a + b - 1) / b, ?_, ?_, ?_⟩
  · unfold divCeil
    rw [rassert_ok (by omega), res_ok_bind, addW_ok h, res_ok_bind, subW_ok (by omega), res_ok_bind, divR_ok (by omega)]
  · have := Nat.lt_div_mul_add (a := a + b - 1) (b := b) (by omega)
    omega
  · intro r' hr'
    rw [Nat.div_le_iff_le_mul (by omega)]
    omega

example : ∃ r, divCeil 64 .debug 122 62 = .ok r ∧ 122 ≤ r * 62 ∧ ∀ r', 122 ≤ r' * 62 → r ≤ r' := c13_div_ceil _ (by norm_num) (by norm_num)

theorem c13_div_ceil_zero (pr : Profile) (w a : Nat) : divCeil w pr a 0 = .error .assert := rfl

example : ilog2 64 .debug 1000 = .ok 9 ∧ divCeil 64 .debug 122 62 = .ok 2 := by decide +kernel

end OnionPIR
