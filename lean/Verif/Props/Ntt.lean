import Verif.Proofs.Ntt
import Verif.Spec.Poly
import Verif.Spec.Basic
import Mathlib.Tactic.NormNum.Prime
import Mathlib.FieldTheory.Finite.Basic
/-
Properties C14–C17 (src/ntt.rs).
The primitive `2n`-th root of an operator is the entry `omegas[n/2]` (bit reversal of `n/2` is 1).
`sample` is the sequence of values drawn by `primitive_root`; `gen_range(0..p)` guarantees `sample i < p`.
-/
namespace OnionPIR
open NttOperator

theorem reverseBits_eq_bitrev (K i : Nat) : reverseBits K i = Spec.bitrev K i := by
  induction K generalizing i with
  | zero => simp [reverseBits, Spec.bitrev]
  | succ K ih =>
    rw [reverseBits, ih, Spec.bitrev, Spec.bitrev, Finset.sum_range_succ', Nat.add_comm]
    congr 1
    · apply Finset.sum_congr rfl
      intro b hb
      rw [Nat.testBit_succ, show K + 1 - 1 - (b + 1) = K - 1 - b by omega]
    · rw [Nat.testBit_zero]
      rcases Nat.mod_two_eq_zero_or_one i with h | h <;> simp [h]

theorem reverseBits_half (K : Nat) (hK : 1 ≤ K) : reverseBits K (2 ^ K / 2) = 1 := by
  obtain ⟨s, rfl⟩ : ∃ s, K = s + 1 := ⟨K - 1, by omega⟩
  rw [pow_succ, Nat.mul_div_cancel _ (by norm_num)]
  have := reverseBits_split s 1 0 1 (by positivity)
  rw [Nat.mul_one, Nat.zero_add, reverseBits_zero] at this
  rw [this]; rfl

theorem psi_eq {op : NttOperator} {K psi psiInv : Nat} (h : op.WF K psi psiInv) : op.omegas.getD (op.size / 2) 0 = psi := by
  have h3 := h.three_le
  have : 0 < 2 ^ K := by positivity
  rw [h.size, h.om _ (by omega), reverseBits_half K (by omega), pow_one, Nat.mod_eq_of_lt h.psi_lt]

/-- C14. Whatever the internal sampler returns, an operator returned by `new` has a power-of-two size `>= 8`, a prime
modulus `= 1 mod 2n`, and tables that are the bit-reversed powers of one element `psi` with `psi^n = -1`
(so `psi` is a primitive `2n`-th root of unity), respectively of its inverse, all canonical. -/
theorem c14_new {q : Nat} {p : Modulus} (hp : Modulus.new q = .ok p) (pr : Profile) {n : Nat} (hn : n < 2 ^ 64)
    {sample : Nat → Nat} (hs : ∀ i, sample i < q) {op : NttOperator} (hop : NttOperator.new pr sample p n = .ok op) :
    ∃ K psi, 3 ≤ K ∧ n = 2 ^ K ∧ q.Prime ∧ q % (2 * n) = 1 ∧ op.p = p ∧ op.size = n ∧
      psi = op.omegas.getD (n / 2) 0 ∧ ((psi : ℤ) ^ n ≡ -1 [ZMOD q]) ∧
      op.omegas.length = n ∧ op.omegasInv.length = n ∧ op.zetasInv.length = n ∧
      op.omegasShoup.length = n ∧ op.zetasInvShoup.length = n ∧
      (∀ i, i < n → Spec.IsResidue q ((psi : ℤ) ^ Spec.bitrev K i) (op.omegas.getD i 0)) ∧
      (∀ i, i < n → op.omegasInv.getD i 0 < q ∧ (op.omegasInv.getD i 0 : ℤ) * psi ^ Spec.bitrev K i ≡ 1 [ZMOD q]) ∧
      (∀ i, i < n → op.zetasInv.getD i 0 < q ∧ (op.zetasInv.getD i 0 : ℤ) * psi ^ (Spec.bitrev K i + 1) ≡ 1 [ZMOD q]) := by
  obtain ⟨h2, hlt, rfl, hw⟩ := Modulus.new_inv hp
  obtain ⟨K, psi, psiInv, h, rfl, rfl⟩ := new_wf hw pr hn sample hs hop
  have hpos := hw.pos
  have hinv : ∀ e : Nat, (psiInv ^ e % op.p.p : ℕ) * (psi : ℤ) ^ e ≡ 1 [ZMOD op.p.p] := by
    intro e
    rw [← ZMod.intCast_eq_intCast_iff]
    push_cast
    rw [← mul_pow, mul_comm, h.psi_inv, one_pow]
  refine ⟨K, psi, h.three_le, h.size, h.prime, by rw [h.size]; exact h.cong, rfl, rfl, (psi_eq h).symm, ?_,
    by rw [h.om_len, h.size], by rw [h.omInv_len, h.size], by rw [h.ze_len, h.size],
    by rw [h.oms, List.length_map, h.om_len, h.size], by rw [h.zes, List.length_map, h.ze_len, h.size], ?_, ?_, ?_⟩
  · rw [← ZMod.intCast_eq_intCast_iff]
    push_cast
    rw [h.size, h.psi_pow]
  · intro i hi
    rw [h.om i (by rw [← h.size]; exact hi), ← reverseBits_eq_bitrev]
    refine ⟨Nat.mod_lt _ hpos, ?_⟩
    rw [← ZMod.intCast_eq_intCast_iff]
    push_cast; rfl
  · intro i hi
    rw [h.omInv i (by rw [← h.size]; exact hi), ← reverseBits_eq_bitrev]
    exact ⟨Nat.mod_lt _ hpos, hinv _⟩
  · intro i hi
    rw [h.ze i (by rw [← h.size]; exact hi), ← reverseBits_eq_bitrev]
    exact ⟨Nat.mod_lt _ hpos, hinv _⟩

/-- C15 (with C14's claim that every table and array access of `forward` is in bounds: the result is `.ok`). -/
theorem c15_forward {q : Nat} {p : Modulus} (hp : Modulus.new q = .ok p) (pr pr' : Profile) {n : Nat} (hn : n < 2 ^ 64)
    {sample : Nat → Nat} (hs : ∀ i, sample i < q) {op : NttOperator} (hop : NttOperator.new pr' sample p n = .ok op)
    {a : List Nat} (ha : Spec.IsVec (4 * q) n a) :
    ∃ b, op.forward pr a = .ok b ∧ Spec.IsVec q n b ∧ ∀ i, i < n →
      (b.getD i 0 : ZMod q) = ∑ j ∈ Finset.range n,
        (a.getD j 0 : ZMod q) * (op.omegas.getD (n / 2) 0 : ZMod q) ^ (j * (2 * Spec.bitrev (Nat.log2 n) i + 1)) := by
  obtain ⟨h2, hlt, rfl, hw⟩ := Modulus.new_inv hp
  obtain ⟨K, psi, psiInv, h, rfl, rfl⟩ := new_wf hw pr' hn sample hs hop
  obtain ⟨b, e1, e2, e3, e4⟩ := forward_eval h pr (by rw [ha.1, h.size]) ha.2
  refine ⟨b, e1, ⟨by rw [e2, h.size], e3⟩, ?_⟩
  intro i hi
  rw [psi_eq h]
  rw [h.size] at hi ⊢
  have := e4 i hi
  rw [vals] at this
  rw [this]
  apply Finset.sum_congr rfl
  intro j _
  rw [vals, ← pow_mul, Nat.log2_two_pow, reverseBits_eq_bitrev, Nat.mul_comm (2 * _ + 1)]

/-- C16, one direction, including absence of panics. -/
theorem c16_backward_forward {q : Nat} {p : Modulus} (hp : Modulus.new q = .ok p) (pr pr' : Profile) {n : Nat}
    (hn : n < 2 ^ 64) {sample : Nat → Nat} (hs : ∀ i, sample i < q) {op : NttOperator}
    (hop : NttOperator.new pr' sample p n = .ok op) {a : List Nat} (ha : Spec.IsVec q n a) :
    ∃ b, op.forward pr a = .ok b ∧ Spec.IsVec q n b ∧ op.backward pr b = .ok a := by
  obtain ⟨h2, hlt, rfl, hw⟩ := Modulus.new_inv hp
  obtain ⟨K, psi, psiInv, h, rfl, rfl⟩ := new_wf hw pr' hn sample hs hop
  obtain ⟨b, e1, e2, e3, e4⟩ := backward_forward h pr (by rw [ha.1, h.size]) ha.2
  exact ⟨b, e1, ⟨by rw [e2, h.size], e3⟩, e4⟩

/-- C16, the other direction. -/
theorem c16_forward_backward {q : Nat} {p : Modulus} (hp : Modulus.new q = .ok p) (pr pr' : Profile) {n : Nat}
    (hn : n < 2 ^ 64) {sample : Nat → Nat} (hs : ∀ i, sample i < q) {op : NttOperator}
    (hop : NttOperator.new pr' sample p n = .ok op) {b : List Nat} (hb : Spec.IsVec q n b) :
    ∃ a, op.backward pr b = .ok a ∧ Spec.IsVec q n a ∧ op.forward pr a = .ok b := by
  obtain ⟨h2, hlt, rfl, hw⟩ := Modulus.new_inv hp
  obtain ⟨K, psi, psiInv, h, rfl, rfl⟩ := new_wf hw pr' hn sample hs hop
  obtain ⟨a, e1, e2, e3, e4⟩ := forward_backward h pr (by rw [hb.1, h.size]) hb.2
  exact ⟨a, e1, ⟨by rw [e2, h.size], e3⟩, e4⟩

/-- C16: an input of the wrong length panics, in both directions. -/
theorem c16_wrong_length (pr : Profile) (op : NttOperator) {a : List Nat} (h : a.length ≠ op.size) :
    op.forward pr a = .error .assert ∧ op.backward pr a = .error .assert := by
  constructor
  · unfold forward; rw [rassert_fail h]; rfl
  · unfold backward; rw [rassert_fail h]; rfl

theorem negacyclic_eval {R : Type*} [CommRing R] {n : Nat} (a b : Nat → R) {ζ : R} (hζ : ζ ^ n = -1) :
    ∑ k ∈ Finset.range n, Spec.negacyclic n a b k * ζ ^ k =
      (∑ i ∈ Finset.range n, a i * ζ ^ i) * ∑ j ∈ Finset.range n, b j * ζ ^ j := by
  rw [Finset.sum_mul_sum]
  unfold Spec.negacyclic
  simp only [Finset.sum_mul]
  rw [Finset.sum_comm]
  apply Finset.sum_congr rfl
  intro i hi
  rw [Finset.sum_comm]
  apply Finset.sum_congr rfl
  intro j hj
  rw [Finset.mem_range] at hi hj
  by_cases hij : i + j < n
  · rw [Finset.sum_eq_single (i + j)]
    · rw [if_pos rfl]; ring
    · intro k hk hne
      rw [Finset.mem_range] at hk
      rw [if_neg (by omega), if_neg (by omega), zero_mul]
    · intro h; rw [Finset.mem_range] at h; omega
  · rw [Finset.sum_eq_single (i + j - n)]
    · rw [if_neg (by omega), if_pos (by omega)]
      have : ζ ^ i * ζ ^ j = - ζ ^ (i + j - n) := by
        rw [← pow_add, show i + j = (i + j - n) + n by omega, pow_add, hζ, Nat.add_sub_cancel]; ring
      linear_combination (- (a i * b j)) * this
    · intro k hk hne
      rw [Finset.mem_range] at hk
      rw [if_neg (by omega), if_neg (by omega), zero_mul]
    · intro h; rw [Finset.mem_range] at h; omega

/-- C17. Multiplying pointwise in the transformed domain (with `Modulus::mul_vec`, the product used by
`Poly`) and transforming back gives the product modulo `X^n + 1`. -/
theorem c17_convolution {q : Nat} {p : Modulus} (hp : Modulus.new q = .ok p) (pr pr' : Profile) {n : Nat}
    (hn : n < 2 ^ 64) {sample : Nat → Nat} (hs : ∀ i, sample i < q) {op : NttOperator}
    (hop : NttOperator.new pr' sample p n = .ok op) {a b : List Nat} (ha : Spec.IsVec q n a) (hb : Spec.IsVec q n b) :
    ∃ a' b' c' c, op.forward pr a = .ok a' ∧ op.forward pr b = .ok b' ∧ p.mulVec pr a' b' = .ok c' ∧
      op.backward pr c' = .ok c ∧ Spec.IsVec q n c ∧ ∀ k, k < n →
        (c.getD k 0 : ZMod q) = Spec.negacyclic n (fun i => (a.getD i 0 : ZMod q)) (fun j => (b.getD j 0 : ZMod q)) k := by
  obtain ⟨h2, hlt, rfl, hw⟩ := Modulus.new_inv hp
  obtain ⟨K, psi, psiInv, h, rfl, rfl⟩ := new_wf hw pr' hn sample hs hop
  have hF := Fact.mk h.prime
  obtain ⟨a', e1, e2, e3, e4⟩ := forward_eval h pr (by rw [ha.1, h.size]) (fun x hx => by have := ha.2 x hx; omega)
  obtain ⟨b', f1, f2, f3, f4⟩ := forward_eval h pr (by rw [hb.1, h.size]) (fun x hx => by have := hb.2 x hx; omega)
  have hmul : op.p.mulVec pr a' b' = .ok (List.zipWith (fun x y => x * y % op.p.p) a' b') := by
    unfold Modulus.mulVec
    apply zipMutM_ok (by omega)
    intro x hx
    exact Modulus.mul_ok hw pr (e3 _ (List.of_mem_zip hx).1) (f3 _ (List.of_mem_zip hx).2)
  have hpos := hw.pos
  have hc'len : (List.zipWith (fun x y => x * y % op.p.p) a' b').length = 2 ^ K := by
    rw [List.length_zipWith, e2, f2, Nat.min_self]
  -- the expected result
  generalize hcd : (List.range (2 ^ K)).map (fun k => (Spec.negacyclic (2 ^ K) (vals op.p.p a) (vals op.p.p b) k).val) = c
  have hclen : c.length = 2 ^ K := by rw [← hcd]; simp
  have hclt : ∀ x ∈ c, x < op.p.p := by
    intro x hx
    rw [← hcd] at hx
    obtain ⟨y, -, rfl⟩ := List.mem_map.mp hx
    exact ZMod.val_lt _
  have hcv : ∀ k, k < 2 ^ K → vals op.p.p c k = Spec.negacyclic (2 ^ K) (vals op.p.p a) (vals op.p.p b) k := by
    intro k hk
    rw [vals, ← hcd, getD_range_map _ _ _ hk, ZMod.natCast_val, ZMod.cast_id]
  obtain ⟨d, g1, g2, g3, g4⟩ := forward_eval h pr hclen (fun x hx => by have := hclt x hx; omega)
  obtain ⟨d', k1, k2, k3, k4⟩ := backward_forward h pr hclen hclt
  rw [g1] at k1
  cases k1
  have hd : d = List.zipWith (fun x y => x * y % op.p.p) a' b' := by
    refine eq_of_vals g2 hc'len g3 ?_ ?_
    · intro x hx
      obtain ⟨i, hi, rfl⟩ := List.getElem_of_mem hx
      rw [List.getElem_zipWith]; exact Nat.mod_lt _ hpos
    · intro i hi
      have hζ : ((psi : ZMod op.p.p) ^ (2 * reverseBits K i + 1)) ^ 2 ^ K = -1 := by
        rw [← pow_mul, Nat.mul_comm, pow_mul, h.psi_pow, pow_succ, pow_mul]; simp
      have hz : vals op.p.p (List.zipWith (fun x y => x * y % op.p.p) a' b') i = vals op.p.p a' i * vals op.p.p b' i := by
        rw [vals, vals, vals, List.getD, List.getD, List.getD, List.getElem?_eq_getElem (by omega),
          List.getElem?_eq_getElem (by omega), List.getElem?_eq_getElem (by omega), List.getElem_zipWith]
        simp
      rw [g4 i hi, hz, e4 i hi, f4 i hi, ← negacyclic_eval _ _ hζ]
      apply Finset.sum_congr rfl
      intro j hj
      rw [hcv j (Finset.mem_range.mp hj)]
  refine ⟨a', b', _, c, e1, f1, hmul, by rw [← hd]; exact k4, ⟨by rw [hclen, h.size], hclt⟩, ?_⟩
  intro k hk
  rw [h.size] at hk ⊢
  exact hcv k hk

/-! ### Existence: the constructor succeeds as soon as one of the 100 samples is a quadratic non-residue -/

theorem primitiveRootLoop_ok {p : Modulus} (h : p.WF) (pr : Profile) {n lam : Nat} {sample : Nat → Nat}
    (hs : ∀ i, sample i < p.p) (hn : 2 * n < p.p) (hlam : lam < p.p) (fuel i : Nat)
    (hg : ∃ j, i ≤ j ∧ j < i + fuel ∧ sample j ^ (lam * (2 * n)) % p.p = 1 ∧ sample j ^ (lam * n) % p.p ≠ 1) :
    ∃ r, primitiveRootLoop pr p n lam sample fuel i = .ok r := by
  have hl := h.lt
  induction fuel generalizing i with
  | zero => obtain ⟨j, h1, h2, -⟩ := hg; omega
  | succ f ih =>
    have hmod := Nat.mod_lt ((sample i) ^ lam) h.pos
    rw [primitiveRootLoop, Modulus.pow_ok h pr (hs i) hlam, res_ok_bind, mulW_ok (by omega), res_ok_bind, isPrimitiveRoot,
      dassert_ok hmod, res_ok_bind, Modulus.pow_ok h pr hmod hn, res_ok_bind]
    rw [← Nat.pow_mod, ← pow_mul]
    by_cases hc : sample i ^ (lam * (2 * n)) % p.p = 1
    · rw [if_pos hc, Modulus.pow_ok h pr hmod (by omega), res_ok_bind, res_ok_bind, ← Nat.pow_mod, ← pow_mul,
        show 2 * n / 2 = n by omega]
      by_cases hc2 : sample i ^ (lam * n) % p.p = 1
      · rw [if_neg (by simp [hc2])]
        apply ih
        obtain ⟨j, h1, h2, h3, h4⟩ := hg
        refine ⟨j, ?_, by omega, h3, h4⟩
        rcases Nat.lt_or_ge i j with h | h
        · exact h
        · exact absurd (by rw [show j = i by omega]; exact hc2) h4
      · rw [if_pos (by simpa using hc2)]; exact ⟨_, rfl⟩
    · rw [if_neg hc, res_ok_bind, if_neg (by simp)]
      apply ih
      obtain ⟨j, h1, h2, h3, h4⟩ := hg
      refine ⟨j, ?_, by omega, h3, h4⟩
      rcases Nat.lt_or_ge i j with h | h
      · exact h
      · exact absurd (by rw [show i = j by omega]; exact h3) hc

theorem ntt_new_succeeds {K : Nat} {p : Modulus} (hw : p.WF) (pr : Profile) (hprime : p.p.Prime)
    (hK : 3 ≤ K) (hq : p.p % (2 * 2 ^ K) = 1) {sample : Nat → Nat} (hs : ∀ i, sample i < p.p)
    (hgood : ∃ i, i < 100 ∧ sample i ^ ((p.p - 1) / 2) % p.p = p.p - 1) :
    ∃ op, NttOperator.new pr sample p (2 ^ K) = .ok op := by
  have h2 := hprime.two_le
  have hlt := hw.lt
  have hpos := hw.pos
  have hF := Fact.mk hprime
  have hdm := Nat.div_add_mod p.p (2 * 2 ^ K)
  have hKpos : 0 < 2 ^ K := by positivity
  have hq0 : p.p / (2 * 2 ^ K) ≠ 0 := by
    intro h0; rw [h0, hq] at hdm; omega
  have h2n : 2 * 2 ^ K < p.p := by
    have : 2 * 2 ^ K * 1 ≤ 2 * 2 ^ K * (p.p / (2 * 2 ^ K)) := Nat.mul_le_mul_left _ (Nat.one_le_iff_ne_zero.mpr hq0)
    omega
  have hsup : supportsNtt p.p (2 ^ K) = .ok true := by
    unfold supportsNtt
    rw [if_neg, Nat.shiftLeft_eq, pow_one, Nat.mod_eq_of_lt (by omega), modR_ok (by omega), res_ok_bind, Nat.mul_comm, hq]
    · simp [isPrime, hprime]
    · rw [Nat.log2_two_pow]
      have := Nat.pow_le_pow_right (show 0 < 2 by norm_num) hK
      omega
  have hlamn : (p.p - 1) / (2 * 2 ^ K) * (2 * 2 ^ K) = p.p - 1 := by
    apply Nat.div_mul_cancel
    exact ⟨p.p / (2 * 2 ^ K), by omega⟩
  have hlamn2 : (p.p - 1) / (2 * 2 ^ K) * 2 ^ K = (p.p - 1) / 2 := by
    rw [show (p.p - 1) / (2 * 2 ^ K) * (2 * 2 ^ K) = 2 * ((p.p - 1) / (2 * 2 ^ K) * 2 ^ K) by ring] at hlamn
    generalize (p.p - 1) / (2 * 2 ^ K) * 2 ^ K = z at *
    omega
  have hlam : (p.p - 1) / (2 * 2 ^ K) < p.p := lt_of_le_of_lt (Nat.div_le_self _ _) (by omega)
  obtain ⟨r, hr⟩ := primitiveRootLoop_ok hw pr hs h2n hlam 100 0 (by
    obtain ⟨i, hi, hi2⟩ := hgood
    have hp2 : p.p - 1 ≠ 1 := by omega
    refine ⟨i, by omega, by omega, ?_, ?_⟩
    · rw [show (p.p - 1) / (2 * 2 ^ K) * (2 * 2 ^ K) = ((p.p - 1) / (2 * 2 ^ K) * 2 ^ K) * 2 by ring, hlamn2, pow_mul,
        Nat.pow_mod, hi2]
      have : (p.p - 1) ^ 2 = 1 + p.p * (p.p - 2) := by
        obtain ⟨c, hc⟩ : ∃ c, p.p = c + 2 := ⟨p.p - 2, by omega⟩
        rw [hc, show c + 2 - 1 = c + 1 by omega, show c + 2 - 2 = c by omega]; ring
      rw [this, Nat.add_mul_mod_self_left, Nat.mod_eq_of_lt (by omega)]
    · rw [hlamn2, hi2]; exact hp2)
  obtain ⟨w1, w2, w3⟩ := primitiveRootLoop_inv hw pr sample hs h2n hlam _ _ _ hr
  have hw0 : r ≠ 0 := by
    rintro rfl
    rw [zero_pow (by positivity)] at w2
    simp at w2
  have hK63 : K ≤ 63 := by
    by_contra hc
    have := Nat.pow_le_pow_right (show 0 < 2 by norm_num) (show 64 ≤ K by omega)
    omega
  have hbr : ∀ i, i < 2 ^ K → bitrevIndex (2 ^ K) i < 2 ^ K := by
    intro i hi
    rw [bitrevIndex_eq K i hK63 hi]; exact reverseBits_lt _ _
  have hpl : ∀ w, w < p.p → powersLoop pr p w (2 ^ K + 1) 1 = .ok ((List.range (2 ^ K + 1)).map (fun i => w ^ i % p.p)) := by
    intro w hw'
    have := powersLoop_ok hw pr hw' (2 ^ K + 1) 0
    simpa [Nat.mod_eq_of_lt h2] using this
  have hsh : ∀ (w : Nat) (g : Nat → Nat), (∀ i, i < 2 ^ K → g i < 2 ^ K + 1) → ∃ l, Modulus.shoupVec pr p
      ((List.range (2 ^ K)).map (fun i => ((List.range (2 ^ K + 1)).map (fun i => w ^ i % p.p)).getD (g i) 0)) = .ok l := by
    intro w g hg
    refine ⟨_, mapR_ok (g := fun x => x * 2 ^ 64 / p.p) ?_⟩
    intro x hx
    obtain ⟨y, hy, rfl⟩ := List.mem_map.mp hx
    apply Modulus.shoup_ok hw pr
    rw [getD_range_map _ _ _ (hg y (List.mem_range.mp hy))]
    exact Nat.mod_lt _ hpos
  have hinvlt := Nat.mod_lt (r ^ (p.p - 2)) hpos
  have hsilt := Nat.mod_lt ((2 ^ K) ^ (p.p - 2)) hpos
  obtain ⟨l1, hl1⟩ := hsh r (bitrevIndex (2 ^ K)) (fun i hi => by have := hbr i hi; omega)
  obtain ⟨l2, hl2⟩ := hsh (r ^ (p.p - 2) % p.p) (fun i => bitrevIndex (2 ^ K) i + 1) (fun i hi => by have := hbr i hi; omega)
  unfold NttOperator.new primitiveRoot
  rw [hsup, res_ok_bind, rassert_ok rfl, res_ok_bind, subW_ok (by omega), res_ok_bind, mulW_ok (by omega), res_ok_bind,
    divR_ok (by positivity), res_ok_bind, hr, res_ok_bind, Modulus.inv_ok hw pr w1 hw0, res_ok_bind, hpl _ w1, res_ok_bind,
    hpl _ hinvlt, res_ok_bind,
    mapR_idx_ok _ _ _ (fun i hi => by have := hbr i hi; rw [List.length_map, List.length_range]; omega), res_ok_bind,
    mapR_idx_ok _ _ _ (fun i hi => by have := hbr i hi; rw [List.length_map, List.length_range]; omega), res_ok_bind,
    mapR_idx_ok _ (fun i => bitrevIndex (2 ^ K) i + 1) _
      (fun i hi => by have := hbr i hi; rw [List.length_map, List.length_range]; omega), res_ok_bind,
    hl1, res_ok_bind, hl2, res_ok_bind, Modulus.inv_ok hw pr (by omega) (by omega), res_ok_bind,
    Modulus.shoup_ok hw pr hsilt, res_ok_bind, mulW_ok (by omega), res_ok_bind]
  exact ⟨_, rfl⟩

/-- C14, existence. For a prime `q = 1 mod 2n` and `n = 2^K >= 8` the constructor returns an operator whenever one of
the first 100 samples is a quadratic non-residue (`x^((q-1)/2) = -1`). -/
theorem c14_new_succeeds {q K : Nat} {p : Modulus} (hp : Modulus.new q = .ok p) (pr : Profile) (hprime : q.Prime)
    (hK : 3 ≤ K) (hq : q % (2 * 2 ^ K) = 1) {sample : Nat → Nat} (hs : ∀ i, sample i < q)
    (hgood : ∃ i, i < 100 ∧ sample i ^ ((q - 1) / 2) % q = q - 1) :
    ∃ op, NttOperator.new pr sample p (2 ^ K) = .ok op := by
  obtain ⟨h2, hlt, rfl, hw⟩ := Modulus.new_inv hp
  exact ntt_new_succeeds hw pr hprime hK hq hs hgood

/-- C14: unsuitable parameters are rejected (`n` not a power of two, `n < 8`, `q` composite or `q ≠ 1 mod 2n`). -/
theorem c14_new_rejects {q : Nat} {p : Modulus} (hp : Modulus.new q = .ok p) (pr : Profile) {n : Nat} (hn : n < 2 ^ 63)
    (sample : Nat → Nat) (hbad : (¬ ∃ K, n = 2 ^ K) ∨ n < 8 ∨ ¬ q.Prime ∨ q % (2 * n) ≠ 1) :
    NttOperator.new pr sample p n = .error .assert := by
  obtain ⟨h2, hlt, rfl, hw⟩ := Modulus.new_inv hp
  have : supportsNtt p.p n = .ok false := by
    unfold supportsNtt
    split_ifs with hc
    · rfl
    · push Not at hc
      rw [Nat.shiftLeft_eq, pow_one, Nat.mod_eq_of_lt (by omega), modR_ok (by omega), res_ok_bind, Nat.mul_comm]
      rcases hbad with h | h | h | h
      · exact absurd ⟨_, hc.1⟩ h
      · omega
      · simp [isPrime, h]
      · simp [h]
  unfold NttOperator.new
  rw [this, res_ok_bind]; rfl

example : NttOperator.new .debug (fun _ => 3) ⟨17, 2 ^ 128 / 17 / 2 ^ 64, 2 ^ 128 / 17 % 2 ^ 64⟩ 12 = .error .assert :=
  c14_new_rejects (q := 17) rfl .debug (by norm_num) _ (.inr (.inr (.inr (by norm_num))))

/-- The hypotheses of C14 to C17 are met by `q = 17`, `n = 8`. -/
theorem Ex.ntt17 : ∃ p op, Modulus.new 17 = .ok p ∧ NttOperator.new .debug (fun _ => 3) p 8 = .ok op := by
  obtain ⟨p, hp, -⟩ := Modulus.new_ok (p := 17) (by norm_num) (by norm_num)
  obtain ⟨op, hop⟩ := c14_new_succeeds hp .debug (by norm_num) (K := 3) (by norm_num) (by norm_num) (sample := fun _ => 3) (by simp)
    ⟨0, by norm_num, by norm_num⟩
  exact ⟨p, op, hp, hop⟩

example : ∃ op : NttOperator, op.size = 8 ∧ ((op.omegas.getD 4 0 : Nat) : ℤ) ^ 8 ≡ -1 [ZMOD (17 : Nat)] := by
  obtain ⟨p, op, hp, hop⟩ := Ex.ntt17
  obtain ⟨K, psi, -, -, -, -, -, h1, h2, h3, -⟩ := c14_new hp .debug (by norm_num) (by simp) hop
  exact ⟨op, h1, by rw [h2] at h3; exact h3⟩

example : ∃ (op : NttOperator) (b : List Nat), op.forward .release [1, 67, 3, 0, 16, 5, 40, 2] = .ok b ∧ Spec.IsVec 17 8 b := by
  obtain ⟨p, op, hp, hop⟩ := Ex.ntt17
  obtain ⟨b, h1, h2, -⟩ := c15_forward hp .release .debug (by norm_num) (by simp) hop (a := [1, 67, 3, 0, 16, 5, 40, 2])
    ⟨rfl, by simp⟩
  exact ⟨op, b, h1, h2⟩

example : ∃ (op : NttOperator) (a b : List Nat), op.forward .debug [1, 2, 3, 0, 16, 5, 4, 2] = .ok b ∧
    op.backward .debug b = .ok [1, 2, 3, 0, 16, 5, 4, 2] ∧ op.backward .debug [1, 2, 3, 0, 16, 5, 4, 2] = .ok a ∧
    op.forward .debug a = .ok [1, 2, 3, 0, 16, 5, 4, 2] ∧ op.forward .debug [1, 2] = .error .assert := by
  obtain ⟨p, op, hp, hop⟩ := Ex.ntt17
  have hv : Spec.IsVec 17 8 [1, 2, 3, 0, 16, 5, 4, 2] := ⟨rfl, by simp⟩
  obtain ⟨b, h1, -, h2⟩ := c16_backward_forward hp .debug .debug (by norm_num) (by simp) hop hv
  obtain ⟨a, h3, -, h4⟩ := c16_forward_backward hp .debug .debug (by norm_num) (by simp) hop hv
  obtain ⟨-, -, -, -, -, -, -, hsz, -⟩ := c14_new hp .debug (by norm_num) (by simp) hop
  exact ⟨op, a, b, h1, h2, h3, h4, (c16_wrong_length .debug op (a := [1, 2]) (by rw [hsz]; norm_num)).1⟩

/-- `(1 + X) * X^7 = X^7 - 1` in `Z_17[X]/(X^8 + 1)`. -/
example : ∃ (p : Modulus) (op : NttOperator) (a' b' c' c : List Nat), op.forward .debug [1, 1, 0, 0, 0, 0, 0, 0] = .ok a' ∧
    op.forward .debug [0, 0, 0, 0, 0, 0, 0, 1] = .ok b' ∧ p.mulVec .debug a' b' = .ok c' ∧ op.backward .debug c' = .ok c ∧
    (c.getD 0 0 : ZMod 17) = -1 ∧ (c.getD 7 0 : ZMod 17) = 1 := by
  obtain ⟨p, op, hp, hop⟩ := Ex.ntt17
  obtain ⟨a', b', c', c, h1, h2, h3, h4, -, h5⟩ := c17_convolution hp .debug .debug (by norm_num) (by simp) hop
    (a := [1, 1, 0, 0, 0, 0, 0, 0]) (b := [0, 0, 0, 0, 0, 0, 0, 1]) ⟨rfl, by simp⟩ ⟨rfl, by simp⟩
  refine ⟨p, op, a', b', c', c, h1, h2, h3, h4, ?_, ?_⟩
  · rw [h5 0 (by norm_num)]; decide
  · rw [h5 7 (by norm_num)]; decide

/-- A concrete operator satisfying the hypotheses of C14–C17: q = 17, n = 8. -/
theorem exists_op17 (pr : Profile) : ∃ p op, Modulus.new 17 = .ok p ∧ NttOperator.new pr (fun _ => 3) p 8 = .ok op := by
  obtain ⟨m, hp, -, -⟩ := Modulus.new_ok (p := 17) (by norm_num) (by norm_num)
  obtain ⟨op, hop⟩ := c14_new_succeeds hp pr (K := 3) (by norm_num) (by norm_num) (by norm_num) (sample := fun _ => 3)
    (by intro i; norm_num) ⟨0, by norm_num, by norm_num⟩
  exact ⟨_, op, hp, hop⟩

example : Spec.IsVec (4 * 17) 8 [1, 67, 3, 0, 16, 5, 40, 2] ∧ Spec.IsVec 17 8 [1, 2, 3, 0, 16, 5, 4, 2] := by
  constructor <;> constructor <;> simp

example : (6 : Nat) < 8 ∧ (12 : Nat) < 2 ^ 63 := by norm_num

end OnionPIR
