import Verif.Props.Rlwe
import Verif.Props.Tests
import Verif.Props.Decrypt
import Mathlib.Analysis.Complex.ExponentialBounds
import Verif.Proofs.TailRows
/-
Property C78: the noise of a key switch is sub-Gaussian: the probability, over the errors of the key, that it exceeds a threshold, by counting.
-/
namespace OnionPIR
open Rg Poly Spec Sampling

variable {N t : Nat} {l : List Nat} {variance : Nat} {P : BfvParameters}

/-- The squares of the coefficients of the digits, at most: degree times the sum of the squares of the moduli. -/
def Spec.switchSquares (N : Nat) (l : List Nat) (i : Nat) : Nat := N * ((levelModuli l i).map (· ^ 2)).sum

/-- A coefficient of the error as a weighted sum of the sampled values. -/
theorem NoiseTail.cf_error (hN : 0 < N) {i : Nat} (f : Rg N) (e : Nat → List Int) (k : Nat) :
    cf (switchError l i f e) k = ∑ j ∈ Finset.range (levelModuli l i).length, ∑ m ∈ Finset.range N,
      (e j).getD m 0 * cf (xx ^ m * digitRing l i j f) k := by
  unfold switchError
  rw [cf_sum hN]
  refine Finset.sum_congr rfl fun j _ => ?_
  have : digitRing l i j f * smallRing N (e j) = ∑ m ∈ Finset.range N, (((e j).getD m 0 : ℤ) : Rg N) * (xx ^ m * digitRing l i j f) := by
    unfold smallRing ofCoeffs
    rw [Finset.mul_sum]
    exact Finset.sum_congr rfl fun m _ => by ring
  rw [this, cf_sum hN]
  exact Finset.sum_congr rfl fun m _ => by rw [cf_int_mul hN]

theorem NoiseTail.weights (hN : 0 < N) (hq : ∀ q ∈ l, 0 < q) {i : Nat} (f : Rg N) {k : Nat} (hk : k < N) :
    ∑ j ∈ Finset.range (levelModuli l i).length, ∑ m ∈ Finset.range N, ((cf (xx ^ m * digitRing l i j f) k : ℤ) : ℝ) ^ 2 ≤ switchSquares N l i := by
  have h1 : ∀ j ∈ Finset.range (levelModuli l i).length, ∑ m ∈ Finset.range N, ((cf (xx ^ m * digitRing l i j f) k : ℤ) : ℝ) ^ 2 ≤
      N * (((levelModuli l i).getD j 1 ^ 2 : Nat) : ℝ) := by
    intro j hj
    have hj' := Finset.mem_range.mp hj
    have hpos : 0 < (levelModuli l i).getD j 1 := by
      rw [getD_eq_getElem' _ _ _ hj']
      exact hq _ (List.mem_of_mem_take (List.getElem_mem hj'))
    calc _ ≤ ∑ _m ∈ Finset.range N, (((levelModuli l i).getD j 1 ^ 2 : Nat) : ℝ) := by
          refine Finset.sum_le_sum fun m _ => ?_
          have := (Rlwe.digit_bdd hN hpos f).xx_pow_mul hN m k hk
          have h2 := sq_le_sq' (by linarith [neg_abs_le (cf (xx ^ m * digitRing l i j f) k)]) ((le_abs_self _).trans this)
          exact_mod_cast h2
      _ = _ := by rw [Finset.sum_const, Finset.card_range, nsmul_eq_mul]
  refine (Finset.sum_le_sum h1).trans (le_of_eq ?_)
  rw [← Finset.mul_sum]
  unfold switchSquares
  rw [Nat.cast_mul, ← Nat.cast_sum]
  congr 2
  have : ∀ ms : List Nat, ∑ j ∈ Finset.range ms.length, ms.getD j 1 ^ 2 = (ms.map (· ^ 2)).sum := by
    intro ms
    induction ms with
    | nil => simp
    | cons q ms ih => rw [List.length_cons, Finset.sum_range_succ', List.map_cons, List.sum_cons]; simp [← ih, add_comm]
  exact this _

/-- The choices of words for which some coefficient of the error is at least `T`. -/
theorem NoiseTail.card_error (hN : 0 < N) (hq : ∀ q ∈ l, 0 < q) {i n : Nat} (hn : n = (levelModuli l i).length) (hl : 0 < n) {v : Nat} (hv : 1 ≤ v)
    {W : Nat} (hW : 4 * v * N ≤ 64 * W) (f : Rg N) {T : Nat} (s : Finset (Fin n → Fin W → Fin (2 ^ 64)))
    (hs : ∀ w ∈ s, ∃ k, k < N ∧ (T : ℤ) ≤ |cf (switchError l i f fun j => (List.range N).map (cbdValue (streams w j) v)) k|) :
    (s.card : ℝ) ≤ 2 ^ (64 * W * n) * (2 * N * Real.exp (-((T : ℝ) ^ 2 / (2 * v * switchSquares N l i)))) := by
  classical
  subst hn
  let X := Real.exp (-((T : ℝ) ^ 2 / (2 * v * switchSquares N l i)))
  have hD : (0 : ℝ) < switchSquares N l i := by
    unfold switchSquares
    have h0 : 0 < (levelModuli l i)[0] := hq _ (List.mem_of_mem_take (List.getElem_mem hl))
    have h1 : (levelModuli l i)[0] ^ 2 ≤ ((levelModuli l i).map (· ^ 2)).sum :=
      List.le_sum_of_mem (List.mem_map.mpr ⟨_, List.getElem_mem hl, rfl⟩)
    have h2 : 0 < (levelModuli l i)[0] ^ 2 := by positivity
    have : 0 < N * ((levelModuli l i).map (· ^ 2)).sum := Nat.mul_pos hN (by omega)
    exact_mod_cast this
  let S : Nat → Finset (Fin (levelModuli l i).length → Fin W → Fin (2 ^ 64)) := fun k =>
    s.filter fun w => (T : ℤ) ≤ |cf (switchError l i f fun j => (List.range N).map (cbdValue (streams w j) v)) k|
  have hS : ∀ k ∈ Finset.range N, ((S k).card : ℝ) ≤ 2 ^ (64 * W * (levelModuli l i).length) * (2 * X) := by
    intro k hk
    refine card_rows hv hW (fun j m => ((cf (xx ^ m * digitRing l i j f) k : ℤ) : ℝ)) hD
      (NoiseTail.weights hN hq f (Finset.mem_range.mp hk)) (by positivity) _ fun w hw => ?_
    have h1 := (Finset.mem_filter.mp hw).2
    rw [NoiseTail.cf_error hN] at h1
    have h2 : ((T : ℤ) : ℝ) ≤ ((|∑ j ∈ Finset.range (levelModuli l i).length, ∑ m ∈ Finset.range N, ((List.range N).map (cbdValue (streams w j) v)).getD m 0 *
      cf (xx ^ m * digitRing l i j f) k| : ℤ) : ℝ) := Int.cast_le.mpr h1
    rw [Int.cast_natCast] at h2
    refine h2.trans (le_of_eq ?_)
    push_cast
    congr 1
    refine Finset.sum_congr rfl fun j _ => Finset.sum_congr rfl fun m hm => ?_
    rw [getD_eq_getElem' _ _ _ (by simpa using Finset.mem_range.mp hm), List.getElem_map, List.getElem_range]
  have hsub : s ⊆ (Finset.range N).biUnion S := by
    intro w hw
    obtain ⟨k, hk, h1⟩ := hs w hw
    exact Finset.mem_biUnion.mpr ⟨k, Finset.mem_range.mpr hk, Finset.mem_filter.mpr ⟨hw, h1⟩⟩
  calc (s.card : ℝ) ≤ (((Finset.range N).biUnion S).card : ℝ) := by exact_mod_cast Finset.card_le_card hsub
    _ ≤ ((∑ k ∈ Finset.range N, (S k).card : Nat) : ℝ) := by exact_mod_cast Finset.card_biUnion_le
    _ = ∑ k ∈ Finset.range N, ((S k).card : ℝ) := by push_cast; rfl
    _ ≤ ∑ _k ∈ Finset.range N, 2 ^ (64 * W * (levelModuli l i).length) * (2 * X) := Finset.sum_le_sum hS
    _ = _ := by rw [Finset.sum_const, Finset.card_range, nsmul_eq_mul]; ring

/-- C78: whatever the keys, the masks and the polynomial that is switched, of all choices of the random words of the errors of the key at
most the fraction `2 N exp(-T² / (2 variance N Σ q_j²))` give a key switch whose error has a coefficient of `T` or more. -/
theorem c78_key_switch (h : IsParams N t l variance P) {sk : SecretKey} (hk : IsKey P sk) (pr pr' : Profile) (hv1 : 1 ≤ variance)
    (hv2 : variance ≤ 16) {i : Nat} {src f : Rg N} {p q : Poly} (hp : PolyAt P i src p) (hq : PowerAt P i f q)
    {aTape : Nat → Nat → Nat → Nat} (ha : ∀ j, TapeAt l i (aTape j)) {W : Nat} (hW : 4 * variance * N ≤ 64 * W) (T : Nat)
    (bad : Finset (Fin (levelModuli l i).length → Fin W → Fin (2 ^ 64)))
    (hbad : ∀ w ∈ bad, ¬ ∃ k p0 p1, ∃ r0 r1 E : Rg N, Ksk.new pr sk p i i aTape (streams w) = .ok k ∧ k.keySwitch pr' q = .ok (p0, p1) ∧
      PolyAt P i r0 p0 ∧ PolyAt P i r1 p1 ∧ (∀ k, k < N → |cf E k| < T) ∧
      Cong (levelQ l i) (r0 + r1 * keyRing N sk) (f * src + E)) :
    (bad.card : ℝ) ≤ 2 ^ (64 * W * (levelModuli l i).length) * (2 * N * Real.exp (-((T : ℝ) ^ 2 / (2 * variance * switchSquares N l i)))) := by
  have hqs : ∀ q ∈ l, 0 < q := fun q hq => by have := h.2.2.1 q hq; omega
  have hNl : 0 < N ∧ 0 < (levelModuli l i).length := by
    obtain ⟨K, ext, rfl, hw, rfl, rfl, rfl⟩ := BfvP.params h
    have := BfvP.level_lt hw hp
    refine ⟨by positivity, ?_⟩
    unfold levelModuli
    rw [List.length_take]
    omega
  refine NoiseTail.card_error hNl.1 hqs rfl hNl.2 hv1 hW f bad fun w hw => ?_
  by_contra hcon
  push Not at hcon
  obtain ⟨k, e, h1, h2, h7⟩ := c77_key_switch h hk pr hv1 hv2 hp ha (rng := streams w) (streams_lt w)
  obtain ⟨p0, p1, r0, r1, h3, h4, h5, h6⟩ := h7 pr' _ _ hq
  have he : e = fun j => (List.range N).map (cbdValue (streams w j) variance) := by
    funext j
    exact Except.ok.inj ((h2 j).symm.trans (sampleVecCbd_ok pr (streams_lt w j) hv1 hv2 N))
  subst he
  exact hbad w hw ⟨k, p0, p1, r0, r1, _, h1, h3, h4, h5, hcon, h6⟩

/-- The samples of the streams. -/
theorem NoiseTail.samples {pr : Profile} {n W : Nat} {w : Fin n → Fin W → Fin (2 ^ 64)} {N v : Nat} (hv1 : 1 ≤ v) (hv2 : v ≤ 16)
    {e : Nat → List Int} {o : Nat} (h : ∀ j, sampleVecCbd pr (streams w (o + j)) N v = .ok (e j)) :
    e = fun j => (List.range N).map (cbdValue (streams w (o + j)) v) := by
  funext j
  exact Except.ok.inj ((h j).symm.trans (sampleVecCbd_ok pr (streams_lt w _) hv1 hv2 N))

/-- C78: the same for `GaliosKey::relinearize`: the phase of the result is the substituted phase plus an error below `T`, except for that
fraction of the choices. -/
theorem c78_galois (h : IsParams N t l variance P) {sk : SecretKey} (hk : IsKey P sk) (pr pr' : Profile) (hv1 : 1 ≤ variance)
    (hv2 : variance ≤ 16) (hl : l.length ≠ 1) (hN : N ≤ 2 ^ 31) {i : Nat} {c : RqContext} (hi : P.qCtxs[i]? = some c) {x : Nat} (hx : Odd x)
    {aTape : Nat → Nat → Nat → Nat} (ha : ∀ j, TapeAt l i (aTape j)) {ct : BfvCipherText} {f0 f1 : Rg N} (hct : IsCt P i [f0, f1] ct)
    {W : Nat} (hW : 4 * variance * N ≤ 64 * W) (T : Nat) (bad : Finset (Fin (levelModuli l i).length → Fin W → Fin (2 ^ 64)))
    (hbad : ∀ w ∈ bad, ¬ ∃ sub g ct', ∃ r0 r1 E : Rg N, Substitution.new pr c x = .ok sub ∧ GaliosKey.new pr sk sub i aTape (streams w) = .ok g ∧
      g.relinearize pr' ct = .ok ct' ∧ IsCt P i [r0, r1] ct' ∧ (∀ k, k < N → |cf E k| < T) ∧
      Cong (levelQ l i) (phase (keyRing N sk) [r0, r1]) (sg x (phase (keyRing N sk) [f0, f1]) + E)) :
    (bad.card : ℝ) ≤ 2 ^ (64 * W * (levelModuli l i).length) * (2 * N * Real.exp (-((T : ℝ) ^ 2 / (2 * variance * switchSquares N l i)))) := by
  have hqs : ∀ q ∈ l, 0 < q := fun q hq => by have := h.2.2.1 q hq; omega
  have hNl : 0 < N ∧ 0 < (levelModuli l i).length := by
    obtain ⟨K, ext, rfl, hw, rfl, rfl, rfl⟩ := BfvP.params h
    have : i < P.ciphertextModuli.length := by rw [← hw.nLevels]; exact (List.getElem?_eq_some_iff.mp hi).1
    refine ⟨by positivity, ?_⟩
    unfold levelModuli
    rw [List.length_take]
    omega
  refine NoiseTail.card_error hNl.1 hqs rfl hNl.2 hv1 hW (sg x f1) bad fun w hw => ?_
  by_contra hcon
  push Not at hcon
  obtain ⟨sub, g, e, h1, h2, h3, h4⟩ := c77_galois h hk pr hv1 hv2 hl hN hi hx ha (rng := streams w) (streams_lt w)
  obtain ⟨ct', r0, r1, h5, h6, h7⟩ := h4 pr' ct f0 f1 hct
  obtain rfl := NoiseTail.samples (o := 0) hv1 hv2 (by simpa using h3)
  simp only [Nat.zero_add] at h7
  exact hbad w hw ⟨sub, g, ct', r0, r1, _, h1, h2, h5, h6, hcon, h7⟩

/-- C78: the substituted ciphertext decrypts to the substituted message, except for that fraction of the choices of the key, whenever `t T`
and the noise of the ciphertext leave room. -/
theorem c78_galois_decrypt (h : IsParams N t l variance P) {sk : SecretKey} (hk : IsKey P sk) (pr pr' : Profile) (hv1 : 1 ≤ variance)
    (hv2 : variance ≤ 16) (hl : l.length ≠ 1) (hN : N ≤ 2 ^ 31) {i : Nat} {c : RqContext} (hi : P.qCtxs[i]? = some c) {x : Nat} (hx : Odd x)
    {aTape : Nat → Nat → Nat → Nat} (ha : ∀ j, TapeAt l i (aTape j)) {ct : BfvCipherText} {f0 f1 : Rg N} (hct : IsCt P i [f0, f1] ct)
    (h2t : 2 * t ≤ l.getD 0 0) {m : Rg N} {V : ℤ} (hm : Encodes t (levelQ l i) m (phase (keyRing N sk) [f0, f1]) V) {T : Nat}
    (hT : 2 ^ 32 * (V + t * T) < levelQ l i * (2 ^ 31 - 1))
    {W : Nat} (hW : 4 * variance * N ≤ 64 * W) (bad : Finset (Fin (levelModuli l i).length → Fin W → Fin (2 ^ 64)))
    (hbad : ∀ w ∈ bad, ¬ ∃ sub g ct' pt, Substitution.new pr c x = .ok sub ∧ GaliosKey.new pr sk sub i aTape (streams w) = .ok g ∧
      g.relinearize pr' ct = .ok ct' ∧ sk.decrypt pr' ct' = .ok pt ∧ pt.values = residues t (sg x m)) :
    (bad.card : ℝ) ≤ 2 ^ (64 * W * (levelModuli l i).length) * (2 * N * Real.exp (-((T : ℝ) ^ 2 / (2 * variance * switchSquares N l i)))) := by
  refine c78_galois h hk pr pr' hv1 hv2 hl hN hi hx ha hct hW T bad fun w hw => ?_
  rintro ⟨sub, g, ct', r0, r1, E, h1, h2, h3, h4, h5, h6⟩
  have hm' : Encodes t (levelQ l i) (sg x m) (phase (keyRing N sk) [r0, r1]) (V + t * T) := by
    obtain ⟨K, ext, rfl, hw, rfl, rfl, rfl⟩ := BfvP.params h
    have hpos : 0 < 2 ^ K := by positivity
    exact BfvP.Encodes.congr (BfvP.Encodes.addError hpos (BfvP.Encodes.sg hpos hm hx (Nat.Coprime.pow_right K (Nat.coprime_two_right.mpr hx)))
      (fun k hk => (h5 k hk).le)) h6
  obtain ⟨pt, h7, h8⟩ := c65_decrypt h hk pr' (by simp) h4 h2t hm' hT
  exact hbad w hw ⟨sub, g, ct', pt, h1, h2, h3, h7, h8⟩

/-- The choices of words of two keys for which some coefficient of the sum of the errors is at least `T`. -/
theorem NoiseTail.card_error_two (hN : 0 < N) (hq : ∀ q ∈ l, 0 < q) {i n : Nat} (hn : n = (levelModuli l i).length) (hl : 0 < n) {v : Nat}
    (hv : 1 ≤ v) {W : Nat} (hW : 4 * v * N ≤ 64 * W) (f g : Rg N) {T : Nat} (s : Finset (Fin (n + n) → Fin W → Fin (2 ^ 64)))
    (hs : ∀ w ∈ s, ∃ k, k < N ∧ (T : ℤ) ≤ |cf (switchError l i f (fun j => (List.range N).map (cbdValue (streams w j) v)) +
      switchError l i g fun j => (List.range N).map (cbdValue (streams w (n + j)) v)) k|) :
    (s.card : ℝ) ≤ 2 ^ (64 * W * (n + n)) * (2 * N * Real.exp (-((T : ℝ) ^ 2 / (2 * v * (2 * switchSquares N l i))))) := by
  classical
  subst hn
  let n := (levelModuli l i).length
  let X := Real.exp (-((T : ℝ) ^ 2 / (2 * v * (2 * switchSquares N l i))))
  have hD : (0 : ℝ) < 2 * switchSquares N l i := by
    unfold switchSquares
    have h0 : 0 < (levelModuli l i)[0] := hq _ (List.mem_of_mem_take (List.getElem_mem hl))
    have h1 : (levelModuli l i)[0] ^ 2 ≤ ((levelModuli l i).map (· ^ 2)).sum :=
      List.le_sum_of_mem (List.mem_map.mpr ⟨_, List.getElem_mem hl, rfl⟩)
    have h2 : 0 < (levelModuli l i)[0] ^ 2 := by positivity
    have : 0 < N * ((levelModuli l i).map (· ^ 2)).sum := Nat.mul_pos hN (by omega)
    have : 0 < 2 * (N * ((levelModuli l i).map (· ^ 2)).sum) := by omega
    exact_mod_cast this
  let d : Nat → Rg N := fun j => if j < n then digitRing l i j f else digitRing l i (j - n) g
  have split : ∀ {M : Type} [AddCommMonoid M] (F : Nat → M), ∑ j ∈ Finset.range (n + n), F j =
      ∑ j ∈ Finset.range n, F j + ∑ j ∈ Finset.range n, F (n + j) := fun F => Finset.sum_range_add _ _ _
  have d0 : ∀ j ∈ Finset.range n, d j = digitRing l i j f := fun j hj => if_pos (Finset.mem_range.mp hj)
  have d1 : ∀ j, d (n + j) = digitRing l i j g := fun j => by
    show (if n + j < n then _ else _) = _
    rw [if_neg (by omega), Nat.add_sub_cancel_left]
  let S : Nat → Finset (Fin (n + n) → Fin W → Fin (2 ^ 64)) := fun k =>
    s.filter fun w => (T : ℤ) ≤ |cf (switchError l i f (fun j => (List.range N).map (cbdValue (streams w j) v)) +
      switchError l i g fun j => (List.range N).map (cbdValue (streams w (n + j)) v)) k|
  have hS : ∀ k ∈ Finset.range N, ((S k).card : ℝ) ≤ 2 ^ (64 * W * (n + n)) * (2 * X) := by
    intro k hk
    refine card_rows hv hW (fun j m => ((cf (xx ^ m * d j) k : ℤ) : ℝ)) hD ?_ (by positivity) _ fun w hw => ?_
    · rw [split, two_mul]
      refine add_le_add ?_ ?_
      · rw [Finset.sum_congr rfl fun j hj => by rw [d0 j hj]]
        exact NoiseTail.weights hN hq f (Finset.mem_range.mp hk)
      · rw [Finset.sum_congr rfl fun j hj => by rw [d1 j]]
        exact NoiseTail.weights hN hq g (Finset.mem_range.mp hk)
    · have h1 := (Finset.mem_filter.mp hw).2
      rw [cf_add hN, NoiseTail.cf_error hN, NoiseTail.cf_error hN] at h1
      have h2 := Int.cast_le (R := ℝ) |>.mpr h1
      rw [Int.cast_natCast] at h2
      refine h2.trans (le_of_eq ?_)
      push_cast
      rw [split]
      congr 2
      · refine Finset.sum_congr rfl fun j hj => Finset.sum_congr rfl fun m hm => ?_
        rw [getD_eq_getElem' _ _ _ (by simpa using Finset.mem_range.mp hm), List.getElem_map, List.getElem_range, d0 j hj]
      · refine Finset.sum_congr rfl fun j hj => Finset.sum_congr rfl fun m hm => ?_
        rw [getD_eq_getElem' _ _ _ (by simpa using Finset.mem_range.mp hm), List.getElem_map, List.getElem_range, d1 j]
  have hsub : s ⊆ (Finset.range N).biUnion S := by
    intro w hw
    obtain ⟨k, hk, h1⟩ := hs w hw
    exact Finset.mem_biUnion.mpr ⟨k, Finset.mem_range.mpr hk, Finset.mem_filter.mpr ⟨hw, h1⟩⟩
  calc (s.card : ℝ) ≤ (((Finset.range N).biUnion S).card : ℝ) := by exact_mod_cast Finset.card_le_card hsub
    _ ≤ ((∑ k ∈ Finset.range N, (S k).card : Nat) : ℝ) := by exact_mod_cast Finset.card_biUnion_le
    _ = ∑ k ∈ Finset.range N, ((S k).card : ℝ) := by push_cast; rfl
    _ ≤ ∑ _k ∈ Finset.range N, 2 ^ (64 * W * (n + n)) * (2 * X) := Finset.sum_le_sum hS
    _ = _ := by rw [Finset.sum_const, Finset.card_range, nsmul_eq_mul]; ring

/-- C78: the external product, over the errors of both halves of the RGSW ciphertext. -/
theorem c78_external_product (h : IsParams N t l variance P) {sk : SecretKey} (hk : IsKey P sk) (pr pr' : Profile) (hv1 : 1 ≤ variance)
    (hv2 : variance ≤ 16) {i n : Nat} (hn : n = (levelModuli l i).length) {m : Rg N} {p : Poly} (hp : PolyAt P i m p)
    {a0 a1 : Nat → Nat → Nat → Nat} (ha0 : ∀ j, TapeAt l i (a0 j)) (ha1 : ∀ j, TapeAt l i (a1 j)) {ct : BfvCipherText} {f0 f1 : Rg N}
    (hct : IsCt P i [f0, f1] ct) {W : Nat} (hW : 4 * variance * N ≤ 64 * W) (T : Nat) (bad : Finset (Fin (n + n) → Fin W → Fin (2 ^ 64)))
    (hbad : ∀ w ∈ bad, ¬ ∃ g p0 p1, ∃ z0 z1 E : Rg N,
      RgswCt.encryptPoly pr sk p a0 a1 (streams w) (fun j => streams w (n + j)) = .ok g ∧
      g.externalProduct pr' ct = .ok (p0, p1) ∧ IsCt P i [z0, z1] ⟨P, [p0, p1], i⟩ ∧ (∀ k, k < N → |cf E k| < T) ∧
      Cong (levelQ l i) (phase (keyRing N sk) [z0, z1]) (m * phase (keyRing N sk) [f0, f1] + E)) :
    (bad.card : ℝ) ≤ 2 ^ (64 * W * (n + n)) * (2 * N * Real.exp (-((T : ℝ) ^ 2 / (2 * variance * (2 * switchSquares N l i))))) := by
  have hqs : ∀ q ∈ l, 0 < q := fun q hq => by have := h.2.2.1 q hq; omega
  have hNl : 0 < N ∧ 0 < n := by
    obtain ⟨K, ext, rfl, hw, rfl, rfl, rfl⟩ := BfvP.params h
    have := BfvP.level_lt hw hp
    refine ⟨by positivity, ?_⟩
    rw [hn]
    unfold levelModuli
    rw [List.length_take]
    omega
  refine NoiseTail.card_error_two hNl.1 hqs hn hNl.2 hv1 hW f1 f0 bad fun w hw => ?_
  by_contra hcon
  push Not at hcon
  obtain ⟨g, e0, e1, h1, h2, h3, h4⟩ := c77_external_product h hk pr hv1 hv2 hp ha0 ha1 (r0 := streams w) (r1 := fun j => streams w (n + j))
    (streams_lt w) (fun j => streams_lt w (n + j))
  obtain ⟨p0, p1, z0, z1, h5, h6, h7⟩ := h4 pr' ct f0 f1 hct
  obtain rfl := NoiseTail.samples (o := 0) hv1 hv2 (by simpa using h2)
  obtain rfl := NoiseTail.samples (o := n) hv1 hv2 h3
  simp only [Nat.zero_add] at h7
  exact hbad w hw ⟨g, p0, p1, z0, z1, _, h1, h5, h6, hcon, h7⟩

/-! ### The test `ksk` -/

set_option exponentiation.threshold 400 in
/-- C78: the test `ksk` with its own limit of 70 bits: for any key, source, masks and input, at most one in `2^290` of the choices of the
random words of the errors makes it fail. The worst case is above the limit (C71). -/
theorem c78_ksk_test (h : TestParams 8 t l P) (hl : l.length = 2) (pr : Profile) {skRng : Nat → Nat} (hs : ∀ i, skRng i < 2 ^ 64)
    {fromTape inputTape : Nat → Nat → Nat} (hf : TapeAt l 0 fromTape) (hi : TapeAt l 0 inputTape) {a : Nat → Nat → Nat → Nat}
    (ha : ∀ j, TapeAt l 0 (a j)) {W : Nat} (hW : 5 ≤ W) :
    (Finset.univ.filter fun w : Fin 2 → Fin W → Fin (2 ^ 64) =>
      Tests.ksk pr P 70 skRng fromTape a (streams w) inputTape ≠ .ok ()).card * 2 ^ 290 ≤ Fintype.card (Fin 2 → Fin W → Fin (2 ^ 64)) := by
  have hlev : levelModuli l 0 = l := by unfold levelModuli; simp
  have hcard : Fintype.card (Fin 2 → Fin W → Fin (2 ^ 64)) = 2 ^ (64 * W * 2) := by
    rw [Fintype.card_pi, Finset.prod_const, Fintype.card_pi, Finset.prod_const, Fintype.card_fin, Finset.card_univ, Finset.card_univ,
      Fintype.card_fin, Fintype.card_fin, ← pow_mul, ← pow_mul, mul_assoc]
  obtain ⟨c, hc, hci⟩ := h.ctx0
  obtain ⟨inp, i1⟩ := random_den h hi (rep := .powerBasis) (by simp) hc
  have hqs : ∀ q ∈ l, 0 < q := fun q hq => by have := (h.bits q hq).1; omega
  have hsq : switchSquares 8 l 0 ≤ 2 ^ 128 := by
    unfold switchSquares
    rw [hlev]
    match l, hl with
    | [p, q], _ =>
      have hp := (h.bits p (by simp)).2
      have hq := (h.bits q (by simp)).2
      have hp2 : p ^ 2 ≤ (2 ^ 62) ^ 2 := Nat.pow_le_pow_left hp.le 2
      have hq2 : q ^ 2 ≤ (2 ^ 62) ^ 2 := Nat.pow_le_pow_left hq.le 2
      simp only [List.map_cons, List.map_nil, List.sum_cons, List.sum_nil]
      omega
  have hpos : 0 < switchSquares 8 l 0 := by
    unfold switchSquares
    rw [hlev]
    match l, hl with
    | [p, q], _ =>
      have := pow_pos (hqs p (by simp)) 2
      simp only [List.map_cons, List.map_nil, List.sum_cons, List.sum_nil]
      omega
  have key := NoiseTail.card_error (N := 8) (l := l) (i := 0) (n := 2) (by norm_num) hqs (by rw [hlev, hl]) (by norm_num) (v := 10) (by norm_num)
    (W := W) (by omega) inp (T := 2 ^ 70) (Finset.univ.filter fun w : Fin 2 → Fin W → Fin (2 ^ 64) =>
      Tests.ksk pr P 70 skRng fromTape a (streams w) inputTape ≠ .ok ()) (fun w hw => by
        by_contra hcon
        push Not at hcon
        refine (Finset.mem_filter.mp hw).2 (c71_ksk_of_error h pr hs hf ha (streams_lt w) (inp := inp) (fun c' hc' => ?_) fun e he k hk => ?_)
        · obtain rfl := Option.some.inj (hc.symm.trans hc')
          exact i1
        · obtain rfl := NoiseTail.samples (o := 0) (v := 10) (by norm_num) (by norm_num) (by simpa using he)
          have := hcon k hk
          simpa using this)
  have hexp : (2 * ((8 : Nat) : ℝ)) * Real.exp (-(((2 ^ 70 : Nat) : ℝ) ^ 2 / (2 * ((10 : Nat) : ℝ) * switchSquares 8 l 0))) * 2 ^ 290 ≤ 1 := by
    have h1 : (204 : ℝ) ≤ ((2 ^ 70 : Nat) : ℝ) ^ 2 / (2 * ((10 : Nat) : ℝ) * switchSquares 8 l 0) := by
      have e1 : (switchSquares 8 l 0 : ℝ) ≤ 2 ^ 128 := by exact_mod_cast hsq
      have e2 : (0 : ℝ) < switchSquares 8 l 0 := by exact_mod_cast hpos
      rw [le_div_iff₀ (by positivity)]
      push_cast
      nlinarith
    have h2 : (2 : ℝ) ^ 294 ≤ Real.exp 204 := by
      have : Real.exp 204 = Real.exp 1 ^ 204 := by rw [← Real.exp_nat_mul]; norm_num
      rw [this]
      calc (2 : ℝ) ^ 294 ≤ 2.7182818283 ^ 204 := by norm_num
        _ ≤ Real.exp 1 ^ 204 := pow_le_pow_left₀ (by norm_num) Real.exp_one_gt_d9.le 204
    have h3 : Real.exp (-(((2 ^ 70 : Nat) : ℝ) ^ 2 / (2 * ((10 : Nat) : ℝ) * switchSquares 8 l 0))) ≤ (2 ^ 294)⁻¹ := by
      rw [Real.exp_neg]
      exact inv_anti₀ (by positivity) (h2.trans (Real.exp_le_exp.mpr h1))
    calc _ ≤ (2 * ((8 : Nat) : ℝ)) * (2 ^ 294)⁻¹ * 2 ^ 290 := by gcongr
      _ ≤ 1 := by norm_num
  rw [hcard]
  generalize (Finset.univ.filter fun w : Fin 2 → Fin W → Fin (2 ^ 64) =>
      Tests.ksk pr P 70 skRng fromTape a (streams w) inputTape ≠ .ok ()).card = C at key
  have hB : (0 : ℝ) ≤ 2 ^ (64 * W * 2) := by positivity
  have : (C : ℝ) * 2 ^ 290 ≤ 2 ^ (64 * W * 2) := by
    calc (C : ℝ) * 2 ^ 290 ≤ (2 ^ (64 * W * 2) * (2 * ((8 : Nat) : ℝ) * Real.exp (-(((2 ^ 70 : Nat) : ℝ) ^ 2 / (2 * ((10 : Nat) : ℝ) * switchSquares 8 l 0))))) * 2 ^ 290 := by
          gcongr
      _ = 2 ^ (64 * W * 2) * ((2 * ((8 : Nat) : ℝ)) * Real.exp (-(((2 ^ 70 : Nat) : ℝ) ^ 2 / (2 * ((10 : Nat) : ℝ) * switchSquares 8 l 0))) * 2 ^ 290) := by ring
      _ ≤ 2 ^ (64 * W * 2) * 1 := by gcongr
      _ = _ := mul_one _
  exact_mod_cast this

/-- The parameters of the test, a key of the errors for which it passes with its limit. -/
example : ∃ (P : BfvParameters) (w : Fin 2 → Fin 5 → Fin (2 ^ 64)),
    Tests.ksk .debug P 70 (fun i => i % 1000) (fun _ _ => 0) (fun _ _ _ => 0) (streams w) (fun _ _ => 0) = .ok () := by
  obtain ⟨P, l, -, h, hl, -⟩ := Ex.test_default (n := 2) (by norm_num) (by norm_num)
  have ht := Ex.tape0 (i := 0) (Ex.test_gt h)
  have h1 := c78_ksk_test h hl .debug Ex.wordTape ht ht (fun _ => ht) (W := 5) le_rfl
  by_contra hcon
  push Not at hcon
  rw [Finset.filter_true_of_mem fun w _ => hcon P w, Finset.card_univ] at h1
  have h2 : 0 < Fintype.card (Fin 2 → Fin 5 → Fin (2 ^ 64)) := Fintype.card_pos
  generalize Fintype.card (Fin 2 → Fin 5 → Fin (2 ^ 64)) = C at h1 h2
  have h3 : ∀ k, 1 ≤ k → C < C * 2 ^ k := fun k hk => (Nat.lt_mul_iff_one_lt_right h2).mpr (Nat.one_lt_two_pow (by omega))
  exact absurd h1 (Nat.not_le.mpr (h3 290 (by norm_num)))

/-- An actual encryption, a Galois key of `X ↦ X^9` at level 0 and a threshold that leaves room to decrypt. -/
example : ∃ (P : BfvParameters) (sk : SecretKey) (ct : BfvCipherText) (c : RqContext), IsParams 8 17 Ex.mods 10 P ∧ IsKey P sk ∧
    ∀ bad : Finset (Fin (levelModuli Ex.mods 0).length → Fin 5 → Fin (2 ^ 64)), (∀ w ∈ bad, ¬ ∃ sub g ct' pt, Substitution.new .debug c 9 = .ok sub ∧
      GaliosKey.new .debug sk sub 0 (fun _ _ _ => 0) (streams w) = .ok g ∧ g.relinearize .release ct = .ok ct' ∧ sk.decrypt .release ct' = .ok pt ∧
      pt.values = residues 17 (sg 9 (msgRing 8 [3, 1, 16, 0, 2, 0, 0, 9]))) →
    (bad.card : ℝ) ≤ 2 ^ (64 * 5 * (levelModuli Ex.mods 0).length) *
      (2 * (8 : Nat) * Real.exp (-(((2 ^ 50 : Nat) : ℝ) ^ 2 / (2 * (10 : Nat) * switchSquares 8 Ex.mods 0)))) := by
  obtain ⟨P, sk, ct, f0, f1, h, hk, -, hct, he⟩ := Ex.setup
  obtain ⟨c, hc⟩ : ∃ c, P.qCtxs[0]? = some c := by
    obtain ⟨p, c, hc, -⟩ := c33_exists_poly h (i := 0) (by decide) (1 : Rg 8)
    exact ⟨c, hc⟩
  exact ⟨P, sk, ct, c, h, hk, fun bad hbad => c78_galois_decrypt h hk .debug .release (by norm_num) (by norm_num) (by decide) (by norm_num) hc
    (x := 9) (by decide) Ex.tapes hct (by decide) he (T := 2 ^ 50) (by rw [Ex.levelQ_mods0]; norm_num) (W := 5) (by norm_num) bad hbad⟩

/-- `c78_key_switch` and `c78_external_product` on actual polynomials, at level 1 and with an actual encryption. -/
example : ∃ (P : BfvParameters) (sk : SecretKey) (p q : Poly) (ct : BfvCipherText), IsParams 8 17 Ex.mods 10 P ∧ IsKey P sk ∧
    PolyAt P 1 (msgRing 8 [1, 2] : Rg 8) p ∧ PowerAt P 1 (msgRing 8 [0, 1] : Rg 8) q ∧
    (∀ bad : Finset (Fin (levelModuli Ex.mods 1).length → Fin 5 → Fin (2 ^ 64)),
      (∀ w ∈ bad, ¬ ∃ k p0 p1, ∃ r0 r1 E : Rg 8, Ksk.new .debug sk p 1 1 (fun _ _ _ => 0) (streams w) = .ok k ∧ k.keySwitch .release q = .ok (p0, p1) ∧
        PolyAt P 1 r0 p0 ∧ PolyAt P 1 r1 p1 ∧ (∀ k, k < 8 → |cf E k| < (2 ^ 28 : Nat)) ∧
        Cong (levelQ Ex.mods 1) (r0 + r1 * keyRing 8 sk) (msgRing 8 [0, 1] * msgRing 8 [1, 2] + E)) →
      (bad.card : ℝ) ≤ 2 ^ (64 * 5 * (levelModuli Ex.mods 1).length) *
        (2 * (8 : Nat) * Real.exp (-(((2 ^ 28 : Nat) : ℝ) ^ 2 / (2 * (10 : Nat) * switchSquares 8 Ex.mods 1))))) ∧
    ∃ p0 : Poly, ∃ f0 f1 : Rg 8, IsCt P 0 [f0, f1] ct ∧ PolyAt P 0 (msgRing 8 [1, 2] : Rg 8) p0 ∧
      ∀ bad : Finset (Fin (3 + 3) → Fin 5 → Fin (2 ^ 64)),
      (∀ w ∈ bad, ¬ ∃ g y0 y1, ∃ z0 z1 E : Rg 8,
        RgswCt.encryptPoly .debug sk p0 (fun _ _ _ => 0) (fun _ _ _ => 0) (streams w) (fun j => streams w (3 + j)) = .ok g ∧
        g.externalProduct .debug ct = .ok (y0, y1) ∧ IsCt P 0 [z0, z1] ⟨P, [y0, y1], 0⟩ ∧ (∀ k, k < 8 → |cf E k| < (2 ^ 28 : Nat)) ∧
        Cong (levelQ Ex.mods 0) (phase (keyRing 8 sk) [z0, z1]) (msgRing 8 [1, 2] * phase (keyRing 8 sk) [f0, f1] + E)) →
      (bad.card : ℝ) ≤ 2 ^ (64 * 5 * (3 + 3)) *
        (2 * (8 : Nat) * Real.exp (-(((2 ^ 28 : Nat) : ℝ) ^ 2 / (2 * (10 : Nat) * (2 * switchSquares 8 Ex.mods 0))))) := by
  obtain ⟨P, sk, ct, f0, f1, h, hk, -, hct, -⟩ := Ex.setup
  obtain ⟨p, hp⟩ := c33_exists_poly h (i := 1) (by decide) (msgRing 8 [1, 2] : Rg 8)
  obtain ⟨p0, hp0⟩ := c33_exists_poly h (i := 0) (by decide) (msgRing 8 [1, 2] : Rg 8)
  obtain ⟨q, hq⟩ := Ex.exists_power h (i := 1) (by decide) (msgRing 8 [0, 1] : Rg 8)
  exact ⟨P, sk, p, q, ct, h, hk, hp, hq,
    fun bad hbad => c78_key_switch h hk .debug .release (by norm_num) (by norm_num) hp hq Ex.tapes (W := 5) (by norm_num) (2 ^ 28) bad hbad,
    p0, f0, f1, hct, hp0, fun bad hbad => c78_external_product h hk .debug .debug (by norm_num) (by norm_num) (n := 3) rfl hp0 Ex.tapes
      Ex.tapes hct (W := 5) (by norm_num) (2 ^ 28) bad hbad⟩

/-- `c78_galois` for `X ↦ X^9`. -/
example : ∃ (P : BfvParameters) (sk : SecretKey) (ct : BfvCipherText) (c : RqContext) (f0 f1 : Rg 8), IsParams 8 17 Ex.mods 10 P ∧ IsKey P sk ∧
    IsCt P 0 [f0, f1] ct ∧ P.qCtxs[0]? = some c ∧ ∀ bad : Finset (Fin (levelModuli Ex.mods 0).length → Fin 5 → Fin (2 ^ 64)),
    (∀ w ∈ bad, ¬ ∃ sub g ct', ∃ r0 r1 E : Rg 8, Substitution.new .debug c 9 = .ok sub ∧
      GaliosKey.new .debug sk sub 0 (fun _ _ _ => 0) (streams w) = .ok g ∧ g.relinearize .release ct = .ok ct' ∧ IsCt P 0 [r0, r1] ct' ∧
      (∀ k, k < 8 → |cf E k| < (2 ^ 28 : Nat)) ∧
      Cong (levelQ Ex.mods 0) (phase (keyRing 8 sk) [r0, r1]) (sg 9 (phase (keyRing 8 sk) [f0, f1]) + E)) →
    (bad.card : ℝ) ≤ 2 ^ (64 * 5 * (levelModuli Ex.mods 0).length) *
      (2 * (8 : Nat) * Real.exp (-(((2 ^ 28 : Nat) : ℝ) ^ 2 / (2 * (10 : Nat) * switchSquares 8 Ex.mods 0)))) := by
  obtain ⟨P, sk, ct, f0, f1, h, hk, -, hct, -⟩ := Ex.setup
  obtain ⟨p, c, hc, -⟩ := c33_exists_poly h (i := 0) (by decide) (1 : Rg 8)
  exact ⟨P, sk, ct, c, f0, f1, h, hk, hct, hc, fun bad hbad => c78_galois h hk .debug .release (by norm_num) (by norm_num) (by decide) (by norm_num)
    hc (x := 9) (by decide) Ex.tapes hct (W := 5) (by norm_num) (2 ^ 28) bad hbad⟩

end OnionPIR
