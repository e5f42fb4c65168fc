import Verif.Proofs.ExpandTail
/-
Property C123: the noise of the oblivious expansion is sub-Gaussian over the errors of all its keys, by counting.
-/
namespace OnionPIR
open Rg Poly Spec Sampling

variable {N t : Nat} {l : List Nat} {variance : Nat} {P : BfvParameters}

/-- C123: whatever the secret key, the masks of the Galois keys and the ciphertext, of all choices of the random words of the errors of the
`k = log2 N` Galois keys that `build` makes, at most the fraction `2 N² exp(-3 T² / (2 variance N Σ q_j² (N² - 1)))` give an expansion some
of whose `N` outputs differs from the constant it stands for by an error with a coefficient of `T` or more. -/
theorem c123_expand (h : IsParams N t l variance P) {sk : SecretKey} (hk : IsKey P sk) (pr pr' : Profile) (hv1 : 1 ≤ variance)
    (hv2 : variance ≤ 16) (hl : l.length ≠ 1) {k : Nat} (hN : N = 2 ^ k) (hk31 : k ≤ 31) {aTape : Nat → Nat → Nat → Nat → Nat}
    (ha : ∀ k j, TapeAt l 0 (aTape k j)) {a0 a1 : Nat → Nat → Nat → Nat} (ha0 : ∀ j, TapeAt l 0 (a0 j)) (ha1 : ∀ j, TapeAt l 0 (a1 j))
    {r0 r1 : Nat → Nat → Nat} (hr0 : ∀ j i, r0 j i < 2 ^ 64) (hr1 : ∀ j i, r1 j i < 2 ^ 64) {xPows : List Poly} (hx : IsMonomials N P xPows)
    {ct : BfvCipherText} {f0 f1 : Rg N} (hct : IsCt P 0 [f0, f1] ct) {W : Nat} (hW : 4 * variance * N ≤ 64 * W) (T : Nat)
    (bad : Finset (Fin (k * l.length) → Fin W → Fin (2 ^ 64)))
    (hbad : ∀ w ∈ bad, ¬ ∃ ev bits, Evaluation.build pr sk P aTape (fun i j => streams w (i * l.length + j)) a0 a1 r0 r1 = .ok ev ∧
      Evaluation.unpackWith pr' ev xPows ct = .ok bits ∧ bits.length = N ∧
      ∀ j, j < N → ∃ c, ∃ g0 g1 E : Rg N, bits[j]? = some c ∧ IsCt P 0 [g0, g1] c ∧ (∀ k, k < N → |cf E k| < T) ∧
        Cong (levelQ l 0) (phase (keyRing N sk) [g0, g1]) (((cf (phase (keyRing N sk) [f0, f1]) j : ℤ) : Rg N) + E)) :
    (bad.card : ℝ) ≤ 2 ^ (64 * W * (k * l.length)) *
      (2 * (N : ℝ) ^ 2 * Real.exp (-(3 * (T : ℝ) ^ 2 / (2 * variance * switchSquares N l 0 * ((N : ℝ) ^ 2 - 1))))) := by
  subst hN
  have hqs : ∀ q ∈ l, 0 < q := fun q hq => by have := h.2.2.1 q hq; omega
  have hlen : (levelModuli l 0).length = l.length := by unfold levelModuli; simp
  have hne : 0 < l.length ∧ 1 ≤ k := by
    obtain ⟨ext, L, hw, hL, -, rfl, -⟩ := Evaluation.level_zero h
    exact ⟨List.length_pos_iff.mpr hw.ne, le_trans (by norm_num) hL.wf.ctx.core.three⟩
  obtain ⟨Rm, hR⟩ := ExpandTail.build h hk hv1 hv2 hl hk31 ha
  obtain ⟨f1', hf⟩ := ExpandTail.unpack h (s := keyRing (2 ^ k) sk) hx hct
  refine ExpandTail.card_errors hqs (by rw [hlen]; exact hne.1) hne.2 Rm f1' (by rw [hlen]) hv1 hW bad fun w hw => ?_
  by_contra hcon
  push Not at hcon
  obtain ⟨ev, h1, h2⟩ := hR pr (fun i j => streams w (i * l.length + j)) (fun _ _ => streams_lt w _) a0 a1 ha0 ha1 r0 r1 hr0 hr1
  obtain ⟨bits, h3, h4, h5⟩ := hf pr' ev Rm _ h2
  refine hbad w hw ⟨ev, bits, h1, h3, h4, fun j hj => ?_⟩
  obtain ⟨c, g0, g1, h6, h7, h8⟩ := h5 j hj
  refine ⟨c, g0, g1, _, h6, h7, fun m hm => ?_, h8⟩
  have := hcon j m hj hm
  unfold ExpandTail.samples at this
  rw [hlen] at this
  exact this

/-- C123: every output of the expansion decrypts to its coefficient of the message, except for that fraction of the choices of the keys,
whenever the noise of the query and `t T` leave room. -/
theorem c123_expand_decrypt (h : IsParams N t l variance P) {sk : SecretKey} (hk : IsKey P sk) (pr pr' : Profile) (hv1 : 1 ≤ variance)
    (hv2 : variance ≤ 16) (hl : l.length ≠ 1) {k : Nat} (hN : N = 2 ^ k) (hk31 : k ≤ 31) {aTape : Nat → Nat → Nat → Nat → Nat}
    (ha : ∀ k j, TapeAt l 0 (aTape k j)) {a0 a1 : Nat → Nat → Nat → Nat} (ha0 : ∀ j, TapeAt l 0 (a0 j)) (ha1 : ∀ j, TapeAt l 0 (a1 j))
    {r0 r1 : Nat → Nat → Nat} (hr0 : ∀ j i, r0 j i < 2 ^ 64) (hr1 : ∀ j i, r1 j i < 2 ^ 64) {xPows : List Poly} (hx : IsMonomials N P xPows)
    {ct : BfvCipherText} {f0 f1 : Rg N} (hct : IsCt P 0 [f0, f1] ct) (h2t : 2 * t ≤ l.getD 0 0) {m : Rg N} {V : ℤ}
    (hm : Encodes t (levelQ l 0) m (phase (keyRing N sk) [f0, f1]) V) {T : Nat} (hT : 2 ^ 32 * (V + t * T) < levelQ l 0 * (2 ^ 31 - 1))
    {W : Nat} (hW : 4 * variance * N ≤ 64 * W) (bad : Finset (Fin (k * l.length) → Fin W → Fin (2 ^ 64)))
    (hbad : ∀ w ∈ bad, ¬ ∃ ev bits, Evaluation.build pr sk P aTape (fun i j => streams w (i * l.length + j)) a0 a1 r0 r1 = .ok ev ∧
      Evaluation.unpackWith pr' ev xPows ct = .ok bits ∧ bits.length = N ∧
      ∀ j, j < N → ∃ c pt, bits[j]? = some c ∧ sk.decrypt pr' c = .ok pt ∧ pt.values = residues t ((cf m j : ℤ) : Rg N)) :
    (bad.card : ℝ) ≤ 2 ^ (64 * W * (k * l.length)) *
      (2 * (N : ℝ) ^ 2 * Real.exp (-(3 * (T : ℝ) ^ 2 / (2 * variance * switchSquares N l 0 * ((N : ℝ) ^ 2 - 1))))) := by
  have hpos : 0 < N := by subst hN; positivity
  refine c123_expand h hk pr pr' hv1 hv2 hl hN hk31 ha ha0 ha1 hr0 hr1 hx hct hW T bad fun w hw => ?_
  rintro ⟨ev, bits, h1, h2, h3, h4⟩
  refine hbad w hw ⟨ev, bits, h1, h2, h3, fun j hj => ?_⟩
  obtain ⟨c, g0, g1, E, h5, h6, h7, h8⟩ := h4 j hj
  have hm' : Encodes t (levelQ l 0) ((cf m j : ℤ) : Rg N) (phase (keyRing N sk) [g0, g1]) (V + t * T) :=
    BfvP.Encodes.congr (BfvP.Encodes.addError hpos (Evaluation.encodes_coeff hpos hm hj) (fun k hk => (h7 k hk).le)) h8
  obtain ⟨pt, h9, h10⟩ := c65_decrypt h hk pr' (by simp) h6 h2t hm' hT
  exact ⟨c, pt, h5, h9, h10⟩

/-- C123: if the room is there for a `T` with `3 T² ≥ 2 variance N Σ q_j² (N² - 1) (b + 2 log2 N + 1)`, at most one in `2^b` of the choices
of the keys fails to expand the query: the error that has to fit grows with `N^(3/2) q`, not with the `N² q` of the worst case. -/
theorem c123_expand_bits (h : IsParams N t l variance P) {sk : SecretKey} (hk : IsKey P sk) (pr pr' : Profile) (hv1 : 1 ≤ variance)
    (hv2 : variance ≤ 16) (hl : l.length ≠ 1) {k : Nat} (hN : N = 2 ^ k) (hk31 : k ≤ 31) {aTape : Nat → Nat → Nat → Nat → Nat}
    (ha : ∀ k j, TapeAt l 0 (aTape k j)) {a0 a1 : Nat → Nat → Nat → Nat} (ha0 : ∀ j, TapeAt l 0 (a0 j)) (ha1 : ∀ j, TapeAt l 0 (a1 j))
    {r0 r1 : Nat → Nat → Nat} (hr0 : ∀ j i, r0 j i < 2 ^ 64) (hr1 : ∀ j i, r1 j i < 2 ^ 64) {xPows : List Poly} (hx : IsMonomials N P xPows)
    {ct : BfvCipherText} {f0 f1 : Rg N} (hct : IsCt P 0 [f0, f1] ct) (h2t : 2 * t ≤ l.getD 0 0) {m : Rg N} {V : ℤ}
    (hm : Encodes t (levelQ l 0) m (phase (keyRing N sk) [f0, f1]) V) {T : Nat} (hT : 2 ^ 32 * (V + t * T) < levelQ l 0 * (2 ^ 31 - 1))
    {b : Nat} (hb : 2 * variance * switchSquares N l 0 * (N ^ 2 - 1) * (b + 2 * k + 1) ≤ 3 * T ^ 2)
    {W : Nat} (hW : 4 * variance * N ≤ 64 * W) (bad : Finset (Fin (k * l.length) → Fin W → Fin (2 ^ 64)))
    (hbad : ∀ w ∈ bad, ¬ ∃ ev bits, Evaluation.build pr sk P aTape (fun i j => streams w (i * l.length + j)) a0 a1 r0 r1 = .ok ev ∧
      Evaluation.unpackWith pr' ev xPows ct = .ok bits ∧ bits.length = N ∧
      ∀ j, j < N → ∃ c pt, bits[j]? = some c ∧ sk.decrypt pr' c = .ok pt ∧ pt.values = residues t ((cf m j : ℤ) : Rg N)) :
    bad.card * 2 ^ b ≤ 2 ^ (64 * W * (k * l.length)) := by
  have h1 := c123_expand_decrypt h hk pr pr' hv1 hv2 hl hN hk31 ha ha0 ha1 hr0 hr1 hx hct h2t hm hT hW bad hbad
  have hqs : ∀ q ∈ l, 0 < q := fun q hq => by have := h.2.2.1 q hq; omega
  have hne : 0 < (levelModuli l 0).length ∧ 8 ≤ N := by
    subst hN
    obtain ⟨ext, L, hw, hL, -, rfl, -⟩ := Evaluation.level_zero h
    refine ⟨?_, le_trans (show 8 ≤ 2 ^ 3 by norm_num) (Nat.pow_le_pow_right (by norm_num) hL.wf.ctx.core.three)⟩
    unfold levelModuli
    simpa using List.length_pos_iff.mpr hw.ne
  have hpos : 0 < N := by omega
  have hS : (0 : ℝ) < switchSquares N l 0 := by exact_mod_cast ExpandTail.switchSquares_pos hpos hqs hne.1
  have hN8 : (8 : ℝ) ≤ N := by exact_mod_cast hne.2
  have hM : (0 : ℝ) < (N : ℝ) ^ 2 - 1 := by nlinarith
  have hv : (0 : ℝ) < variance := by exact_mod_cast hv1
  have hb' : 2 * (variance : ℝ) * switchSquares N l 0 * ((N : ℝ) ^ 2 - 1) * (b + 2 * k + 1) ≤ 3 * (T : ℝ) ^ 2 := by
    have h2 : 1 ≤ N ^ 2 := Nat.one_le_pow _ _ hpos
    have h3 : ((2 * variance * switchSquares N l 0 * (N ^ 2 - 1) * (b + 2 * k + 1) : Nat) : ℝ) ≤ ((3 * T ^ 2 : Nat) : ℝ) := by exact_mod_cast hb
    push_cast [Nat.cast_sub h2] at h3
    exact h3
  have hx : ((b + 2 * k + 1 : Nat) : ℝ) ≤ 3 * (T : ℝ) ^ 2 / (2 * variance * switchSquares N l 0 * ((N : ℝ) ^ 2 - 1)) := by
    rw [le_div_iff₀ (by positivity)]
    push_cast
    linarith
  have hexp : Real.exp (-(3 * (T : ℝ) ^ 2 / (2 * variance * switchSquares N l 0 * ((N : ℝ) ^ 2 - 1)))) ≤ ((2 : ℝ) ^ (b + 2 * k + 1))⁻¹ := by
    rw [Real.exp_neg]
    refine inv_anti₀ (by positivity) ?_
    calc (2 : ℝ) ^ (b + 2 * k + 1) ≤ Real.exp 1 ^ (b + 2 * k + 1) := pow_le_pow_left₀ (by norm_num) (by have := Real.exp_one_gt_d9; linarith) _
      _ = Real.exp ((b + 2 * k + 1 : Nat) : ℝ) := by rw [← Real.exp_nat_mul, mul_one]
      _ ≤ _ := Real.exp_le_exp.mpr hx
  have h2 : (bad.card : ℝ) * 2 ^ b ≤ 2 ^ (64 * W * (k * l.length)) := by
    have h3 : (bad.card : ℝ) ≤ 2 ^ (64 * W * (k * l.length)) * (2 * (N : ℝ) ^ 2 * ((2 : ℝ) ^ (b + 2 * k + 1))⁻¹) :=
      h1.trans (mul_le_mul_of_nonneg_left (mul_le_mul_of_nonneg_left hexp (by positivity)) (by positivity))
    have h4 : 2 * (N : ℝ) ^ 2 * ((2 : ℝ) ^ (b + 2 * k + 1))⁻¹ = ((2 : ℝ) ^ b)⁻¹ := by
      rw [hN]
      push_cast
      rw [pow_add, pow_add, pow_mul, ← pow_mul 2 k 2, mul_comm k 2, pow_mul]
      field_simp
    rw [h4] at h3
    calc (bad.card : ℝ) * 2 ^ b ≤ 2 ^ (64 * W * (k * l.length)) * ((2 : ℝ) ^ b)⁻¹ * 2 ^ b := mul_le_mul_of_nonneg_right h3 (by positivity)
      _ = _ := by field_simp
  exact_mod_cast h2

/-- An actual encryption at degree 8: at most one in `2^100` of the choices of the errors of the three Galois keys fails to expand it. -/
example : ∃ (P : BfvParameters) (sk : SecretKey) (ct : BfvCipherText) (xs : List Poly), IsParams 8 17 Ex.mods 10 P ∧ IsKey P sk ∧
    ∀ bad : Finset (Fin (3 * 3) → Fin 5 → Fin (2 ^ 64)), (∀ w ∈ bad, ¬ ∃ ev bits,
      Evaluation.build .debug sk P (fun _ _ _ _ => 0) (fun i j => streams w (i * 3 + j)) (fun _ _ _ => 0) (fun _ _ _ => 0)
        (fun _ i => i % 1000) (fun _ i => i % 1000) = .ok ev ∧
      Evaluation.unpackWith .release ev xs ct = .ok bits ∧ bits.length = 8 ∧
      ∀ j, j < 8 → ∃ c pt, bits[j]? = some c ∧ sk.decrypt .release c = .ok pt ∧
        pt.values = residues 17 ((cf (msgRing 8 [3, 1, 16, 0, 2, 0, 0, 9] : Rg 8) j : ℤ) : Rg 8)) →
      bad.card * 2 ^ 100 ≤ 2 ^ (64 * 5 * (3 * 3)) := by
  obtain ⟨P, sk, ct, f0, f1, h, hk, -, hct, he⟩ := Ex.setup
  obtain ⟨xs, hx⟩ := Ex.monomials h (by decide)
  exact ⟨P, sk, ct, xs, h, hk, fun bad hbad => c123_expand_bits h hk .debug .release (by norm_num) (by norm_num) (by decide) (k := 3) (by norm_num)
    (by norm_num) (aTape := fun _ _ _ _ => 0) (fun _ _ => Ex.tape0 Ex.mods_gt) (fun _ => Ex.tape0 Ex.mods_gt) (fun _ => Ex.tape0 Ex.mods_gt)
    (r0 := fun _ i => i % 1000) (fun _ => Ex.wordTape) (r1 := fun _ i => i % 1000) (fun _ => Ex.wordTape) hx hct (by decide) he (T := 2 ^ 50)
    (by rw [Ex.levelQ_mods0]; norm_num) (b := 100) (by decide +kernel) (W := 5) (by norm_num) bad hbad⟩

end OnionPIR
