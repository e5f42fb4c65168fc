import Verif.Proofs.Attained
import Verif.Props.Rlwe
import Verif.Props.Decrypt
/-
C130: the worst-case bounds on the noise of encryption, key switching, Galois keys and external products are attained, up to the difference between `q` and `q - 1`.
-/
namespace OnionPIR
open Rg Poly Spec

variable {N t : Nat} {l : List Nat} {variance : Nat} {P : BfvParameters}

/-- C130: every list of integers of size at most twice the variance is drawn with some random words. -/
theorem c130_errors (pr : Profile) {v : Nat} (hv1 : 1 ≤ v) (hv2 : v ≤ 16) (e : List Int) (he : ∀ x ∈ e, |x| ≤ 2 * v) :
    ∃ rng : Nat → Nat, (∀ i, rng i < 2 ^ 64) ∧ sampleVecCbd pr rng e.length v = .ok e := by
  obtain ⟨rng, h1, h2⟩ := exists_samples hv1 (fun i => e.getD i 0) fun i => by
    rcases lt_or_ge i e.length with hi | hi
    · rw [List.getD_eq_getElem _ _ hi]; exact he _ (List.getElem_mem hi)
    · rw [List.getD_eq_default _ _ hi]; simp
  refine ⟨rng, h1, ?_⟩
  rw [sampleVecCbd_ok pr h1 hv1 hv2]
  congr 1
  apply List.ext_getElem (by simp)
  intro i k1 k2
  rw [List.getElem_map, List.getElem_range, h2, List.getD_eq_getElem _ _ k2]

/-- C130: in a fresh encryption, every noise with coefficients up to twice the variance occurs, for every key, message and mask. -/
theorem c130_encrypt (h : IsParams N t l variance P) {sk : SecretKey} (hk : IsKey P sk) (pr : Profile) (hv1 : 1 ≤ variance)
    (hv2 : variance ≤ 16) {pt : Plaintext} (hp : pt.params = P) (hlev : pt.level = 0) (hlen : pt.values.length ≤ N) (hval : ∀ x ∈ pt.values, x < 2 ^ 64)
    {aTape : Nat → Nat → Nat} (ha : TapeAt l 0 aTape) : ∃ M : Rg N, (∀ k, k < N → ∃ r : ℤ, 0 ≤ r ∧ r < 2 * t ∧ t * cf M k = levelQ l 0 * (pt.values.getD k 0 : ℤ) - r) ∧
      ∀ e : Rg N, Bdd (2 * variance) e → ∃ rng ct, ∃ c0 c1 : Rg N, (∀ i, rng i < 2 ^ 64) ∧ sk.encrypt pr pt aTape rng = .ok ct ∧ IsCt P 0 [c0, c1] ct ∧
        phase (keyRing N sk) [c0, c1] = M + e := by
  have hN : 0 < N := by
    obtain ⟨K, ext, rfl, hw, rfl, rfl, rfl⟩ := BfvP.params h
    positivity
  have hl0 : 0 < l.length := by
    obtain ⟨K, ext, rfl, hw, rfl, rfl, rfl⟩ := BfvP.params h
    exact List.length_pos_iff.mpr hw.ne
  obtain ⟨M, hM, hE⟩ := c77_encrypt h hk pr hv1 hv2 hp hlev hlen hval
  obtain ⟨⟨a, hma⟩, -⟩ := c77_mask h hl0 ha
  refine ⟨M, hM, fun e he => ?_⟩
  obtain ⟨rng, r1, r2⟩ := c130_errors pr hv1 hv2 ((List.range N).map (cf e)) (by
    intro x hx
    obtain ⟨k, hk, rfl⟩ := List.mem_map.mp hx
    exact he k (List.mem_range.mp hk))
  rw [List.length_map, List.length_range] at r2
  obtain ⟨e', ct, e1, e2, e3⟩ := hE aTape rng r1 a hma
  obtain rfl := Except.ok.inj (r2.symm.trans e1)
  refine ⟨rng, ct, _, _, r1, e2, e3, ?_⟩
  have : smallRing N ((List.range N).map (cf e)) = e := ext_cf hN fun k hk => by
    unfold smallRing
    rw [cf_ofCoeffs hN _ hk]
    simp [hk]
  rw [this]
  obtain ⟨K, ext, rfl, hw, rfl, rfl, rfl⟩ := BfvP.params h
  rw [BfvP.phase_two]
  ring

/-- A stream for which all samples are as large as possible. -/
theorem Attained.stream (pr : Profile) {v : Nat} (hv1 : 1 ≤ v) (hv2 : v ≤ 16) (N : Nat) : ∃ rng : Nat → Nat, (∀ i, rng i < 2 ^ 64) ∧
    ∀ e, sampleVecCbd pr rng N v = .ok e → ∀ k, k < N → e.getD k 0 = ((2 * v : Nat) : ℤ) := by
  obtain ⟨rng, r1, r2⟩ := c130_errors pr hv1 hv2 (List.replicate N ((2 * v : Nat) : ℤ)) (by
    intro x hx
    rw [(List.mem_replicate.mp hx).2, abs_of_nonneg (by positivity)]
    push_cast
    exact le_refl _)
  rw [List.length_replicate] at r2
  refine ⟨rng, r1, fun e he k hk => ?_⟩
  obtain rfl := Except.ok.inj (r2.symm.trans he)
  simp [hk]

/-- What is congruent to an error determines its last coefficient. -/
theorem Attained.last (hN : 0 < N) {Q a : Nat} (h2 : 2 * a ≤ Q) {x y E F : Rg N} (h : Cong Q x (y + F)) (hF : cf F (N - 1) = a) (hE : Cong Q x (y + E)) :
    (a : ℤ) ≤ |cf E (N - 1)| := by
  have hd : ((Q : ℤ) : Rg N) ∣ E - F := by
    have := dvd_sub h hE
    rwa [show x - (y + F) - (x - (y + E)) = E - F by ring] at this
  have := (dvd_iff hN _ _).mp hd (N - 1) (by omega)
  rw [cf_sub hN, hF] at this
  exact abs_of_congr h2 this

theorem Attained.pos (h : IsParams N t l variance P) : 0 < N ∧ ∀ q ∈ l, 0 < q := by
  refine ⟨?_, fun q hq => by have := h.2.2.1 q hq; omega⟩
  obtain ⟨K, ext, rfl, hw, rfl, rfl, rfl⟩ := BfvP.params h
  positivity

/-- C130: how far the attained noise is from the bound of C36: `topNoise` is `switchNoise` times the size of the errors, with `q - 1` in place of `q`. -/
theorem c130_gap (hl : ∀ q ∈ l, 0 < q) (i B : Nat) : (topNoise N l i B : ℤ) = switchNoise N l i * B - N * B * (levelModuli l i).length := by
  unfold topNoise switchNoise
  have : ∀ ms : List Nat, (∀ q ∈ ms, 0 < q) → (((ms.map fun q => q - 1).sum : Nat) : ℤ) = (ms.sum : Nat) - ms.length := by
    intro ms
    induction ms with
    | nil => simp
    | cons q ms ih =>
      intro hq
      have h1 := hq q (by simp)
      rw [List.map_cons, List.sum_cons, List.sum_cons, List.length_cons, Nat.cast_add, ih fun x hx => hq x (by simp [hx])]
      push_cast [Nat.cast_sub h1]
      ring
  rw [Nat.cast_mul, this (levelModuli l i) fun q hq => hl q (List.mem_of_mem_take hq)]
  push_cast
  ring

/-- C130: for every secret key, every source and all masks there are errors of the key-switching key and a polynomial whose switch has the noise `topNoise`:
no `E` with a smaller last coefficient explains the result. -/
theorem c130_key_switch (h : IsParams N t l variance P) {sk : SecretKey} (hk : IsKey P sk) (pr : Profile) (hv1 : 1 ≤ variance)
    (hv2 : variance ≤ 16) {i : Nat} {src : Rg N} {p : Poly} (hp : PolyAt P i src p) {aTape : Nat → Nat → Nat → Nat} (ha : ∀ j, TapeAt l i (aTape j))
    (hQ : 2 * topNoise N l i (2 * variance) ≤ levelQ l i) {q : Poly} (hq : PowerAt P i (allMinusOne N) q) :
    ∃ rng k, (∀ j i, rng j i < 2 ^ 64) ∧ Ksk.new pr sk p i i aTape rng = .ok k ∧ ∀ pr', ∃ p0 p1, ∃ r0 r1 : Rg N, k.keySwitch pr' q = .ok (p0, p1) ∧
      PolyAt P i r0 p0 ∧ PolyAt P i r1 p1 ∧ ∀ E : Rg N, Cong (levelQ l i) (r0 + r1 * keyRing N sk) (allMinusOne N * src + E) →
        (topNoise N l i (2 * variance) : ℤ) ≤ |cf E (N - 1)| := by
  obtain ⟨hN, hl⟩ := Attained.pos h
  obtain ⟨rng, r1, r2⟩ := Attained.stream pr hv1 hv2 N
  obtain ⟨k, e, k1, k2, k3⟩ := c77_key_switch h hk pr hv1 hv2 hp ha (rng := fun _ => rng) fun _ => r1
  refine ⟨_, k, fun _ => r1, k1, fun pr' => ?_⟩
  obtain ⟨p0, p1, r0, r1', e1, e2, e3, e4⟩ := k3 pr' _ q hq
  exact ⟨p0, p1, r0, r1', e1, e2, e3, fun E hE => Attained.last hN hQ e4 (switchError_top hN hl i _ fun j => r2 _ (k2 j)) hE⟩

/-- C130: the same for a Galois key and a ciphertext. -/
theorem c130_galois (h : IsParams N t l variance P) {sk : SecretKey} (hk : IsKey P sk) (pr : Profile) (hv1 : 1 ≤ variance) (hv2 : variance ≤ 16)
    (hl : l.length ≠ 1) (hN : N ≤ 2 ^ 31) {i : Nat} {c : RqContext} (hi : P.qCtxs[i]? = some c) {x : Nat} (hx : Odd x)
    {aTape : Nat → Nat → Nat → Nat} (ha : ∀ j, TapeAt l i (aTape j)) (hQ : 2 * topNoise N l i (2 * variance) ≤ levelQ l i) :
    ∃ f1 : Rg N, ∃ rng sub g, (∀ j i, rng j i < 2 ^ 64) ∧ Substitution.new pr c x = .ok sub ∧ GaliosKey.new pr sk sub i aTape rng = .ok g ∧
      ∀ pr' f0 ct, IsCt P i [f0, f1] ct → ∃ ct', ∃ r0 r1 : Rg N, g.relinearize pr' ct = .ok ct' ∧ IsCt P i [r0, r1] ct' ∧
        ∀ E : Rg N, Cong (levelQ l i) (phase (keyRing N sk) [r0, r1]) (sg x (phase (keyRing N sk) [f0, f1]) + E) →
          (topNoise N l i (2 * variance) : ℤ) ≤ |cf E (N - 1)| := by
  obtain ⟨hN', hl'⟩ := Attained.pos h
  obtain ⟨rng, r1, r2⟩ := Attained.stream pr hv1 hv2 N
  obtain ⟨sub, g, e, k0, k1, k2, k3⟩ := c77_galois h hk pr hv1 hv2 hl hN hi hx ha (rng := fun _ => rng) fun _ => r1
  obtain ⟨f1, hf1⟩ : ∃ f1 : Rg N, sg x f1 = allMinusOne N := by
    obtain ⟨K, ext, rfl, -⟩ := BfvP.params h
    exact sg_surjective hx _
  refine ⟨f1, _, sub, g, fun _ => r1, k0, k1, fun pr' f0 ct hct => ?_⟩
  obtain ⟨ct', r0, r1', e1, e2, e3⟩ := k3 pr' ct f0 f1 hct
  rw [hf1] at e3
  exact ⟨ct', r0, r1', e1, e2, fun E hE => Attained.last hN' hQ e3 (switchError_top hN' hl' i _ fun j => r2 _ (k2 j)) hE⟩

/-- C130: the condition under which C37 and C65 guarantee a right decryption, `t * switchNoise * 2 variance` below half of the modulus, is necessary up to the gap: if
`t * topNoise` is above half of the modulus, then for every secret key and all masks some errors of a Galois key make it turn an encryption of zero without any
noise into a ciphertext that does not decrypt to zero. -/
theorem c130_galois_fails (h : IsParams N t l variance P) {sk : SecretKey} (hk : IsKey P sk) (pr : Profile) (hv1 : 1 ≤ variance) (hv2 : variance ≤ 16)
    (hl : l.length ≠ 1) (hN : N ≤ 2 ^ 31) (h2t : 2 * t ≤ l.getD 0 0) {i : Nat} {c : RqContext} (hi : P.qCtxs[i]? = some c) {x : Nat} (hx : Odd x)
    {aTape : Nat → Nat → Nat → Nat} (ha : ∀ j, TapeAt l i (aTape j))
    (hlow : levelQ l i * (2 ^ 31 + 1) < 2 ^ 32 * (t * topNoise N l i (2 * variance))) (hhigh : t * topNoise N l i (2 * variance) ≤ levelQ l i * (t - 1)) :
    ∃ f0 f1 : Rg N, ∃ ct rng sub g, phase (keyRing N sk) [f0, f1] = 0 ∧ IsCt P i [f0, f1] ct ∧ (∀ j i, rng j i < 2 ^ 64) ∧ Substitution.new pr c x = .ok sub ∧
      GaliosKey.new pr sk sub i aTape rng = .ok g ∧ ∀ pr', ∃ ct' pt, g.relinearize pr' ct = .ok ct' ∧ sk.decrypt pr' ct' = .ok pt ∧ pt.values.getD (N - 1) 0 ≠ 0 := by
  obtain ⟨hN', hl'⟩ := Attained.pos h
  have ht : 1 ≤ t := by
    obtain ⟨K, ext, rfl, hw, rfl, rfl, -⟩ := BfvP.params h
    exact hw.t_prime.pos
  have hi' : i < l.length := by
    obtain ⟨K, ext, rfl, hw, rfl, rfl, -⟩ := BfvP.params h
    rw [← hw.nLevels]
    exact (List.getElem?_eq_some_iff.mp hi).1
  obtain ⟨rng, r1, r2⟩ := Attained.stream pr hv1 hv2 N
  obtain ⟨sub, g, e, k0, k1, k2, k3⟩ := c77_galois h hk pr hv1 hv2 hl hN hi hx ha (rng := fun _ => rng) fun _ => r1
  obtain ⟨f1, hf1⟩ : ∃ f1 : Rg N, sg x f1 = allMinusOne N := by
    obtain ⟨K, ext, rfl, -⟩ := BfvP.params h
    exact sg_surjective hx _
  have hph : phase (keyRing N sk) [-(f1 * keyRing N sk), f1] = 0 := by
    obtain ⟨K, ext, rfl, -⟩ := BfvP.params h
    rw [BfvP.phase_two]
    ring
  obtain ⟨p0, hp0⟩ := c33_exists_poly h hi' (-(f1 * keyRing N sk))
  obtain ⟨p1, hp1⟩ := c33_exists_poly h hi' f1
  have hct : IsCt P i [-(f1 * keyRing N sk), f1] ⟨P, [p0, p1], i⟩ := ⟨rfl, rfl, .cons hp0 (.cons hp1 .nil)⟩
  refine ⟨_, f1, _, _, sub, g, hph, hct, fun _ => r1, k0, k1, fun pr' => ?_⟩
  obtain ⟨ct', r0, r1', e1, e2, w, hw⟩ := k3 pr' _ _ f1 hct
  have hz : sg x (0 : Rg N) = 0 := by
    have := sg_int hN' hx 0
    simpa using this
  rw [hf1, hph, hz, zero_add] at hw
  have hF := switchError_top (N := N) hN' hl' i (2 * variance) fun j => r2 _ (k2 j)
  obtain ⟨pt, d1, -, d3⟩ := c65_threshold h hk pr' (by simp) e2 h2t (m := 0) (v := ((t : ℤ) : Rg N) * switchError l i (allMinusOne N) e) (w := w) (by
    rw [← hw]; ring)
  refine ⟨ct', pt, e1, d1, fun hc => ?_⟩
  have hv : |cf (((t : ℤ) : Rg N) * switchError l i (allMinusOne N) e) (N - 1)| = ((t * topNoise N l i (2 * variance) : Nat) : ℤ) := by
    rw [cf_int_mul hN', hF, abs_of_nonneg (by positivity)]
    push_cast
    ring
  refine (d3 (N - 1) (by omega)).2 ?_ ?_ ?_
  · rw [hv]; exact_mod_cast hlow
  · rw [hv, ← Nat.cast_one, ← Nat.cast_sub ht]; exact_mod_cast hhigh
  · rw [hc, cf_zero hN']; simp

/-- C130: an external product with an RGSW encryption of any message: twice the noise of a key switch. -/
theorem c130_external_product (h : IsParams N t l variance P) {sk : SecretKey} (hk : IsKey P sk) (pr : Profile) (hv1 : 1 ≤ variance)
    (hv2 : variance ≤ 16) {i : Nat} {m : Rg N} {p : Poly} (hp : PolyAt P i m p) {a0 a1 : Nat → Nat → Nat → Nat}
    (ha0 : ∀ j, TapeAt l i (a0 j)) (ha1 : ∀ j, TapeAt l i (a1 j)) (hQ : 4 * topNoise N l i (2 * variance) ≤ levelQ l i)
    {ct : BfvCipherText} (hct : IsCt P i [allMinusOne N, allMinusOne N] ct) :
    ∃ r0 r1 g, (∀ j i, r0 j i < 2 ^ 64) ∧ (∀ j i, r1 j i < 2 ^ 64) ∧ RgswCt.encryptPoly pr sk p a0 a1 r0 r1 = .ok g ∧ ∀ pr', ∃ p0 p1, ∃ z0 z1 : Rg N,
      g.externalProduct pr' ct = .ok (p0, p1) ∧ IsCt P i [z0, z1] ⟨P, [p0, p1], i⟩ ∧
      ∀ E : Rg N, Cong (levelQ l i) (phase (keyRing N sk) [z0, z1]) (m * phase (keyRing N sk) [allMinusOne N, allMinusOne N] + E) →
        (2 * topNoise N l i (2 * variance) : ℤ) ≤ |cf E (N - 1)| := by
  obtain ⟨hN, hl⟩ := Attained.pos h
  obtain ⟨rng, r1, r2⟩ := Attained.stream pr hv1 hv2 N
  obtain ⟨g, e0, e1, k1, k2, k2', k3⟩ := c77_external_product h hk pr hv1 hv2 hp ha0 ha1 (r0 := fun _ => rng) (r1 := fun _ => rng) (fun _ => r1) fun _ => r1
  refine ⟨_, _, g, fun _ => r1, fun _ => r1, k1, fun pr' => ?_⟩
  obtain ⟨p0, p1, z0, z1, y1, y2, y3⟩ := k3 pr' ct _ _ hct
  refine ⟨p0, p1, z0, z1, y1, y2, fun E hE => ?_⟩
  have := Attained.last hN (a := 2 * topNoise N l i (2 * variance)) (by omega) y3 (by
    rw [cf_add hN, switchError_top hN hl i _ fun j => r2 _ (k2 j), switchError_top hN hl i _ fun j => r2 _ (k2' j)]
    push_cast
    ring) hE
  exact_mod_cast this

/-- Degree 8, variance 10, three moduli of 21 bits: a key switch with noise 503395840, where the bound of C36 is 503396320; the modulus has 61 bits. -/
example : ∃ (P : BfvParameters) (sk : SecretKey) (p q : Poly) (ct : BfvCipherText), IsParams 8 17 Ex.mods 10 P ∧ IsKey P sk ∧ PolyAt P 0 (keyRing 8 sk) p ∧
    PowerAt P 0 (allMinusOne 8) q ∧ IsCt P 0 [allMinusOne 8, allMinusOne 8] ct ∧ topNoise 8 Ex.mods 0 20 = 503395840 ∧ switchNoise 8 Ex.mods 0 * 20 = 503396320 ∧
    (∃ rng k, (∀ j i, rng j i < 2 ^ 64) ∧ Ksk.new .debug sk p 0 0 (fun _ _ _ => 0) rng = .ok k ∧ ∀ pr', ∃ p0 p1, ∃ r0 r1 : Rg 8, k.keySwitch pr' q = .ok (p0, p1) ∧
      PolyAt P 0 r0 p0 ∧ PolyAt P 0 r1 p1 ∧ ∀ E : Rg 8, Cong (levelQ Ex.mods 0) (r0 + r1 * keyRing 8 sk) (allMinusOne 8 * keyRing 8 sk + E) →
        503395840 ≤ |cf E 7|) ∧
    (∃ r0 r1 g, (∀ j i, r0 j i < 2 ^ 64) ∧ (∀ j i, r1 j i < 2 ^ 64) ∧ RgswCt.encryptPoly .release sk p (fun _ _ _ => 0) (fun _ _ _ => 0) r0 r1 = .ok g ∧
      ∀ pr', ∃ p0 p1, ∃ z0 z1 : Rg 8, g.externalProduct pr' ct = .ok (p0, p1) ∧ IsCt P 0 [z0, z1] ⟨P, [p0, p1], 0⟩ ∧
      ∀ E : Rg 8, Cong (levelQ Ex.mods 0) (phase (keyRing 8 sk) [z0, z1]) (keyRing 8 sk * phase (keyRing 8 sk) [allMinusOne 8, allMinusOne 8] + E) →
        1006791680 ≤ |cf E 7|) ∧
    ∃ rng : Nat → Nat, (∀ i, rng i < 2 ^ 64) ∧ sampleVecCbd .debug rng 3 10 = .ok [20, -20, 7] := by
  obtain ⟨P, h⟩ := Ex.exists_params
  obtain ⟨sk, -, hk, -⟩ := c30_generate h .release (by norm_num) (by norm_num) Ex.wordTape
  obtain ⟨p, hp⟩ := c33_exists_poly h (i := 0) (by decide) (keyRing 8 sk)
  obtain ⟨a, ha⟩ := c33_exists_poly h (i := 0) (by decide) (allMinusOne 8)
  obtain ⟨q, hq⟩ := Ex.exists_power h (i := 0) (by decide) (allMinusOne 8)
  have hct : IsCt P 0 [allMinusOne 8, allMinusOne 8] ⟨P, [a, a], 0⟩ := ⟨rfl, rfl, .cons ha (.cons ha .nil)⟩
  have htop : topNoise 8 Ex.mods 0 20 = 503395840 := by decide +kernel
  obtain ⟨rng, k, x1, x2, x3⟩ := c130_key_switch h hk .debug (by norm_num) (by norm_num) hp (aTape := fun _ _ _ => 0) (fun _ => Ex.tape0 Ex.mods_gt) (by decide +kernel) hq
  obtain ⟨r0, r1, g, y1, y2, y3, y4⟩ := c130_external_product h hk .release (by norm_num) (by norm_num) hp (a0 := fun _ _ _ => 0) (a1 := fun _ _ _ => 0)
    (fun _ => Ex.tape0 Ex.mods_gt) (fun _ => Ex.tape0 Ex.mods_gt) (by decide +kernel) hct
  rw [show 2 * 10 = 20 from rfl, htop] at x3 y4
  exact ⟨P, sk, p, q, _, h, hk, hp, hq, hct, htop, by decide +kernel, ⟨rng, k, x1, x2, x3⟩, ⟨r0, r1, g, y1, y2, y3, y4⟩, c130_errors .debug (by norm_num) (by norm_num) [20, -20, 7] (by simp)⟩

/-- Plaintext modulus 7681, two moduli of 21 bits: the noise of a Galois key spoils a decryption. -/
example : ∃ (P : BfvParameters) (sk : SecretKey) (c : RqContext), IsParams 8 7681 [1048609, 1048721] 10 P ∧ IsKey P sk ∧ P.qCtxs[0]? = some c ∧
    ∃ f0 f1 : Rg 8, ∃ ct rng sub g, phase (keyRing 8 sk) [f0, f1] = 0 ∧ IsCt P 0 [f0, f1] ct ∧ (∀ j i, rng j i < 2 ^ 64) ∧ Substitution.new .debug c 5 = .ok sub ∧
      GaliosKey.new .debug sk sub 0 (fun _ _ _ => 0) rng = .ok g ∧
      ∀ pr', ∃ ct' pt, g.relinearize pr' ct = .ok ct' ∧ sk.decrypt pr' ct' = .ok pt ∧ pt.values.getD 7 0 ≠ 0 := by
  obtain ⟨P, -, h⟩ := c51_new_succeeds .debug (K := 3) (by norm_num) (by norm_num) (t := 7681) (by norm_num) (by norm_num) (by norm_num)
    (l := [1048609, 1048721]) (by simp) (by decide)
    (by
      simp only [List.mem_cons, List.not_mem_nil, or_false]
      rintro q (rfl | rfl) <;> norm_num)
    (by simp) (by simp)
    ⟨Ex.bigPrimes, by decide, by simp [Ex.bigPrimes], fun p hp => ⟨Ex.bigPrimes_prime p hp, by
      revert p; unfold Ex.bigPrimes; decide⟩⟩
    Ex.goodSample_lt (fun q hq hc => ⟨0, by norm_num, Ex.goodSample_good hq (by rintro rfl; norm_num at hc)⟩) 10 ⟨1, 1⟩
  obtain ⟨sk, -, hk, -⟩ := c30_generate h .release (by norm_num) (by norm_num) Ex.wordTape
  obtain ⟨p, c, hc, -⟩ := c33_exists_poly h (i := 0) (by simp) 0
  exact ⟨P, sk, c, h, hk, hc, c130_galois_fails h hk .debug (by norm_num) (by norm_num) (by simp) (by norm_num) (by simp) hc (by decide)
    (aTape := fun _ _ _ => 0) (fun _ => Ex.tape0 (by simp)) (by decide +kernel) (by decide +kernel)⟩

/-- A Galois key for `X ↦ X^5` whose noise is as large as possible, and an encryption with a given noise. -/
example : ∃ (P : BfvParameters) (sk : SecretKey) (c : RqContext), IsParams 8 17 Ex.mods 10 P ∧ IsKey P sk ∧ P.qCtxs[0]? = some c ∧
    (∃ f1 : Rg 8, ∃ rng sub g, (∀ j i, rng j i < 2 ^ 64) ∧ Substitution.new .debug c 5 = .ok sub ∧ GaliosKey.new .debug sk sub 0 (fun _ _ _ => 0) rng = .ok g ∧
      ∀ pr' f0 ct, IsCt P 0 [f0, f1] ct → ∃ ct', ∃ r0 r1 : Rg 8, g.relinearize pr' ct = .ok ct' ∧ IsCt P 0 [r0, r1] ct' ∧
        ∀ E : Rg 8, Cong (levelQ Ex.mods 0) (phase (keyRing 8 sk) [r0, r1]) (sg 5 (phase (keyRing 8 sk) [f0, f1]) + E) → 503395840 ≤ |cf E 7|) ∧
    ∃ M : Rg 8, ∃ rng ct, ∃ c0 c1 : Rg 8, (∀ i, rng i < 2 ^ 64) ∧ sk.encrypt .debug ⟨P, 0, .poly, [3, 1, 16]⟩ (fun _ _ => 0) rng = .ok ct ∧
      IsCt P 0 [c0, c1] ct ∧ phase (keyRing 8 sk) [c0, c1] = M + ofCoeffs 8 fun k => if k = 2 then -20 else 20 := by
  obtain ⟨P, h⟩ := Ex.exists_params
  obtain ⟨sk, -, hk, -⟩ := c30_generate h .release (by norm_num) (by norm_num) Ex.wordTape
  obtain ⟨p, c, hc, -⟩ := c33_exists_poly h (i := 0) (by decide) 0
  have htop : topNoise 8 Ex.mods 0 20 = 503395840 := by decide +kernel
  have hg := c130_galois h hk .debug (by norm_num) (by norm_num) (by decide) (by norm_num) hc (x := 5) (by decide) (aTape := fun _ _ _ => 0)
    (fun _ => Ex.tape0 Ex.mods_gt) (by decide +kernel)
  rw [show 2 * 10 = 20 from rfl, htop] at hg
  obtain ⟨M, -, hM⟩ := c130_encrypt h hk .debug (by norm_num) (by norm_num) (pt := ⟨P, 0, .poly, [3, 1, 16]⟩) rfl rfl (by norm_num) (by simp)
    (aTape := fun _ _ => 0) (Ex.tape0 Ex.mods_gt)
  exact ⟨P, sk, c, h, hk, hc, hg, M, hM _ fun k hk => by
    rw [cf_ofCoeffs (by norm_num) _ hk]
    split_ifs <;> norm_num⟩

end OnionPIR
