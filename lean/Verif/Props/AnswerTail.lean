import Verif.Proofs.AnswerTail
import Verif.Props.ExpandTail
/-
Property C124: the answer of the server decrypts to the addressed row except with a probability that the tail of the expansion bounds.
-/
namespace OnionPIR
open Rg Poly Spec Sampling

variable {N t : Nat} {l : List Nat} {variance : Nat} {P : BfvParameters}

/-- An expansion that is right for one reading of the ciphertext is right for all of them. -/
theorem Spec.Expands.of_one (h : IsParams N t l variance P) {s : Rg N} {D : ℤ} {u : BfvCipherText → Res (List BfvCipherText)} {ct : BfvCipherText}
    {f0 f1 : Rg N} (hct : IsCt P 0 [f0, f1] ct) {bits : List BfvCipherText} (h1 : u ct = .ok bits) (h2 : bits.length = N)
    (h3 : ∀ j, j < N → ∃ c, ∃ g0 g1 E : Rg N, bits[j]? = some c ∧ IsCt P 0 [g0, g1] c ∧ Bdd D E ∧
      Cong (levelQ l 0) (phase s [g0, g1]) (((cf (phase s [f0, f1]) j : ℤ) : Rg N) + E)) : Expands P l s D u ct := by
  intro f0' f1' hct'
  refine ⟨bits, h1, h2, fun j hj => ?_⟩
  obtain ⟨c, g0, g1, E, e1, e2, e3, e4⟩ := h3 j hj
  refine ⟨c, g0, g1, E, e1, e2, e3, Evaluation.cong_trans e4 (Evaluation.cong_add ?_ (Evaluation.cong_refl _))⟩
  obtain ⟨K, -, hNK, -⟩ := BfvP.params h
  subst hNK
  have hpos : 0 < 2 ^ K := by positivity
  obtain ⟨ext, L, hw, hL, -, rfl, -⟩ := Evaluation.level_zero h
  obtain ⟨-, -, c3⟩ := (BfvP.isCt_iff hL _ _).mp hct
  obtain ⟨-, -, c3'⟩ := (BfvP.isCt_iff hL _ _).mp hct'
  rw [c3] at c3'
  simp only [List.map_cons, List.map_nil, List.cons.injEq, and_true] at c3'
  obtain ⟨x, hx⟩ := (enc_eq_iff hL.wf.ctx _ _).mp c3'.1
  obtain ⟨y, hy⟩ := (enc_eq_iff hL.wf.ctx _ _).mp c3'.2
  have hz : phase s [f0, f1] - phase s [f0', f1'] = ((levelQ P.ciphertextModuli 0 : ℤ) : Rg (2 ^ K)) * (x + y * s) := by
    rw [BfvP.phase_two, BfvP.phase_two, ← BfvP.levelQ_eq hL]
    linear_combination hx + hy * s
  have hz' := congrArg (fun f => cf f j) hz
  simp only [cf_sub hpos, cf_int_mul hpos] at hz'
  refine ⟨((cf (x + y * s) j : ℤ) : Rg (2 ^ K)), ?_⟩
  rw [← Int.cast_sub, hz', Int.cast_mul]

/-- The ciphertexts of a query have two components. -/
theorem Spec.IsQuery.isCt (h : IsParams N t l variance P) {sk : SecretKey} (hk : IsKey P sk) (hv1 : 1 ≤ variance) (hv2 : variance ≤ 16)
    {fd : Nat} {v : List Nat} (hlen : v.length ≤ N) (hv : ∀ x ∈ v, x < 2 ^ 64) {q0 : BfvCipherText} {qs : List BfvCipherText}
    (hq : IsQuery N P l sk fd v q0 qs) : ∀ ct ∈ q0 :: qs, ∃ f0 f1 : Rg N, IsCt P 0 [f0, f1] ct := by
  obtain ⟨⟨pr, tape, rng, t1, t2, t3⟩, -, hr⟩ := hq
  intro ct hct
  rcases List.mem_cons.mp hct with rfl | hct
  · obtain ⟨ct', f0, f1, c1, c2, -⟩ := c30_encrypt h hk pr hv1 hv2 (pt := ⟨P, 0, .poly, v⟩) rfl rfl hlen hv t1 t2
    obtain rfl := Except.ok.inj (t3.symm.trans c1)
    exact ⟨f0, f1, c2⟩
  · obtain ⟨j, hj⟩ := List.mem_iff_getElem?.mp hct
    obtain ⟨pr, g, p, tape, rng, -, hp, t1, t2, t3⟩ := hr j ct hj
    obtain ⟨ct', f0, f1, e, c1, c2, -⟩ := c30_encrypt_poly h hk pr hv1 hv2 hp t1 t2
    obtain rfl := Except.ok.inj (t3.symm.trans c1)
    exact ⟨f0, f1, c2⟩

/-- A union bound over the entries of a list. -/
theorem AnswerTail.card_list {α β : Type*} [DecidableEq α] (s : Finset α) (p : β → α → Prop) {X : ℝ} : ∀ xs : List β,
    (∀ w ∈ s, ∃ x ∈ xs, p x w) → (∀ x ∈ xs, ∀ s' : Finset α, s' ⊆ s → (∀ w ∈ s', p x w) → (s'.card : ℝ) ≤ X) →
    (s.card : ℝ) ≤ xs.length * X := by
  classical
  intro xs
  induction xs generalizing s with
  | nil =>
    intro h1 _
    have : s = ∅ := Finset.eq_empty_of_forall_notMem fun w hw => by obtain ⟨x, hx, -⟩ := h1 w hw; cases hx
    simp [this]
  | cons x xs ih =>
    intro h1 h2
    have h3 := h2 x (by simp) (s.filter (p x)) (Finset.filter_subset _ _) fun w hw => (Finset.mem_filter.mp hw).2
    have h4 := ih (s.filter fun w => ¬ p x w) (fun w hw => by
      obtain ⟨hw1, hw2⟩ := Finset.mem_filter.mp hw
      obtain ⟨y, hy, hp⟩ := h1 w hw1
      rcases List.mem_cons.mp hy with rfl | hy
      · exact absurd hp hw2
      · exact ⟨y, hy, hp⟩) (fun y hy s' hs' hp => h2 y (List.mem_cons_of_mem _ hy) s' (hs'.trans (Finset.filter_subset _ _)) hp)
    have h5 := Finset.card_filter_add_card_filter_not (s := s) (p x)
    rw [← h5, List.length_cons]
    push_cast
    linarith

/-- C124: for every database, coordinates, secret key, query and masks, of all choices of the random words of the errors of the Galois keys
at most the fraction `(n + 1) 2 N² exp(-3 T² / (2 variance N Σ q_j² (N² - 1)))`, for `n` moduli, give an answer of the corrected server that
does not decrypt to the addressed row, if the noise of an answer expanded with errors `T` fits. -/
theorem c124_answer (h : IsParams N t l variance P) {sk : SecretKey} (hk : IsKey P sk) (pc pr pd : Profile) (hv1 : 1 ≤ variance)
    (hv2 : variance ≤ 16) (hl : l.length ≠ 1) {k : Nat} (hN : N = 2 ^ k) (hk31 : k ≤ 31) {S : ℤ} (hS : Bdd S (keyRing N sk))
    -- masks of the evaluation keys, randomness of the encryption of the key
    {aTape : Nat → Nat → Nat → Nat → Nat} (ha : ∀ k j, TapeAt l 0 (aTape k j)) {a0 a1 : Nat → Nat → Nat → Nat}
    (ha0 : ∀ j, TapeAt l 0 (a0 j)) (ha1 : ∀ j, TapeAt l 0 (a1 j)) {r0 r1 : Nat → Nat → Nat} (hr0 : ∀ j i, r0 j i < 2 ^ 64)
    (hr1 : ∀ j i, r1 j i < 2 ^ 64)
    -- database
    {fd dim : Nat} {db : List Plaintext} (hdb : ∀ p ∈ db, p.values.length ≤ N) (hv : ∀ p ∈ db, ∀ a ∈ p.values, a < t) {srv : Server}
    {pr2 : Profile} (hsrv : Server.new pr2 fd dim db P = .ok srv)
    -- query
    {i0 : Nat} {is : List Nat} (h0 : i0 < fd) (his : ∀ i ∈ is, i < dim) (hd : 2 ≤ dim) (hrows : db.length = fd * dim ^ is.length)
    (hfit : fd + dim * is.length ≤ N) (hmem : db.length < 2 ^ 64) {v : List Nat} {pr3 : Profile}
    (hv' : (Client.mk fd dim).encode pr3 (i0 :: is) db.length = .ok v) {q0 : BfvCipherText} {qs : List BfvCipherText}
    {z : Nat} (hz : v.length + z ≤ N) (hq : IsQuery N P l sk fd (v ++ List.replicate z 0) q0 qs) (h2t : 2 * t ≤ l.getD 0 0)
    -- noise
    {T : Nat} (hnoise : 4 * expandedNoise N t l fd dim is.length (2 * t * variance + 2 * t) (2 * variance) t S T (2 * variance)
      (2 * variance) ≤ levelQ l 0)
    -- words of the errors of the Galois keys
    {W : Nat} (hW : 4 * variance * N ≤ 64 * W) (bad : Finset (Fin (k * l.length) → Fin W → Fin (2 ^ 64)))
    (hbad : ∀ w ∈ bad, ¬ ∃ ev ct pt row, Evaluation.build pc sk P aTape (fun i j => streams w (i * l.length + j)) a0 a1 r0 r1 = .ok ev ∧
      db[i0 + fd * address dim is]? = some row ∧ Repair.decode pr srv (q0 :: qs) ev P = .ok [ct] ∧
      sk.decrypt pd ct = .ok pt ∧ pt.values = (List.range N).map fun k => row.values.getD k 0) :
    (bad.card : ℝ) ≤ (l.length + 1) * (2 ^ (64 * W * (k * l.length)) *
      (2 * (N : ℝ) ^ 2 * Real.exp (-(3 * (T : ℝ) ^ 2 / (2 * variance * switchSquares N l 0 * ((N : ℝ) ^ 2 - 1)))))) := by
  classical
  have hN31 : N ≤ 2 ^ 31 := by rw [hN]; exact Nat.pow_le_pow_right (by norm_num) hk31
  have hfd : 0 < fd := by omega
  have hpow : dim ^ is.length < 2 ^ 64 := by
    refine lt_of_le_of_lt ?_ hmem
    rw [hrows]
    exact Nat.le_mul_of_pos_left _ hfd
  have ht64 : t < 2 ^ 64 := by
    obtain ⟨_, _, _, hw, rfl, -⟩ := BfvP.params h
    exact hw.t_lt.trans (by norm_num)
  obtain ⟨srv', s1, s2, s3, s4, -⟩ := c43_new h pr2 fd dim hdb (fun p hp x hx => (hv p hp x hx).trans ht64)
  obtain rfl := Except.ok.inj (hsrv.symm.trans s1)
  have hlen : is.length < 2 ^ 32 := by
    have : is.length ≤ dim * is.length := Nat.le_mul_of_pos_left _ (by omega)
    omega
  obtain ⟨v', v1, v2, v3, v4⟩ := c42_encode pr3 (Client.mk fd dim) h0 his hpow hlen hrows
  obtain rfl := Except.ok.inj (hv'.symm.trans v1)
  have hvb := Client.bits (by dsimp only; omega) v2 v3 v4
  obtain ⟨xs, hx, hu⟩ := Repair.unpack_eq h pr
  have hdim := c80_dimensions pr srv (by rw [s2]; exact hfd) (by rw [s3]; exact hd) (k := is.length) (by rw [s2, s3, s4, hrows]) (by rw [s4]; exact hmem)
  have hvz : ∀ x ∈ v ++ List.replicate z 0, x < 2 ^ 64 := fun x hx => by
    rcases List.mem_append.mp hx with hx | hx
    · exact hvb x hx
    · rw [(List.mem_replicate.mp hx).2]; norm_num
  have hcts := hq.isCt h hk hv1 hv2 (by simp; omega) hvz
  have hql : (q0 :: qs).length = l.length + 1 := by rw [List.length_cons, hq.length]
  have main := AnswerTail.card_list bad (fun ct w => ¬ ∃ ev, Evaluation.build pc sk P aTape (fun i j => streams w (i * l.length + j)) a0 a1 r0 r1 = .ok ev ∧
    Expands P l (keyRing N sk) (T : ℤ) (ev.unpackWith pr xs) ct) (X := 2 ^ (64 * W * (k * l.length)) *
      (2 * (N : ℝ) ^ 2 * Real.exp (-(3 * (T : ℝ) ^ 2 / (2 * variance * switchSquares N l 0 * ((N : ℝ) ^ 2 - 1)))))) (q0 :: qs)
    (fun w hw => ?_) (fun ct hct s' hs' hp => ?_)
  · rw [hql] at main
    push_cast at main
    exact main
  · by_contra hcon
    push Not at hcon
    obtain ⟨ev, b1, b2⟩ := c41_build h hk pc hv1 hv2 hl hN31 ha (rng := fun i j => streams w (i * l.length + j)) (fun _ _ => streams_lt w _)
      ha0 ha1 hr0 hr1
    have hexp : ∀ ct ∈ q0 :: qs, Expands P l (keyRing N sk) (T : ℤ) (ev.unpackWith pr xs) ct := fun ct hct => by
      obtain ⟨ev', e1, e2⟩ := hcon ct hct
      obtain rfl := Except.ok.inj (b1.symm.trans e1)
      exact e2
    obtain ⟨ct, pt, row, d1, d2, d3, d4⟩ := AnswerTail.answer h hk pr pd hv1 hv2 hN31 hS b2.rgsw hdb hv hsrv h0 his (by omega) hrows hpow hv' hz hq
      hdim le_rfl hfit (fun ct hct => (hexp ct hct).serves (by omega) hfit) h2t hnoise
    refine hbad w hw ⟨ev, ct, pt, row, b1, d1, ?_, d3, d4⟩
    unfold Repair.decode
    rw [Repair.decodeBy_congr pr _ srv (fun ct hct => by
      obtain ⟨f0, f1, hc⟩ := hcts ct hct
      exact hu ev ct hc.1 hc.2.1) ev P]
    exact d2
  · obtain ⟨f0, f1, hc⟩ := hcts ct hct
    refine c123_expand h hk pc pr hv1 hv2 hl hN hk31 ha ha0 ha1 hr0 hr1 hx hc hW T s' fun w hw => ?_
    rintro ⟨ev, bits, b1, b2, b3, b4⟩
    refine hp w hw ⟨ev, b1, Expands.of_one h hc b2 b3 fun j hj => ?_⟩
    obtain ⟨c, g0, g1, E, e1, e2, e3, e4⟩ := b4 j hj
    exact ⟨c, g0, g1, E, e1, e2, fun k hk => (e3 k hk).le, e4⟩

/-- C124: if `3 T²` is `b + 2 log N + 1` times `2 variance N Σ q_j² (N² - 1)`, then at most the fraction `(n + 1) / 2^b` of the choices of the
errors of the Galois keys gives a wrong answer. -/
theorem c124_answer_bits (h : IsParams N t l variance P) {sk : SecretKey} (hk : IsKey P sk) (pc pr pd : Profile) (hv1 : 1 ≤ variance)
    (hv2 : variance ≤ 16) (hl : l.length ≠ 1) {k : Nat} (hN : N = 2 ^ k) (hk31 : k ≤ 31) {S : ℤ} (hS : Bdd S (keyRing N sk))
    -- masks of the evaluation keys, randomness of the encryption of the key
    {aTape : Nat → Nat → Nat → Nat → Nat} (ha : ∀ k j, TapeAt l 0 (aTape k j)) {a0 a1 : Nat → Nat → Nat → Nat}
    (ha0 : ∀ j, TapeAt l 0 (a0 j)) (ha1 : ∀ j, TapeAt l 0 (a1 j)) {r0 r1 : Nat → Nat → Nat} (hr0 : ∀ j i, r0 j i < 2 ^ 64)
    (hr1 : ∀ j i, r1 j i < 2 ^ 64)
    -- database
    {fd dim : Nat} {db : List Plaintext} (hdb : ∀ p ∈ db, p.values.length ≤ N) (hv : ∀ p ∈ db, ∀ a ∈ p.values, a < t) {srv : Server}
    {pr2 : Profile} (hsrv : Server.new pr2 fd dim db P = .ok srv)
    -- query
    {i0 : Nat} {is : List Nat} (h0 : i0 < fd) (his : ∀ i ∈ is, i < dim) (hd : 2 ≤ dim) (hrows : db.length = fd * dim ^ is.length)
    (hfit : fd + dim * is.length ≤ N) (hmem : db.length < 2 ^ 64) {v : List Nat} {pr3 : Profile}
    (hv' : (Client.mk fd dim).encode pr3 (i0 :: is) db.length = .ok v) {q0 : BfvCipherText} {qs : List BfvCipherText}
    {z : Nat} (hz : v.length + z ≤ N) (hq : IsQuery N P l sk fd (v ++ List.replicate z 0) q0 qs) (h2t : 2 * t ≤ l.getD 0 0)
    -- noise
    {T : Nat} (hnoise : 4 * expandedNoise N t l fd dim is.length (2 * t * variance + 2 * t) (2 * variance) t S T (2 * variance)
      (2 * variance) ≤ levelQ l 0)
    {b : Nat} (hb : 2 * variance * switchSquares N l 0 * (N ^ 2 - 1) * (b + 2 * k + 1) ≤ 3 * T ^ 2)
    -- words of the errors of the Galois keys
    {W : Nat} (hW : 4 * variance * N ≤ 64 * W) (bad : Finset (Fin (k * l.length) → Fin W → Fin (2 ^ 64)))
    (hbad : ∀ w ∈ bad, ¬ ∃ ev ct pt row, Evaluation.build pc sk P aTape (fun i j => streams w (i * l.length + j)) a0 a1 r0 r1 = .ok ev ∧
      db[i0 + fd * address dim is]? = some row ∧ Repair.decode pr srv (q0 :: qs) ev P = .ok [ct] ∧
      sk.decrypt pd ct = .ok pt ∧ pt.values = (List.range N).map fun k => row.values.getD k 0) :
    bad.card * 2 ^ b ≤ (l.length + 1) * 2 ^ (64 * W * (k * l.length)) := by
  have h1 := c124_answer h hk pc pr pd hv1 hv2 hl hN hk31 hS ha ha0 ha1 hr0 hr1 hdb hv hsrv h0 his hd hrows hfit hmem hv' hz hq h2t hnoise hW bad hbad
  have hqs : ∀ q ∈ l, 0 < q := fun q hq => by have := h.2.2.1 q hq; omega
  have hne : 0 < (levelModuli l 0).length ∧ 8 ≤ N := by
    subst hN
    obtain ⟨ext, L, hw, hL, -, rfl, -⟩ := Evaluation.level_zero h
    refine ⟨?_, le_trans (show 8 ≤ 2 ^ 3 by norm_num) (Nat.pow_le_pow_right (by norm_num) hL.wf.ctx.core.three)⟩
    unfold levelModuli
    simpa using List.length_pos_iff.mpr hw.ne
  have hpos : 0 < N := by omega
  have hS : (0 : ℝ) < switchSquares N l 0 := by exact_mod_cast ExpandTail.switchSquares_pos hpos hqs hne.1
  have hN8 : (8 : ℝ) ≤ N := by exact_mod_cast hne.2
  have hM : (0 : ℝ) < (N : ℝ) ^ 2 - 1 := by nlinarith
  have hv : (0 : ℝ) < variance := by exact_mod_cast hv1
  have hb' : 2 * (variance : ℝ) * switchSquares N l 0 * ((N : ℝ) ^ 2 - 1) * (b + 2 * k + 1) ≤ 3 * (T : ℝ) ^ 2 := by
    have h2 : 1 ≤ N ^ 2 := Nat.one_le_pow _ _ hpos
    have h3 : ((2 * variance * switchSquares N l 0 * (N ^ 2 - 1) * (b + 2 * k + 1) : Nat) : ℝ) ≤ ((3 * T ^ 2 : Nat) : ℝ) := by exact_mod_cast hb
    push_cast [Nat.cast_sub h2] at h3
    exact h3
  have hx : ((b + 2 * k + 1 : Nat) : ℝ) ≤ 3 * (T : ℝ) ^ 2 / (2 * variance * switchSquares N l 0 * ((N : ℝ) ^ 2 - 1)) := by
    rw [le_div_iff₀ (by positivity)]
    push_cast
    linarith
  have hexp : Real.exp (-(3 * (T : ℝ) ^ 2 / (2 * variance * switchSquares N l 0 * ((N : ℝ) ^ 2 - 1)))) ≤ ((2 : ℝ) ^ (b + 2 * k + 1))⁻¹ := by
    rw [Real.exp_neg]
    refine inv_anti₀ (by positivity) ?_
    calc (2 : ℝ) ^ (b + 2 * k + 1) ≤ Real.exp 1 ^ (b + 2 * k + 1) := pow_le_pow_left₀ (by norm_num) (by have := Real.exp_one_gt_d9; linarith) _
      _ = Real.exp ((b + 2 * k + 1 : Nat) : ℝ) := by rw [← Real.exp_nat_mul, mul_one]
      _ ≤ _ := Real.exp_le_exp.mpr hx
  have h2 : (bad.card : ℝ) * 2 ^ b ≤ (l.length + 1) * 2 ^ (64 * W * (k * l.length)) := by
    have h3 : (bad.card : ℝ) ≤ (l.length + 1) * (2 ^ (64 * W * (k * l.length)) * (2 * (N : ℝ) ^ 2 * ((2 : ℝ) ^ (b + 2 * k + 1))⁻¹)) :=
      h1.trans (mul_le_mul_of_nonneg_left (mul_le_mul_of_nonneg_left (mul_le_mul_of_nonneg_left hexp (by positivity)) (by positivity)) (by positivity))
    have h4 : 2 * (N : ℝ) ^ 2 * ((2 : ℝ) ^ (b + 2 * k + 1))⁻¹ = ((2 : ℝ) ^ b)⁻¹ := by
      rw [hN]
      push_cast
      rw [pow_add, pow_add, pow_mul, ← pow_mul 2 k 2, mul_comm k 2, pow_mul]
      field_simp
    rw [h4] at h3
    calc (bad.card : ℝ) * 2 ^ b ≤ (l.length + 1) * (2 ^ (64 * W * (k * l.length)) * ((2 : ℝ) ^ b)⁻¹) * 2 ^ b := mul_le_mul_of_nonneg_right h3 (by positivity)
      _ = _ := by field_simp
  exact_mod_cast h2

/-- The query for the coordinates `(0, 1)` in a database of `2 × 2` rows: at most five in `2^100` of the choices of the errors of the Galois
keys give an answer that does not decrypt to the row. -/
example : ∃ P sk srv v q0 qs, IsParams 8 17 Ex.mods4 10 P ∧ IsKey P sk ∧ Server.new .release 2 2 (Ex.rows4 P) P = .ok srv ∧
    (Client.mk 2 2).encode .release [0, 1] 4 = .ok v ∧ IsQuery 8 P Ex.mods4 sk 2 v q0 qs ∧
    ∀ bad : Finset (Fin (3 * 4) → Fin 5 → Fin (2 ^ 64)), (∀ w ∈ bad, ¬ ∃ ev ct pt,
      Evaluation.build .debug sk P (fun _ _ _ _ => 0) (fun i j => streams w (i * 4 + j)) (fun _ _ _ => 0) (fun _ _ _ => 0)
        (fun _ i => i % 1000) (fun _ i => i % 1000) = .ok ev ∧
      Repair.decode .release srv (q0 :: qs) ev P = .ok [ct] ∧ sk.decrypt .debug ct = .ok pt ∧ pt.values = [5, 6, 7, 0, 0, 0, 0, 0]) →
      bad.card * 2 ^ 100 ≤ (4 + 1) * 2 ^ (64 * 5 * (3 * 4)) := by
  obtain ⟨P, h⟩ := Ex.exists_params4
  obtain ⟨sk, -, hk, hb⟩ := c30_generate h .release (by norm_num) (by norm_num) Ex.wordTape
  have ht : TapeAt Ex.mods4 0 fun _ _ => 0 := Ex.tape0 Ex.mods4_gt
  have hlen : ∀ p ∈ Ex.rows4 P, p.values.length ≤ 8 := by simp [Ex.rows4]
  have hval : ∀ p ∈ Ex.rows4 P, ∀ a ∈ p.values, a < 17 := by simp [Ex.rows4]
  obtain ⟨srv, s1, -⟩ := c43_new h .release 2 2 (db := Ex.rows4 P) hlen (fun p hp a ha => (hval p hp a ha).trans (by norm_num))
  have hv : (Client.mk 2 2).encode .release [0, 1] 4 = .ok [1, 0, 0, 1] := by decide +kernel
  obtain ⟨q0, qs, hq⟩ := c44_query h hk (by norm_num) (by norm_num) (v := [1, 0, 0, 1]) (by norm_num) (by simp) 2
  refine ⟨P, sk, srv, _, q0, qs, h, hk, s1, hv, hq, fun bad hbad => ?_⟩
  have key := c124_answer_bits h hk .debug .release .debug (by norm_num) (by norm_num) (by decide) (k := 3) (by norm_num) (by norm_num) hb
    (aTape := fun _ _ _ _ => 0) (fun _ _ => ht) (fun _ => ht) (fun _ => ht)
    (r0 := fun _ i => i % 1000) (fun _ => Ex.wordTape) (r1 := fun _ i => i % 1000) (fun _ => Ex.wordTape) hlen hval s1 (i0 := 0) (is := [1])
    (by norm_num) (by simp) (by norm_num) rfl (by norm_num) (by simp [Ex.rows4]) hv (z := 0) (by norm_num) (by simpa using hq) (by decide)
    (T := 2 ^ 35) (by
      unfold expandedNoise
      rw [show switchNoise 8 Ex.mods4 0 = 8 * (16777441 + 16777601 + 16777633 + 16777681) by decide +kernel,
        show levelQ Ex.mods4 0 = 16777441 * 16777601 * 16777633 * 16777681 by decide +kernel]
      norm_num) (b := 100) (by decide +kernel) (W := 5) (by norm_num) bad fun w hw => by
      rintro ⟨ev, ct, pt, row, b1, b2, b3, b4, b5⟩
      obtain rfl : row = ⟨P, 0, .poly, [5, 6, 7]⟩ := (Option.some.inj b2).symm
      exact hbad w hw ⟨ev, ct, pt, b1, b3, b4, b5.trans rfl⟩
  exact key.trans_eq (congrArg (fun x => (x + 1) * 2 ^ (64 * 5 * (3 * x))) (show Ex.mods4.length = 4 from rfl))

end OnionPIR
