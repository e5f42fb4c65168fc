import Verif.Proofs.StopTail
import Verif.Props.Stop
/-
Property C127: the tail of the noise of the expansion stopped after `e` stages, and of the answers that use it.
-/
namespace OnionPIR
open Rg Poly Spec Sampling

variable {N t : Nat} {l : List Nat} {variance : Nat} {P : BfvParameters}

/-- C127: whatever the secret key, the masks of the Galois keys and the ciphertext, of all choices of the random words of the errors of the
Galois keys at most the fraction `2 2^e N exp(-3 T² / (2 variance N Σ q_j² (4^e - 1)))` give an expansion of `e` stages some of whose `2^e`
outputs differs from the coefficients `j, j + 2^e, …` of the phase by an error with a coefficient of `T` or more. -/
theorem c127_expand (h : IsParams N t l variance P) {sk : SecretKey} (hk : IsKey P sk) (pr pr' : Profile) (hv1 : 1 ≤ variance)
    (hv2 : variance ≤ 16) (hl : l.length ≠ 1) {k : Nat} (hN : N = 2 ^ k) (hk31 : k ≤ 31) {e : Nat} (he1 : 1 ≤ e) (he : e ≤ k)
    {aTape : Nat → Nat → Nat → Nat → Nat} (ha : ∀ k j, TapeAt l 0 (aTape k j)) {a0 a1 : Nat → Nat → Nat → Nat} (ha0 : ∀ j, TapeAt l 0 (a0 j))
    (ha1 : ∀ j, TapeAt l 0 (a1 j)) {r0 r1 : Nat → Nat → Nat} (hr0 : ∀ j i, r0 j i < 2 ^ 64) (hr1 : ∀ j i, r1 j i < 2 ^ 64)
    {ct : BfvCipherText} {f0 f1 : Rg N} (hct : IsCt P 0 [f0, f1] ct) {W : Nat} (hW : 4 * variance * N ≤ 64 * W) (T : Nat)
    (bad : Finset (Fin (k * l.length) → Fin W → Fin (2 ^ 64)))
    (hbad : ∀ w ∈ bad, ¬ ∃ ev bits, Evaluation.build pr sk P aTape (fun i j => streams w (i * l.length + j)) a0 a1 r0 r1 = .ok ev ∧
      Repair.unpackTo pr' e ev ct = .ok bits ∧ bits.length = 2 ^ e ∧
      ∀ j, j < 2 ^ e → ∃ c, ∃ g0 g1 E : Rg N, bits[j]? = some c ∧ IsCt P 0 [g0, g1] c ∧ (∀ k, k < N → |cf E k| < T) ∧
        Cong (levelQ l 0) (phase (keyRing N sk) [g0, g1]) (comb (2 ^ e) j (phase (keyRing N sk) [f0, f1]) + E)) :
    (bad.card : ℝ) ≤ 2 ^ (64 * W * (k * l.length)) *
      (2 * 2 ^ e * (N : ℝ) * Real.exp (-(3 * (T : ℝ) ^ 2 / (2 * variance * switchSquares N l 0 * ((4 : ℝ) ^ e - 1))))) := by
  obtain ⟨xs, hx, hu⟩ := Repair.unpackTo_eq h pr'
  subst hN
  have hqs : ∀ q ∈ l, 0 < q := fun q hq => by have := h.2.2.1 q hq; omega
  have hlen : (levelModuli l 0).length = l.length := by unfold levelModuli; simp
  have hne : 0 < l.length := by
    obtain ⟨ext, L, hw, hL, -, rfl, -⟩ := Evaluation.level_zero h
    exact List.length_pos_iff.mpr hw.ne
  obtain ⟨Rm, hR⟩ := ExpandTail.build h hk hv1 hv2 hl hk31 ha
  obtain ⟨f1', hf⟩ := StopTail.unpack h (s := keyRing (2 ^ k) sk) hx he hct
  refine StopTail.card_errors hqs (by rw [hlen]; exact hne) he1 he Rm f1' (by rw [hlen]) hv1 hW bad fun w hw => ?_
  by_contra hcon
  push Not at hcon
  obtain ⟨ev, h1, h2⟩ := hR pr (fun i j => streams w (i * l.length + j)) (fun _ _ => streams_lt w _) a0 a1 ha0 ha1 r0 r1 hr0 hr1
  obtain ⟨bits, h3, h4, h5⟩ := hf pr' ev Rm _ h2
  refine hbad w hw ⟨ev, bits, h1, by rw [hu e ev ct hct.1 hct.2.1, h3], h4, fun j hj => ?_⟩
  obtain ⟨c, g0, g1, h6, h7, h8⟩ := h5 j hj
  refine ⟨c, g0, g1, _, h6, h7, fun m hm => ?_, h8⟩
  have := hcon j m hj hm
  unfold ExpandTail.samples at this
  rw [hlen] at this
  exact this

/-- C127: every output of the stopped expansion decrypts to its coefficient of a message that ends below `2^e`, except for that fraction of the
choices of the keys, whenever the noise of the query and `t T` leave room. -/
theorem c127_expand_decrypt (h : IsParams N t l variance P) {sk : SecretKey} (hk : IsKey P sk) (pr pr' : Profile) (hv1 : 1 ≤ variance)
    (hv2 : variance ≤ 16) (hl : l.length ≠ 1) {k : Nat} (hN : N = 2 ^ k) (hk31 : k ≤ 31) {e : Nat} (he1 : 1 ≤ e) (he : e ≤ k)
    {aTape : Nat → Nat → Nat → Nat → Nat} (ha : ∀ k j, TapeAt l 0 (aTape k j)) {a0 a1 : Nat → Nat → Nat → Nat} (ha0 : ∀ j, TapeAt l 0 (a0 j))
    (ha1 : ∀ j, TapeAt l 0 (a1 j)) {r0 r1 : Nat → Nat → Nat} (hr0 : ∀ j i, r0 j i < 2 ^ 64) (hr1 : ∀ j i, r1 j i < 2 ^ 64)
    {ct : BfvCipherText} {f0 f1 : Rg N} (hct : IsCt P 0 [f0, f1] ct) (h2t : 2 * t ≤ l.getD 0 0) {m : Rg N} {V : ℤ}
    (hm : Encodes t (levelQ l 0) m (phase (keyRing N sk) [f0, f1]) V) (hbelow : Below (2 ^ e) m) {T : Nat}
    (hT : 2 ^ 32 * (V + t * T) < levelQ l 0 * (2 ^ 31 - 1))
    {W : Nat} (hW : 4 * variance * N ≤ 64 * W) (bad : Finset (Fin (k * l.length) → Fin W → Fin (2 ^ 64)))
    (hbad : ∀ w ∈ bad, ¬ ∃ ev bits, Evaluation.build pr sk P aTape (fun i j => streams w (i * l.length + j)) a0 a1 r0 r1 = .ok ev ∧
      Repair.unpackTo pr' e ev ct = .ok bits ∧ bits.length = 2 ^ e ∧
      ∀ j, j < 2 ^ e → ∃ c pt, bits[j]? = some c ∧ sk.decrypt pr' c = .ok pt ∧ pt.values = residues t ((cf m j : ℤ) : Rg N)) :
    (bad.card : ℝ) ≤ 2 ^ (64 * W * (k * l.length)) *
      (2 * 2 ^ e * (N : ℝ) * Real.exp (-(3 * (T : ℝ) ^ 2 / (2 * variance * switchSquares N l 0 * ((4 : ℝ) ^ e - 1))))) := by
  have hpos : 0 < N := by subst hN; positivity
  refine c127_expand h hk pr pr' hv1 hv2 hl hN hk31 he1 he ha ha0 ha1 hr0 hr1 hct hW T bad fun w hw => ?_
  rintro ⟨ev, bits, h1, h2, h3, h4⟩
  refine hbad w hw ⟨ev, bits, h1, h2, h3, fun j hj => ?_⟩
  obtain ⟨c, g0, g1, E, h5, h6, h7, h8⟩ := h4 j hj
  have hm' : Encodes t (levelQ l 0) ((cf m j : ℤ) : Rg N) (phase (keyRing N sk) [g0, g1]) (V + t * T) :=
    BfvP.Encodes.congr (BfvP.Encodes.addError hpos (Stop.encodes_comb hpos hm hbelow) (fun k hk => (h7 k hk).le)) h8
  obtain ⟨pt, h9, h10⟩ := c65_decrypt h hk pr' (by simp) h6 h2t hm' hT
  exact ⟨c, pt, h5, h9, h10⟩

/-- Two readings of a ciphertext have the same phase modulo `Q`. -/
theorem StopTail.phase_cong (h : IsParams N t l variance P) (s : Rg N) {ct : BfvCipherText} {f0 f1 f0' f1' : Rg N} (hct : IsCt P 0 [f0, f1] ct)
    (hct' : IsCt P 0 [f0', f1'] ct) : Cong (levelQ l 0) (phase s [f0, f1]) (phase s [f0', f1']) := by
  obtain ⟨K, -, hNK, -⟩ := BfvP.params h
  subst hNK
  obtain ⟨ext, L, hw, hL, -, rfl, -⟩ := Evaluation.level_zero h
  obtain ⟨-, -, c3⟩ := (BfvP.isCt_iff hL _ _).mp hct
  obtain ⟨-, -, c3'⟩ := (BfvP.isCt_iff hL _ _).mp hct'
  rw [c3] at c3'
  simp only [List.map_cons, List.map_nil, List.cons.injEq, and_true] at c3'
  obtain ⟨x, hx⟩ := (enc_eq_iff hL.wf.ctx _ _).mp c3'.1
  obtain ⟨y, hy⟩ := (enc_eq_iff hL.wf.ctx _ _).mp c3'.2
  refine ⟨x + y * s, ?_⟩
  rw [BfvP.phase_two, BfvP.phase_two, ← BfvP.levelQ_eq hL]
  linear_combination hx + hy * s

theorem StopTail.comb_cong (hN : 0 < N) {Q m j : Nat} {f g : Rg N} (h : Cong Q f g) : Cong Q (comb m j f) (comb m j g) := by
  obtain ⟨w, hw⟩ := h
  refine ⟨comb m j w, ?_⟩
  have := congrArg (comb m j) hw
  rwa [Stop.comb_sub hN, Stop.comb_int_mul hN] at this

/-- A stopped expansion that is right for one reading of the ciphertext serves every message that ends below `2^e`. -/
theorem StopTail.serves (h : IsParams N t l variance P) (hN : 0 < N) {s : Rg N} {D : ℤ} {u : BfvCipherText → Res (List BfvCipherText)}
    {ct : BfvCipherText} {f0 f1 : Rg N} (hct : IsCt P 0 [f0, f1] ct) {bits : List BfvCipherText} (h1 : u ct = .ok bits) {n : Nat} (h2 : bits.length = n)
    (h3 : ∀ j, j < n → ∃ c, ∃ g0 g1 E : Rg N, bits[j]? = some c ∧ IsCt P 0 [g0, g1] c ∧ Bdd D E ∧
      Cong (levelQ l 0) (phase s [g0, g1]) (comb n j (phase s [f0, f1]) + E)) : Serves P l t s D n u ct := by
  have h3' : ∀ f0' f1' : Rg N, IsCt P 0 [f0', f1'] ct → ∀ j, j < n → ∃ c, ∃ g0 g1 E : Rg N, bits[j]? = some c ∧ IsCt P 0 [g0, g1] c ∧ Bdd D E ∧
      Cong (levelQ l 0) (phase s [g0, g1]) (comb n j (phase s [f0', f1']) + E) := fun f0' f1' hct' j hj => by
    obtain ⟨c, g0, g1, E, e1, e2, e3, e4⟩ := h3 j hj
    exact ⟨c, g0, g1, E, e1, e2, e3, Evaluation.cong_trans e4
      (Evaluation.cong_add (StopTail.comb_cong hN (StopTail.phase_cong h s hct hct')) (Evaluation.cong_refl _))⟩
  constructor
  · rintro M V ⟨f0', f1', c1, c2⟩ hM
    refine ⟨bits, h1, h2.ge, fun k hk => ?_⟩
    obtain ⟨c, g0, g1, E, e1, e2, e3, e4⟩ := h3' f0' f1' c1 k hk
    exact ⟨c, e1, g0, g1, e2, BfvP.Encodes.congr (BfvP.Encodes.addError hN (Stop.encodes_comb hN c2 hM) e3) e4⟩
  · intro j M B f0' f1' c1 c2 hM
    refine ⟨bits, h1, h2.ge, fun k hk => ?_⟩
    obtain ⟨c, g0, g1, E, e1, e2, e3, e4⟩ := h3' f0' f1' c1 k hk
    exact ⟨c, g0, g1, e1, e2, Stop.rlwe_comb hN c2 hM e3 e4⟩

/-- C127: for every database, coordinates, secret key, query and masks, of all choices of the random words of the errors of the Galois keys
at most the fraction `(n + 1) 2 2^e N exp(-3 T² / (2 variance N Σ q_j² (4^e - 1)))`, for `n` moduli, give an answer of the corrected server with
expansions of `e` stages, `fd + dim k ≤ 2^e ≤ N`, that does not decrypt to the addressed row, if the noise of an answer expanded with errors `T`
fits. -/
theorem c127_answer (h : IsParams N t l variance P) {sk : SecretKey} (hk : IsKey P sk) (pc pr pd : Profile) (hv1 : 1 ≤ variance)
    (hv2 : variance ≤ 16) (hl : l.length ≠ 1) {k : Nat} (hN : N = 2 ^ k) (hk31 : k ≤ 31) {e : Nat} (he : e ≤ k) {S : ℤ} (hS : Bdd S (keyRing N sk))
    -- masks of the evaluation keys, randomness of the encryption of the key
    {aTape : Nat → Nat → Nat → Nat → Nat} (ha : ∀ k j, TapeAt l 0 (aTape k j)) {a0 a1 : Nat → Nat → Nat → Nat}
    (ha0 : ∀ j, TapeAt l 0 (a0 j)) (ha1 : ∀ j, TapeAt l 0 (a1 j)) {r0 r1 : Nat → Nat → Nat} (hr0 : ∀ j i, r0 j i < 2 ^ 64)
    (hr1 : ∀ j i, r1 j i < 2 ^ 64)
    -- database
    {fd dim : Nat} {db : List Plaintext} (hdb : ∀ p ∈ db, p.values.length ≤ N) (hv : ∀ p ∈ db, ∀ a ∈ p.values, a < t) {srv : Server}
    {pr2 : Profile} (hsrv : Server.new pr2 fd dim db P = .ok srv)
    -- query
    {i0 : Nat} {is : List Nat} (h0 : i0 < fd) (his : ∀ i ∈ is, i < dim) (hd : 2 ≤ dim) (hrows : db.length = fd * dim ^ is.length)
    (he1 : 1 ≤ e) (hfit : fd + dim * is.length ≤ 2 ^ e) (hmem : db.length < 2 ^ 64) {v : List Nat} {pr3 : Profile}
    (hv' : (Client.mk fd dim).encode pr3 (i0 :: is) db.length = .ok v) {q0 : BfvCipherText} {qs : List BfvCipherText}
    {z : Nat} (hz : v.length + z ≤ N) (hq : IsQuery N P l sk fd (v ++ List.replicate z 0) q0 qs) (h2t : 2 * t ≤ l.getD 0 0)
    -- noise
    {T : Nat} (hnoise : 4 * expandedNoise N t l fd dim is.length (2 * t * variance + 2 * t) (2 * variance) t S T (2 * variance)
      (2 * variance) ≤ levelQ l 0)
    -- words of the errors of the Galois keys
    {W : Nat} (hW : 4 * variance * N ≤ 64 * W) (bad : Finset (Fin (k * l.length) → Fin W → Fin (2 ^ 64)))
    (hbad : ∀ w ∈ bad, ¬ ∃ ev ct pt row, Evaluation.build pc sk P aTape (fun i j => streams w (i * l.length + j)) a0 a1 r0 r1 = .ok ev ∧
      db[i0 + fd * address dim is]? = some row ∧ Repair.decodeTo pr e srv (q0 :: qs) ev P = .ok [ct] ∧
      sk.decrypt pd ct = .ok pt ∧ pt.values = (List.range N).map fun k => row.values.getD k 0) :
    (bad.card : ℝ) ≤ (l.length + 1) * (2 ^ (64 * W * (k * l.length)) *
      (2 * 2 ^ e * (N : ℝ) * Real.exp (-(3 * (T : ℝ) ^ 2 / (2 * variance * switchSquares N l 0 * ((4 : ℝ) ^ e - 1)))))) := by
  classical
  have hN31 : N ≤ 2 ^ 31 := by rw [hN]; exact Nat.pow_le_pow_right (by norm_num) hk31
  have hpos : 0 < N := by rw [hN]; positivity
  have heN : 2 ^ e ≤ N := by rw [hN]; exact Nat.pow_le_pow_right (by norm_num) he
  have hfd : 0 < fd := by omega
  have hpow : dim ^ is.length < 2 ^ 64 := by
    refine lt_of_le_of_lt ?_ hmem
    rw [hrows]
    exact Nat.le_mul_of_pos_left _ hfd
  have ht64 : t < 2 ^ 64 := by
    obtain ⟨_, _, _, hw, rfl, -⟩ := BfvP.params h
    exact hw.t_lt.trans (by norm_num)
  obtain ⟨srv', s1, s2, s3, s4, -⟩ := c43_new h pr2 fd dim hdb (fun p hp x hx => (hv p hp x hx).trans ht64)
  obtain rfl := Except.ok.inj (hsrv.symm.trans s1)
  have hlen : is.length < 2 ^ 32 := by
    have : is.length ≤ dim * is.length := Nat.le_mul_of_pos_left _ (by omega)
    omega
  obtain ⟨v', v1, v2, v3, v4⟩ := c42_encode pr3 (Client.mk fd dim) h0 his hpow hlen hrows
  obtain rfl := Except.ok.inj (hv'.symm.trans v1)
  have hvb := Client.bits (by dsimp only; omega) v2 v3 v4
  have hdim := c80_dimensions pr srv (by rw [s2]; exact hfd) (by rw [s3]; exact hd) (k := is.length) (by rw [s2, s3, s4, hrows]) (by rw [s4]; exact hmem)
  have hvz : ∀ x ∈ v ++ List.replicate z 0, x < 2 ^ 64 := fun x hx => by
    rcases List.mem_append.mp hx with hx | hx
    · exact hvb x hx
    · rw [(List.mem_replicate.mp hx).2]; norm_num
  have hcts := hq.isCt h hk hv1 hv2 (by simp; omega) hvz
  have hql : (q0 :: qs).length = l.length + 1 := by rw [List.length_cons, hq.length]
  have main := AnswerTail.card_list bad (fun ct w => ¬ ∃ ev, Evaluation.build pc sk P aTape (fun i j => streams w (i * l.length + j)) a0 a1 r0 r1 = .ok ev ∧
    Serves P l t (keyRing N sk) (T : ℤ) (2 ^ e) (Repair.unpackTo pr e ev) ct) (X := 2 ^ (64 * W * (k * l.length)) *
      (2 * 2 ^ e * (N : ℝ) * Real.exp (-(3 * (T : ℝ) ^ 2 / (2 * variance * switchSquares N l 0 * ((4 : ℝ) ^ e - 1)))))) (q0 :: qs)
    (fun w hw => ?_) (fun ct hct s' hs' hp => ?_)
  · rw [hql] at main
    push_cast at main
    exact main
  · by_contra hcon
    push Not at hcon
    obtain ⟨ev, b1, b2⟩ := c41_build h hk pc hv1 hv2 hl hN31 ha (rng := fun i j => streams w (i * l.length + j)) (fun _ _ => streams_lt w _)
      ha0 ha1 hr0 hr1
    have hserves : ∀ ct ∈ q0 :: qs, Serves P l t (keyRing N sk) (T : ℤ) (2 ^ e) (Repair.unpackTo pr e ev) ct := fun ct hct => by
      obtain ⟨ev', e1, e2⟩ := hcon ct hct
      obtain rfl := Except.ok.inj (b1.symm.trans e1)
      exact e2
    obtain ⟨ct, pt, row, d1, d2, d3, d4⟩ := AnswerTail.answer h hk pr pd hv1 hv2 hN31 hS b2.rgsw hdb hv hsrv h0 his (by omega) hrows hpow hv' hz hq
      hdim hfit heN hserves h2t hnoise
    exact hbad w hw ⟨ev, ct, pt, row, b1, d1, d2, d3, d4⟩
  · obtain ⟨f0, f1, hc⟩ := hcts ct hct
    refine c127_expand h hk pc pr hv1 hv2 hl hN hk31 he1 he ha ha0 ha1 hr0 hr1 hc hW T s' fun w hw => ?_
    rintro ⟨ev, bits, b1, b2, b3, b4⟩
    refine hp w hw ⟨ev, b1, StopTail.serves h hpos hc b2 b3 fun j hj => ?_⟩
    obtain ⟨c, g0, g1, E, e1, e2, e3, e4⟩ := b4 j hj
    exact ⟨c, g0, g1, E, e1, e2, fun k hk => (e3 k hk).le, e4⟩

/-- C127: if `3 T²` is `b + log N + e + 1` times `2 variance N Σ q_j² (4^e - 1)`, then at most the fraction `(n + 1) / 2^b` of the choices of the
errors of the Galois keys gives a wrong answer: against C124 the error `T` to be left room for shrinks with `2^e / N`. -/
theorem c127_answer_bits (h : IsParams N t l variance P) {sk : SecretKey} (hk : IsKey P sk) (pc pr pd : Profile) (hv1 : 1 ≤ variance)
    (hv2 : variance ≤ 16) (hl : l.length ≠ 1) {k : Nat} (hN : N = 2 ^ k) (hk31 : k ≤ 31) {e : Nat} (he : e ≤ k) {S : ℤ} (hS : Bdd S (keyRing N sk))
    -- masks of the evaluation keys, randomness of the encryption of the key
    {aTape : Nat → Nat → Nat → Nat → Nat} (ha : ∀ k j, TapeAt l 0 (aTape k j)) {a0 a1 : Nat → Nat → Nat → Nat}
    (ha0 : ∀ j, TapeAt l 0 (a0 j)) (ha1 : ∀ j, TapeAt l 0 (a1 j)) {r0 r1 : Nat → Nat → Nat} (hr0 : ∀ j i, r0 j i < 2 ^ 64)
    (hr1 : ∀ j i, r1 j i < 2 ^ 64)
    -- database
    {fd dim : Nat} {db : List Plaintext} (hdb : ∀ p ∈ db, p.values.length ≤ N) (hv : ∀ p ∈ db, ∀ a ∈ p.values, a < t) {srv : Server}
    {pr2 : Profile} (hsrv : Server.new pr2 fd dim db P = .ok srv)
    -- query
    {i0 : Nat} {is : List Nat} (h0 : i0 < fd) (his : ∀ i ∈ is, i < dim) (hd : 2 ≤ dim) (hrows : db.length = fd * dim ^ is.length)
    (he1 : 1 ≤ e) (hfit : fd + dim * is.length ≤ 2 ^ e) (hmem : db.length < 2 ^ 64) {v : List Nat} {pr3 : Profile}
    (hv' : (Client.mk fd dim).encode pr3 (i0 :: is) db.length = .ok v) {q0 : BfvCipherText} {qs : List BfvCipherText}
    {z : Nat} (hz : v.length + z ≤ N) (hq : IsQuery N P l sk fd (v ++ List.replicate z 0) q0 qs) (h2t : 2 * t ≤ l.getD 0 0)
    -- noise
    {T : Nat} (hnoise : 4 * expandedNoise N t l fd dim is.length (2 * t * variance + 2 * t) (2 * variance) t S T (2 * variance)
      (2 * variance) ≤ levelQ l 0)
    {b : Nat} (hb : 2 * variance * switchSquares N l 0 * (4 ^ e - 1) * (b + k + e + 1) ≤ 3 * T ^ 2)
    -- words of the errors of the Galois keys
    {W : Nat} (hW : 4 * variance * N ≤ 64 * W) (bad : Finset (Fin (k * l.length) → Fin W → Fin (2 ^ 64)))
    (hbad : ∀ w ∈ bad, ¬ ∃ ev ct pt row, Evaluation.build pc sk P aTape (fun i j => streams w (i * l.length + j)) a0 a1 r0 r1 = .ok ev ∧
      db[i0 + fd * address dim is]? = some row ∧ Repair.decodeTo pr e srv (q0 :: qs) ev P = .ok [ct] ∧
      sk.decrypt pd ct = .ok pt ∧ pt.values = (List.range N).map fun k => row.values.getD k 0) :
    bad.card * 2 ^ b ≤ (l.length + 1) * 2 ^ (64 * W * (k * l.length)) := by
  have h1 := c127_answer h hk pc pr pd hv1 hv2 hl hN hk31 he hS ha ha0 ha1 hr0 hr1 hdb hv hsrv h0 his hd hrows he1 hfit hmem hv' hz hq h2t hnoise hW
    bad hbad
  have hqs : ∀ q ∈ l, 0 < q := fun q hq => by have := h.2.2.1 q hq; omega
  have hne : 0 < (levelModuli l 0).length := by
    subst hN
    obtain ⟨ext, L, hw, hL, -, rfl, -⟩ := Evaluation.level_zero h
    unfold levelModuli
    simpa using List.length_pos_iff.mpr hw.ne
  have hpos : 0 < N := by rw [hN]; positivity
  have hS : (0 : ℝ) < switchSquares N l 0 := by exact_mod_cast ExpandTail.switchSquares_pos hpos hqs hne
  have hM : (0 : ℝ) < (4 : ℝ) ^ e - 1 := by
    have : (1 : ℝ) < 4 ^ e := one_lt_pow₀ (by norm_num) (by omega)
    linarith
  have hv : (0 : ℝ) < variance := by exact_mod_cast hv1
  have hb' : 2 * (variance : ℝ) * switchSquares N l 0 * ((4 : ℝ) ^ e - 1) * (b + k + e + 1) ≤ 3 * (T : ℝ) ^ 2 := by
    have h2 : 1 ≤ 4 ^ e := Nat.one_le_pow _ _ (by norm_num)
    have h3 : ((2 * variance * switchSquares N l 0 * (4 ^ e - 1) * (b + k + e + 1) : Nat) : ℝ) ≤ ((3 * T ^ 2 : Nat) : ℝ) := by exact_mod_cast hb
    push_cast [Nat.cast_sub h2] at h3
    exact h3
  have hx : ((b + k + e + 1 : Nat) : ℝ) ≤ 3 * (T : ℝ) ^ 2 / (2 * variance * switchSquares N l 0 * ((4 : ℝ) ^ e - 1)) := by
    rw [le_div_iff₀ (by positivity)]
    push_cast
    linarith
  have hexp : Real.exp (-(3 * (T : ℝ) ^ 2 / (2 * variance * switchSquares N l 0 * ((4 : ℝ) ^ e - 1)))) ≤ ((2 : ℝ) ^ (b + k + e + 1))⁻¹ := by
    rw [Real.exp_neg]
    refine inv_anti₀ (by positivity) ?_
    calc (2 : ℝ) ^ (b + k + e + 1) ≤ Real.exp 1 ^ (b + k + e + 1) := pow_le_pow_left₀ (by norm_num) (by have := Real.exp_one_gt_d9; linarith) _
      _ = Real.exp ((b + k + e + 1 : Nat) : ℝ) := by rw [← Real.exp_nat_mul, mul_one]
      _ ≤ _ := Real.exp_le_exp.mpr hx
  have h2 : (bad.card : ℝ) * 2 ^ b ≤ (l.length + 1) * 2 ^ (64 * W * (k * l.length)) := by
    have h3 : (bad.card : ℝ) ≤ (l.length + 1) * (2 ^ (64 * W * (k * l.length)) * (2 * 2 ^ e * (N : ℝ) * ((2 : ℝ) ^ (b + k + e + 1))⁻¹)) :=
      h1.trans (mul_le_mul_of_nonneg_left (mul_le_mul_of_nonneg_left (mul_le_mul_of_nonneg_left hexp (by positivity)) (by positivity)) (by positivity))
    have h4 : 2 * 2 ^ e * (N : ℝ) * ((2 : ℝ) ^ (b + k + e + 1))⁻¹ = ((2 : ℝ) ^ b)⁻¹ := by
      rw [hN]
      push_cast
      rw [pow_add, pow_add, pow_add]
      field_simp
    rw [h4] at h3
    calc (bad.card : ℝ) * 2 ^ b ≤ (l.length + 1) * (2 ^ (64 * W * (k * l.length)) * ((2 : ℝ) ^ b)⁻¹) * 2 ^ b := mul_le_mul_of_nonneg_right h3 (by positivity)
      _ = _ := by field_simp
  exact_mod_cast h2

/-- The query for the coordinates `(0, 1)` in a database of `2 × 2` rows, expanded in two stages of the three: at most five in `2^100` of the
choices of the errors of the Galois keys give an answer that does not decrypt to the row. -/
example : ∃ P sk srv v q0 qs, IsParams 8 17 Ex.mods4 10 P ∧ IsKey P sk ∧ Server.new .release 2 2 (Ex.rows4 P) P = .ok srv ∧
    (Client.mk 2 2).encode .release [0, 1] 4 = .ok v ∧ IsQuery 8 P Ex.mods4 sk 2 v q0 qs ∧
    ∀ bad : Finset (Fin (3 * 4) → Fin 5 → Fin (2 ^ 64)), (∀ w ∈ bad, ¬ ∃ ev ct pt,
      Evaluation.build .debug sk P (fun _ _ _ _ => 0) (fun i j => streams w (i * 4 + j)) (fun _ _ _ => 0) (fun _ _ _ => 0)
        (fun _ i => i % 1000) (fun _ i => i % 1000) = .ok ev ∧
      Repair.decodeTo .release 2 srv (q0 :: qs) ev P = .ok [ct] ∧ sk.decrypt .debug ct = .ok pt ∧ pt.values = [5, 6, 7, 0, 0, 0, 0, 0]) →
      bad.card * 2 ^ 100 ≤ (4 + 1) * 2 ^ (64 * 5 * (3 * 4)) := by
  obtain ⟨P, h⟩ := Ex.exists_params4
  obtain ⟨sk, -, hk, hb⟩ := c30_generate h .release (by norm_num) (by norm_num) Ex.wordTape
  have ht : TapeAt Ex.mods4 0 fun _ _ => 0 := Ex.tape0 Ex.mods4_gt
  have hlen : ∀ p ∈ Ex.rows4 P, p.values.length ≤ 8 := by simp [Ex.rows4]
  have hval : ∀ p ∈ Ex.rows4 P, ∀ a ∈ p.values, a < 17 := by simp [Ex.rows4]
  obtain ⟨srv, s1, -⟩ := c43_new h .release 2 2 (db := Ex.rows4 P) hlen (fun p hp a ha => (hval p hp a ha).trans (by norm_num))
  have hv : (Client.mk 2 2).encode .release [0, 1] 4 = .ok [1, 0, 0, 1] := by decide +kernel
  obtain ⟨q0, qs, hq⟩ := c44_query h hk (by norm_num) (by norm_num) (v := [1, 0, 0, 1]) (by norm_num) (by simp) 2
  refine ⟨P, sk, srv, _, q0, qs, h, hk, s1, hv, hq, fun bad hbad => ?_⟩
  have key := c127_answer_bits h hk .debug .release .debug (by norm_num) (by norm_num) (by decide) (k := 3) (by norm_num) (by norm_num) (e := 2)
    (by norm_num) hb (aTape := fun _ _ _ _ => 0) (fun _ _ => ht) (fun _ => ht) (fun _ => ht)
    (r0 := fun _ i => i % 1000) (fun _ => Ex.wordTape) (r1 := fun _ i => i % 1000) (fun _ => Ex.wordTape) hlen hval s1 (i0 := 0) (is := [1])
    (by norm_num) (by simp) (by norm_num) rfl (by norm_num) (by norm_num) (by simp [Ex.rows4]) hv (z := 0) (by norm_num) (by simpa using hq) (by decide)
    (T := 2 ^ 34) (by
      unfold expandedNoise
      rw [show switchNoise 8 Ex.mods4 0 = 8 * (16777441 + 16777601 + 16777633 + 16777681) by decide +kernel,
        show levelQ Ex.mods4 0 = 16777441 * 16777601 * 16777633 * 16777681 by decide +kernel]
      norm_num) (b := 100) (by decide +kernel) (W := 5) (by norm_num) bad fun w hw => by
      rintro ⟨ev, ct, pt, row, b1, b2, b3, b4, b5⟩
      obtain rfl : row = ⟨P, 0, .poly, [5, 6, 7]⟩ := (Option.some.inj b2).symm
      exact hbad w hw ⟨ev, ct, pt, b1, b3, b4, b5.trans rfl⟩
  exact key.trans_eq (congrArg (fun x => (x + 1) * 2 ^ (64 * 5 * (3 * x))) (show Ex.mods4.length = 4 from rfl))

/-- An encryption of `3 + X` at degree 8, expanded in one stage: the fraction of the choices of the keys for which not
both results decrypt to their coefficient. -/
example : ∃ (P : BfvParameters) (sk : SecretKey) (ct : BfvCipherText), IsParams 8 17 Ex.mods 10 P ∧ IsKey P sk ∧
    ∀ bad : Finset (Fin (3 * 3) → Fin 5 → Fin (2 ^ 64)), (∀ w ∈ bad, ¬ ∃ ev bits,
      Evaluation.build .debug sk P (fun _ _ _ _ => 0) (fun i j => streams w (i * 3 + j)) (fun _ _ _ => 0) (fun _ _ _ => 0)
        (fun _ i => i % 1000) (fun _ i => i % 1000) = .ok ev ∧
      Repair.unpackTo .release 1 ev ct = .ok bits ∧ bits.length = 2 ^ 1 ∧
      ∀ j, j < 2 ^ 1 → ∃ c pt, bits[j]? = some c ∧ sk.decrypt .release c = .ok pt ∧
        pt.values = residues 17 ((cf (msgRing 8 [3, 1] : Rg 8) j : ℤ) : Rg 8)) →
      (bad.card : ℝ) ≤ 2 ^ (64 * 5 * (3 * 3)) * (2 * 2 ^ 1 * ((8 : Nat) : ℝ) *
        Real.exp (-(3 * ((2 ^ 50 : Nat) : ℝ) ^ 2 / (2 * (10 : Nat) * switchSquares 8 Ex.mods 0 * ((4 : ℝ) ^ 1 - 1))))) := by
  obtain ⟨P, h⟩ := Ex.exists_params
  obtain ⟨sk, -, hk, -⟩ := c30_generate h .release (by norm_num) (by norm_num) Ex.wordTape
  obtain ⟨ct, f0, f1, -, hct, he⟩ := c30_encrypt h hk .release (by norm_num) (by norm_num) (pt := ⟨P, 0, .poly, [3, 1]⟩) rfl rfl (by norm_num)
    (by simp) (Ex.tape0 Ex.mods_gt) Ex.wordTape
  exact ⟨P, sk, ct, h, hk, fun bad hbad => c127_expand_decrypt h hk .debug .release (by norm_num) (by norm_num) (by decide) (k := 3) (by norm_num)
    (by norm_num) (e := 1) (by norm_num) (by norm_num) (aTape := fun _ _ _ _ => 0) (fun _ _ => Ex.tape0 Ex.mods_gt) (fun _ => Ex.tape0 Ex.mods_gt)
    (fun _ => Ex.tape0 Ex.mods_gt) (r0 := fun _ i => i % 1000) (fun _ => Ex.wordTape) (r1 := fun _ i => i % 1000) (fun _ => Ex.wordTape) hct
    (by decide) he (fun k hk hk8 => by
      unfold msgRing
      rw [cf_ofCoeffs (by norm_num) _ hk8, List.getD_eq_default _ _ (by simpa using hk)]
      rfl) (T := 2 ^ 50) (by rw [Ex.levelQ_mods0]; norm_num) (W := 5) (by norm_num) bad hbad⟩

end OnionPIR
