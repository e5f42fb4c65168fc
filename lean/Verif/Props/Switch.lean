import Verif.Props.Levels
import Verif.Spec.Switch
/- C61: lowering the level of a ciphertext. The code has `mod_switch_to` for polynomials; the ciphertext operation below applies it to every
component. -/
namespace OnionPIR
open Rg Poly Spec

variable {N t variance : Nat} {l : List Nat} {P : BfvParameters}

theorem roundSeq_error (qs : List Nat) (hq : ∀ q ∈ qs, 2 ≤ q) (A : Nat → ℤ) (k : Nat) :
    |(qs.prod : ℤ) * roundSeq qs A k - A k| ≤ qs.prod - 1 := by
  induction qs generalizing A with
  | nil => simp [roundSeq]
  | cons q qs ih =>
    have h1 := ih (fun x hx => hq x (by simp [hx])) (fun k => (A k + ((q / 2 : Nat) : ℤ)) / (q : ℤ))
    have hq2 := hq q (by simp)
    have h2 : |(q : ℤ) * ((A k + ((q / 2 : Nat) : ℤ)) / (q : ℤ)) - A k| ≤ q - 1 := by
      have e1 := Int.mul_ediv_add_emod (A k + ((q / 2 : Nat) : ℤ)) q
      have e2 := Int.emod_nonneg (A k + ((q / 2 : Nat) : ℤ)) (show (q : ℤ) ≠ 0 by omega)
      have e3 := Int.emod_lt_of_pos (A k + ((q / 2 : Nat) : ℤ)) (show (0 : ℤ) < q by omega)
      have e4 : ((q / 2 : Nat) : ℤ) ≤ q - 1 := by omega
      rw [abs_le]
      constructor <;> linarith
    rw [List.prod_cons, roundSeq, Nat.cast_mul]
    set B := (A k + ((q / 2 : Nat) : ℤ)) / (q : ℤ) with hB
    set C := roundSeq qs (fun k => (A k + ((q / 2 : Nat) : ℤ)) / (q : ℤ)) k with hC
    have h3 : (q : ℤ) * (qs.prod : ℤ) * C - A k = q * ((qs.prod : ℤ) * C - B) + (q * B - A k) := by ring
    rw [h3]
    have h4 : |(q : ℤ) * ((qs.prod : ℤ) * C - B)| ≤ q * ((qs.prod : ℤ) - 1) := by
      rw [abs_mul, abs_of_nonneg (show (0 : ℤ) ≤ q by positivity)]
      exact mul_le_mul_of_nonneg_left h1 (by positivity)
    have := abs_add_le ((q : ℤ) * ((qs.prod : ℤ) * C - B)) (q * B - A k)
    linarith

theorem missing_eq (l : List Nat) {i j : Nat} (hij : i ≤ j) (hj : j < l.length) : ((levelModuli l i).reverse.take (j - i)).prod = missing l i j := by
  unfold missing
  have hlen : (levelModuli l i).length = l.length - i := by unfold levelModuli; rw [List.length_take]; omega
  rw [List.take_reverse, List.prod_reverse, hlen, show l.length - i - (j - i) = l.length - j by omega]

/-- C61 for polynomials: switching from level `i` to level `j ≥ i` divides by the product `D` of the dropped moduli up to an error below 1. -/
theorem c61_poly (h : IsParams N t l variance P) (pr : Profile) {i j : Nat} (hij : i ≤ j) (hj : j < l.length) {c : RqContext}
    (hc : P.qCtxs[j]? = some c) {f : Rg N} {p : Poly} (hp : PolyAt P i f p) :
    ∃ p', ∃ f' : Rg N, switchPoly pr c p = .ok p' ∧ PolyAt P j f' p' ∧
      Bdd ((missing l i j : ℤ) - 1) (((missing l i j : ℤ) : Rg N) * f' - f) := by
  have h' := h
  obtain ⟨K, ext, rfl, hw, rfl, rfl, rfl⟩ := BfvP.params h
  have hN : 0 < 2 ^ K := by positivity
  obtain ⟨L, hL⟩ := hw.levels i (by omega)
  obtain ⟨M, hM⟩ := hw.levels j hj
  obtain rfl := Option.some.inj (hc.symm.trans hM.q)
  obtain ⟨pr0, sample, bd, hs, hctx⟩ := BfvParameters.level_contexts h'
  obtain ⟨c1, q1, n1⟩ := hctx i (by omega)
  obtain ⟨c2, q2, n2⟩ := hctx j hj
  obtain rfl := Option.some.inj (q1.symm.trans hL.q)
  obtain rfl := Option.some.inj (q2.symm.trans hM.q)
  have h64 : 2 ^ K < 2 ^ 64 := by have := h'.1; omega
  have hlen : (levelModuli P.ciphertextModuli i).length = P.ciphertextModuli.length - i := by unfold levelModuli; rw [List.length_take]; omega
  have hit : L.qCtx.switchIterations M.qCtx = some (j - i) := by
    rw [c24_chain hs h64 n1]
    refine ⟨by omega, ?_⟩
    have : (levelModuli P.ciphertextModuli i).take ((levelModuli P.ciphertextModuli i).length - (j - i)) = levelModuli P.ciphertextModuli j := by
      rw [hlen]; unfold levelModuli; rw [List.take_take]; congr 1; omega
    rw [this]; exact n2
  have hIs : IsContext (2 ^ K) (levelModuli P.ciphertextModuli i) L.qCtx := ⟨h64, pr0, sample, bd, hs, n1⟩
  have hd := RqP.denotes_enc hL.wf.ctx (r := .powerBasis) (by simp) f (A := cf f) (fun _ _ => rfl)
  obtain ⟨b, b1, b2, -⟩ := c24_switch_to hIs pr hit hd
  rw [RqP.denotes_iff hM.wf.ctx (by simp)] at b2
  refine ⟨_, ofCoeffs (2 ^ K) (roundSeq ((levelModuli P.ciphertextModuli i).reverse.take (j - i)) (cf f)), ?_,
    (BfvP.polyAt_iff hM _ _).mpr rfl, ?_⟩
  · unfold switchPoly
    rw [(BfvP.polyAt_iff hL _ _).mp hp, toPower_enc hL.wf.ctx, res_ok_bind, b1, res_ok_bind, b2, toNtt_enc hM.wf.ctx]
  · intro k hk
    rw [cf_sub hN, cf_int_mul hN, cf_ofCoeffs hN _ hk, ← missing_eq _ hij hj]
    refine roundSeq_error _ (fun q hq => ?_) _ k
    have h1 := hw.lt_q q (List.mem_of_mem_take (List.mem_reverse.mp (List.mem_of_mem_take hq)))
    have h2 := hw.t_prime.two_le
    omega

theorem switchCts (h : IsParams N t l variance P) (pr : Profile) {i j : Nat} (hij : i ≤ j) (hj : j < l.length) {c : RqContext}
    (hc : P.qCtxs[j]? = some c) {fs : List (Rg N)} {ps : List Poly} (hp : List.Forall₂ (PolyAt P i) fs ps) :
    ∃ ps', ∃ fs' : List (Rg N), mapR (switchPoly pr c) ps = .ok ps' ∧ List.Forall₂ (PolyAt P j) fs' ps' ∧
      List.Forall₂ (fun f f' : Rg N => Bdd ((missing l i j : ℤ) - 1) (((missing l i j : ℤ) : Rg N) * f' - f)) fs fs' := by
  induction hp with
  | nil => exact ⟨[], [], rfl, .nil, .nil⟩
  | cons hp _ ih =>
    obtain ⟨ps', fs', h1, h2, h3⟩ := ih
    obtain ⟨p', f', h4, h5, h6⟩ := c61_poly h pr hij hj hc hp
    refine ⟨p' :: ps', f' :: fs', ?_, .cons h5 h2, .cons h6 h3⟩
    rw [mapR, h4, res_ok_bind, h1, res_ok_bind]

theorem phase_switch (hN : 0 < N) {D S : ℤ} {s : Rg N} (hs : Bdd S s) {fs fs' : List (Rg N)}
    (h : List.Forall₂ (fun f f' : Rg N => Bdd D ((((D + 1 : ℤ)) : Rg N) * f' - f)) fs fs') :
    Bdd (D * roundingNoise N S fs.length) (((D + 1 : ℤ) : Rg N) * phase s fs' - phase s fs) := by
  induction h with
  | nil => simpa [phase, roundingNoise] using Bdd.zero hN
  | @cons f f' fs fs' h1 _ ih =>
    have := h1.add hN (hs.mul hN ih)
    rw [show ((D + 1 : ℤ) : Rg N) * phase s (f' :: fs') - phase s (f :: fs)
      = ((D + 1 : ℤ) : Rg N) * f' - f + s * (((D + 1 : ℤ) : Rg N) * phase s fs' - phase s fs) by simp only [phase]; ring]
    refine this.mono (le_of_eq ?_)
    rw [List.length_cons, roundingNoise]
    ring

theorem Encodes_switch (hN : 0 < N) {t Q D : Nat} (hD : 1 ≤ D) {m phi phi' : Rg N} {V R : ℤ} (h : Encodes t (Q * D) m phi V)
    (hb : Bdd (((D : ℤ) - 1) * R) (((D : ℤ) : Rg N) * phi' - phi)) (hR : 0 ≤ R) : Encodes t Q m phi' (V / D + t * R) := by
  obtain ⟨v, w, hv, he⟩ := h
  have hD0 : (0 : ℤ) < D := by exact_mod_cast hD
  refine ⟨((t : ℤ) : Rg N) * phi' - ((Q : ℤ) : Rg N) * m - ((t : ℤ) : Rg N) * (((Q : ℤ) : Rg N) * w), w, ?_, by ring⟩
  have h1 : ((D : ℤ) : Rg N) * (((t : ℤ) : Rg N) * phi' - ((Q : ℤ) : Rg N) * m - ((t : ℤ) : Rg N) * (((Q : ℤ) : Rg N) * w))
      = v + ((t : ℤ) : Rg N) * (((D : ℤ) : Rg N) * phi' - phi) := by
    push_cast at he ⊢
    linear_combination he
  have h2 : Bdd (V + |(t : ℤ)| * (((D : ℤ) - 1) * R)) (v + ((t : ℤ) : Rg N) * (((D : ℤ) : Rg N) * phi' - phi)) := hv.add hN (hb.int_mul hN t)
  rw [← h1] at h2
  intro k hk
  have h3 := h2 k hk
  rw [cf_int_mul hN, abs_mul, abs_of_pos hD0, abs_of_nonneg (by positivity : (0 : ℤ) ≤ t)] at h3
  have h4 : (V + (t : ℤ) * (((D : ℤ) - 1) * R)) / D ≤ V / D + t * R := by
    have h5 : V + (t : ℤ) * (((D : ℤ) - 1) * R) ≤ V + (t * R) * D := by
      have : 0 ≤ (t : ℤ) * R := by positivity
      nlinarith
    calc _ ≤ (V + (t * R) * D) / D := Int.ediv_le_ediv hD0 h5
      _ = _ := Int.add_mul_ediv_right _ _ hD0.ne'
  refine le_trans ?_ h4
  rw [Int.le_ediv_iff_mul_le hD0]
  linarith

/-- C61: switching a ciphertext from level `i` to level `j ≥ i` keeps its message and divides its noise by the product of the dropped
moduli, up to the rounding noise. It succeeds in both profiles. -/
theorem c61_switch (h : IsParams N t l variance P) (pr : Profile) {ct : BfvCipherText} {i j : Nat} (hij : i ≤ j) (hj : j < l.length)
    {fs : List (Rg N)} (hct : IsCt P i fs ct) :
    ∃ ct', ∃ fs' : List (Rg N), switchCt pr ct j = .ok ct' ∧ IsCt P j fs' ct' ∧ fs'.length = fs.length ∧
      ∀ (s m : Rg N) (S V : ℤ), Bdd S s → Encodes t (levelQ l i) m (phase s fs) V →
        Encodes t (levelQ l j) m (phase s fs') (V / (missing l i j : ℤ) + t * roundingNoise N S fs.length) := by
  have h' := h
  obtain ⟨K, ext, rfl, hw, rfl, rfl, rfl⟩ := BfvP.params h
  have hN : 0 < 2 ^ K := by positivity
  obtain ⟨M, hM⟩ := hw.levels j hj
  obtain ⟨rfl, h2, h3⟩ := hct
  obtain ⟨ps', fs', e1, e2, e3⟩ := switchCts h' pr hij hj hM.q h3
  refine ⟨⟨ct.params, ps', j⟩, fs', ?_, ⟨rfl, rfl, e2⟩, e3.length_eq.symm, ?_⟩
  · unfold switchCt
    rw [show idx ct.params.qCtxs j = .ok M.qCtx by unfold idx; rw [hM.q], res_ok_bind, e1, res_ok_bind]
  · intro s m S V hs he
    have hD : 1 ≤ missing ct.params.ciphertextModuli i j := by
      have hpos : 0 < missing ct.params.ciphertextModuli i j := by
        rw [← missing_eq _ hij hj]
        refine List.prod_pos fun q hq => ?_
        have h1 := hw.lt_q q (List.mem_of_mem_take (List.mem_reverse.mp (List.mem_of_mem_take hq)))
        omega
      exact hpos
    rw [BfvP.levelQ_split _ hij] at he
    have hS := hs.nonneg hN
    have hR : ∀ k, 0 ≤ roundingNoise (2 ^ K) S k := by
      intro k
      induction k with
      | zero => exact le_refl _
      | succ k ih => rw [roundingNoise]; positivity
    refine Encodes_switch hN hD he ?_ (hR _)
    have := phase_switch hN (D := (missing ct.params.ciphertextModuli i j : ℤ) - 1) hs (fs := fs) (fs' := fs') (by
      rw [sub_add_cancel]; exact e3)
    rwa [sub_add_cancel] at this

/-- C61: the switched ciphertext decrypts to the same message when the noise fits the smaller modulus. -/
theorem c61_decrypts (h : IsParams N t l variance P) {sk : SecretKey} (hk : IsKey P sk) (pr pr' : Profile) {ct : BfvCipherText} {i j : Nat}
    (hij : i ≤ j) (hj : j < l.length) {fs : List (Rg N)} (hne : fs ≠ []) (hct : IsCt P i fs ct) (h2t : 2 * t ≤ l.getD 0 0) {m : Rg N} {S V : ℤ}
    (hs : Bdd S (keyRing N sk)) (henc : Encodes t (levelQ l i) m (phase (keyRing N sk) fs) V)
    (hV : 4 * (V / (missing l i j : ℤ) + t * roundingNoise N S fs.length) ≤ levelQ l j) :
    ∃ ct' pt, switchCt pr ct j = .ok ct' ∧ sk.decrypt pr' ct' = .ok pt ∧ pt.level = j ∧ pt.values = residues t m := by
  obtain ⟨ct', fs', h1, h2, h3, h4⟩ := c61_switch h pr hij hj hct
  obtain ⟨pt, h5, -, h6, h7⟩ := c30_decrypt h hk pr' (fs := fs') (by
    rintro rfl; exact hne (List.length_eq_zero_iff.mp h3.symm)) h2 h2t (h4 _ m S V hs henc) hV
  exact ⟨ct', pt, h1, h5, h6, h7⟩

/-- C61: the level cannot be raised: `mod_switch_to` finds no chain and panics. -/
theorem c61_up (h : IsParams N t l variance P) (pr : Profile) {ct : BfvCipherText} {i j : Nat} (hij : j < i) {fs : List (Rg N)}
    (hne : fs ≠ []) (hct : IsCt P i fs ct) : switchCt pr ct j = .error .unwrap := by
  have h' := h
  obtain ⟨K, ext, rfl, hw, rfl, rfl, rfl⟩ := BfvP.params h
  have hlev := hct
  obtain ⟨rfl, h2, h3⟩ := hct
  obtain ⟨L, hL⟩ := BfvP.isCt_level hw hne hlev
  have hi : i < ct.params.ciphertextModuli.length := by
    generalize ct.cts = ps at h3
    cases h3 with
    | nil => exact absurd rfl hne
    | cons hp _ => exact BfvP.level_lt hw hp
  obtain ⟨M, hM⟩ := hw.levels j (by omega)
  obtain ⟨pr0, sample, bd, hs, hctx⟩ := BfvParameters.level_contexts h'
  obtain ⟨c1, q1, n1⟩ := hctx i hi
  obtain ⟨c2, q2, n2⟩ := hctx j (by omega)
  obtain rfl := Option.some.inj (q1.symm.trans hL.q)
  obtain rfl := Option.some.inj (q2.symm.trans hM.q)
  cases fs with
  | nil => exact absurd rfl hne
  | cons f fs =>
    rw [List.forall₂_cons_left_iff] at h3
    obtain ⟨p, ps, hp, -, hps⟩ := h3
    have hnone : L.qCtx.switchIterations M.qCtx = none := by
      by_contra hsome
      obtain ⟨k, hk⟩ := Option.ne_none_iff_exists'.mp hsome
      have h64 : 2 ^ K < 2 ^ 64 := by have := h'.1; omega
      obtain ⟨h5, h6⟩ := (c24_chain hs h64 n1 _ k).mp hk
      obtain ⟨-, -, -, h7⟩ := RqContext.new_wf hs h64 h6
      obtain ⟨-, -, -, h8⟩ := RqContext.new_wf hs h64 n2
      have h9 := congrArg List.length (h7.symm.trans h8)
      unfold levelModuli at h9
      simp only [List.length_take] at h9
      omega
    unfold switchCt
    rw [show idx ct.params.qCtxs j = .ok M.qCtx by unfold idx; rw [hM.q], res_ok_bind, hps, mapR]
    unfold switchPoly
    rw [(BfvP.polyAt_iff hL _ _).mp hp, toPower_enc hL.wf.ctx, res_ok_bind, c24_unreachable pr (by exact hnone)]
    rfl

/-- An encryption of level 0 is switched to level 2 (one modulus left) and decrypted there; going back up fails. -/
example : ∃ P sk ct ct' pt, IsParams 8 17 Ex.mods 10 P ∧ IsKey P sk ∧ switchCt .debug ct 2 = .ok ct' ∧ sk.decrypt .debug ct' = .ok pt ∧
    pt.values = [3, 1, 16, 0, 2, 0, 0, 9] ∧ switchCt .debug ct' 0 = .error .unwrap := by
  obtain ⟨P, sk, ct, f0, f1, h, hk, hb, hct, he⟩ := Ex.setup
  obtain ⟨ct', pt, h1, h2, -, h3⟩ := c61_decrypts h hk .debug .debug (i := 0) (j := 2) (by norm_num) (by decide) (by simp) hct (by decide) hb he (by
    rw [show levelQ Ex.mods 2 = 1048609 by decide +kernel, show missing Ex.mods 0 2 = 1048721 * 1048897 by decide +kernel]
    norm_num [roundingNoise])
  obtain ⟨ct1, fs', h4, h5, h6, -⟩ := c61_switch h .debug (i := 0) (j := 2) (by norm_num) (by decide) hct
  obtain rfl := Except.ok.inj (h1.symm.trans h4)
  refine ⟨P, sk, ct, ct', pt, h, hk, h1, h2, ?_, c61_up h .debug (by norm_num) (by rintro rfl; simp at h6) h5⟩
  rw [h3]
  exact (residues_msgRing (K := 3) 17 _).trans (by decide)

/-- `c61_poly` for `X` from level 0 to level 2. -/
example : ∃ P c p p', ∃ f' : Rg 8, IsParams 8 17 Ex.mods 10 P ∧ P.qCtxs[2]? = some c ∧ PolyAt P 0 (xx : Rg 8) p ∧ switchPoly .debug c p = .ok p' ∧
    PolyAt P 2 f' p' := by
  obtain ⟨P, h⟩ := Ex.exists_params
  obtain ⟨p, hp⟩ := c33_exists_poly h (i := 0) (by simp [Ex.mods]) (xx : Rg 8)
  obtain ⟨K, ext, hN, hw, e1, e2, e3⟩ := BfvP.params h
  obtain ⟨L, hL⟩ := hw.levels 2 (by simp [e2, Ex.mods])
  obtain ⟨p', f', h1, h2, -⟩ := c61_poly h .debug (i := 0) (j := 2) (by norm_num) (by simp [Ex.mods]) hL.q hp
  exact ⟨P, _, p, p', f', h, hL.q, hp, h1, h2⟩

end OnionPIR
