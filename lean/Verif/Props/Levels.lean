import Verif.Spec.Switch
import Verif.Proofs.Levels
import Verif.Props.Ksk
import Verif.Props.BfvExtra
/- C59: key-switching keys whose level differs from that of the ciphertexts. -/
namespace OnionPIR
open Rg Poly Spec

variable {N t variance : Nat} {l : List Nat} {P : BfvParameters}

theorem BfvP.shares (h : IsParams N t l variance P) {K : Nat} {ext : List Nat} {i j : Nat} {L M : BfvLevel}
    (hL : P.At K ext i L) (hM : P.At K ext j M) (hi : i < l.length) (hj : j < l.length) :
    L.qCtx.Shares M.qCtx (l.length - max i j) ∧ L.qCtx.nttOps.map (fun op => op.p.p) = levelModuli l i := by
  obtain ⟨pr, sample, bd, hs, hc⟩ := BfvParameters.level_contexts h
  have hN : N < 2 ^ 64 := by have := h.1; omega
  obtain ⟨c0, -, n0⟩ := hc 0 (by omega)
  obtain ⟨c1, q1, n1⟩ := hc i hi
  obtain ⟨c2, q2, n2⟩ := hc j hj
  obtain rfl := Option.some.inj (q1.symm.trans hL.q)
  obtain rfl := Option.some.inj (q2.symm.trans hM.q)
  have hl0 : levelModuli l 0 = l := by simp [levelModuli]
  rw [hl0] at n0
  have o1 := RqContext.ops_take n0 n1
  have o2 := RqContext.ops_take n0 n2
  have len : c0.nttOps.length = l.length := by
    obtain ⟨ms, h1, h2⟩ := RqContext.new_ops n0
    rw [(mapR_inv h2).1, (mapR_inv h1).1]
  obtain ⟨K1, -, w1, m1⟩ := RqContext.new_wf hs hN n1
  refine ⟨⟨?_, ?_, ?_⟩, by rw [← w1.core.m64_ops, m1]⟩
  · rw [o1, List.length_take, len]; omega
  · rw [o1, o2, List.take_take, List.take_take]; congr 1; omega
  · rw [o1, o2, List.length_take, List.length_take, len]; omega

/-- C59: a key made for ciphertexts with at most as many moduli as the key switches them correctly: the extra rows of the key are ignored. -/
theorem c59_switch_partial (h : IsParams N t l variance P) {sk : SecretKey} (hk : IsKey P sk) (pr : Profile) (hv1 : 1 ≤ variance)
    (hv2 : variance ≤ 16) {i j : Nat} (hij : j ≤ i) (hi : i < l.length) {src : Rg N} {p : Poly} (hp : PolyAt P j src p)
    {aTape : Nat → Nat → Nat → Nat} (ha : ∀ k, TapeAt l j (aTape k)) {rng : Nat → Nat → Nat} (hr : ∀ j i, rng j i < 2 ^ 64) :
    ∃ k, Ksk.new pr sk p i j aTape rng = .ok k ∧ ∀ (pr' : Profile) (f : Rg N) (pf : Poly), PowerAt P i f pf →
      ∃ p0 p1, ∃ r0 r1 E : Rg N, k.keySwitch pr' pf = .ok (p0, p1) ∧ PolyAt P i r0 p0 ∧ PolyAt P i r1 p1 ∧
        Bdd (switchNoise N l i * (2 * variance)) E ∧ Cong (levelQ l i) (r0 + r1 * keyRing N sk) (f * src + E) := by
  have h' := h
  obtain ⟨K, ext, rfl, hw, rfl, rfl, rfl⟩ := BfvP.params h
  obtain ⟨L, hL⟩ := hw.levels i hi
  obtain ⟨M, hM⟩ := hw.levels j (by omega)
  obtain ⟨hs, hops⟩ := BfvP.shares h' hL hM hi (by omega)
  have hsk := BfvP.key hw hk
  have hP := hk.1
  subst hP
  rw [(BfvP.polyAt_iff hM _ _).mp hp]
  obtain ⟨e, a, he, hnew⟩ := Ksk.new_pack hsk pr hL hM hv1 hv2 (fun j => BfvP.tape hM (ha j)) hr
  refine ⟨_, hnew src, fun pr' f pf hf => ?_⟩
  rw [(BfvP.powerAt_iff hL _ _).mp hf]
  have hm : sk.params.ciphertextModuli.length - max i j = L.qCtx.nttOps.length := by
    have := congrArg List.length hops
    simp only [List.length_map, levelModuli, List.length_take] at this
    omega
  have := Ksk.keySwitch_pack sk.params hL.wf.ctx hM.wf.ctx pr' hs (u := 1) (fun _ _ => by simp)
    (fun op hop => by rw [hm, List.drop_length] at hop; simp at hop) (sk.ring K) e a src f
  refine ⟨_, _, _, _, Ksk.digitSum L.qCtx f e, this, (BfvP.polyAt_iff hL _ _).mpr rfl, (BfvP.polyAt_iff hL _ _).mpr rfl, ?_, ?_⟩
  · rw [BfvP.switchNoise_eq hL]; exact Ksk.digitSum_bdd hL.wf.ctx he f
  · unfold Cong
    rw [← BfvP.levelQ_eq hL, Int.cast_one, one_mul, one_mul, BfvP.keyRing_eq]
    exact Ksk.digitSum_phase hL.wf.ctx _ e a src f

theorem BfvP.levelQ_split (l : List Nat) {i j : Nat} (hij : i ≤ j) : levelQ l i = levelQ l j * missing l i j := by
  unfold levelQ missing
  have : levelModuli l j = (levelModuli l i).take (l.length - j) := by
    unfold levelModuli; rw [List.take_take]; congr 1; omega
  rw [this, ← List.prod_append, List.take_append_drop]

theorem BfvP.exists_idempotent {a b : Nat} (h : Nat.Coprime a b) : ∃ u : ℤ, (a : ℤ) ∣ u - 1 ∧ (b : ℤ) ∣ u := by
  obtain ⟨x, y, hxy⟩ := Nat.Coprime.isCoprime h
  exact ⟨y * b, ⟨-x, by linear_combination hxy⟩, dvd_mul_left _ _⟩

theorem BfvP.coprime_split {K : Nat} {ext : List Nat} {i j : Nat} {L : BfvLevel} (hL : P.At K ext i L)
    (hm : L.qCtx.moduli64 = levelModuli l i) (hij : i < j) : Nat.Coprime (levelQ l j) (missing l i j) := by
  have hcop := hL.wf.ctx.cop
  rw [hm] at hcop
  have : levelModuli l j = (levelModuli l i).take (l.length - j) := by
    unfold levelModuli; rw [List.take_take]; congr 1; omega
  unfold levelQ missing
  rw [this]
  rw [← List.take_append_drop (l.length - j) (levelModuli l i), List.pairwise_append] at hcop
  rw [Nat.coprime_list_prod_left_iff]
  intro x hx
  rw [Nat.coprime_list_prod_right_iff]
  intro y hy
  exact hcop.2.2 x hx y hy

/-- What a key of level `j` makes of polynomials of level `i < j`: the shared rows are switched, the others are zero. The errors depend on
the randomness only. -/
theorem BfvP.switch_low (h : IsParams N t l variance P) {sk : SecretKey} (hk : IsKey P sk) (pr : Profile) (hv1 : 1 ≤ variance)
    (hv2 : variance ≤ 16) {i j : Nat} (hij : i < j) (hj : j < l.length)
    {aTape : Nat → Nat → Nat → Nat} (ha : ∀ k, TapeAt l j (aTape k)) {rng : Nat → Nat → Nat} (hr : ∀ j i, rng j i < 2 ^ 64) :
    ∃ (E : Rg N → Rg N) (u : ℤ), (levelQ l j : ℤ) ∣ u - 1 ∧ (missing l i j : ℤ) ∣ u ∧ (∀ f, Bdd (switchNoise N l i * (2 * variance)) (E f)) ∧
      ∀ (src : Rg N) (p : Poly), PolyAt P j src p → ∃ k, Ksk.new pr sk p i j aTape rng = .ok k ∧
        ∀ (pr' : Profile) (f : Rg N) (pf : Poly), PowerAt P i f pf → ∃ p0 p1, ∃ d0 d1 : Rg N, k.keySwitch pr' pf = .ok (p0, p1) ∧
          PolyAt P i ((u : Rg N) * d0) p0 ∧ PolyAt P i ((u : Rg N) * d1) p1 ∧ Cong (levelQ l i) (d0 + d1 * keyRing N sk) (f * src + E f) := by
  have h' := h
  obtain ⟨K, ext, rfl, hw, rfl, rfl, rfl⟩ := BfvP.params h
  obtain ⟨L, hL⟩ := hw.levels i (by omega)
  obtain ⟨M, hM⟩ := hw.levels j hj
  obtain ⟨hs, hops⟩ := BfvP.shares h' hL hM (by omega) hj
  have hm64 : L.qCtx.moduli64 = levelModuli P.ciphertextModuli i := by rw [← hops, hL.wf.ctx.core.m64_ops]
  have hsk := BfvP.key hw hk
  have hP := hk.1
  subst hP
  obtain ⟨e, a, he, hnew⟩ := Ksk.new_pack hsk pr hL hM hv1 hv2 (fun j => BfvP.tape hM (ha j)) hr
  obtain ⟨u, hu1, hu2⟩ := BfvP.exists_idempotent (BfvP.coprime_split hL hm64 hij)
  have hmax : max i j = j := by omega
  rw [hmax] at hs
  have hv1' : ∀ op ∈ L.qCtx.nttOps.take (sk.params.ciphertextModuli.length - j), ((op.p.p : ℕ) : ℤ) ∣ u - 1 := by
    intro op hop
    refine dvd_trans (Int.natCast_dvd_natCast.mpr ?_) hu1
    apply List.dvd_prod
    have : levelModuli sk.params.ciphertextModuli j = (levelModuli sk.params.ciphertextModuli i).take (sk.params.ciphertextModuli.length - j) := by
      unfold levelModuli; rw [List.take_take]; congr 1; omega
    rw [this, ← hops, ← List.map_take]
    exact List.mem_map_of_mem hop
  have hv2' : ∀ op ∈ L.qCtx.nttOps.drop (sk.params.ciphertextModuli.length - j), ((op.p.p : ℕ) : ℤ) ∣ u := by
    intro op hop
    refine dvd_trans (Int.natCast_dvd_natCast.mpr ?_) hu2
    apply List.dvd_prod
    rw [← hops, ← List.map_drop]
    exact List.mem_map_of_mem hop
  refine ⟨fun f => Ksk.digitSum L.qCtx f e, u, hu1, hu2, fun f => ?_, fun src p hp => ?_⟩
  · rw [BfvP.switchNoise_eq hL]; exact Ksk.digitSum_bdd hL.wf.ctx he f
  rw [(BfvP.polyAt_iff hM _ _).mp hp]
  refine ⟨_, hnew src, fun pr' f pf hf => ?_⟩
  rw [(BfvP.powerAt_iff hL _ _).mp hf]
  refine ⟨_, _, _, _, Ksk.keySwitch_pack sk.params hL.wf.ctx hM.wf.ctx pr' hs hv1' hv2' (sk.ring K) e a src f,
    (BfvP.polyAt_iff hL _ _).mpr rfl, (BfvP.polyAt_iff hL _ _).mpr rfl, ?_⟩
  unfold Cong
  rw [← BfvP.levelQ_eq hL, BfvP.keyRing_eq]
  exact Ksk.digitSum_phase hL.wf.ctx _ e a src f

theorem BfvP.cong_of_dvd {Q Q' : Nat} (hd : Q' ∣ Q) {f g : Rg N} (h : Cong Q f g) : Cong Q' f g := by
  obtain ⟨w, hw⟩ := h
  obtain ⟨r, rfl⟩ := hd
  exact ⟨((r : ℤ) : Rg N) * w, by rw [hw]; push_cast; ring⟩

/-- C59: with a key of level `j` above the level `i` of the polynomial (fewer moduli) `key_switch` returns without panic; the result is right
modulo the moduli of the key and zero modulo the others. Missing: the switch modulo all moduli, which fails (`c59_low_wrong`). -/
theorem c59_low_partial (h : IsParams N t l variance P) {sk : SecretKey} (hk : IsKey P sk) (pr : Profile) (hv1 : 1 ≤ variance)
    (hv2 : variance ≤ 16) {i j : Nat} (hij : i < j) (hj : j < l.length) {src : Rg N} {p : Poly} (hp : PolyAt P j src p)
    {aTape : Nat → Nat → Nat → Nat} (ha : ∀ k, TapeAt l j (aTape k)) {rng : Nat → Nat → Nat} (hr : ∀ j i, rng j i < 2 ^ 64) :
    ∃ k, Ksk.new pr sk p i j aTape rng = .ok k ∧ ∀ (pr' : Profile) (f : Rg N) (pf : Poly), PowerAt P i f pf →
      ∃ p0 p1, ∃ r0 r1 E : Rg N, k.keySwitch pr' pf = .ok (p0, p1) ∧ PolyAt P i r0 p0 ∧ PolyAt P i r1 p1 ∧
        Bdd (switchNoise N l i * (2 * variance)) E ∧ Cong (levelQ l j) (r0 + r1 * keyRing N sk) (f * src + E) ∧
        Cong (missing l i j) r0 0 ∧ Cong (missing l i j) r1 0 := by
  obtain ⟨E, u, hu1, hu2, hE, hsw⟩ := BfvP.switch_low h hk pr hv1 hv2 hij hj ha hr
  obtain ⟨k, hk1, hk2⟩ := hsw src p hp
  refine ⟨k, hk1, fun pr' f pf hf => ?_⟩
  obtain ⟨p0, p1, d0, d1, h1, h2, h3, h4⟩ := hk2 pr' f pf hf
  refine ⟨p0, p1, _, _, E f, h1, h2, h3, hE f, ?_, ?_, ?_⟩
  · have h5 := BfvP.cong_of_dvd (Q' := levelQ l j) (by rw [BfvP.levelQ_split l hij.le]; exact dvd_mul_right _ _) h4
    obtain ⟨w, hw⟩ := h5
    obtain ⟨v, hv⟩ := hu1
    refine ⟨w + (v : Rg N) * (d0 + d1 * keyRing N sk), ?_⟩
    have : (u : Rg N) = 1 + ((levelQ l j : ℤ) : Rg N) * (v : Rg N) := by rw [← Int.cast_mul, ← hv]; push_cast; ring
    rw [this]
    linear_combination hw
  · obtain ⟨v, rfl⟩ := hu2
    exact ⟨(v : Rg N) * d0, by push_cast; ring⟩
  · obtain ⟨v, rfl⟩ := hu2
    exact ⟨(v : Rg N) * d1, by push_cast; ring⟩

theorem BfvP.eq_of_cong (hN : 0 < N) {Q : Nat} {W : ℤ} (hW : 2 * W < Q) {f g : Rg N} (hf : Bdd W f) (hg : Bdd W g) (h : Cong Q f g) : f = g := by
  rw [Cong, dvd_iff hN] at h
  apply ext_cf hN
  intro k hk
  have h1 := h k hk
  rw [cf_sub hN] at h1
  have h2 := abs_le.mp (hf k hk)
  have h3 := abs_le.mp (hg k hk)
  have := Int.eq_zero_of_abs_lt_dvd h1 (by rw [abs_lt]; constructor <;> linarith)
  linarith

/-- C59 is violated when the key has fewer moduli than the polynomial: for every randomness, one of the keys for the polynomials 0 and 1
switches the polynomial 1 to a pair whose phase is not `src` up to the error bound, although that bound is small against the modulus. -/
theorem c59_low_wrong (h : IsParams N t l variance P) {sk : SecretKey} (hk : IsKey P sk) (pr : Profile) (hv1 : 1 ≤ variance)
    (hv2 : variance ≤ 16) {i j : Nat} (hij : i < j) (hj : j < l.length) (hW : 2 * (switchNoise N l i * (2 * variance)) < levelQ l j)
    {aTape : Nat → Nat → Nat → Nat} (ha : ∀ k, TapeAt l j (aTape k)) {rng : Nat → Nat → Nat} (hr : ∀ j i, rng j i < 2 ^ 64) :
    ∃ src : Rg N, (src = 0 ∨ src = 1) ∧ ∀ p, PolyAt P j src p → ∃ k, Ksk.new pr sk p i j aTape rng = .ok k ∧
      ∀ (pr' : Profile) (pf : Poly), PowerAt P i (1 : Rg N) pf → ∃ p0 p1, k.keySwitch pr' pf = .ok (p0, p1) ∧
        ∀ r0 r1 E : Rg N, PolyAt P i r0 p0 → PolyAt P i r1 p1 → Bdd (switchNoise N l i * (2 * variance)) E →
          ¬ Cong (levelQ l i) (r0 + r1 * keyRing N sk) (1 * src + E) := by
  have hN : 0 < N := by obtain ⟨K, ext, rfl, -⟩ := BfvP.params h; positivity
  obtain ⟨E, u, hu1, hu2, hE, hsw⟩ := BfvP.switch_low h hk pr hv1 hv2 hij hj ha hr
  have hsplit := BfvP.levelQ_split l hij.le
  -- the polynomials for which the result could be right
  have key : ∀ src : Rg N, ¬ ((missing l i j : ℤ) : Rg N) ∣ src + E 1 → ∀ p, PolyAt P j src p → ∃ k, Ksk.new pr sk p i j aTape rng = .ok k ∧
      ∀ (pr' : Profile) (pf : Poly), PowerAt P i (1 : Rg N) pf → ∃ p0 p1, k.keySwitch pr' pf = .ok (p0, p1) ∧
        ∀ r0 r1 E : Rg N, PolyAt P i r0 p0 → PolyAt P i r1 p1 → Bdd (switchNoise N l i * (2 * variance)) E →
          ¬ Cong (levelQ l i) (r0 + r1 * keyRing N sk) (1 * src + E) := by
    intro src hsrc p hp
    obtain ⟨k, hk1, hk2⟩ := hsw src p hp
    refine ⟨k, hk1, fun pr' pf hf => ?_⟩
    obtain ⟨p0, p1, d0, d1, h1, h2, h3, h4⟩ := hk2 pr' 1 pf hf
    refine ⟨p0, p1, h1, fun r0 r1 F g0 g1 hF hc => hsrc ?_⟩
    have c0 := c57_unique h g0 h2
    have c1 := c57_unique h g1 h3
    obtain ⟨w0, hw0⟩ := c0
    obtain ⟨w1, hw1⟩ := c1
    obtain ⟨w2, hw2⟩ := h4
    obtain ⟨w3, hw3⟩ := hc
    -- modulo all moduli, `src + F = u (src + E)`
    have tot : ((levelQ l i : ℤ) : Rg N) ∣ (u : Rg N) * (src + E 1) - (src + F) := by
      refine ⟨w3 - w0 - w1 * keyRing N sk - (u : Rg N) * w2, ?_⟩
      linear_combination hw3 - hw0 - hw1 * keyRing N sk - (u : Rg N) * hw2
    have hQi : ((levelQ l i : ℤ) : Rg N) = ((levelQ l j : ℤ) : Rg N) * ((missing l i j : ℤ) : Rg N) := by rw [hsplit]; push_cast; ring
    have hEF : E 1 = F := by
      refine BfvP.eq_of_cong hN hW (hE 1) hF ?_
      obtain ⟨v, hv⟩ := hu1
      obtain ⟨w, hw⟩ := tot
      have hu : (u : Rg N) = 1 + ((levelQ l j : ℤ) : Rg N) * (v : Rg N) := by rw [← Int.cast_mul, ← hv]; push_cast; ring
      refine ⟨((missing l i j : ℤ) : Rg N) * w - (v : Rg N) * (src + E 1), ?_⟩
      rw [hu, hQi] at hw
      linear_combination hw
    obtain ⟨v, hv⟩ := hu2
    obtain ⟨w, hw⟩ := tot
    have hu : (u : Rg N) = ((missing l i j : ℤ) : Rg N) * (v : Rg N) := by rw [← Int.cast_mul, ← hv]
    refine ⟨(v : Rg N) * (src + E 1) - ((levelQ l j : ℤ) : Rg N) * w, ?_⟩
    rw [hu, hQi] at hw
    rw [hEF] at hw ⊢
    linear_combination -hw
  by_cases hd : ((missing l i j : ℤ) : Rg N) ∣ 0 + E 1
  · refine ⟨1, Or.inr rfl, key 1 fun h1 => ?_⟩
    have h2 := dvd_sub h1 hd
    rw [show (1 + E 1 : Rg N) - (0 + E 1) = ((1 : ℤ) : Rg N) by push_cast; ring] at h2
    have h3 := (dvd_iff hN _ _).mp h2 0 hN
    rw [cf_int hN] at h3
    rw [if_pos rfl] at h3
    have h4 : missing l i j ∣ 1 := by exact_mod_cast h3
    have h5 : 0 < ((levelModuli l i).drop (l.length - j)).length := by
      unfold levelModuli; rw [List.length_drop, List.length_take]; omega
    obtain ⟨q, hq⟩ := List.exists_mem_of_length_pos h5
    have h6 : q = 1 := Nat.dvd_one.mp ((List.dvd_prod hq).trans h4)
    obtain ⟨K, ext, rfl, hw, rfl, rfl, rfl⟩ := BfvP.params h
    have h7 := hw.lt_q q (List.mem_of_mem_take (List.mem_of_mem_drop hq))
    have h8 := hw.t_prime.two_le
    omega
  · exact ⟨0, Or.inl rfl, key 0 hd⟩

/-- A key of level 0 (three moduli) switches polynomials of level 1. -/
example : ∃ P sk p k q r, IsParams 8 17 Ex.mods 10 P ∧ IsKey P sk ∧ PolyAt P 0 (msgRing 8 [3, 1]) p ∧
    Ksk.new .debug sk p 1 0 (fun _ _ _ => 0) (fun _ i => i % 1000) = .ok k ∧ PowerAt P 1 (msgRing 8 [1, 1]) q ∧ k.keySwitch .debug q = .ok r := by
  obtain ⟨P, sk, h, hk, -⟩ := Ex.setup_key
  obtain ⟨p, hp⟩ := c33_exists_poly h (i := 0) (by decide) (msgRing 8 [3, 1])
  obtain ⟨k, h1, h2⟩ := c59_switch_partial h hk .debug (by norm_num) (by norm_num) (i := 1) (by norm_num) (by decide) hp Ex.tapes (fun _ => Ex.wordTape)
  obtain ⟨q, hq⟩ := Ex.exists_power h (i := 1) (by decide) (msgRing 8 [1, 1])
  obtain ⟨p0, p1, -, -, -, h3, -⟩ := h2 .debug _ q hq
  exact ⟨P, sk, p, k, q, _, h, hk, hp, h1, hq, h3⟩

/-- A key of level 1 applied at level 0 gives a wrong phase. -/
example : ∃ P sk, ∃ src : Rg 8, ∃ p k q p0 p1, IsParams 8 17 Ex.mods 10 P ∧ IsKey P sk ∧ PolyAt P 1 src p ∧
    Ksk.new .debug sk p 0 1 (fun _ _ _ => 0) (fun _ i => i % 1000) = .ok k ∧ PowerAt P 0 (1 : Rg 8) q ∧ k.keySwitch .debug q = .ok (p0, p1) ∧
    ∀ r0 r1 E : Rg 8, PolyAt P 0 r0 p0 → PolyAt P 0 r1 p1 → Bdd (switchNoise 8 Ex.mods 0 * (2 * (10 : ℕ))) E →
      ¬ Cong (levelQ Ex.mods 0) (r0 + r1 * keyRing 8 sk) (1 * src + E) := by
  obtain ⟨P, sk, h, hk, -⟩ := Ex.setup_key
  obtain ⟨src, -, hsrc⟩ := c59_low_wrong h hk .debug (by norm_num) (by norm_num) (i := 0) (j := 1) (by norm_num) (by decide)
    (by rw [show levelQ Ex.mods 1 = 1048609 * 1048721 by decide +kernel,
          show switchNoise 8 Ex.mods 0 = 8 * (1048609 + 1048721 + 1048897) by decide +kernel]; norm_num) Ex.tapes (fun _ => Ex.wordTape)
  obtain ⟨p, hp⟩ := c33_exists_poly h (i := 1) (by decide) src
  obtain ⟨k, h1, h2⟩ := hsrc p hp
  obtain ⟨q, hq⟩ := Ex.exists_power h (i := 0) (by decide) (1 : Rg 8)
  obtain ⟨p0, p1, h3, h4⟩ := h2 .debug q hq
  exact ⟨P, sk, src, p, k, q, p0, p1, h, hk, hp, h1, hq, h3, h4⟩

/-- The same key gives `f src + E` modulo the product of the moduli of its own level only. -/
example : ∃ P sk p k q p0 p1, ∃ r0 r1 E : Rg 8, IsParams 8 17 Ex.mods 10 P ∧ IsKey P sk ∧ PolyAt P 1 (msgRing 8 [3, 1]) p ∧
    Ksk.new .debug sk p 0 1 (fun _ _ _ => 0) (fun _ i => i % 1000) = .ok k ∧ PowerAt P 0 (msgRing 8 [1, 1]) q ∧ k.keySwitch .debug q = .ok (p0, p1) ∧
    PolyAt P 0 r0 p0 ∧ Bdd (switchNoise 8 Ex.mods 0 * (2 * (10 : Nat))) E ∧
    Cong (levelQ Ex.mods 1) (r0 + r1 * keyRing 8 sk) (msgRing 8 [1, 1] * msgRing 8 [3, 1] + E) ∧ Cong 1048897 r0 0 := by
  obtain ⟨P, sk, h, hk, -⟩ := Ex.setup_key
  obtain ⟨p, hp⟩ := c33_exists_poly h (i := 1) (by decide) (msgRing 8 [3, 1])
  obtain ⟨q, hq⟩ := Ex.exists_power h (i := 0) (by decide) (msgRing 8 [1, 1])
  obtain ⟨k, h1, h2⟩ := c59_low_partial h hk .debug (by norm_num) (by norm_num) (i := 0) (j := 1) (by norm_num) (by decide) hp Ex.tapes (fun _ => Ex.wordTape)
  obtain ⟨p0, p1, r0, r1, E, h3, h4, -, h5, h6, h7, -⟩ := h2 .debug _ q hq
  exact ⟨P, sk, p, k, q, p0, p1, r0, r1, E, h, hk, hp, h1, hq, h3, h4, h5, h6, by simpa [missing, levelModuli, Ex.mods] using h7⟩

end OnionPIR
