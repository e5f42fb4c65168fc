import Verif.Model.Stop
import Verif.Spec.Stop
import Verif.Proofs.AnswerTail
import Verif.Proofs.CostServer
/- The expansion stopped after `e` stages. -/
namespace OnionPIR
open Rg Poly Spec

variable {N K t : Nat} {l : List Nat} {variance : Nat} {P : BfvParameters}

namespace Stop
open Evaluation

/-! ### The comb -/

theorem cf_comb (hN : 0 < N) (m j : Nat) (f : Rg N) {k : Nat} (hk : k < N) : cf (comb m j f) k = if m ∣ k then cf f (j + k) else 0 := by
  unfold comb
  rw [cf_ofCoeffs hN _ hk]

theorem comb_add (hN : 0 < N) (m j : Nat) (f g : Rg N) : comb m j (f + g) = comb m j f + comb m j g :=
  ext_cf hN fun k hk => by
    rw [cf_add hN, cf_comb hN _ _ _ hk, cf_comb hN _ _ _ hk, cf_comb hN _ _ _ hk, cf_add hN]
    split_ifs <;> simp

theorem comb_sub (hN : 0 < N) (m j : Nat) (f g : Rg N) : comb m j (f - g) = comb m j f - comb m j g :=
  ext_cf hN fun k hk => by
    rw [cf_sub hN, cf_comb hN _ _ _ hk, cf_comb hN _ _ _ hk, cf_comb hN _ _ _ hk, cf_sub hN]
    split_ifs <;> simp

theorem comb_int_mul (hN : 0 < N) (m j : Nat) (c : ℤ) (f : Rg N) : comb m j ((c : Rg N) * f) = (c : Rg N) * comb m j f :=
  ext_cf hN fun k hk => by
    rw [cf_int_mul hN, cf_comb hN _ _ _ hk, cf_comb hN _ _ _ hk, cf_int_mul hN]
    split_ifs <;> simp

theorem comb_bdd (hN : 0 < N) (m j : Nat) {V : ℤ} {f : Rg N} (hf : Bdd V f) : Bdd V (comb m j f) := fun k hk => by
  have h0 := hf.nonneg hN
  rw [cf_comb hN _ _ _ hk]
  split_ifs
  · by_cases h : j + k < N
    · exact hf _ h
    · rw [cf_of_ge hN _ (by omega), abs_zero]; exact h0
  · rw [abs_zero]; exact h0

theorem comb_below (hN : 0 < N) {m j : Nat} {M : Rg N} (hM : Below m M) : comb m j M = ((cf M j : ℤ) : Rg N) :=
  ext_cf hN fun k hk => by
    rw [cf_comb hN _ _ _ hk, cf_int hN]
    by_cases hk0 : k = 0
    · subst hk0; simp
    · rw [if_neg hk0]
      split_ifs with hd
      · have := Nat.le_of_dvd (Nat.pos_of_ne_zero hk0) hd
        by_cases hlt : j + k < N
        · exact hM _ (by omega) hlt
        · exact cf_of_ge hN _ (by omega)
      · rfl

theorem tr_comb {e : Nat} (he : e ≤ K) (j : Nat) (f : Rg (2 ^ K)) : tr K e j f = ((2 ^ e : ℤ) : Rg (2 ^ K)) * comb (2 ^ e) j f := by
  have hN : 0 < 2 ^ K := by positivity
  have hKe : 2 ^ K = 2 ^ e * 2 ^ (K - e) := by rw [← pow_add]; congr 1; omega
  have hpe : 0 < 2 ^ e := by positivity
  unfold tr
  congr 1
  refine ext_cf hN fun k hk => ?_
  rw [cf_comb hN _ _ _ hk, cf_sum hN]
  have hterm : ∀ u ∈ Finset.range (2 ^ (K - e)), cf (((cf f (j + 2 ^ e * u) : ℤ) : Rg (2 ^ K)) * xx ^ (2 ^ e * u)) k =
      if 2 ^ e * u = k then cf f (j + 2 ^ e * u) else 0 := fun u hu => by
    have hu := Finset.mem_range.mp hu
    rw [cf_int_mul hN, cf_xx_pow hN (by rw [hKe]; exact (Nat.mul_lt_mul_left hpe).mpr hu)]
    split_ifs <;> simp
  rw [Finset.sum_congr rfl hterm]
  split_ifs with hd
  · obtain ⟨u, rfl⟩ := hd
    rw [Finset.sum_eq_single u]
    · rw [if_pos rfl]
    · intro v _ hv
      rw [if_neg fun h => hv (Nat.eq_of_mul_eq_mul_left hpe h)]
    · intro hu
      rw [Finset.mem_range, not_lt] at hu
      exact absurd (Nat.mul_le_mul_left (2 ^ e) hu) (by rw [← hKe]; omega)
  · exact Finset.sum_eq_zero fun u _ => by rw [if_neg]; rintro rfl; exact hd (dvd_mul_right _ _)

theorem encodes_comb {Q : Nat} (hN : 0 < N) {m phi : Rg N} {V : ℤ} (h : Encodes t Q m phi V) {M j : Nat} (hm : Below M m) :
    Encodes t Q ((cf m j : ℤ) : Rg N) (comb M j phi) V := by
  obtain ⟨v, w, hv, e⟩ := h
  refine ⟨comb M j v, comb M j w, comb_bdd hN _ _ hv, ?_⟩
  have := congrArg (comb M j) e
  rw [comb_add hN, comb_add hN, comb_int_mul hN, comb_int_mul hN, comb_int_mul hN, comb_int_mul hN, comb_below hN hm] at this
  exact this

theorem rlwe_comb (hN : 0 < N) {j k m : Nat} {s M f0 f1 g0 g1 E : Rg N} {B B' : ℤ} (h : RlweGarner l 0 j s M B f0 f1)
    (hM : Below m M) (hE : Bdd B' E) (hc : Cong (levelQ l 0) (phase s [g0, g1]) (comb m k (phase s [f0, f1]) + E)) :
    RlweGarner l 0 j s ((cf M k : ℤ) : Rg N) (B + B') g0 g1 := by
  obtain ⟨g, hg, e, he, w, hw⟩ := h
  refine ⟨g, hg, comb m k e + E, Bdd.add hN (comb_bdd hN _ _ he) hE, ?_⟩
  rw [BfvP.phase_two] at hc
  refine Evaluation.cong_trans hc ⟨comb m k w, ?_⟩
  have h1 := congrArg (comb m k) hw
  rw [← BfvP.phase_two, mul_comm M, show (g : Rg N) = ((g : ℤ) : Rg N) from rfl, comb_int_mul hN, comb_sub hN, comb_add hN, comb_int_mul hN,
    comb_below hN hM] at h1
  rw [show (g : Rg N) = ((g : ℤ) : Rg N) from rfl]
  linear_combination h1

/-! ### The stages -/

theorem unpackStage_ok (h : IsParams (2 ^ K) t l variance P) (hK : K ≤ 62) (pr : Profile) {s : Rg (2 ^ K)} {B B0 B1 : ℤ} {ev : Evaluation}
    (hev : IsEval P l s B B0 B1 ev) {xPows : List Poly} (hx : IsMonomials (2 ^ K) P xPows) {i n : Nat} (hi : i < K) {phi : Rg (2 ^ K)}
    {bits : List BfvCipherText} (hlen : bits.length = n) (hn : 2 ^ (i + 1) ≤ n)
    (hb : ∀ j, j < 2 ^ i → ∃ ct, bits[j]? = some ct ∧ Good P l s B phi i j ct) :
    ∃ bits', unpackStage pr ev xPows (2 ^ K) bits i = .ok bits' ∧ bits'.length = n ∧
      ∀ j, j < 2 ^ (i + 1) → ∃ ct, bits'[j]? = some ct ∧ Good P l s B phi (i + 1) j ct := by
  have hlt : 2 ^ i < 2 ^ K := Nat.pow_lt_pow_right (by norm_num) hi
  have hdiv : 2 ^ K / 2 ^ i = 2 ^ (K - i) := Nat.pow_div hi.le (by norm_num)
  obtain ⟨g, hg, hgal⟩ := hev.gk i hlt
  obtain ⟨xp, hxp, hpow⟩ := hx i hlt
  rw [hdiv] at hg hgal
  unfold unpackStage
  have hle : 2 ^ (K - i) ≤ 2 ^ 62 := Nat.pow_le_pow_right (by norm_num) (by omega)
  rw [divR_ok (by positivity), res_ok_bind, hdiv, addW_ok (by omega), res_ok_bind]
  rw [pow_succ] at hn
  obtain ⟨r, hr, h1, h2, h3, h4⟩ := foldR_range_ok (f := unpackStep pr ev xPows (2 ^ (K - i) + 1) i) (n := 2 ^ i)
    (Inv := fun m (b : List BfvCipherText) => b.length = n ∧
      (∀ j, j < m → ∃ ct, b[j]? = some ct ∧ Good P l s B phi (i + 1) j ct) ∧
      (∀ j, m ≤ j → j < 2 ^ i → ∃ ct, b[j]? = some ct ∧ Good P l s B phi i j ct) ∧
      (∀ j, j < m → ∃ ct, b[j + 2 ^ i]? = some ct ∧ Good P l s B phi (i + 1) (j + 2 ^ i) ct)) (s := bits)
    ⟨hlen, fun j hj => absurd hj (Nat.not_lt_zero _), fun j _ hj => hb j hj, fun j hj => absurd hj (Nat.not_lt_zero _)⟩
    (by
      rintro j b hj ⟨i1, i2, i3, i4⟩
      obtain ⟨ct, hct, hgood⟩ := i3 j (le_refl _) hj
      obtain ⟨ce, co, s1, s2, s3⟩ := unpackStep_ok h pr hi hg hgal hxp hpow (bits := b) (j := j) (by omega) hct hgood
      refine ⟨_, s1, by rw [List.length_set, List.length_set, i1], fun k hk => ?_, fun k hk hk' => ?_, fun k hk => ?_⟩
      · rw [List.getElem?_set_ne (by omega)]
        rcases Nat.lt_succ_iff_lt_or_eq.mp hk with hk | rfl
        · rw [List.getElem?_set_ne (by omega)]; exact i2 k hk
        · rw [List.getElem?_set_self (by omega)]; exact ⟨ce, rfl, s2⟩
      · rw [List.getElem?_set_ne (by omega), List.getElem?_set_ne (by omega)]; exact i3 k (by omega) hk'
      · rcases Nat.lt_succ_iff_lt_or_eq.mp hk with hk | rfl
        · rw [List.getElem?_set_ne (by omega), List.getElem?_set_ne (by omega)]; exact i4 k hk
        · rw [List.getElem?_set_self (by rw [List.length_set]; omega)]; exact ⟨co, rfl, s3⟩)
  refine ⟨r, hr, h1, fun j hj => ?_⟩
  rw [pow_succ] at hj
  by_cases hj' : j < 2 ^ i
  · exact h2 j hj'
  · have := h4 (j - 2 ^ i) (by omega)
    rwa [Nat.sub_add_cancel (by omega)] at this

theorem unpackStages_ok (h : IsParams (2 ^ K) t l variance P) (hK : K ≤ 62) (pr : Profile) {s : Rg (2 ^ K)} {B B0 B1 : ℤ} {ev : Evaluation}
    (hev : IsEval P l s B B0 B1 ev) {xPows : List Poly} (hx : IsMonomials (2 ^ K) P xPows) {e : Nat} (he : e ≤ K) {f0 f1 : Rg (2 ^ K)} {ct : BfvCipherText}
    (hct : IsCt P 0 [f0, f1] ct) :
    ∃ bits, foldR (unpackStage pr ev xPows (2 ^ K)) (List.replicate (2 ^ e) ct) (List.range e) = .ok bits ∧ bits.length = 2 ^ e ∧
      ∀ j, j < 2 ^ e → ∃ c, bits[j]? = some c ∧ Good P l s B (phase s [f0, f1]) e j c := by
  have hN : 0 < 2 ^ K := by positivity
  have hE : 0 < 2 ^ e := by positivity
  obtain ⟨r, hr, h1, h2⟩ := foldR_range_ok (f := unpackStage pr ev xPows (2 ^ K)) (n := e)
    (Inv := fun i (b : List BfvCipherText) => b.length = 2 ^ e ∧
      ∀ j, j < 2 ^ i → ∃ c, b[j]? = some c ∧ Good P l s B (phase s [f0, f1]) i j c) (s := List.replicate (2 ^ e) ct)
    ⟨List.length_replicate, fun j hj => by
      have hj : j = 0 := by simpa using hj
      subst hj
      refine ⟨ct, by rw [List.getElem?_replicate, if_pos hE], f0, f1, 0, hct, ?_, ?_⟩
      · simpa using Bdd.zero hN
      · rw [tr_zero, add_zero]; exact cong_refl _⟩
    (by
      rintro i b hi ⟨h1, h2⟩
      obtain ⟨b', e1, e2, e3⟩ := unpackStage_ok h hK pr hev hx (by omega) h1 (Nat.pow_le_pow_right (by norm_num) hi) h2
      exact ⟨b', e1, e2, e3⟩)
  exact ⟨r, hr, h1, h2⟩

theorem unpackWithTo_ok (h : IsParams (2 ^ K) t l variance P) (pr : Profile) {s : Rg (2 ^ K)} {B B0 B1 : ℤ} {ev : Evaluation}
    (hev : IsEval P l s B B0 B1 ev) {xPows : List Poly} (hx : IsMonomials (2 ^ K) P xPows) {e : Nat} (he : e ≤ K) {ct : BfvCipherText} {f0 f1 : Rg (2 ^ K)}
    (hct : IsCt P 0 [f0, f1] ct) :
    ∃ bits, Repair.unpackWithTo pr e ev xPows ct = .ok bits ∧ bits.length = 2 ^ e ∧
      ∀ j, j < 2 ^ e → ∃ c, ∃ g0 g1 E : Rg (2 ^ K), bits[j]? = some c ∧ IsCt P 0 [g0, g1] c ∧ Bdd ((2 ^ e - 1) * B) E ∧
        Cong (levelQ l 0) (phase s [g0, g1]) (comb (2 ^ e) j (phase s [f0, f1]) + E) := by
  have hpos : 0 < 2 ^ K := by positivity
  obtain ⟨ext, L, hw, hL, -, hml, -⟩ := level_zero h
  have hK : K ≤ 62 := hL.wf.ctx.core.K_le
  obtain ⟨c1, c2, c3⟩ := (BfvP.isCt_iff hL _ _).mp hct
  have hQ : L.qCtx.rns.product = levelQ l 0 := by
    rw [hL.wf.ctx.core.prod, ← hml]; exact BfvP.levelQ_eq hL
  have hodd : Odd (levelQ l 0) := by
    rw [← hml, ← BfvP.levelQ_eq hL]
    refine odd_prod _ fun q hq => ?_
    obtain ⟨hp, hm⟩ := hL.wf.ctx.prime hq
    rw [Nat.odd_iff, ← Nat.mod_mod_of_dvd q (dvd_mul_right 2 (2 ^ K)), hm]
  have hcop : Nat.Coprime (2 ^ e) (levelQ l 0) := Nat.Coprime.pow_left e (Nat.coprime_two_left.mpr hodd)
  have hQ2 : 2 ≤ levelQ l 0 := by
    rw [← hml, ← BfvP.levelQ_eq hL]
    exact two_le_prod hL.wf.ctx.core.ne fun q hq => (hL.wf.ctx.prime hq).1.two_le
  obtain ⟨nInv, hn⟩ := modInverse_coprime hcop
  obtain ⟨-, -, hinv⟩ := modInverse_some hQ2 hn
  have hct' : IsCt P 0 [f0 * ((nInv : ℤ) : Rg (2 ^ K)), f1 * ((nInv : ℤ) : Rg (2 ^ K))]
      { ct with cts := [enc L.qCtx .ntt (f0 * ((nInv : ℤ) : Rg (2 ^ K))), enc L.qCtx .ntt (f1 * ((nInv : ℤ) : Rg (2 ^ K)))] } :=
    (BfvP.isCt_iff hL _ _).mpr ⟨c1, c2, rfl⟩
  obtain ⟨bits, hb, hlen, hgood⟩ := unpackStages_ok h hK pr hev hx he hct'
  refine ⟨bits, ?_, hlen, fun j hj => ?_⟩
  · unfold Repair.unpackWithTo
    rw [c1, c2, idx_of hL.q, res_ok_bind, hw.deg, hQ, hn]
    simp only [unwrapR, res_ok_bind, c3, List.map_cons, List.map_nil, mapR, Poly.mulBig_enc hL.wf.ctx]
    have hc1 : ∀ x, ({ ct with cts := x } : BfvCipherText) = { params := P, cts := x, level := 0 } := fun x => by rw [← c1, ← c2]
    rw [hc1] at hb
    rw [hb, res_ok_bind, rassert_ok hlen, res_ok_bind]
  · obtain ⟨c, hc, g0, g1, E, h1, h2, h3⟩ := hgood j hj
    refine ⟨c, g0, g1, E, hc, h1, h2, cong_trans h3 (cong_add ?_ (cong_refl _))⟩
    have hph : phase s [f0 * ((nInv : ℤ) : Rg (2 ^ K)), f1 * ((nInv : ℤ) : Rg (2 ^ K))] = ((nInv : ℤ) : Rg (2 ^ K)) * phase s [f0, f1] := by
      simp only [BfvP.phase_two]; ring
    rw [hph, tr_comb he, comb_int_mul hpos]
    obtain ⟨w, hw⟩ : ((levelQ l 0 : ℕ) : ℤ) ∣ 2 ^ e * (nInv : ℤ) - 1 := by
      have hd := Nat.div_add_mod (2 ^ e * nInv) (levelQ l 0)
      rw [hinv] at hd
      refine ⟨((2 ^ e * nInv / levelQ l 0 : ℕ) : ℤ), ?_⟩
      rw [← Int.natCast_mul, eq_comm, eq_sub_iff_add_eq]
      exact_mod_cast hd
    refine ⟨((w : ℤ) : Rg (2 ^ K)) * comb (2 ^ e) j (phase s [f0, f1]), ?_⟩
    have hw' := congrArg (fun z : ℤ => (z : Rg (2 ^ K))) hw
    push_cast at hw' ⊢
    linear_combination comb (2 ^ e) j (phase s [f0, f1]) * hw'

end Stop

/-- The stopped `unpack` is the stopped expansion with the monomials that the loop of expansion needs. -/
theorem Repair.unpackTo_eq (h : IsParams N t l variance P) (pr : Profile) : ∃ xs, IsMonomials N P xs ∧ ∀ (e : Nat) (ev : Evaluation) (ct : BfvCipherText),
    ct.params = P → ct.level = 0 → unpackTo pr e ev ct = unpackWithTo pr e ev xs ct := by
  obtain ⟨K, -, hNK, -⟩ := BfvP.params h
  subst hNK
  obtain ⟨ext, L, hw, hL, -, hml, -⟩ := Evaluation.level_zero h
  have hK : K ≤ 62 := hL.wf.ctx.core.K_le
  obtain ⟨xs, h1, h2, h3⟩ := genXPows_ok hL pr
  refine ⟨xs, h3, fun e ev ct hp hl => ?_⟩
  have hd : dassertEqR pr xs.length (ilog2 64 pr (2 ^ K)) = .ok () := by
    rw [RnsScaler.ilog2_two_pow pr (by omega), h2]
    cases pr
    · unfold dassertEqR
      simp only [res_ok_bind]
      exact dassert_ok trivial
    · rfl
  unfold unpackTo
  rw [hp, hl, idx_of hL.q, res_ok_bind, hw.deg, h1, res_ok_bind, hd, res_ok_bind]

/-! ### Values and work of the counting copies -/

section
open Cw
variable (pr : Profile)

theorem Repair.unpackToC_val (e : Nat) (ev : Evaluation) (ct : BfvCipherText) : (Repair.unpackToC pr e ev ct).val = Repair.unpackTo pr e ev ct := by
  simp only [Repair.unpackToC, Repair.unpackTo, Repair.unpackWithToC, Repair.unpackWithTo, Evaluation.unpackStageC, bind_val, lift_val, map_val, Poly.mulBigC_val,
    fold_val, Evaluation.unpackStepC_val, pure_val]
  rfl

theorem Repair.decodeToC_val (e : Nat) (s : Server) (q : List BfvCipherText) (ev : Evaluation) (P : BfvParameters) :
    (Repair.decodeToC pr e s q ev P).val = Repair.decodeTo pr e s q ev P :=
  Server.decodeByC_val pr _ (Repair.unpackToC_val pr e ev) s q ev P

variable {c : RqContext} {n : Nat}

theorem Repair.unpackToC_costs (hc : c.Dim K n) (hK : K < 64) {ev : Evaluation} {ct : BfvCipherText} (hq : ct.params.qCtxs[ct.level]? = some c)
    (hdeg : ct.params.degree = 2 ^ K) (hg : ∀ i, i < K → ∀ g, ev.gk.lookup (2 ^ K / 2 ^ i + 1) = some g → g.gk.Dim c) {e : Nat} (he : e ≤ K)
    (hlen : ct.cts.length = 2) (hct : ct.Dim c) :
    Costs (Repair.unpackToC pr e ev ct) (⟨2 * n * (K * 2 ^ (K - 1)), 2 * n * 2 ^ K⟩ + Work.times (2 ^ e - 1) (Work.step ⟨n * (K * 2 ^ (K - 1)), 0⟩ K n))
      fun r => ∀ b ∈ r, b.Dim c := by
  refine .liftBind fun ctx hctx => .liftBind fun xs hxs => .liftBind fun _ _ => ?_
  rw [idx_of hq] at hctx
  obtain rfl := Except.ok.inj hctx
  refine .liftBind fun ctx _ => .liftBind fun nInv _ => ?_
  refine Costs.cast ((Costs.mapConst fun p hp => Poly.mulBigC_costs pr hc (hct p hp) nInv).bind
    (w' := Work.times (2 ^ e - 1) (Work.step ⟨n * (K * 2 ^ (K - 1)), 0⟩ K n)) fun ps hps => ?_) ?_
  · rw [hdeg]
    refine Costs.cast ((Costs.fold (w := fun i => Work.times (2 ^ i) (Work.step ⟨n * (K * 2 ^ (K - 1)), 0⟩ K n))
      (I := fun r : List BfvCipherText => ∀ b ∈ r, b.Dim c) (fun bits i hi hb => ?_)
      fun b hb => ?_).bind fun r hr => .liftBind fun _ _ => .pure hr) ?_
    · have hi := List.mem_range.mp hi
      have hp : 2 ^ K ≤ 2 ^ 63 := Nat.pow_le_pow_right (by norm_num) (by omega)
      have hle : 2 ^ K / 2 ^ i ≤ 2 ^ K := Nat.div_le_self _ _
      refine .liftBind fun d hd => .liftBind fun x hx => ?_
      rw [divR_ok (by positivity)] at hd
      obtain rfl := Except.ok.inj hd
      rw [addW_ok (by omega)] at hx
      obtain rfl := Except.ok.inj hx
      exact Costs.cast (Costs.foldConst (fun s j _ hs => Evaluation.unpackStepC_costs pr hc (hg i (by omega)) (fun p hp =>
        Poly.changeRepresentationC_ntt_costs pr hc (Repair.genXPows_dim pr hxs p hp)) i j hs) hb) (by rw [List.length_range])
    · rw [(List.mem_replicate.mp hb).2]
      intro p hp
      exact forall₂_right hps p hp
    · rw [Work.sum_times, Evaluation.sum_pow, Work.add_zero]
  · rw [hlen]
    work

end
end OnionPIR
