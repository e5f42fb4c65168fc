import Verif.Proofs.KskBridge
import Verif.Props.Rq
/- Relations between the contexts of different levels, and operations that mix them. -/
namespace OnionPIR
open Rg Poly Spec

theorem mapR_take {α β : Type _} {f : α → Res β} {l : List α} {r : List β} (h : mapR f l = .ok r) (k : Nat) :
    mapR f (l.take k) = .ok (r.take k) := by
  induction l generalizing r k with
  | nil => simp [mapR] at h; subst h; simp [mapR]
  | cons a as ih =>
    simp only [mapR, bind_eq_ok] at h
    obtain ⟨b, hb, bs, hbs, h⟩ := h
    cases h
    cases k with
    | zero => rfl
    | succ k => simp [mapR, hb, ih hbs k, res_ok_bind]

/-- The transforms of a context are determined by its moduli. -/
theorem RqContext.new_ops {pr : Profile} {sample : Nat → Nat → Nat} {degree : Nat} {bd : BitDecomposition} {l : List Nat} {c : RqContext}
    (h : RqContext.new pr sample l degree bd = .ok c) :
    ∃ ms, mapR Modulus.new l = .ok ms ∧ mapR (fun (m : Modulus) => NttOperator.new pr (sample m.p) m degree) ms = .ok c.nttOps := by
  have key : ∀ {rns : RnsContext} {ops : List NttOperator} {next : Option RqContext} {l : List Nat} {c : RqContext},
      RqContext.finish pr l degree bd rns ops next = .ok c → c.nttOps = ops := by
    intro rns ops next l c h
    unfold RqContext.finish at h
    simp only [bind_eq_ok] at h
    obtain ⟨_, _, _, _, h⟩ := h
    cases h; rfl
  have rn : ∀ {l : List Nat} {rns : RnsContext}, RnsContext.new l = .ok rns → mapR Modulus.new l = .ok rns.moduli := by
    intro l rns h
    unfold RnsContext.new at h
    simp only [bind_eq_ok] at h
    obtain ⟨ms, h1, _, _, _, _, h⟩ := h
    cases h; exact h1
  unfold RqContext.new at h
  cases hl : l.length with
  | zero =>
    rw [hl] at h
    unfold RqContext.newAux at h
    simp only [bind_eq_ok] at h
    obtain ⟨rns, hr, ops, ho, h⟩ := h
    exact ⟨_, rn hr, by rw [key h]; exact ho⟩
  | succ n =>
    rw [hl] at h
    unfold RqContext.newAux at h
    simp only [bind_eq_ok] at h
    obtain ⟨rns, hr, ops, ho, h⟩ := h
    refine ⟨_, rn hr, ?_⟩
    split_ifs at h
    · simp only [bind_eq_ok] at h
      obtain ⟨next, -, h⟩ := h
      rw [key h]; exact ho
    · rw [key h]; exact ho

theorem RqContext.ops_take {pr : Profile} {sample : Nat → Nat → Nat} {degree : Nat} {bd : BitDecomposition} {l : List Nat} {c d : RqContext}
    (h : RqContext.new pr sample l degree bd = .ok c) {k : Nat} (h' : RqContext.new pr sample (l.take k) degree bd = .ok d) :
    d.nttOps = c.nttOps.take k := by
  obtain ⟨ms, h1, h2⟩ := RqContext.new_ops h
  obtain ⟨ms', h3, h4⟩ := RqContext.new_ops h'
  rw [mapR_take h1 k] at h3
  obtain rfl := Except.ok.inj h3
  rw [mapR_take h2 k] at h4
  exact (Except.ok.inj h4).symm

/-- The contexts of all levels come from the same construction. -/
theorem BfvParameters.level_contexts {N t : Nat} {l : List Nat} {variance : Nat} {P : BfvParameters} (h : IsParams N t l variance P) :
    ∃ pr sample bd, (∀ p i, 0 < p → sample p i < p) ∧ ∀ i, i < l.length → ∃ c, P.qCtxs[i]? = some c ∧
      RqContext.new pr sample (levelModuli l i) N bd = .ok c := by
  obtain ⟨-, -, -, pr, sample, bd, hs, h⟩ := h
  refine ⟨pr, sample, bd, hs, fun i hi => ?_⟩
  unfold BfvParameters.new at h
  simp only [bind_eq_ok] at h
  obtain ⟨ext, -, tInvs, -, q0, -, ptCtx, -, levels, hlev, map, -, tm, -, op, -, h⟩ := h
  obtain ⟨l1, l2⟩ := mapR_inv hlev
  obtain ⟨L, hL, hLv⟩ := l2 i i (by rw [List.getElem?_range hi])
  unfold BfvParameters.level at hLv
  simp only [bind_eq_ok] at hLv
  obtain ⟨ms, hms, qCtx, hq, _, _, _, _, _, _, _, _, _, _, _, _, _, _, _, _, _, _, _, _, _, _, _, _, _, _, _, _, _, _, _, _, hLv⟩ := hLv
  cases h
  cases hLv
  obtain ⟨-, rfl⟩ := takeR_inv hms
  exact ⟨qCtx, by simp [List.getElem?_map, hL], hq⟩

/-! ### Operations that mix contexts -/

theorem zip3MutM_prefix {ι α β γ : Type _} {f : α → β → γ → Res α} {l : List ι} {a : ι → α} {b : ι → β} {c : ι → γ} {d : ι → α} (m : Nat)
    (h : ∀ x ∈ l.take m, f (a x) (b x) (c x) = .ok (d x)) (h' : ∀ x ∈ l.drop m, a x = d x) :
    zip3MutM f (l.map a) ((l.take m).map b) (l.map c) = .ok (l.map d) := by
  induction l generalizing m with
  | nil => cases m <;> rfl
  | cons x l ih =>
    cases m with
    | zero =>
      simp only [List.take_zero, List.map_nil, List.map_cons, zip3MutM]
      congr 1
      exact List.map_congr_left h'
    | succ m =>
      simp only [List.map_cons, List.take_succ_cons, zip3MutM, h x (by simp),
        ih m (fun y hy => h y (by simp [hy])) (fun y hy => h' y (by simpa using hy)), res_ok_bind]

/-- `c` and `d` agree on the moduli (and transforms) they share, which are the first ones of both. -/
structure RqContext.Shares (c d : RqContext) (m : Nat) : Prop where
  c_le : m ≤ c.nttOps.length
  ops : c.nttOps.take m = d.nttOps.take m
  min : m = c.nttOps.length ∨ m = d.nttOps.length

variable {K : Nat}

theorem rowN_congr {op : NttOperator} {f g : Rg (2 ^ K)}
    (hd : ((op.p.p : ℤ) : Rg (2 ^ K)) ∣ f - g) : rowN f op = rowN g op := by
  unfold rowN
  apply List.map_congr_left
  intro j _
  obtain ⟨w, hw⟩ := hd
  have : f = g + ((op.p.p : ℤ) : Rg (2 ^ K)) * w := by rw [← hw]; ring
  have h0 : ev (ptOf K op j) (((op.p.p : ℤ) : Rg (2 ^ K)) * w) = 0 := by
    unfold ev
    refine Finset.sum_eq_zero fun k _ => ?_
    rw [cf_int_mul (by positivity)]; simp
  rw [this, ev_add (by positivity), h0, add_zero]

/-- Adding a polynomial of `d` to a polynomial of `c` changes the shared rows only. -/
theorem Poly.add_mixed {c d : RqContext} (hc : c.WF K) (pr : Profile) {m : Nat} (hs : c.Shares d m) {u : ℤ}
    (hu : ∀ op ∈ c.nttOps.take m, ((op.p.p : ℕ) : ℤ) ∣ u - 1) (hu' : ∀ op ∈ c.nttOps.drop m, ((op.p.p : ℕ) : ℤ) ∣ u) (x y : Rg (2 ^ K)) :
    (enc c .ntt ((u : Rg (2 ^ K)) * x)).add pr (enc d .ntt y) = .ok (enc c .ntt ((u : Rg (2 ^ K)) * (x + y))) := by
  unfold Poly.add
  rw [rassert_ok (show (enc c .ntt ((u : Rg (2 ^ K)) * x)).representation = .ntt from rfl), res_ok_bind,
    rassert_ok (show (enc d .ntt y).representation = .ntt from rfl), res_ok_bind]
  simp only [enc, encRows, hc.moduli_eq]
  have hrow : ∀ op ∈ c.nttOps.take m, op.p.addVec pr (rowN ((u : Rg (2 ^ K)) * x) op) (rowN y op) = .ok (rowN ((u : Rg (2 ^ K)) * (x + y)) op) := by
    intro op hop
    have hm : op ∈ c.nttOps := List.mem_of_mem_take hop
    rw [addVec_row (hc.opp_wf hm) pr]
    congr 1
    apply rowN_congr
    obtain ⟨w, hw⟩ := hu op hop
    refine ⟨-(w : Rg (2 ^ K)) * y, ?_⟩
    have : (u : Rg (2 ^ K)) = 1 + ((op.p.p : ℤ) : Rg (2 ^ K)) * (w : Rg (2 ^ K)) := by
      rw [← Int.cast_mul, ← hw]; push_cast; ring
    rw [this]; ring
  have hrest : ∀ op ∈ c.nttOps.drop m, rowN ((u : Rg (2 ^ K)) * x) op = rowN ((u : Rg (2 ^ K)) * (x + y)) op := by
    intro op hop
    apply rowN_congr
    obtain ⟨w, hw⟩ := hu' op hop
    refine ⟨-(w : Rg (2 ^ K)) * y, ?_⟩
    rw [hw]; push_cast; ring
  have hz : zip3MutM (fun x y (q : Modulus) => q.addVec pr x y) (c.nttOps.map fun op => rowN ((u : Rg (2 ^ K)) * x) op)
      (d.nttOps.map fun op => rowN y op) (c.nttOps.map (·.p)) = .ok (c.nttOps.map fun op => rowN ((u : Rg (2 ^ K)) * (x + y)) op) := by
    rcases hs.min with hm | hm
    · have e : d.nttOps.map (fun op => rowN y op) = c.nttOps.map (fun op => rowN y op) ++ (d.nttOps.drop m).map fun op => rowN y op := by
        have h1 : c.nttOps = d.nttOps.take m := by rw [← hs.ops, hm, List.take_length]
        conv_rhs => rw [h1]
        rw [← List.map_append, List.take_append_drop]
      rw [e]
      refine zip3MutM_map_append _ fun op hop => hrow op ?_
      rw [hm, List.take_length]; exact hop
    · have e : d.nttOps = c.nttOps.take m := by rw [hs.ops, hm, List.take_length]
      rw [e]
      exact zip3MutM_prefix m hrow hrest
  rw [hz]; rfl

/-! ### Keys with different levels -/

namespace Ksk

/-- The key that `Ksk::new` builds from the masks `a`, the errors `e` and the polynomial `src`, for ciphertexts of the context `c` in the
context `d`. -/
noncomputable def pack (P : BfvParameters) (c d : RqContext) (s : Rg (2 ^ K)) (e a : Nat → Rg (2 ^ K)) (src : Rg (2 ^ K)) : Ksk where
  params := P
  c0 := (List.range c.moduli64.length).map fun j => enc d .ntt (e j - a j * s + src * ((garnerAt c j : ℤ) : Rg (2 ^ K)))
  c1 := (List.range c.moduli64.length).map fun j => enc d .ntt (a j)
  kskContext := d
  ctContext := c

/-- The errors and masks depend on the randomness only. -/
theorem new_pack {sk : SecretKey} {ext : List Nat} (h : sk.WF K ext) (pr : Profile) {i j : Nat} {L M : BfvLevel}
    (hL : sk.params.At K ext i L) (hM : sk.params.At K ext j M) (hv1 : 1 ≤ sk.params.variance) (hv2 : sk.params.variance ≤ 16)
    {aTape : Nat → Nat → Nat → Nat} (ha : ∀ j, TapeOk M.qCtx (aTape j)) {rng : Nat → Nat → Nat} (hr : ∀ j i, rng j i < 2 ^ 64) :
    ∃ e a : Nat → Rg (2 ^ K), (∀ k, Bdd (2 * sk.params.variance) (e k)) ∧ ∀ src,
      Ksk.new pr sk (enc M.qCtx .ntt src) i j aTape rng = .ok (pack sk.params L.qCtx M.qCtx (sk.ring K) e a src) := by
  have hc := hL.wf.ctx
  have hd := hM.wf.ctx
  have hn := moduli_len hc
  have hgl : L.qCtx.rns.garner.length = L.qCtx.moduli64.length := by rw [hc.core.rns.g_len, hc.core.m64]
  choose a ha using fun j => random_enc hd (ha j)
  choose e he hb using fun j => randomSmall_enc hd pr hv1 hv2 (hr j)
  refine ⟨e, a, hb, fun src => ?_⟩
  unfold Ksk.new
  rw [idx_of hL.q, idx_of hM.q, res_ok_bind, res_ok_bind, SecretKey.polyNtt_enc h pr hd, res_ok_bind, hn]
  have hz : (List.range L.qCtx.moduli64.length).zip
      (((List.range L.qCtx.moduli64.length).map fun k => Poly.random M.qCtx (aTape k) .ntt).zip L.qCtx.rns.garner) =
      (List.range L.qCtx.moduli64.length).map fun j => (j, enc M.qCtx .ntt (a j), garnerAt L.qCtx j) := by
    conv_lhs => rw [list_eq_range L.qCtx.rns.garner 0, hgl, zip_range]
    have := zip_range L.qCtx.moduli64.length id (fun j => (Poly.random M.qCtx (aTape j) .ntt, L.qCtx.rns.garner.getD j 0))
    rw [List.map_id] at this
    rw [this]
    apply List.map_congr_left
    intro j _
    rw [ha j]; rfl
  rw [hz, mapR_map (d := fun j => enc M.qCtx .ntt (e j - a j * sk.ring K + src * ((garnerAt L.qCtx j : ℤ) : Rg (2 ^ K)))), res_ok_bind]
  · have h1 : ((List.range L.qCtx.moduli64.length).map fun k => Poly.random M.qCtx (aTape k) .ntt) =
        (List.range L.qCtx.moduli64.length).map fun j => enc M.qCtx .ntt (a j) := List.map_congr_left fun j _ => ha j
    rw [h1]; rfl
  · intro j _
    dsimp only
    unfold newC0
    simp only [mul_enc hd, he, sub_enc hd, mulBig_enc hd, add_enc hd, res_ok_bind]

/-- The digits of `f` against the polynomials `b`. -/
noncomputable def digitSum (c : RqContext) (f : Rg (2 ^ K)) (b : Nat → Rg (2 ^ K)) : Rg (2 ^ K) :=
  ∑ j ∈ Finset.range c.moduli64.length, digit c f j * b j

theorem switchStep_mixed {c d : RqContext} (hc : c.WF K) (hd : d.WF K) (pr : Profile) {m : Nat} (hs : c.Shares d m) {u : ℤ}
    (hu : ∀ op ∈ c.nttOps.take m, ((op.p.p : ℕ) : ℤ) ∣ u - 1) (hu' : ∀ op ∈ c.nttOps.drop m, ((op.p.p : ℕ) : ℤ) ∣ u) (f x y v w : Rg (2 ^ K))
    {j : Nat} (hj : j < c.moduli64.length) :
    switchStep pr d (enc c .ntt ((u : Rg (2 ^ K)) * x), enc c .ntt ((u : Rg (2 ^ K)) * y)) (rowP f (modAt c j), enc d .ntt v, enc d .ntt w) =
      .ok (enc c .ntt ((u : Rg (2 ^ K)) * (x + digit c f j * v)), enc c .ntt ((u : Rg (2 ^ K)) * (y + digit c f j * w))) := by
  have hb := hc.bound (modAt_mem hj)
  have hd' : ofList K ((rowP f (modAt c j)).map (fun x : Nat => (x : ℤ))) = digit c f j := by
    unfold ofList digit
    apply ext_cf (by positivity)
    intro k hk
    rw [cf_ofCoeffs (by positivity) _ hk, cf_ofCoeffs (by positivity) _ hk,
      NttOperator.getD_map_of_lt _ _ _ 0 _ (by rw [length_rowP]; exact hk), getD_rowP _ _ hk,
      Int.toNat_of_nonneg (Int.emod_nonneg _ (by omega))]
  unfold switchStep
  rw [tryFromVecU64_ok hd pr (by rw [length_rowP]) (fun x hx => by have := rowP_lt f (by omega) x hx; omega), res_ok_bind, hd', toNtt_enc hd]
  simp only [mul_enc hd, add_mixed hc pr hs hu hu', res_ok_bind]

theorem keySwitch_pack (P : BfvParameters) {c d : RqContext} (hc : c.WF K) (hd : d.WF K) (pr : Profile) {m : Nat} (hs : c.Shares d m) {u : ℤ}
    (hu : ∀ op ∈ c.nttOps.take m, ((op.p.p : ℕ) : ℤ) ∣ u - 1) (hu' : ∀ op ∈ c.nttOps.drop m, ((op.p.p : ℕ) : ℤ) ∣ u) (s : Rg (2 ^ K))
    (e a : Nat → Rg (2 ^ K)) (src f : Rg (2 ^ K)) :
    (pack P c d s e a src).keySwitch pr (enc c .powerBasis f) =
      .ok (enc c .ntt ((u : Rg (2 ^ K)) * digitSum c f fun j => e j - a j * s + src * ((garnerAt c j : ℤ) : Rg (2 ^ K))),
        enc c .ntt ((u : Rg (2 ^ K)) * digitSum c f a)) := by
  unfold keySwitch
  rw [rassert_ok (show (enc c .powerBasis f).context = (pack P c d s e a src).ctContext from rfl), res_ok_bind,
    rassert_ok (show (enc c .powerBasis f).representation = .powerBasis from rfl), res_ok_bind]
  dsimp only [pack]
  rw [zero_enc hc, zip_range]
  have hrows : (enc c .powerBasis f).coefficients = (List.range c.moduli64.length).map fun j => rowP f (modAt c j) := by
    have : (enc c .powerBasis f).coefficients = encRows c .powerBasis f := rfl
    rw [this, encRows_power hc]
    conv_lhs => rw [list_eq_range c.moduli64 1, List.map_map]
    rfl
  rw [hrows, zip_range, foldR_map]
  have h0 : enc c .ntt (0 : Rg (2 ^ K)) = enc c .ntt ((u : Rg (2 ^ K)) * 0) := by rw [mul_zero]
  rw [h0]
  obtain ⟨s', h1, h2⟩ := foldR_range_ok (n := c.moduli64.length)
    (f := fun st j => switchStep pr d st (rowP f (modAt c j), enc d .ntt (e j - a j * s + src * ((garnerAt c j : ℤ) : Rg (2 ^ K))), enc d .ntt (a j)))
    (s := (enc c .ntt ((u : Rg (2 ^ K)) * 0), enc c .ntt ((u : Rg (2 ^ K)) * 0)))
    (fun i st => st = (enc c .ntt ((u : Rg (2 ^ K)) * ∑ j ∈ Finset.range i, digit c f j * (e j - a j * s + src * ((garnerAt c j : ℤ) : Rg (2 ^ K)))),
      enc c .ntt ((u : Rg (2 ^ K)) * ∑ j ∈ Finset.range i, digit c f j * a j)))
    (by simp) (by
      rintro i _ hi rfl
      refine ⟨_, switchStep_mixed hc hd pr hs hu hu' f _ _ _ _ hi, ?_⟩
      rw [Finset.sum_range_succ, Finset.sum_range_succ])
  rw [h1, h2]; rfl

/-- The phase of the digit sums. -/
theorem digitSum_phase {c : RqContext} (hc : c.WF K) (s : Rg (2 ^ K)) (e a : Nat → Rg (2 ^ K)) (src f : Rg (2 ^ K)) :
    ((c.Q : ℤ) : Rg (2 ^ K)) ∣ (digitSum c f fun j => e j - a j * s + src * ((garnerAt c j : ℤ) : Rg (2 ^ K))) + digitSum c f a * s -
      (f * src + digitSum c f e) := by
  refine ((digit_sum hc f).mul_right src).trans (dvd_of_eq ?_)
  unfold digitSum
  rw [sub_mul, Finset.sum_mul, Finset.sum_mul]
  have : ∀ x y z w : Rg (2 ^ K), x + y - (z + w) = x + y - w - z := fun x y z w => by ring
  rw [this, ← Finset.sum_add_distrib, ← Finset.sum_sub_distrib]
  congr 1
  apply Finset.sum_congr rfl
  intro j _
  ring

theorem digitSum_bdd {c : RqContext} (hc : c.WF K) {B : ℤ} {e : Nat → Rg (2 ^ K)} (he : ∀ j, Bdd B (e j)) (f : Rg (2 ^ K)) :
    Bdd (2 ^ K * c.moduli64.sum * B) (digitSum c f e) := by
  have hN : 0 < 2 ^ K := by positivity
  have h1 := Bdd.sum hN (Finset.range c.moduli64.length) (A := fun j => ((2 ^ K : Nat) : ℤ) * modAt c j * B)
    (f := fun j => digit c f j * e j) (fun j hj => Bdd.mul hN (digit_bdd hc f (Finset.mem_range.mp hj)) (he j))
  refine h1.mono (le_of_eq ?_)
  rw [← Finset.sum_mul, ← Finset.mul_sum]
  have : (∑ j ∈ Finset.range c.moduli64.length, (modAt c j : ℤ)) = (c.moduli64.sum : ℤ) := by
    rw [← Nat.cast_sum, ← sum_getD c.moduli64 1]; rfl
  rw [this]; push_cast; ring

end Ksk

end OnionPIR
