import Verif.Proofs.Rq
/- `RqContext::new` establishes `RqContext.WF`; encodings determine and are determined by residues. -/
namespace OnionPIR
open Rg

namespace RqContext
variable {K : Nat}

theorem mapR_ops {pr : Profile} {sample : Nat → Nat → Nat} (hs : ∀ p i, 0 < p → sample p i < p) {degree : Nat} (hd : degree < 2 ^ 64)
    {ms : List Modulus} (hm : ∀ m ∈ ms, m.WF) {ops : List NttOperator}
    (h : mapR (fun (m : Modulus) => NttOperator.new pr (sample m.p) m degree) ms = .ok ops) :
    ops.map (·.p) = ms ∧ ∀ op ∈ ops, ∃ K psi psiInv, op.WF K psi psiInv ∧ 2 ^ K = degree := by
  induction ms generalizing ops with
  | nil => simp [mapR] at h; subst h; simp
  | cons m ms ih =>
    simp only [mapR, bind_eq_ok] at h
    obtain ⟨op, hop, ops', hops, h⟩ := h
    cases h
    obtain ⟨h1, h2⟩ := ih (fun m hm' => hm m (by simp [hm'])) hops
    obtain ⟨K, psi, psiInv, hw, hp, hsz⟩ := NttOperator.new_wf (hm m (by simp)) pr hd _
      (fun i => hs _ i (hm m (by simp)).pos) hop
    refine ⟨by simp [h1, hp], ?_⟩
    intro o ho
    rw [List.mem_cons] at ho
    rcases ho with rfl | ho
    · exact ⟨K, psi, psiInv, hw, by rw [← hw.size, hsz]⟩
    · exact h2 o ho

theorem mapR_map_eq {α β γ : Type _} {f : α → Res β} {l : List α} {r : List β} (h : mapR f l = .ok r) {g : β → γ} {g' : α → γ}
    (hg : ∀ a b, a ∈ l → f a = .ok b → g b = g' a) : r.map g = l.map g' := by
  induction l generalizing r with
  | nil => simp [mapR] at h; subst h; rfl
  | cons a as ih =>
    simp only [mapR, bind_eq_ok] at h
    obtain ⟨x, hx, r', hr', h⟩ := h
    cases h
    rw [List.map_cons, List.map_cons, ih hr' (fun a b ha => hg a b (by simp [ha])), hg a x (by simp) hx]

theorem lastInv_ok {m : Modulus} (h : m.WF) (pr : Profile) {qLast : Nat} (hq : qLast < 2 ^ 64) (h0 : qLast % m.p ≠ 0) :
    lastInv pr qLast m = .ok ((qLast % m.p) ^ (m.p - 2) % m.p, (qLast % m.p) ^ (m.p - 2) % m.p * 2 ^ 64 / m.p) := by
  unfold lastInv
  rw [Modulus.reduce_ok h pr hq, res_ok_bind, Modulus.inv_ok h pr (Nat.mod_lt _ h.pos) h0, res_ok_bind,
    Modulus.shoup_ok h pr (Nat.mod_lt _ h.pos), res_ok_bind]

theorem getLast_cop {l : List Nat} (ne : l ≠ []) (hc : l.Pairwise Nat.Coprime) (hb : ∀ q ∈ l, 2 ≤ q) {q : Nat} (hq : q ∈ l.dropLast) :
    l.getLast ne % q ≠ 0 := by
  have hc' := hc
  rw [← List.dropLast_append_getLast ne, List.pairwise_append] at hc'
  have := hc'.2.2 q hq (l.getLast ne) (by simp)
  intro h0
  have hd : q ∣ l.getLast ne := Nat.dvd_of_mod_eq_zero h0
  have h1 := Nat.Coprime.eq_one_of_dvd this hd
  have := hb q (List.dropLast_subset _ hq)
  omega

/-- The fields computed by `finish`, for a non-empty list of moduli. -/
theorem finish_ok {pr : Profile} {l : List Nat} {degree : Nat} {bd : BitDecomposition} {rns : RnsContext} (hr : rns.WF)
    (hl : rns.moduliU64 = l) (ne : l ≠ []) (ops : List NttOperator) (next : Option RqContext) :
    finish pr l degree bd rns ops next = .ok
      { moduli64 := l, moduli := rns.moduli, rns := rns, nttOps := ops, degree := degree, bitDecomposition := bd,
        qLastInvMod := l.dropLast.map (fun q => (l.getLast ne % q) ^ (q - 2) % q),
        qLastInvModShoup := l.dropLast.map (fun q => (l.getLast ne % q) ^ (q - 2) % q * 2 ^ 64 / q),
        bitrev := (List.range degree).map (bitrevIndex degree), chain := chainOf next } := by
  subst hl
  have hps := hr.ps
  have ne' : rns.moduli ≠ [] := by
    intro h; rw [h] at hps; exact ne hps.symm
  have hlast : (rns.moduli.getLast ne').p = rns.moduliU64.getLast ne := by
    have h1 : (rns.moduli.map Modulus.p).getLast (by simpa using ne') = (rns.moduli.getLast ne').p := by
      rw [List.getLast_map]
    rw [← h1]
    congr 1
  have hdrop : rns.moduliU64.dropLast = rns.moduli.dropLast.map Modulus.p := by
    rw [← hps, List.map_dropLast]
  unfold finish
  rw [List.getLast?_eq_some_getLast ne', unwrapR, res_ok_bind, ← List.dropLast_eq_take]
  rw [mapR_ok (g := fun m => ((rns.moduliU64.getLast ne % m.p) ^ (m.p - 2) % m.p,
    (rns.moduliU64.getLast ne % m.p) ^ (m.p - 2) % m.p * 2 ^ 64 / m.p))]
  · rw [res_ok_bind, hdrop, List.map_map, List.map_map, List.map_map, List.map_map]; rfl
  · intro m hm
    rw [hlast]
    have hmw := hr.mods m (List.dropLast_subset _ hm)
    apply lastInv_ok hmw
    · have := (hr.bound _ (List.getLast_mem ne)).2
      omega
    · apply getLast_cop ne hr.cop (fun q hq => (hr.bound q hq).1)
      rw [hdrop]; exact List.mem_map_of_mem hm

theorem finish_wf {pr : Profile} {l : List Nat} {K : Nat} {bd : BitDecomposition} {rns : RnsContext} (hr : rns.WF)
    (hl : rns.moduliU64 = l) (ne : l ≠ []) {ops : List NttOperator} (h1 : ops.map (·.p) = rns.moduli)
    (h2 : ∀ op ∈ ops, ∃ psi psiInv, op.WF K psi psiInv) (next : Option RqContext) {c : RqContext}
    (h : finish pr l (2 ^ K) bd rns ops next = .ok c) :
    c.toRqCore.WF K ∧ c.moduli64 = l ∧ c.chain = chainOf next := by
  rw [finish_ok hr hl ne] at h
  cases h
  have hK : 3 ≤ K ∧ K ≤ 62 := by
    have : ops ≠ [] := by
      intro h; subst h
      rw [List.map_nil] at h1
      have := hr.ps
      rw [← h1, List.map_nil, hl] at this
      exact ne this.symm
    obtain ⟨op, hop⟩ := List.exists_mem_of_ne_nil _ this
    obtain ⟨_, _, hw⟩ := h2 op hop
    exact ⟨hw.three_le, hw.K_le⟩
  refine ⟨⟨hK.1, hK.2, rfl, hr, rfl, hl.symm, ne, h1, h2, rfl, rfl, ?_⟩, rfl, rfl⟩
  apply List.map_congr_left
  intro i hi
  exact bitrevIndex_eq K i (by omega) (List.mem_range.mp hi)

/-- Every context returned by the constructor is well-formed. -/
theorem newAux_wf {pr : Profile} {sample : Nat → Nat → Nat} (hs : ∀ p i, 0 < p → sample p i < p) {degree : Nat} (hd : degree < 2 ^ 64)
    {bd : BitDecomposition} (fuel : Nat) {l : List Nat} (hf : fuel = l.length) {c : RqContext}
    (h : newAux pr sample degree bd fuel l = .ok c) :
    ∃ K, degree = 2 ^ K ∧ c.WF K ∧ c.moduli64 = l ∧ (2 ≤ l.length → ∃ c', c.nextCtx = some c' ∧
      newAux pr sample degree bd (fuel - 1) l.dropLast = .ok c') ∧ (l.length < 2 → c.nextCtx = none) := by
  induction fuel generalizing l c with
  | zero =>
    have : l = [] := List.length_eq_zero_iff.mp hf.symm
    subst this
    unfold newAux at h
    simp only [bind_eq_ok] at h
    obtain ⟨rns, hr, ops, -, h⟩ := h
    obtain ⟨hw, hl⟩ := RnsContext.new_wf hr
    unfold finish at h
    have : rns.moduli = [] := by
      have := hw.ps; rw [hl] at this; simpa using this
    rw [this] at h
    simp [unwrapR] at h
  | succ fuel ih =>
    have ne : l ≠ [] := by intro h; subst h; simp at hf
    unfold newAux at h
    simp only [bind_eq_ok] at h
    obtain ⟨rns, hr, ops, hops, h⟩ := h
    obtain ⟨hw, hl⟩ := RnsContext.new_wf hr
    obtain ⟨o1, o2⟩ := mapR_ops hs hd hw.mods hops
    have hKex : ∃ K, 2 ^ K = degree := by
      have : ops ≠ [] := by
        intro h; subst h
        rw [List.map_nil] at o1
        have := hw.ps
        rw [← o1, List.map_nil, hl] at this
        exact ne this.symm
      obtain ⟨op, hop⟩ := List.exists_mem_of_ne_nil _ this
      obtain ⟨K, _, _, _, hK⟩ := o2 op hop
      exact ⟨K, hK⟩
    obtain ⟨K, rfl⟩ := hKex
    have o3 : ∀ op ∈ ops, ∃ psi psiInv, op.WF K psi psiInv := by
      intro op hop
      obtain ⟨K', psi, psiInv, hw', hK'⟩ := o2 op hop
      have := Nat.pow_right_injective (le_refl 2) hK'
      subst this
      exact ⟨psi, psiInv, hw'⟩
    refine ⟨K, rfl, ?_⟩
    split_ifs at h with h2
    · simp only [bind_eq_ok] at h
      obtain ⟨next, hnext, h⟩ := h
      obtain ⟨w1, w2, w3⟩ := finish_wf hw hl ne o1 o3 _ h
      rw [← List.dropLast_eq_take] at hnext
      obtain ⟨K', hK', hn, hn64, hn2, hn3⟩ := ih (by rw [List.length_dropLast]; omega) hnext
      have := Nat.pow_right_injective (le_refl 2) hK'
      subst this
      refine ⟨⟨w1, ?_⟩, w2, fun _ => ⟨next, ?_, hnext⟩, fun h => by omega⟩
      · rw [w3, chainOf, RqCore.ChainWF]
        exact ⟨hn.core, by rw [hn64, w2], hn.chain⟩
      · unfold nextCtx; rw [w3]; rfl
    · obtain ⟨w1, w2, w3⟩ := finish_wf hw hl ne o1 o3 _ h
      have h0 : l.length ≠ 0 := by simpa using ne
      refine ⟨⟨w1, ?_⟩, w2, fun h => by omega, fun _ => ?_⟩
      · rw [w3, chainOf, RqCore.ChainWF, w2]; omega
      · unfold nextCtx; rw [w3]; rfl

theorem new_wf {pr : Profile} {sample : Nat → Nat → Nat} (hs : ∀ p i, 0 < p → sample p i < p) {degree : Nat} (hd : degree < 2 ^ 64)
    {bd : BitDecomposition} {l : List Nat} {c : RqContext} (h : new pr sample l degree bd = .ok c) :
    ∃ K, degree = 2 ^ K ∧ c.WF K ∧ c.moduli64 = l := by
  obtain ⟨K, h1, h2, h3, -⟩ := newAux_wf hs hd _ rfl h
  exact ⟨K, h1, h2, h3⟩

/-- The next context is the context built from all moduli but the last. -/
theorem new_next {pr : Profile} {sample : Nat → Nat → Nat} (hs : ∀ p i, 0 < p → sample p i < p) {degree : Nat} (hd : degree < 2 ^ 64)
    {bd : BitDecomposition} {l : List Nat} {c : RqContext} (h : new pr sample l degree bd = .ok c) :
    (2 ≤ l.length → ∃ c', c.nextCtx = some c' ∧ new pr sample l.dropLast degree bd = .ok c') ∧
      (l.length < 2 → c.nextCtx = none) := by
  obtain ⟨K, -, -, -, h4, h5⟩ := newAux_wf hs hd _ rfl h
  refine ⟨fun h2 => ?_, h5⟩
  obtain ⟨c', e1, e2⟩ := h4 h2
  exact ⟨c', e1, by unfold new; rw [List.length_dropLast]; exact e2⟩

theorem WF.next {K : Nat} {c c' : RqContext} (h : c.WF K) (hn : c.nextCtx = some c') :
    c'.WF K ∧ c'.moduli64 = c.moduli64.dropLast := by
  unfold nextCtx at hn
  have hc := h.chain
  split at hn
  · cases hn
  · rename_i d ds heq
    cases hn
    rw [heq, RqCore.ChainWF] at hc
    exact ⟨⟨hc.1, hc.2.2⟩, hc.2.1⟩

theorem WF.next_isSome {K : Nat} {c : RqContext} (h : c.WF K) : c.nextCtx.isSome ↔ 2 ≤ c.moduli64.length := by
  have hc := h.chain
  unfold nextCtx
  split
  · rename_i heq
    rw [heq, RqCore.ChainWF] at hc
    simp; omega
  · rename_i d ds heq
    rw [heq, RqCore.ChainWF] at hc
    have := hc.1.ne
    rw [hc.2.1] at this
    simp only [Option.isSome_some, true_iff]
    have h1 : c.moduli64.dropLast.length ≠ 0 := fun h0 => this (List.length_eq_zero_iff.mp h0)
    rw [List.length_dropLast] at h1
    omega

/-- The product of the moduli. -/
def Q (c : RqContext) : Nat := c.moduli64.prod

theorem WF.bound {c : RqContext} (h : c.WF K) {q : Nat} (hq : q ∈ c.moduli64) : 2 ≤ q ∧ q < 2 ^ 62 :=
  h.core.rns.bound q (by rw [← h.core.m64]; exact hq)

theorem WF.Q_pos {c : RqContext} (h : c.WF K) : 0 < c.Q := List.prod_pos fun q hq => by have := (h.bound hq).1; omega

theorem WF.Q_eq {c : RqContext} (h : c.WF K) : c.rns.product = c.Q := h.core.prod

theorem WF.cop {c : RqContext} (h : c.WF K) : c.moduli64.Pairwise Nat.Coprime := by rw [h.core.m64]; exact h.core.rns.cop

theorem prod_dvd_int {l : List Nat} (hc : l.Pairwise Nat.Coprime) {x : ℤ} : (∀ q ∈ l, (q : ℤ) ∣ x) ↔ ((l.prod : Nat) : ℤ) ∣ x := by
  constructor
  · intro h
    induction l with
    | nil => simp
    | cons a l ih =>
      rw [List.pairwise_cons] at hc
      rw [List.prod_cons, Nat.cast_mul]
      apply IsCoprime.mul_dvd
      · rw [Nat.isCoprime_iff_coprime]
        exact Nat.Coprime.symm (Nat.coprime_list_prod_left_iff.mpr fun b hb => (hc.1 b hb).symm)
      · exact h a (by simp)
      · exact ih hc.2 fun q hq => h q (by simp [hq])
  · intro h q hq
    exact (Int.natCast_dvd_natCast.mpr (List.dvd_prod hq)).trans h

end RqContext

section enc
variable {K : Nat} {c : RqContext}

theorem encRows_power (h : c.WF K) (f : Rg (2 ^ K)) : encRows c .powerBasis f = c.moduli64.map (rowP f) := by
  rw [encRows, h.core.m64_ops, List.map_map]; rfl

theorem rowP_eq_iff {N : Nat} {f g : Rg N} {q : Nat} (hq : 0 < q) : rowP f q = rowP g q ↔ ∀ k, k < N → (q : ℤ) ∣ cf f k - cf g k := by
  constructor
  · intro h k hk
    rw [← emod_toNat_eq_iff hq, ← getD_rowP f q hk, ← getD_rowP g q hk, h]
  · intro h
    apply List.map_congr_left
    intro k hk
    rw [emod_toNat_eq_iff hq]
    exact h k (List.mem_range.mp hk)

theorem enc_power_eq_iff (h : c.WF K) (f g : Rg (2 ^ K)) :
    enc c .powerBasis f = enc c .powerBasis g ↔ ((c.Q : ℤ) : Rg (2 ^ K)) ∣ f - g := by
  have hN : 0 < 2 ^ K := by positivity
  have h1 : enc c .powerBasis f = enc c .powerBasis g ↔ c.moduli64.map (rowP f) = c.moduli64.map (rowP g) := by
    rw [← encRows_power h, ← encRows_power h]; simp [enc]
  rw [h1, List.map_inj_left, dvd_iff hN]
  have h2 : (∀ q ∈ c.moduli64, rowP f q = rowP g q) ↔ ∀ q ∈ c.moduli64, ∀ k, k < 2 ^ K → (q : ℤ) ∣ cf f k - cf g k :=
    forall₂_congr fun q hq => rowP_eq_iff (by have := (h.bound hq).1; omega)
  rw [h2]
  unfold RqContext.Q
  simp only [cf_sub hN, ← RqContext.prod_dvd_int h.cop]
  exact ⟨fun h k hk q hq => h q hq k hk, fun h q hq k hk => h k hk q hq⟩

/-- Two ring elements have the same encoding iff they agree modulo `Q`. -/
theorem enc_eq_iff (h : c.WF K) {r : Representation} (f g : Rg (2 ^ K)) :
    enc c r f = enc c r g ↔ ((c.Q : ℤ) : Rg (2 ^ K)) ∣ f - g := by
  have key : enc c .ntt f = enc c .ntt g ↔ ((c.Q : ℤ) : Rg (2 ^ K)) ∣ f - g := by
    rw [← enc_power_eq_iff h]
    constructor
    · intro e
      have h1 := Poly.toPower_enc h .debug f
      rw [e, Poly.toPower_enc h .debug g] at h1
      exact (Except.ok.inj h1).symm
    · intro e
      have h1 := Poly.toNtt_enc h .debug f
      rw [e, Poly.toNtt_enc h .debug g] at h1
      exact (Except.ok.inj h1).symm
  cases r with
  | powerBasis => exact enc_power_eq_iff h f g
  | ntt => exact key
  | nttShoup => rw [← key]; simp [enc, encRows]

theorem enc_congr (h : c.WF K) {r : Representation} {f g : Rg (2 ^ K)} (hd : ((c.Q : ℤ) : Rg (2 ^ K)) ∣ f - g) :
    enc c r f = enc c r g := (enc_eq_iff h f g).mpr hd

/-- Rows of canonical residues of the right shape. -/
def Poly.Valid (p : Poly) : Prop :=
  p.coefficients.length = p.context.moduli64.length ∧
    ∀ i, i < p.context.moduli64.length → Spec.IsVec (p.context.moduli64.getD i 1) p.context.degree (p.coefficients.getD i [])

theorem enc_valid (h : c.WF K) (r : Representation) (f : Rg (2 ^ K)) : (enc c r f).Valid := by
  have hm := h.core.m64_ops
  refine ⟨?_, ?_⟩
  · cases r <;> simp [enc, encRows, hm]
  · intro i hi
    have hi' : i < c.nttOps.length := by simpa [enc, hm] using hi
    have hmem := List.getElem_mem hi'
    have e1 : (enc c r f).context.moduli64.getD i 1 = (c.nttOps[i]).p.p := by
      simp [enc, hm, List.getD, hi']
    rw [e1]
    have hd : (enc c r f).context.degree = 2 ^ K := h.core.deg
    rw [hd]
    cases r with
    | powerBasis =>
      have e2 : (enc c .powerBasis f).coefficients.getD i [] = rowP f (c.nttOps[i]).p.p := by
        simp [enc, encRows, List.getD, hi']
      rw [e2]
      exact ⟨length_rowP _ _, rowP_lt _ (h.opp_wf hmem).pos⟩
    | ntt =>
      have e2 : (enc c .ntt f).coefficients.getD i [] = rowN f (c.nttOps[i]) := by
        simp [enc, encRows, List.getD, hi']
      rw [e2]
      exact ⟨length_rowN _ _, rowN_lt _ _ (h.opp_wf hmem)⟩
    | nttShoup =>
      have e2 : (enc c .nttShoup f).coefficients.getD i [] = rowN f (c.nttOps[i]) := by
        simp [enc, encRows, List.getD, hi']
      rw [e2]
      exact ⟨length_rowN _ _, rowN_lt _ _ (h.opp_wf hmem)⟩

/-- Every valid power-basis polynomial is an encoding, of an element with coefficients in `[0, Q)`. -/
theorem exists_enc_power {p : Poly} (h : p.context.WF K) (hr : p.representation = .powerBasis) (hv : p.Valid) :
    ∃ f : Rg (2 ^ K), p = enc p.context .powerBasis f ∧ ∀ k, k < 2 ^ K → 0 ≤ cf f k ∧ cf f k < p.context.Q := by
  have hN : 0 < 2 ^ K := by positivity
  have hQ := h.Q_pos
  obtain ⟨hl, hrow⟩ := hv
  let x : Nat → Nat := fun k => (∑ i ∈ Finset.range p.context.rns.moduliU64.length,
    p.context.rns.garner.getD i 0 * (p.coefficients.getD i []).getD k 0) % p.context.Q
  refine ⟨ofCoeffs (2 ^ K) (fun k => (x k : ℤ)), ?_, ?_⟩
  · have : p.coefficients = encRows p.context .powerBasis (ofCoeffs (2 ^ K) (fun k => (x k : ℤ))) := by
      rw [encRows_power h]
      apply List.ext_getElem (by simp [hl])
      intro i hi hi'
      have hi2 : i < p.context.moduli64.length := by rw [← hl]; exact hi
      obtain ⟨r1, r2⟩ := hrow i hi2
      rw [h.core.deg] at r1
      rw [getD_eq_getElem' _ _ _ hi] at r1 r2
      rw [getD_eq_getElem' _ _ _ hi2] at r2
      rw [List.getElem_map]
      unfold rowP
      apply List.ext_getElem (by simp [r1])
      intro k hk hk'
      have hk2 : k < 2 ^ K := by rw [← r1]; exact hk
      rw [List.getElem_map, List.getElem_range, cf_ofCoeffs hN _ hk2]
      have hx : x k % p.context.moduli64[i] = (p.coefficients.getD i []).getD k 0 % p.context.moduli64[i] := by
        have hi3 : i < p.context.rns.moduliU64.length := by rw [← h.core.m64]; exact hi2
        have := RnsContext.garner_sum_mod h.core.rns (fun i => (p.coefficients.getD i []).getD k 0) hi3
        have e : p.context.rns.moduliU64.getD i 1 = p.context.moduli64[i] := by
          rw [getD_eq_getElem' _ _ _ hi3]; congr 1; exact h.core.m64.symm
        rw [e] at this
        simp only [x]
        rw [Nat.mod_mod_of_dvd _ (show p.context.moduli64[i] ∣ p.context.Q from List.dvd_prod (List.getElem_mem hi2)), this]
      rw [getD_eq_getElem' _ _ _ hi, getD_eq_getElem' _ _ _ hk, Nat.mod_eq_of_lt (r2 _ (List.getElem_mem _))] at hx
      rw [← hx]
      omega
    rw [enc, ← this, ← hr]
  · intro k hk
    rw [cf_ofCoeffs hN _ hk]
    have := Nat.mod_lt (∑ i ∈ Finset.range p.context.rns.moduliU64.length,
      p.context.rns.garner.getD i 0 * (p.coefficients.getD i []).getD k 0) hQ
    simp only [x]
    omega

/-- Converting a valid NTT polynomial gives a valid power-basis polynomial that converts back. -/
theorem toPower_valid {p : Poly} (h : p.context.WF K) (hr : p.representation = .ntt) (hv : p.Valid) (pr : Profile) :
    ∃ p', p.changeRepresentation pr .powerBasis = .ok p' ∧ p'.context = p.context ∧ p'.representation = .powerBasis ∧
      p'.Valid ∧ p'.changeRepresentation pr .ntt = .ok p := by
  obtain ⟨hl, hrow⟩ := hv
  have hm := h.core.m64_ops
  have key : ∀ (rows : List (List Nat)) (ops : List NttOperator), rows.length = ops.length →
      (∀ op ∈ ops, ∃ psi psiInv, op.WF K psi psiInv) →
      (∀ i, i < ops.length → Spec.IsVec ((ops.map (fun op => op.p.p)).getD i 1) (2 ^ K) (rows.getD i [])) →
      ∃ rows', zipMutM (fun row (op : NttOperator) => op.backward pr row) rows ops = .ok rows' ∧ rows'.length = ops.length ∧
        (∀ i, i < ops.length → Spec.IsVec ((ops.map (fun op => op.p.p)).getD i 1) (2 ^ K) (rows'.getD i [])) ∧
        zipMutM (fun row (op : NttOperator) => op.forward pr row) rows' ops = .ok rows := by
    intro rows
    induction rows with
    | nil => intro ops h1 _ _; cases ops with
      | nil => exact ⟨[], rfl, rfl, by simp, rfl⟩
      | cons => simp at h1
    | cons row rows ih => intro ops h1 h2 h3; cases ops with
      | nil => simp at h1
      | cons op ops =>
        obtain ⟨psi, psiInv, hw⟩ := h2 op (by simp)
        have h30 := h3 0 (by simp)
        simp only [List.map_cons, List.getD_cons_zero] at h30
        obtain ⟨b, e1, e2, e3, e4⟩ := NttOperator.forward_backward hw pr h30.1 h30.2
        obtain ⟨rs, f1, f2, f3, f4⟩ := ih ops (by simpa using h1) (fun o ho => h2 o (by simp [ho])) (fun i hi => by
          have := h3 (i + 1) (by simpa using hi)
          simpa only [List.map_cons, List.getD_cons_succ] using this)
        refine ⟨b :: rs, by simp [zipMutM, e1, f1], by simp [f2], ?_, by simp [zipMutM, e4, f4]⟩
        intro i hi
        cases i with
        | zero => simp only [List.map_cons, List.getD_cons_zero]; exact ⟨e2, e3⟩
        | succ i => simp only [List.map_cons, List.getD_cons_succ]; exact f3 i (by simpa using hi)
  have hlen : p.context.moduli64.length = p.context.nttOps.length := by rw [hm, List.length_map]
  obtain ⟨rows, e1, e2, e3, e4⟩ := key p.coefficients p.context.nttOps (by rw [hl, hlen]) h.core.ops (fun i hi => by
    have := hrow i (by rw [hlen]; exact hi)
    rw [h.core.deg, hm] at this
    exact this)
  refine ⟨{ p with coefficients := rows, representation := .powerBasis }, ?_, rfl, rfl, ⟨?_, ?_⟩, ?_⟩
  · unfold Poly.changeRepresentation
    rw [hr]
    simp only
    rw [e1]; rfl
  · simp only; rw [e2, hlen]
  · intro i hi
    simp only at hi ⊢
    have := e3 i (by rw [← hlen]; exact hi)
    rw [h.core.deg, hm]
    exact this
  · unfold Poly.changeRepresentation
    simp only
    rw [e4, res_ok_bind, ← hr]

/-- Every valid polynomial is an encoding, of an element with coefficients in `[0, Q)`. -/
theorem exists_enc {p : Poly} (h : p.context.WF K) (hr : p.representation ≠ .nttShoup) (hv : p.Valid) :
    ∃ f : Rg (2 ^ K), p = enc p.context p.representation f ∧ ∀ k, k < 2 ^ K → 0 ≤ cf f k ∧ cf f k < p.context.Q := by
  cases hrep : p.representation with
  | powerBasis => exact exists_enc_power h hrep hv
  | nttShoup => exact absurd hrep hr
  | ntt =>
    obtain ⟨p', e1, e2, e3, e4, e5⟩ := toPower_valid h hrep hv .debug
    obtain ⟨f, f1, f2⟩ := exists_enc_power (p := p') (by rw [e2]; exact h) e3 e4
    refine ⟨f, ?_, by rw [e2] at f2; exact f2⟩
    rw [f1, e2, Poly.toNtt_enc h] at e5
    exact (Except.ok.inj e5).symm

/-- As `exists_enc`, with centered coefficients. -/
theorem exists_enc_centered {p : Poly} (h : p.context.WF K) (hr : p.representation ≠ .nttShoup) (hv : p.Valid) :
    ∃ f : Rg (2 ^ K), p = enc p.context p.representation f ∧ ∀ k, k < 2 ^ K → 2 * |cf f k| ≤ p.context.Q := by
  obtain ⟨f, f1, f2⟩ := exists_enc h hr hv
  have hN : 0 < 2 ^ K := by positivity
  let g : Rg (2 ^ K) := ofCoeffs (2 ^ K) fun k => if 2 * cf f k ≤ p.context.Q then cf f k else cf f k - p.context.Q
  refine ⟨g, ?_, ?_⟩
  · rw [f1]
    apply enc_congr h
    rw [dvd_iff hN]
    intro k hk
    rw [cf_sub hN, cf_ofCoeffs hN _ hk]
    split_ifs
    · simp
    · simp
  · intro k hk
    obtain ⟨h1, h2⟩ := f2 k hk
    simp only [g]
    rw [cf_ofCoeffs hN _ hk]
    split_ifs with hc
    · rw [abs_of_nonneg h1]; exact hc
    · rw [abs_of_nonpos (by omega)]; omega

end enc
end OnionPIR
