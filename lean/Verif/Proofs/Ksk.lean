import Verif.Model.Rgsw
import Verif.Proofs.Bfv
/- Key switching, Galois keys, relinearization and RGSW ciphertexts as ring identities. -/
namespace OnionPIR
open Rg Poly

variable {K : Nat}

namespace Ksk

/-- The `j`-th modulus and the `j`-th Garner coefficient of a context. -/
def modAt (c : RqContext) (j : Nat) : Nat := c.moduli64.getD j 1
def garnerAt (c : RqContext) (j : Nat) : Nat := c.rns.garner.getD j 0

/-- `k` is a key for `src` under `s`: pair `j` has phase `src * garner_j` up to a polynomial bounded by `B`, modulo `Q`. -/
structure Holds (k : Ksk) (c : RqContext) (s src : Rg (2 ^ K)) (B : ℤ) (a b : Nat → Rg (2 ^ K)) : Prop where
  ctx : k.ctContext = c
  kctx : k.kskContext = c
  c0 : k.c0 = (List.range c.moduli64.length).map fun j => enc c .ntt (b j)
  c1 : k.c1 = (List.range c.moduli64.length).map fun j => enc c .ntt (a j)
  err : ∀ j, j < c.moduli64.length → ∃ e : Rg (2 ^ K), Bdd B e ∧
    ((c.Q : ℤ) : Rg (2 ^ K)) ∣ b j + a j * s - (src * ((garnerAt c j : ℤ) : Rg (2 ^ K)) + e)

/-- The `j`-th digit: the residues of the coefficients modulo the `j`-th modulus. -/
noncomputable def digit (c : RqContext) (f : Rg (2 ^ K)) (j : Nat) : Rg (2 ^ K) := ofCoeffs (2 ^ K) fun k => cf f k % (modAt c j : ℤ)

theorem modAt_mem {c : RqContext} {j : Nat} (hj : j < c.moduli64.length) : modAt c j ∈ c.moduli64 := by
  unfold modAt; rw [getD_eq_getElem' _ _ _ hj]; exact List.getElem_mem hj

theorem digit_bdd {c : RqContext} (h : c.WF K) (f : Rg (2 ^ K)) {j : Nat} (hj : j < c.moduli64.length) :
    Bdd (modAt c j) (digit c f j) := by
  intro k hk
  unfold digit
  rw [cf_ofCoeffs (by positivity) _ hk]
  have h2 := (h.bound (modAt_mem hj)).1
  have h3 := Int.emod_nonneg (cf f k) (show (modAt c j : ℤ) ≠ 0 by omega)
  have h4 := Int.emod_lt_of_pos (cf f k) (show (0 : ℤ) < modAt c j by omega)
  rw [abs_of_nonneg h3]; omega

/-- The digits recombine with the Garner coefficients. -/
theorem digit_sum {c : RqContext} (h : c.WF K) (f : Rg (2 ^ K)) :
    ((c.Q : ℤ) : Rg (2 ^ K)) ∣ (∑ j ∈ Finset.range c.moduli64.length, digit c f j * ((garnerAt c j : ℤ) : Rg (2 ^ K))) - f := by
  have hN : 0 < 2 ^ K := by positivity
  rw [dvd_iff hN]
  intro k hk
  rw [cf_sub hN, cf_sum hN]
  unfold RqContext.Q
  rw [← RqContext.prod_dvd_int h.cop]
  intro q hq
  obtain ⟨i, hi, rfl⟩ := List.getElem_of_mem hq
  have hi' : i < c.rns.moduliU64.length := by rw [← h.core.m64]; exact hi
  have hg := RnsContext.garner_sum_mod h.core.rns (fun j => (cf f k % (modAt c j : ℤ)).toNat) hi'
  have hpos : ∀ j, j < c.moduli64.length → (0 : ℤ) < modAt c j := fun j hj => by have := (h.bound (modAt_mem hj)).1; omega
  have hqi : c.rns.moduliU64.getD i 1 = c.moduli64[i] := by rw [← h.core.m64, getD_eq_getElem' _ _ _ hi]
  have hmi : modAt c i = c.moduli64[i] := by unfold modAt; rw [getD_eq_getElem' _ _ _ hi]
  have hcast : (∑ j ∈ Finset.range c.moduli64.length, cf (digit c f j * ((garnerAt c j : ℤ) : Rg (2 ^ K))) k) =
      ((∑ j ∈ Finset.range c.rns.moduliU64.length, c.rns.garner.getD j 0 * (cf f k % (modAt c j : ℤ)).toNat : Nat) : ℤ) := by
    rw [Nat.cast_sum, ← h.core.m64]
    apply Finset.sum_congr rfl
    intro j hj
    rw [mul_comm, cf_int_mul hN]
    unfold digit
    rw [cf_ofCoeffs hN _ hk, Nat.cast_mul, Int.toNat_of_nonneg (Int.emod_nonneg _ (hpos j (Finset.mem_range.mp hj)).ne')]
    unfold garnerAt
    rfl
  rw [hcast]
  rw [hqi, hmi, Nat.mod_eq_of_lt (emod_toNat_lt (by have := hpos i hi; omega) _)] at hg
  have hp := hpos i hi
  rw [hmi] at hp
  have e := Int.natCast_mod (∑ j ∈ Finset.range c.rns.moduliU64.length, c.rns.garner.getD j 0 * (cf f k % (modAt c j : ℤ)).toNat) c.moduli64[i]
  rw [hg, Int.toNat_of_nonneg (Int.emod_nonneg _ hp.ne')] at e
  exact Int.ModEq.dvd (show cf f k ≡ _ [ZMOD c.moduli64[i]] from e)

/-! ### Making a key -/

theorem moduli_len {c : RqContext} (h : c.WF K) : c.rns.moduli.length = c.moduli64.length := by
  rw [h.core.m64, ← h.core.rns.ps, List.length_map]

theorem newC0_enc {c : RqContext} (hc : c.WF K) (pr : Profile) {P : BfvParameters} (hv1 : 1 ≤ P.variance) (hv2 : P.variance ≤ 16)
    (s src a : Rg (2 ^ K)) (g : Nat) {rng : Nat → Nat} (hr : ∀ i, rng i < 2 ^ 64) :
    ∃ e : Rg (2 ^ K), Bdd (2 * P.variance) e ∧
      newC0 pr P c (enc c .ntt s) (enc c .ntt src) (enc c .ntt a) g rng =
        .ok (enc c .ntt (e - a * s + src * ((g : ℤ) : Rg (2 ^ K)))) := by
  obtain ⟨e, he, hb⟩ := randomSmall_enc hc pr hv1 hv2 hr
  refine ⟨e, hb, ?_⟩
  unfold newC0
  simp only [mul_enc hc, he, sub_enc hc, mulBig_enc hc, add_enc hc, res_ok_bind]

theorem zip_range {α β : Type _} (n : Nat) (f : Nat → α) (g : Nat → β) :
    ((List.range n).map f).zip ((List.range n).map g) = (List.range n).map fun j => (f j, g j) := by
  rw [List.zip_map', ]

theorem list_eq_range {α : Type _} (l : List α) (d : α) : l = (List.range l.length).map fun j => l.getD j d := by
  apply List.ext_getElem
  · simp
  · intro i h1 h2
    simp [h1]

theorem sum_getD (l : List Nat) (d : Nat) : ∑ j ∈ Finset.range l.length, l.getD j d = l.sum := by
  induction l with
  | nil => simp
  | cons x l ih => rw [List.length_cons, Finset.sum_range_succ', List.sum_cons, ← ih]; simp [add_comm]

/-- A key made by `Ksk::new` with equal levels. -/
theorem new_enc {sk : SecretKey} {ext : List Nat} (h : sk.WF K ext) (pr : Profile) {lev : Nat} {L : BfvLevel}
    (hL : sk.params.At K ext lev L) (hv1 : 1 ≤ sk.params.variance) (hv2 : sk.params.variance ≤ 16) (src : Rg (2 ^ K))
    {aTape : Nat → Nat → Nat → Nat} (ha : ∀ j, TapeOk L.qCtx (aTape j)) {rng : Nat → Nat → Nat} (hr : ∀ j i, rng j i < 2 ^ 64) :
    ∃ k a b, Ksk.new pr sk (enc L.qCtx .ntt src) lev lev aTape rng = .ok k ∧ k.params = sk.params ∧
      Holds k L.qCtx (sk.ring K) src (2 * sk.params.variance) a b := by
  have hc := hL.wf.ctx
  have hn := moduli_len hc
  have hgl : L.qCtx.rns.garner.length = L.qCtx.moduli64.length := by rw [hc.core.rns.g_len, hc.core.m64]
  choose a ha using fun j => random_enc hc (ha j)
  choose e he hb using fun j => newC0_enc hc pr hv1 hv2 (sk.ring K) src (a j) (garnerAt L.qCtx j) (hr j)
  refine ⟨⟨sk.params, (List.range L.qCtx.moduli64.length).map fun j =>
      enc L.qCtx .ntt (e j - a j * sk.ring K + src * ((garnerAt L.qCtx j : ℤ) : Rg (2 ^ K))),
    (List.range L.qCtx.moduli64.length).map fun k => Poly.random L.qCtx (aTape k) .ntt, L.qCtx, L.qCtx⟩,
    a, fun j => e j - a j * sk.ring K + src * ((garnerAt L.qCtx j : ℤ) : Rg (2 ^ K)), ?_, ?_, ?_⟩
  · unfold Ksk.new
    rw [idx_of hL.q, res_ok_bind, res_ok_bind, SecretKey.polyNtt_enc h pr hc, res_ok_bind, hn]
    have hz : (List.range L.qCtx.moduli64.length).zip
        (((List.range L.qCtx.moduli64.length).map fun k => Poly.random L.qCtx (aTape k) .ntt).zip L.qCtx.rns.garner) =
        (List.range L.qCtx.moduli64.length).map fun j => (j, enc L.qCtx .ntt (a j), garnerAt L.qCtx j) := by
      conv_lhs => rw [list_eq_range L.qCtx.rns.garner 0, hgl, zip_range]
      have := zip_range L.qCtx.moduli64.length id (fun j => (Poly.random L.qCtx (aTape j) .ntt, L.qCtx.rns.garner.getD j 0))
      rw [List.map_id] at this
      rw [this]
      apply List.map_congr_left
      intro j _
      rw [ha j]; rfl
    rw [hz, mapR_map (d := fun j => enc L.qCtx .ntt (e j - a j * sk.ring K + src * ((garnerAt L.qCtx j : ℤ) : Rg (2 ^ K)))), res_ok_bind]
    intro j _
    exact hb j
  · rfl
  · refine ⟨rfl, rfl, rfl, ?_, ?_⟩
    · apply List.map_congr_left
      intro j _
      exact ha j
    · intro j _
      refine ⟨e j, he j, ?_⟩
      have : ∀ x y z : Rg (2 ^ K), x - y + z + y - (z + x) = 0 := fun x y z => by ring
      rw [this]
      exact dvd_zero _

/-! ### Switching -/

theorem switchStep_enc {c : RqContext} (hc : c.WF K) (pr : Profile) (f x y u v : Rg (2 ^ K)) {j : Nat} (hj : j < c.moduli64.length) :
    switchStep pr c (enc c .ntt x, enc c .ntt y) (rowP f (modAt c j), enc c .ntt u, enc c .ntt v) =
      .ok (enc c .ntt (x + digit c f j * u), enc c .ntt (y + digit c f j * v)) := by
  have hb := hc.bound (modAt_mem hj)
  have hd : ofList K ((rowP f (modAt c j)).map (fun x : Nat => (x : ℤ))) = digit c f j := by
    unfold ofList digit
    apply ext_cf (by positivity)
    intro k hk
    rw [cf_ofCoeffs (by positivity) _ hk, cf_ofCoeffs (by positivity) _ hk,
      NttOperator.getD_map_of_lt _ _ _ 0 _ (by rw [length_rowP]; exact hk), getD_rowP _ _ hk,
      Int.toNat_of_nonneg (Int.emod_nonneg _ (by omega))]
  unfold switchStep
  rw [tryFromVecU64_ok hc pr (by rw [length_rowP]) (fun x hx => by have := rowP_lt f (by omega) x hx; omega), res_ok_bind, hd, toNtt_enc hc]
  simp only [mul_enc hc, add_enc hc, res_ok_bind]

theorem keySwitch_enc {k : Ksk} {c : RqContext} (hc : c.WF K) (pr : Profile) {s src : Rg (2 ^ K)} {B : ℤ} {a b : Nat → Rg (2 ^ K)}
    (h : Holds k c s src B a b) (f : Rg (2 ^ K)) :
    k.keySwitch pr (enc c .powerBasis f) =
      .ok (enc c .ntt (∑ j ∈ Finset.range c.moduli64.length, digit c f j * b j),
        enc c .ntt (∑ j ∈ Finset.range c.moduli64.length, digit c f j * a j)) := by
  unfold keySwitch
  rw [rassert_ok (show (enc c .powerBasis f).context = k.ctContext from h.ctx.symm), res_ok_bind, rassert_ok (show (enc c .powerBasis f).representation = .powerBasis from rfl), res_ok_bind,
    h.ctx, h.kctx, zero_enc hc, h.c0, h.c1, zip_range]
  have hrows : (enc c .powerBasis f).coefficients = (List.range c.moduli64.length).map fun j => rowP f (modAt c j) := by
    have : (enc c .powerBasis f).coefficients = encRows c .powerBasis f := rfl
    rw [this, encRows_power hc]
    conv_lhs => rw [list_eq_range c.moduli64 1, List.map_map]
    rfl
  rw [hrows, zip_range, foldR_map]
  obtain ⟨s', h1, h2⟩ := foldR_range_ok (n := c.moduli64.length)
    (f := fun s j => switchStep pr c s (rowP f (modAt c j), enc c .ntt (b j), enc c .ntt (a j)))
    (s := (enc c .ntt (0 : Rg (2 ^ K)), enc c .ntt (0 : Rg (2 ^ K))))
    (fun i st => st = (enc c .ntt (∑ j ∈ Finset.range i, digit c f j * b j), enc c .ntt (∑ j ∈ Finset.range i, digit c f j * a j)))
    (by simp) (by
      rintro i _ hi rfl
      refine ⟨_, switchStep_enc hc pr f _ _ _ _ hi, ?_⟩
      rw [Finset.sum_range_succ, Finset.sum_range_succ])
  rw [h1, h2]

/-- The error of a key switch. -/
theorem switch_error {k : Ksk} {c : RqContext} (hc : c.WF K) {s src : Rg (2 ^ K)} {B : ℤ} {a b : Nat → Rg (2 ^ K)}
    (h : Holds k c s src B a b) (f : Rg (2 ^ K)) :
    ∃ E : Rg (2 ^ K), Bdd (2 ^ K * c.moduli64.sum * B) E ∧
      ((c.Q : ℤ) : Rg (2 ^ K)) ∣ (∑ j ∈ Finset.range c.moduli64.length, digit c f j * b j) +
        (∑ j ∈ Finset.range c.moduli64.length, digit c f j * a j) * s - (f * src + E) := by
  have hN : 0 < 2 ^ K := by positivity
  have herr : ∀ j, ∃ e : Rg (2 ^ K), j < c.moduli64.length → Bdd B e ∧
    ((c.Q : ℤ) : Rg (2 ^ K)) ∣ b j + a j * s - (src * ((garnerAt c j : ℤ) : Rg (2 ^ K)) + e) := by
    intro j
    by_cases hj : j < c.moduli64.length
    · obtain ⟨e, he⟩ := h.err j hj
      exact ⟨e, fun _ => he⟩
    · exact ⟨0, fun h => absurd h hj⟩
  choose e he using herr
  refine ⟨∑ j ∈ Finset.range c.moduli64.length, digit c f j * e j, ?_, ?_⟩
  · have h1 := Bdd.sum hN (Finset.range c.moduli64.length) (A := fun j => ((2 ^ K : Nat) : ℤ) * modAt c j * B)
      (f := fun j => digit c f j * e j)
      (fun j hj => Bdd.mul hN (digit_bdd hc f (Finset.mem_range.mp hj)) (he j (Finset.mem_range.mp hj)).1)
    refine h1.mono (le_of_eq ?_)
    rw [← Finset.sum_mul, ← Finset.mul_sum]
    have : (∑ j ∈ Finset.range c.moduli64.length, (modAt c j : ℤ)) = (c.moduli64.sum : ℤ) := by
      rw [← Nat.cast_sum, ← sum_getD c.moduli64 1]; rfl
    rw [this]; push_cast; ring
  · have h1 : ((c.Q : ℤ) : Rg (2 ^ K)) ∣ ∑ j ∈ Finset.range c.moduli64.length,
        digit c f j * (b j + a j * s - (src * ((garnerAt c j : ℤ) : Rg (2 ^ K)) + e j)) :=
      Finset.dvd_sum fun j hj => ((he j (Finset.mem_range.mp hj)).2).mul_left _
    have h2 := (digit_sum hc f).mul_right src
    have h3 := dvd_add h1 h2
    refine h3.trans (dvd_of_eq ?_)
    rw [Finset.sum_mul, sub_mul, Finset.sum_mul]
    have : ∀ x y z w : Rg (2 ^ K), x + y - (z + w) = x + y - w - z := fun x y z w => by ring
    rw [this, ← Finset.sum_add_distrib, ← Finset.sum_sub_distrib, ← add_sub_assoc, ← Finset.sum_add_distrib]
    congr 1
    apply Finset.sum_congr rfl
    intro j _
    ring

/-- The key switching identity. -/
theorem keySwitch_spec {k : Ksk} {c : RqContext} (hc : c.WF K) (pr : Profile) {s src : Rg (2 ^ K)} {B : ℤ} {a b : Nat → Rg (2 ^ K)}
    (h : Holds k c s src B a b) (f : Rg (2 ^ K)) :
    ∃ r0 r1 E : Rg (2 ^ K), k.keySwitch pr (enc c .powerBasis f) = .ok (enc c .ntt r0, enc c .ntt r1) ∧
      Bdd (2 ^ K * c.moduli64.sum * B) E ∧ ((c.Q : ℤ) : Rg (2 ^ K)) ∣ r0 + r1 * s - (f * src + E) := by
  obtain ⟨E, h1, h2⟩ := switch_error hc h f
  exact ⟨_, _, E, keySwitch_enc hc pr h f, h1, h2⟩

end Ksk
/-! ### Ciphertext operations -/

namespace BfvCipherText

variable {c : RqContext}

theorem add_enc2 (hc : c.WF K) (pr : Profile) {x y : BfvCipherText} (hp : x.params = y.params) (hl : x.level = y.level)
    {f0 f1 g0 g1 : Rg (2 ^ K)} (hx : x.cts = [enc c .ntt f0, enc c .ntt f1]) (hy : y.cts = [enc c .ntt g0, enc c .ntt g1]) :
    x.add pr y = .ok ⟨x.params, [enc c .ntt (f0 + g0), enc c .ntt (f1 + g1)], x.level⟩ := by
  unfold add
  rw [rassert_ok hp, res_ok_bind, rassert_ok hl, res_ok_bind, hx, hy]
  simp only [show ∀ a b : Poly, idx [a, b] 0 = .ok a from fun _ _ => rfl, show ∀ a b : Poly, idx [a, b] 1 = .ok b from fun _ _ => rfl,
    res_ok_bind, add_enc hc]

theorem sub_enc2 (hc : c.WF K) (pr : Profile) {x y : BfvCipherText} (hp : x.params = y.params) (hl : x.level = y.level)
    {f0 f1 g0 g1 : Rg (2 ^ K)} (hx : x.cts = [enc c .ntt f0, enc c .ntt f1]) (hy : y.cts = [enc c .ntt g0, enc c .ntt g1]) :
    x.sub pr y = .ok ⟨x.params, [enc c .ntt (f0 - g0), enc c .ntt (f1 - g1)], x.level⟩ := by
  unfold sub
  rw [rassert_ok hp, res_ok_bind, rassert_ok hl, res_ok_bind, hx, hy]
  simp only [show ∀ a b : Poly, idx [a, b] 0 = .ok a from fun _ _ => rfl, show ∀ a b : Poly, idx [a, b] 1 = .ok b from fun _ _ => rfl,
    res_ok_bind, sub_enc hc]

theorem addPoly_enc2 (hc : c.WF K) (pr : Profile) {x : BfvCipherText} {f0 f1 g : Rg (2 ^ K)}
    (hx : x.cts = [enc c .ntt f0, enc c .ntt f1]) :
    x.addPoly pr (enc c .ntt g) = .ok ⟨x.params, [enc c .ntt (f0 + g), enc c .ntt (f1 + g)], x.level⟩ := by
  unfold addPoly
  rw [hx]
  simp only [show ∀ a b : Poly, idx [a, b] 0 = .ok a from fun _ _ => rfl, show ∀ a b : Poly, idx [a, b] 1 = .ok b from fun _ _ => rfl,
    res_ok_bind, add_enc hc, rassert_ok (show (enc c .ntt f0).context = (enc c .ntt g).context from rfl)]

theorem mulPoly_enc2 (hc : c.WF K) (pr : Profile) {x : BfvCipherText} {f0 f1 g : Rg (2 ^ K)}
    (hx : x.cts = [enc c .ntt f0, enc c .ntt f1]) :
    x.mulPoly pr (enc c .ntt g) = .ok ⟨x.params, [enc c .ntt (f0 * g), enc c .ntt (f1 * g)], x.level⟩ := by
  unfold mulPoly
  rw [hx]
  simp only [show ∀ a b : Poly, idx [a, b] 0 = .ok a from fun _ _ => rfl, show ∀ a b : Poly, idx [a, b] 1 = .ok b from fun _ _ => rfl,
    res_ok_bind, mul_enc hc, rassert_ok (show (enc c .ntt g).context = (enc c .ntt f0).context from rfl),
    rassert_ok (show (enc c .ntt g).representation = .ntt from rfl)]

theorem mulBig_enc2 (hc : c.WF K) (pr : Profile) {x : BfvCipherText} {f0 f1 : Rg (2 ^ K)} (n : Nat)
    (hx : x.cts = [enc c .ntt f0, enc c .ntt f1]) :
    x.mulBig pr n = .ok ⟨x.params, [enc c .ntt (f0 * ((n : ℤ) : Rg (2 ^ K))), enc c .ntt (f1 * ((n : ℤ) : Rg (2 ^ K)))], x.level⟩ := by
  unfold mulBig
  rw [hx]
  simp only [show ∀ a b : Poly, idx [a, b] 0 = .ok a from fun _ _ => rfl, show ∀ a b : Poly, idx [a, b] 1 = .ok b from fun _ _ => rfl,
    res_ok_bind, mulBig_enc hc]

theorem mulPlain_enc2 (hc : c.WF K) (pr : Profile) {x : BfvCipherText} {p : Plaintext} (hl : x.level = p.level)
    (hq : x.params.qCtxs[x.level]? = some c) (hlen : p.values.length ≤ 2 ^ K) (hv : ∀ a ∈ p.values, a < 2 ^ 64) {f0 f1 : Rg (2 ^ K)}
    (hx : x.cts = [enc c .ntt f0, enc c .ntt f1]) :
    x.mulPlain pr p = .ok ⟨x.params, [enc c .ntt (f0 * ofList K (p.values.map (fun x : Nat => (x : ℤ)))),
      enc c .ntt (f1 * ofList K (p.values.map (fun x : Nat => (x : ℤ))))], x.level⟩ := by
  unfold mulPlain
  rw [hx, rassert_ok hl, res_ok_bind, idx_of hq, res_ok_bind, tryFromVecU64_ok hc pr hlen hv, res_ok_bind, toNtt_enc hc, res_ok_bind]
  simp only [show ∀ a b : Poly, idx [a, b] 0 = .ok a from fun _ _ => rfl, show ∀ a b : Poly, idx [a, b] 1 = .ok b from fun _ _ => rfl,
    res_ok_bind, mul_enc hc]

end BfvCipherText

/-! ### Galois keys -/

namespace GaliosKey

theorem new_enc {sk : SecretKey} {ext : List Nat} (h : sk.WF K ext) (pr : Profile) {lev : Nat} {L : BfvLevel}
    (hL : sk.params.At K ext lev L) (hv1 : 1 ≤ sk.params.variance) (hv2 : sk.params.variance ≤ 16)
    (hlen : sk.params.ciphertextModuli.length ≠ 1) (hK : K ≤ 31) {e : Nat} (he : Odd e) {sub : Substitution} {pr' : Profile}
    (hs : Substitution.new pr' L.qCtx e = .ok sub)
    {aTape : Nat → Nat → Nat → Nat} (ha : ∀ j, TapeOk L.qCtx (aTape j)) {rng : Nat → Nat → Nat} (hr : ∀ j i, rng j i < 2 ^ 64) :
    ∃ g a b, GaliosKey.new pr sk sub lev aTape rng = .ok g ∧ g.substitution = sub ∧ g.level = lev ∧
      Ksk.Holds g.gk L.qCtx (sk.ring K) (sg e (sk.ring K)) (2 * sk.params.variance) a b := by
  have hc := hL.wf.ctx
  obtain ⟨k, a, b, h1, -, h2⟩ := Ksk.new_enc h pr hL hv1 hv2 (sg e (sk.ring K)) ha hr
  refine ⟨⟨k, sub, lev⟩, a, b, ?_, rfl, rfl, h2⟩
  unfold GaliosKey.new
  rw [rassert_ok hlen, res_ok_bind, idx_of hL.q, res_ok_bind, tryFromVecI64_ok hc pr h.len h.bound, res_ok_bind,
    substitute_enc hc pr hK he hs, res_ok_bind, toNtt_enc hc, res_ok_bind, show ofList K sk.coeffs = sk.ring K from rfl, h1, res_ok_bind]

theorem relinearize_enc {c : RqContext} (hc : c.WF K) (pr : Profile) {g : GaliosKey} {ct : BfvCipherText} (hl : ct.level = g.level)
    (hK : K ≤ 31) {e : Nat} (he : Odd e) {pr' : Profile} (hs : Substitution.new pr' c e = .ok g.substitution)
    {s : Rg (2 ^ K)} {B : ℤ} {a b : Nat → Rg (2 ^ K)} (hg : Ksk.Holds g.gk c s (sg e s) B a b) {f0 f1 : Rg (2 ^ K)}
    (hx : ct.cts = [enc c .ntt f0, enc c .ntt f1]) :
    ∃ r0 r1 E : Rg (2 ^ K), g.relinearize pr ct = .ok ⟨ct.params, [enc c .ntt r0, enc c .ntt r1], g.level⟩ ∧
      Bdd (2 ^ K * c.moduli64.sum * B) E ∧ ((c.Q : ℤ) : Rg (2 ^ K)) ∣ r0 + r1 * s - (sg e (f0 + f1 * s) + E) := by
  have hN : 0 < 2 ^ K := by positivity
  obtain ⟨r0, r1, E, h1, h2, h3⟩ := Ksk.keySwitch_spec hc pr hg (sg e f1)
  refine ⟨r0 + sg e f0, r1, E, ?_, h2, ?_⟩
  · unfold relinearize
    rw [rassert_ok hl, res_ok_bind, hx]
    simp only [show ∀ a b : Poly, idx [a, b] 0 = .ok a from fun _ _ => rfl, show ∀ a b : Poly, idx [a, b] 1 = .ok b from fun _ _ => rfl,
      res_ok_bind, substitute_enc hc pr hK he hs, toPower_enc hc, h1, add_enc hc, dassert_ok (show (enc c .ntt f0).representation = .ntt from rfl)]
  · rw [sg_add hN, sg_mul hN he]
    refine h3.trans (dvd_of_eq ?_)
    ring

end GaliosKey

/-! ### Relinearization keys -/

namespace RelinearizationKey

theorem new_enc {sk : SecretKey} {ext : List Nat} (h : sk.WF K ext) (pr : Profile) {lev : Nat} {L : BfvLevel}
    (hL : sk.params.At K ext lev L) (hv1 : 1 ≤ sk.params.variance) (hv2 : sk.params.variance ≤ 16)
    {aTape : Nat → Nat → Nat → Nat} (ha : ∀ j, TapeOk L.qCtx (aTape j)) {rng : Nat → Nat → Nat} (hr : ∀ j i, rng j i < 2 ^ 64) :
    ∃ k a b, RelinearizationKey.new pr sk lev aTape rng = .ok k ∧ k.params = sk.params ∧
      Ksk.Holds k.ksk L.qCtx (sk.ring K) (sk.ring K * sk.ring K) (2 * sk.params.variance) a b := by
  have hc := hL.wf.ctx
  obtain ⟨k, a, b, h1, -, h2⟩ := Ksk.new_enc h pr hL hv1 hv2 (sk.ring K * sk.ring K) ha hr
  refine ⟨⟨k, sk.params⟩, a, b, ?_, rfl, h2⟩
  unfold RelinearizationKey.new
  rw [idx_of hL.q, res_ok_bind, SecretKey.polyNtt_enc h pr hc, res_ok_bind, mul_enc hc, res_ok_bind, h1, res_ok_bind]

theorem relinearizePoly_enc {c : RqContext} (hc : c.WF K) (pr : Profile) {k : RelinearizationKey} {s src : Rg (2 ^ K)} {B : ℤ}
    {a b : Nat → Rg (2 ^ K)} (hk : Ksk.Holds k.ksk c s src B a b) {r : Representation} (hr : r ≠ .nttShoup) (f : Rg (2 ^ K)) :
    ∃ r0 r1 E : Rg (2 ^ K), k.relinearizePoly pr (enc c r f) = .ok (enc c .ntt r0, enc c .ntt r1) ∧
      Bdd (2 ^ K * c.moduli64.sum * B) E ∧ ((c.Q : ℤ) : Rg (2 ^ K)) ∣ r0 + r1 * s - (f * src + E) := by
  obtain ⟨r0, r1, E, h1, h2, h3⟩ := Ksk.keySwitch_spec hc pr hk f
  refine ⟨r0, r1, E, ?_, h2, h3⟩
  unfold relinearizePoly
  cases r with
  | powerBasis => rw [if_neg (show (enc c .powerBasis f).representation ≠ .ntt by simp [enc]), h1]
  | ntt => rw [if_pos (show (enc c .ntt f).representation = .ntt from rfl), toPower_enc hc, res_ok_bind, h1]
  | nttShoup => exact absurd rfl hr

end RelinearizationKey

/-! ### RGSW ciphertexts -/

namespace RgswCt

theorem encryptPoly_enc {sk : SecretKey} {ext : List Nat} (h : sk.WF K ext) (pr : Profile) {lev : Nat} {L : BfvLevel}
    (hL : sk.params.At K ext lev L) (hlev : sk.params.ctxLevel L.qCtx = some lev) (hv1 : 1 ≤ sk.params.variance) (hv2 : sk.params.variance ≤ 16) (m : Rg (2 ^ K))
    {a0 a1 : Nat → Nat → Nat → Nat} (ha0 : ∀ j, TapeOk L.qCtx (a0 j)) (ha1 : ∀ j, TapeOk L.qCtx (a1 j))
    {r0 r1 : Nat → Nat → Nat} (hr0 : ∀ j i, r0 j i < 2 ^ 64) (hr1 : ∀ j i, r1 j i < 2 ^ 64) :
    ∃ g x0 y0 x1 y1, encryptPoly pr sk (enc L.qCtx .ntt m) a0 a1 r0 r1 = .ok g ∧
      Ksk.Holds g.ksk0 L.qCtx (sk.ring K) (sk.ring K * m) (2 * sk.params.variance) x0 y0 ∧
      Ksk.Holds g.ksk1 L.qCtx (sk.ring K) m (2 * sk.params.variance) x1 y1 := by
  have hc := hL.wf.ctx
  obtain ⟨k0, x0, y0, h1, -, h2⟩ := Ksk.new_enc h pr hL hv1 hv2 (sk.ring K * m) ha0 hr0
  obtain ⟨k1, x1, y1, h3, -, h4⟩ := Ksk.new_enc h pr hL hv1 hv2 m ha1 hr1
  refine ⟨⟨k0, k1⟩, x0, y0, x1, y1, ?_, h2, h4⟩
  unfold encryptPoly
  rw [rassert_ok (show (enc L.qCtx .ntt m).representation = .ntt from rfl), res_ok_bind, show (enc L.qCtx .ntt m).context = L.qCtx from rfl,
    hlev, show unwrapR (some lev) = .ok lev from rfl, res_ok_bind, SecretKey.polyNtt_enc h pr hc, res_ok_bind, mul_enc hc, res_ok_bind, h1, res_ok_bind, h3, res_ok_bind]

theorem encrypt_enc {sk : SecretKey} {ext : List Nat} (h : sk.WF K ext) (pr : Profile) {p : Plaintext} (hp : sk.params = p.params)
    {L : BfvLevel} (hL : sk.params.At K ext p.level L) (hv1 : 1 ≤ sk.params.variance) (hv2 : sk.params.variance ≤ 16)
    (hlen : p.values.length ≤ 2 ^ K) (hv : ∀ a ∈ p.values, a < 2 ^ 64)
    {a0 a1 : Nat → Nat → Nat → Nat} (ha0 : ∀ j, TapeOk L.qCtx (a0 j)) (ha1 : ∀ j, TapeOk L.qCtx (a1 j))
    {r0 r1 : Nat → Nat → Nat} (hr0 : ∀ j i, r0 j i < 2 ^ 64) (hr1 : ∀ j i, r1 j i < 2 ^ 64) :
    ∃ g x0 y0 x1 y1, encrypt pr sk p a0 a1 r0 r1 = .ok g ∧
      Ksk.Holds g.ksk0 L.qCtx (sk.ring K) (sk.ring K * ofList K (p.values.map (fun x : Nat => (x : ℤ)))) (2 * sk.params.variance) x0 y0 ∧
      Ksk.Holds g.ksk1 L.qCtx (sk.ring K) (ofList K (p.values.map (fun x : Nat => (x : ℤ)))) (2 * sk.params.variance) x1 y1 := by
  have hc := hL.wf.ctx
  set m : Rg (2 ^ K) := ofList K (p.values.map (fun x : Nat => (x : ℤ)))
  obtain ⟨k0, x0, y0, h1, -, h2⟩ := Ksk.new_enc h pr hL hv1 hv2 (sk.ring K * m) ha0 hr0
  obtain ⟨k1, x1, y1, h3, -, h4⟩ := Ksk.new_enc h pr hL hv1 hv2 m ha1 hr1
  refine ⟨⟨k0, k1⟩, x0, y0, x1, y1, ?_, h2, h4⟩
  unfold encrypt
  rw [rassert_ok hp, res_ok_bind, idx_of hL.q, res_ok_bind, tryFromVecU64_ok hc pr hlen hv, res_ok_bind, toNtt_enc hc, res_ok_bind,
    SecretKey.polyNtt_enc h pr hc, res_ok_bind, mul_enc hc, res_ok_bind, h1, res_ok_bind, h3, res_ok_bind]

/-- The external product, for keys of any noise. -/
theorem externalProduct_enc {c : RqContext} (hc : c.WF K) (pr : Profile) {g : RgswCt} {s m : Rg (2 ^ K)} {B0 B1 : ℤ}
    {x0 y0 x1 y1 : Nat → Rg (2 ^ K)} (h0 : Ksk.Holds g.ksk0 c s (s * m) B0 x0 y0) (h1 : Ksk.Holds g.ksk1 c s m B1 x1 y1)
    {ct : BfvCipherText} {f0 f1 : Rg (2 ^ K)} (hx : ct.cts = [enc c .ntt f0, enc c .ntt f1]) :
    ∃ r0 r1 E : Rg (2 ^ K), g.externalProduct pr ct = .ok (enc c .ntt r0, enc c .ntt r1) ∧
      Bdd (2 ^ K * c.moduli64.sum * (B0 + B1)) E ∧ ((c.Q : ℤ) : Rg (2 ^ K)) ∣ r0 + r1 * s - (m * (f0 + f1 * s) + E) := by
  have hN : 0 < 2 ^ K := by positivity
  obtain ⟨u0, u1, E0, a1, a2, a3⟩ := Ksk.keySwitch_spec hc pr h0 f1
  obtain ⟨v0, v1, E1, b1, b2, b3⟩ := Ksk.keySwitch_spec hc pr h1 f0
  refine ⟨v0 + u0, v1 + u1, E0 + E1, ?_, ?_, ?_⟩
  · unfold externalProduct
    rw [hx]
    simp only [show ∀ a b : Poly, idx [a, b] 0 = .ok a from fun _ _ => rfl, show ∀ a b : Poly, idx [a, b] 1 = .ok b from fun _ _ => rfl,
      res_ok_bind, toPower_enc hc, a1, b1, add_enc hc]
  · rw [mul_add]; exact Bdd.add hN a2 b2
  · have := dvd_add a3 b3
    refine this.trans (dvd_of_eq ?_)
    ring

end RgswCt

/-! ### Keys assembled from ciphertexts -/

namespace Ksk

theorem tryFromDecomposed_enc {P : BfvParameters} {ext : List Nat} {L : BfvLevel} (hL : P.At K ext 0 L)
    {s src : Rg (2 ^ K)} {B : ℤ} {cts : List BfvCipherText} (hlen : cts.length = L.qCtx.moduli64.length) {a b : Nat → Rg (2 ^ K)}
    (hc : ∀ j ct, cts[j]? = some ct → ct.params = P ∧ ct.cts = [enc L.qCtx .ntt (b j), enc L.qCtx .ntt (a j)])
    (he : ∀ j, j < cts.length → ∃ e : Rg (2 ^ K), Bdd B e ∧
      ((L.qCtx.Q : ℤ) : Rg (2 ^ K)) ∣ b j + a j * s - (src * ((garnerAt L.qCtx j : ℤ) : Rg (2 ^ K)) + e)) :
    ∃ k, tryFromDecomposedRlwes P cts = .ok k ∧ k.params = P ∧ Holds k L.qCtx s src B a b := by
  have hcomp : ∀ (f : Nat → Poly) (i : Nat), (∀ j ct, cts[j]? = some ct → component P i ct = .ok (f j)) →
      mapR (component P i) cts = .ok ((List.range L.qCtx.moduli64.length).map f) := by
    intro f i hf
    rw [← hlen]
    clear hlen hc he
    induction cts generalizing f with
    | nil => rfl
    | cons ct cts ih =>
      rw [List.length_cons, List.range_succ_eq_map, List.map_cons, List.map_map]
      have h0 := hf 0 ct rfl
      have h1 := ih (fun j => f (j + 1)) (fun j ct' hj => hf (j + 1) ct' (by simpa using hj))
      simp only [mapR, h0, h1, res_ok_bind]
      rfl
  refine ⟨⟨P, (List.range L.qCtx.moduli64.length).map fun j => enc L.qCtx .ntt (b j),
    (List.range L.qCtx.moduli64.length).map fun j => enc L.qCtx .ntt (a j), L.qCtx, L.qCtx⟩, ?_, rfl, ⟨rfl, rfl, rfl, rfl, ?_⟩⟩
  · unfold tryFromDecomposedRlwes
    rw [hcomp (fun j => enc L.qCtx .ntt (b j)) 0, res_ok_bind, hcomp (fun j => enc L.qCtx .ntt (a j)) 1, res_ok_bind, idx_of hL.q, res_ok_bind]
    · intro j ct hj
      obtain ⟨h1, h2⟩ := hc j ct hj
      unfold component
      rw [rassert_ok h1, res_ok_bind, h2]; rfl
    · intro j ct hj
      obtain ⟨h1, h2⟩ := hc j ct hj
      unfold component
      rw [rassert_ok h1, res_ok_bind, h2]; rfl
  · intro j hj
    exact he j (by omega)

end Ksk

end OnionPIR
