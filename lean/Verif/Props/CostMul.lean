import Verif.Proofs.CostMul
import Verif.Props.CostClient
import Verif.Props.BfvMul
import Verif.Props.Omr
/-
C129: the work of the multiplications of ciphertexts, and a multiplication that transforms less.
-/
namespace OnionPIR
open Rg Poly Spec Cw

variable {N t : Nat} {l : List Nat} {variance : Nat} {P : BfvParameters}

namespace Spec

/-- The number of moduli of the wide basis in which ciphertexts of level `i` are multiplied: the moduli of the level and enough primes of 62 bits to exceed their
bits by 60. -/
def wide (l : List Nat) (i : Nat) : Nat := (l.length - i) + (((levelModuli l i).map fun q => Nat.log 2 q + 1).sum + 121) / 62

end Spec

/-- A level with the sizes of its scalers. -/
theorem Shape.mulDim (h : IsParams N t l variance P) {i : Nat} (hi : i < l.length) : ∃ K c d m, N = 2 ^ K ∧ 3 ≤ K ∧ P.qCtxs[i]? = some c ∧ c.WF K ∧
    P.mulParams[i]? = some m ∧ m.Dim K (l.length - i) (wide l i) c d := by
  obtain ⟨K, c, -, hN, hK, -, -, hq, hc, hcd, -⟩ := levelDim h hi
  obtain ⟨K', ext, hN', hw, rfl, rfl, -⟩ := BfvP.params h
  obtain rfl : K = K' := Nat.pow_right_injective (le_refl 2) (hN.symm.trans hN')
  obtain ⟨L, hL⟩ := hw.levels i hi
  obtain rfl : c = L.qCtx := Option.some.inj (hq.symm.trans hL.q)
  have hd := ctxDim hL.wf.ectx
  have hlev : L.qCtx.moduli64 = levelModuli P.ciphertextModuli i := hL.wf.mods
  have hlen : (levelModuli P.ciphertextModuli i).length = P.ciphertextModuli.length - i := by simp [levelModuli]
  have he : L.eCtx.moduli64.length = wide P.ciphertextModuli i := by
    have hcnt := hL.wf.cnt
    rw [← hL.wf.mods] at hcnt
    rw [hL.wf.emods, List.length_append, ← hL.wf.mods, List.length_take, min_eq_left hcnt, hlev, hlen]
    rfl
  have hcm := (ctxDim hL.wf.ctx).mods
  obtain ⟨pu, hu⟩ := hL.wf.up
  obtain ⟨pd, hdn⟩ := hL.wf.down
  have ends : ∀ {pr a b f s}, RqScaler.new pr a b f = .ok s → s.src = a ∧ s.dst = b := by
    intro pr a b f s hs
    unfold RqScaler.new at hs
    obtain ⟨_, -, hs⟩ := bind_eq_ok.mp hs
    obtain ⟨r, -, hs⟩ := bind_eq_ok.mp hs
    rw [← Except.ok.inj hs]
    exact ⟨rfl, rfl⟩
  exact ⟨K, L.qCtx, L.eCtx, L.mul, hN, hK, hL.q, hL.wf.ctx, hL.mp, hcd, he ▸ hd, hcm.symm, hd.mods.symm, ends hu, ends hdn⟩

/-- C129: the counting copies compute what the functions of the model compute: for all arguments, in both builds. -/
theorem c129_values (pr : Profile) :
    (∀ (s : RqScaler) p, (s.scaleC pr p).val = s.scale pr p) ∧ (∀ (k : RelinearizationKey) p, (k.relinearizePolyC pr p).val = k.relinearizePoly pr p) ∧
    (∀ x y k, (multiplyWithStrategyC pr x y k).val = multiplyWithStrategy pr x y k) ∧ (∀ (x : BfvCipherText) p, (x.mulPlainC pr p).val = x.mulPlain pr p) ∧
    ∀ cts polys, (Omr.innerProductC pr cts polys).val = Omr.innerProduct pr cts polys :=
  ⟨RqScaler.scaleC_val pr, RelinearizationKey.relinearizePolyC_val pr, multiplyWithStrategyC_val pr, BfvCipherText.mulPlainC_val pr, Omr.innerProductC_val pr⟩

/-- C129: a multiplication of two ciphertexts of level `i`, with `n` moduli left and `e` moduli in the wide basis: `n² + 8n + 7e` transforms and
`2n² + 5n + 7e` products of rows, whatever the ciphertexts and the key contain. -/
theorem c129_multiply (h : IsParams N t l variance P) (pr : Profile) {i n : Nat} (hn : l.length = n + i) {x y : BfvCipherText} (hx : ShapedCt P i 2 x)
    (hy : ShapedCt P i 2 y) {k : RelinearizationKey} (hkp : k.params = P) (hk : ShapedKsk P i k.ksk) :
    ∃ z, (multiplyWithStrategyC pr x y k).val = .ok z ∧
      (multiplyWithStrategyC pr x y k).work = workOf N (n ^ 2 + 8 * n + 7 * wide l i) (2 * n ^ 2 + 5 * n + 7 * wide l i) := by
  obtain ⟨f0, f1, hxc⟩ := Shape.isCt_two h hx
  obtain ⟨g0, g1, hyc⟩ := Shape.isCt_two h hy
  obtain ⟨z, -, -, hz, -⟩ := c50_multiply_total h pr hxc hyc hkp (Shape.isKsk h hk 0 0)
  rw [← multiplyWithStrategyC_val] at hz
  have hi : i < l.length := by
    obtain ⟨K, ext, rfl, hw, rfl, rfl, -⟩ := BfvP.params h
    rw [← hw.nLevels]
    exact (List.getElem?_eq_some_iff.mp hk.1).1
  obtain ⟨K, c, d, m, rfl, hK, hq, hc, hmp, hm⟩ := Shape.mulDim h hi
  rw [hn, Nat.add_sub_cancel] at hm
  refine ⟨z, hz, ?_⟩
  rw [(multiplyWithStrategyC_costs pr hm (by rw [hx.1, hx.2.1]; exact hmp) (Shape.ctDim hc hq hx) (Shape.ctDim hc hq hy) (Shape.kskDim hc hq hk) z hz).1]
  unfold workOf
  rw [Shape.halves hK]

/-- C129: the variant of the multiplication returns the same ciphertext with `2n` transforms and `n` products of rows less. -/
theorem c129_once (h : IsParams N t l variance P) (pr : Profile) {i n : Nat} (hn : l.length = n + i) {x y : BfvCipherText} (hx : ShapedCt P i 2 x)
    (hy : ShapedCt P i 2 y) {k : RelinearizationKey} (hkp : k.params = P) (hk : ShapedKsk P i k.ksk) :
    (Repair.multiplyOnceC pr x y k).val = multiplyWithStrategy pr x y k ∧
      (Repair.multiplyOnceC pr x y k).work = workOf N (n ^ 2 + 6 * n + 7 * wide l i) (2 * n ^ 2 + 4 * n + 7 * wide l i) ∧
      (Repair.multiplyOnceC pr x y k).work + workOf N (2 * n) n = (multiplyWithStrategyC pr x y k).work := by
  obtain ⟨f0, f1, hxc⟩ := Shape.isCt_two h hx
  obtain ⟨g0, g1, hyc⟩ := Shape.isCt_two h hy
  obtain ⟨z, -, -, hz, -⟩ := c50_multiply_total h pr hxc hyc hkp (Shape.isKsk h hk 0 0)
  have hi : i < l.length := by
    obtain ⟨K, ext, rfl, hw, rfl, rfl, -⟩ := BfvP.params h
    rw [← hw.nLevels]
    exact (List.getElem?_eq_some_iff.mp hk.1).1
  have hv : (Repair.multiplyOnceC pr x y k).val = multiplyWithStrategy pr x y k := by
    obtain ⟨K, ext, rfl, hw, rfl, rfl, -⟩ := BfvP.params h
    obtain ⟨L, hL⟩ := hw.levels i hi
    obtain ⟨x1, x2, x3⟩ := (BfvP.isCt_iff hL _ _).mp hxc
    obtain ⟨y1, y2, y3⟩ := (BfvP.isCt_iff hL _ _).mp hyc
    exact BfvMul.multiplyOnce_val hw hL pr x1 y1 x2 y2 x3 y3 hkp
  have hw : (Repair.multiplyOnceC pr x y k).work = workOf N (n ^ 2 + 6 * n + 7 * wide l i) (2 * n ^ 2 + 4 * n + 7 * wide l i) := by
    obtain ⟨K, c, d, m, rfl, hK, hq, hc, hmp, hm⟩ := Shape.mulDim h hi
    rw [hn, Nat.add_sub_cancel] at hm
    rw [(Repair.multiplyOnceC_costs pr hm (by rw [hx.1, hx.2.1]; exact hmp) (Shape.ctDim hc hq hx) (Shape.ctDim hc hq hy) (Shape.kskDim hc hq hk) z (hv.trans hz)).1]
    unfold workOf
    rw [Shape.halves hK]
  refine ⟨hv, hw, ?_⟩
  obtain ⟨-, -, hm⟩ := c129_multiply h pr hn hx hy hkp hk
  rw [hw, hm]
  exact Work.ext' (by simp only [workOf, Work.add_butterflies]; ring) (by simp only [workOf, Work.add_products]; ring)

/-- C129: a multiplication by a plaintext: `n` transforms and `2n` products of rows. -/
theorem c129_plain (h : IsParams N t l variance P) (pr : Profile) {i n : Nat} (hn : l.length = n + i) {x : BfvCipherText} (hx : ShapedCt P i 2 x) {p : Plaintext}
    (hl : p.level = i) (hlen : p.values.length ≤ N) (hv : ∀ a ∈ p.values, a < 2 ^ 64) :
    ∃ z, (x.mulPlainC pr p).val = .ok z ∧ (x.mulPlainC pr p).work = workOf N n (2 * n) := by
  obtain ⟨f0, f1, hxc⟩ := Shape.isCt_two h hx
  obtain ⟨z, hz, -⟩ := c34_mul_plain h pr hxc hl hlen hv 0
  rw [← BfvCipherText.mulPlainC_val] at hz
  have hi : i < l.length := by
    obtain ⟨q, hq⟩ : ∃ q, q ∈ x.cts := by rw [← List.length_pos_iff_exists_mem, hx.2.2.1]; norm_num
    exact Shape.level h (hx.2.2.2 q hq)
  obtain ⟨K, c, -, rfl, hK, -, -, hq, hc, hcd, -⟩ := Shape.levelDim h hi
  rw [hn, Nat.add_sub_cancel] at hcd
  refine ⟨z, hz, ?_⟩
  rw [(BfvCipherText.mulPlainC_costs pr hcd (by rw [hx.1, hx.2.1]; exact hq) (Shape.ctDim hc hq hx) p z hz).1]
  unfold workOf
  rw [Shape.halves hK]

/-- C129: an inner product of `m` ciphertexts with `m` polynomials: no transform and `2mn` products of rows. -/
theorem c129_inner (h : IsParams N t l variance P) (pr : Profile) {i n : Nat} (hn : l.length = n + i) {cts : List BfvCipherText} {polys : List Poly}
    (hc : ∀ x ∈ cts, ShapedCt P i 2 x) (hp : ∀ p ∈ polys, Shaped P i p) (hlen : cts.length = polys.length) (hne : cts ≠ []) :
    ∃ z, (Omr.innerProductC pr cts polys).val = .ok z ∧ (Omr.innerProductC pr cts polys).work = workOf N 0 (cts.length * (2 * n)) := by
  obtain ⟨gs, hgs⟩ := Shape.forall₂ h hp
  have hfs : ∀ {xs : List BfvCipherText}, (∀ x ∈ xs, ShapedCt P i 2 x) →
      ∃ fs : List (Rg N × Rg N), List.Forall₂ (fun f ct => IsCt P i [f.1, f.2] ct) fs xs := by
    intro xs
    induction xs with
    | nil => intro _; exact ⟨[], .nil⟩
    | cons x xs ih =>
      intro hxs
      obtain ⟨f0, f1, hf⟩ := Shape.isCt_two h (hxs x (by simp))
      obtain ⟨fs, hfs⟩ := ih fun y hy => hxs y (by simp [hy])
      exact ⟨(f0, f1) :: fs, .cons hf hfs⟩
  obtain ⟨fs, hfs⟩ := hfs hc
  obtain ⟨z, -, -, hz, -⟩ := c49_inner_product h pr hfs hgs hlen hne 0
  rw [← Omr.innerProductC_val] at hz
  have hi : i < l.length := by
    obtain ⟨q, hq⟩ : ∃ q, q ∈ polys := by
      rw [← List.length_pos_iff_exists_mem, ← hlen]; exact List.length_pos_iff.mpr hne
    exact Shape.level h (hp q hq)
  obtain ⟨K, c, -, rfl, hK, -, -, hq, hc', hcd, -⟩ := Shape.levelDim h hi
  rw [hn, Nat.add_sub_cancel] at hcd
  refine ⟨z, hz, ?_⟩
  rw [(Omr.innerProductC_costs pr hcd (fun x hx => Shape.ctDim hc' hq (hc x hx)) (fun p hp' => Shape.polyDim hc' hq (hp p hp')) hne z hz).1]
  unfold workOf
  rw [Nat.zero_mul]

/-- Three moduli of 21 bits: the wide basis has five, a multiplication transforms 68 rows, the variant 62. -/
example : ∃ (P : BfvParameters) (p : Poly) (z z' z'' : BfvCipherText), IsParams 8 17 Ex.mods 10 P ∧ Shaped P 0 p ∧ wide Ex.mods 0 = 5 ∧
    (multiplyWithStrategyC .debug ⟨P, [p, p], 0⟩ ⟨P, [p, p], 0⟩ ⟨Shape.junkKsk P p, P⟩).val = .ok z ∧
    (multiplyWithStrategyC .debug ⟨P, [p, p], 0⟩ ⟨P, [p, p], 0⟩ ⟨Shape.junkKsk P p, P⟩).work = ⟨68 * 12, 68 * 8⟩ ∧
    (Repair.multiplyOnceC .debug ⟨P, [p, p], 0⟩ ⟨P, [p, p], 0⟩ ⟨Shape.junkKsk P p, P⟩).val = .ok z ∧
    (Repair.multiplyOnceC .debug ⟨P, [p, p], 0⟩ ⟨P, [p, p], 0⟩ ⟨Shape.junkKsk P p, P⟩).work = ⟨62 * 12, 65 * 8⟩ ∧
    (BfvCipherText.mulPlainC .release ⟨P, [p, p], 0⟩ ⟨P, 0, .poly, [3, 1, 16]⟩).val = .ok z' ∧
    (BfvCipherText.mulPlainC .release ⟨P, [p, p], 0⟩ ⟨P, 0, .poly, [3, 1, 16]⟩).work = ⟨3 * 12, 6 * 8⟩ ∧
    (Omr.innerProductC .debug [⟨P, [p, p], 0⟩, ⟨P, [p, p], 0⟩] [p, p]).val = .ok z'' ∧
    (Omr.innerProductC .debug [⟨P, [p, p], 0⟩, ⟨P, [p, p], 0⟩] [p, p]).work = ⟨0, 12 * 8⟩ := by
  obtain ⟨P, h⟩ := Ex.exists_params
  obtain ⟨p, hp⟩ := c33_exists_poly h (i := 0) (by decide) (msgRing 8 [4, 2])
  have hs := Shape.of_polyAt h hp
  have hx : ShapedCt P 0 2 ⟨P, [p, p], 0⟩ := ⟨rfl, rfl, rfl, by simpa using hs⟩
  have hk : ShapedKsk P 0 (RelinearizationKey.ksk ⟨Shape.junkKsk P p, P⟩) := Shape.junkKsk_shaped hs
  have hwide : wide Ex.mods 0 = 5 := by decide +kernel
  obtain ⟨z, a1, a2⟩ := c129_multiply h .debug (n := 3) (by decide) hx hx rfl hk
  obtain ⟨b1, b2, -⟩ := c129_once h .debug (n := 3) (by decide) hx hx rfl hk
  obtain ⟨z', d1, d2⟩ := c129_plain h .release (i := 0) (n := 3) (by decide) hx (p := ⟨P, 0, .poly, [3, 1, 16]⟩) rfl (by norm_num) (by simp)
  obtain ⟨z'', e1, e2⟩ := c129_inner h .debug (i := 0) (n := 3) (by decide) (cts := [⟨P, [p, p], 0⟩, ⟨P, [p, p], 0⟩]) (polys := [p, p]) (by simpa using hx) (by simpa using hs)
    rfl (by simp)
  rw [hwide] at a2 b2
  exact ⟨P, p, z, z', z'', h, hs, hwide, a1, a2.trans (by decide +kernel), b1.trans ((multiplyWithStrategyC_val _ _ _ _).symm.trans a1), b2.trans (by decide +kernel),
    d1, d2.trans (by decide +kernel), e1, e2.trans (by show workOf 8 0 (2 * (2 * 3)) = _; decide +kernel)⟩

end OnionPIR
