import Verif.Spec.Linear
import Verif.Props.Omr
/-
C117 (src/bfv.rs, src/omr.rs): the linear operators on ciphertexts satisfy the laws of a module over `(Z/Q)[X]/(X^N+1)` exactly.
-/
namespace OnionPIR
open Rg Poly Spec

variable {N t : Nat} {l : List Nat} {variance : Nat} {P : BfvParameters}

namespace Linear

/-- A ciphertext is determined by its components modulo `Q`, and determines them. -/
theorem ct_eq_iff (h : IsParams N t l variance P) {i : Nat} {x y : BfvCipherText} {f0 f1 g0 g1 : Rg N} (hx : IsCt P i [f0, f1] x)
    (hy : IsCt P i [g0, g1] y) : x = y ↔ Cong (levelQ l i) f0 g0 ∧ Cong (levelQ l i) f1 g1 := by
  obtain ⟨K, ext, rfl, hw, rfl, rfl, rfl⟩ := BfvP.params h
  obtain ⟨L, hL⟩ := BfvP.isCt_level hw (by simp) hx
  obtain ⟨x1, x2, x3⟩ := (BfvP.isCt_iff hL _ _).mp hx
  obtain ⟨y1, y2, y3⟩ := (BfvP.isCt_iff hL _ _).mp hy
  unfold Cong
  rw [← BfvP.levelQ_eq hL, ← enc_eq_iff hL.wf.ctx (r := .ntt), ← enc_eq_iff hL.wf.ctx (r := .ntt)]
  cases x; cases y
  simp_all

theorem cong_refl (Q : Nat) (f : Rg N) : Cong Q f f := by unfold Cong; simp

end Linear

/-- C117: an expression of `+`, `-`, `* poly` and `* big integer` over ciphertexts of one level never panics, and both components of the result
are the value of the expression on the components. -/
theorem c117_run (h : IsParams N t l variance P) (pr : Profile) {i : Nat} {cts : Nat → BfvCipherText} {ps : Nat → Poly} {f0 f1 g : Nat → Rg N}
    (hc : ∀ k, IsCt P i [f0 k, f1 k] (cts k)) (hp : ∀ j, PolyAt P i (g j) (ps j)) (e : LinExpr) :
    ∃ z, e.run pr cts ps = .ok z ∧ IsCt P i [e.value f0 g, e.value f1 g] z := by
  induction e with
  | ct k => exact ⟨_, rfl, hc k⟩
  | add a b ha hb =>
    obtain ⟨x, x1, x2⟩ := ha
    obtain ⟨y, y1, y2⟩ := hb
    obtain ⟨z, z1, z2, -⟩ := c32_add h pr x2 y2 0
    exact ⟨z, by rw [LinExpr.run, x1, res_ok_bind, y1, res_ok_bind, z1], z2⟩
  | sub a b ha hb =>
    obtain ⟨x, x1, x2⟩ := ha
    obtain ⟨y, y1, y2⟩ := hb
    obtain ⟨z, z1, z2, -⟩ := c32_sub h pr x2 y2 0
    exact ⟨z, by rw [LinExpr.run, x1, res_ok_bind, y1, res_ok_bind, z1], z2⟩
  | mulPoly a j ha =>
    obtain ⟨x, x1, x2⟩ := ha
    obtain ⟨z, z1, z2, -⟩ := c34_mul_poly h pr x2 (hp j) 0
    exact ⟨z, by rw [LinExpr.run, x1, res_ok_bind, z1], z2⟩
  | mulBig a n ha =>
    obtain ⟨x, x1, x2⟩ := ha
    obtain ⟨z, z1, z2, -⟩ := c34_mul_big h pr n x2 0
    refine ⟨z, by rw [LinExpr.run, x1, res_ok_bind, z1], ?_⟩
    simpa only [LinExpr.value, Int.cast_natCast] using z2

/-- C117: two expressions return the same ciphertext, word for word, exactly if their values agree modulo `Q` in both components. -/
theorem c117_same (h : IsParams N t l variance P) (pr pr' : Profile) {i : Nat} {cts : Nat → BfvCipherText} {ps : Nat → Poly} {f0 f1 g : Nat → Rg N}
    (hc : ∀ k, IsCt P i [f0 k, f1 k] (cts k)) (hp : ∀ j, PolyAt P i (g j) (ps j)) (a b : LinExpr) :
    a.run pr cts ps = b.run pr' cts ps ↔
      Cong (levelQ l i) (a.value f0 g) (b.value f0 g) ∧ Cong (levelQ l i) (a.value f1 g) (b.value f1 g) := by
  obtain ⟨x, x1, x2⟩ := c117_run h pr hc hp a
  obtain ⟨y, y1, y2⟩ := c117_run h pr' hc hp b
  rw [x1, y1, ← Linear.ct_eq_iff h x2 y2]
  exact ⟨fun e => Except.ok.inj e, fun e => by rw [e]⟩

/-- C117: the laws of a module, word for word: sums commute and associate, differences undo sums, products distribute and can be exchanged,
multiplication by `n` is `n` additions. -/
theorem c117_laws (h : IsParams N t l variance P) (pr pr' : Profile) {i : Nat} {cts : Nat → BfvCipherText} {ps : Nat → Poly} {f0 f1 g : Nat → Rg N}
    (hc : ∀ k, IsCt P i [f0 k, f1 k] (cts k)) (hp : ∀ j, PolyAt P i (g j) (ps j)) (x y z : LinExpr) (j k n : Nat) :
    (x.add y).run pr cts ps = (y.add x).run pr' cts ps ∧
    ((x.add y).add z).run pr cts ps = (x.add (y.add z)).run pr' cts ps ∧
    ((x.add y).sub y).run pr cts ps = x.run pr' cts ps ∧
    (x.sub (y.add z)).run pr cts ps = ((x.sub y).sub z).run pr' cts ps ∧
    ((x.add y).mulPoly j).run pr cts ps = ((x.mulPoly j).add (y.mulPoly j)).run pr' cts ps ∧
    ((x.mulPoly j).mulPoly k).run pr cts ps = ((x.mulPoly k).mulPoly j).run pr' cts ps ∧
    ((x.mulPoly j).mulBig n).run pr cts ps = ((x.mulBig n).mulPoly j).run pr' cts ps ∧
    (x.mulBig (n + 1)).run pr cts ps = ((x.mulBig n).add x).run pr' cts ps ∧
    (x.mulBig (levelQ l i)).run pr cts ps = (x.sub x).run pr' cts ps := by
  refine ⟨?_, ?_, ?_, ?_, ?_, ?_, ?_, ?_, ?_⟩ <;> refine (c117_same h pr pr' hc hp _ _).mpr ⟨?_, ?_⟩ <;> simp only [LinExpr.value]
  case refine_9.refine_1 => exact ⟨x.value f0 g, by push_cast; ring⟩
  case refine_9.refine_2 => exact ⟨x.value f1 g, by push_cast; ring⟩
  all_goals exact ⟨0, by push_cast; ring⟩

/-- C117: `inner_product` gives the same ciphertext, word for word, in whatever order the pairs come. -/
theorem c117_inner_product (h : IsParams N t l variance P) (pr pr' : Profile) {i : Nat} {cts cts' : List BfvCipherText} {polys polys' : List Poly}
    (hc : ∀ ct ∈ cts, ∃ f0 f1 : Rg N, IsCt P i [f0, f1] ct) (hp : ∀ p ∈ polys, ∃ g : Rg N, PolyAt P i g p)
    (hlen : cts.length = polys.length) (hlen' : cts'.length = polys'.length) (hperm : (cts.zip polys).Perm (cts'.zip polys')) :
    Omr.innerProduct pr cts polys = Omr.innerProduct pr' cts' polys' := by
  classical
  by_cases hne : cts = []
  · subst hne
    have hpl : polys = [] := List.length_eq_zero_iff.mp (by simpa using hlen.symm)
    subst hpl
    have h1 := hperm.length_eq
    simp only [List.zip_nil_left, List.length_nil, List.length_zip] at h1
    have hc' : cts' = [] := List.length_eq_zero_iff.mp (by omega)
    have hp' : polys' = [] := List.length_eq_zero_iff.mp (by omega)
    subst hc'; subst hp'
    rfl
  -- components of every ciphertext and polynomial
  obtain ⟨f, hf⟩ : ∃ f : BfvCipherText → Rg N × Rg N, ∀ ct ∈ cts, IsCt P i [(f ct).1, (f ct).2] ct := by
    refine ⟨fun ct => if hx : ct ∈ cts then ((hc ct hx).choose, (hc ct hx).choose_spec.choose) else 0, fun ct hx => ?_⟩
    simp only [dif_pos hx]
    exact (hc ct hx).choose_spec.choose_spec
  obtain ⟨g, hg⟩ : ∃ g : Poly → Rg N, ∀ p ∈ polys, PolyAt P i (g p) p := by
    refine ⟨fun p => if hx : p ∈ polys then (hp p hx).choose else 0, fun p hx => ?_⟩
    simp only [dif_pos hx]
    exact (hp p hx).choose_spec
  have m1 : ∀ ct, ct ∈ cts' → ct ∈ cts := by
    intro ct hx
    rw [← List.map_fst_zip hlen.le, List.mem_map]
    rw [← List.map_fst_zip hlen'.le, List.mem_map] at hx
    obtain ⟨u, u1, u2⟩ := hx
    exact ⟨u, hperm.mem_iff.mpr u1, u2⟩
  have m2 : ∀ p, p ∈ polys' → p ∈ polys := by
    intro ct hx
    rw [← List.map_snd_zip hlen.ge, List.mem_map]
    rw [← List.map_snd_zip hlen'.ge, List.mem_map] at hx
    obtain ⟨u, u1, u2⟩ := hx
    exact ⟨u, hperm.mem_iff.mpr u1, u2⟩
  have hne' : cts' ≠ [] := by
    intro hn
    have h1 := hperm.length_eq
    rw [List.length_zip, List.length_zip, hn] at h1
    exact hne (List.length_eq_zero_iff.mp (by
      rw [List.length_nil, Nat.zero_min, ← hlen, Nat.min_self] at h1
      exact h1))
  have F : ∀ L : List BfvCipherText, (∀ ct ∈ L, ct ∈ cts) → List.Forall₂ (fun f ct => IsCt P i [f.1, f.2] ct) (L.map f) L := by
    intro L hL
    rw [List.forall₂_map_left_iff, List.forall₂_same]
    exact fun ct hx => hf ct (hL ct hx)
  have G : ∀ L : List Poly, (∀ p ∈ L, p ∈ polys) → List.Forall₂ (PolyAt P i) (L.map g) L := by
    intro L hL
    rw [List.forall₂_map_left_iff, List.forall₂_same]
    exact fun p hx => hg p (hL p hx)
  have S : ∀ (s : Rg N), (List.zipWith (fun f g => phase s [f.1, f.2] * g) (cts.map f) (polys.map g)).sum =
      (List.zipWith (fun f g => phase s [f.1, f.2] * g) (cts'.map f) (polys'.map g)).sum := by
    intro s
    have e : ∀ (L : List BfvCipherText) (M : List Poly), List.zipWith (fun (f : Rg N × Rg N) g => phase s [f.1, f.2] * g) (L.map f) (M.map g) =
        (L.zip M).map fun u => phase s [(f u.1).1, (f u.1).2] * g u.2 := by
      intro L M
      rw [List.zipWith_map, List.zip, List.map_zipWith]
    rw [e, e]
    exact (hperm.map _).sum_eq
  obtain ⟨z, r0, r1, a1, a2, a3⟩ := c49_inner_product h pr (F cts fun _ x => x) (G polys fun _ x => x) hlen hne 0
  obtain ⟨z', s0, s1, b1, b2, b3⟩ := c49_inner_product h pr' (F cts' m1) (G polys' m2) hlen' hne' 0
  obtain ⟨y, u0, u1, c1, c2, c3⟩ := c49_inner_product h pr (F cts fun _ x => x) (G polys fun _ x => x) hlen hne 1
  obtain ⟨y', v0, v1, d1, d2, d3⟩ := c49_inner_product h pr' (F cts' m1) (G polys' m2) hlen' hne' 1
  obtain rfl := Except.ok.inj (a1.symm.trans c1)
  obtain rfl := Except.ok.inj (b1.symm.trans d1)
  have e0 : r0 = s0 := by
    have := a3.trans ((S 0).trans b3.symm)
    simpa [phase] using this
  have e1 : u0 + u1 = v0 + v1 := by
    have := c3.trans ((S 1).trans d3.symm)
    simpa [phase] using this
  rw [a1, b1]
  congr 1
  obtain ⟨w1, -⟩ := (Linear.ct_eq_iff h a2 c2).mp rfl
  obtain ⟨w2, -⟩ := (Linear.ct_eq_iff h b2 d2).mp rfl
  obtain ⟨p, hp⟩ := w1
  obtain ⟨q, hq⟩ := w2
  refine (Linear.ct_eq_iff h c2 d2).mpr ⟨⟨q - p, ?_⟩, ⟨p - q, ?_⟩⟩
  · linear_combination e0 - hp + hq
  · linear_combination e1 - e0 + hp - hq

/-- Two actual ciphertexts and two polynomials, in both orders. -/
example : ∃ P x y p q z, IsParams 8 17 Ex.mods 10 P ∧ x ≠ y ∧ Omr.innerProduct .debug [x, y] [p, q] = .ok z ∧
    Omr.innerProduct .release [y, x] [q, p] = .ok z := by
  obtain ⟨P, h⟩ := Ex.exists_params
  obtain ⟨p, hp⟩ := c33_exists_poly h (i := 0) (by decide) (msgRing 8 [0, 1])
  obtain ⟨q, hq⟩ := c33_exists_poly h (i := 0) (by decide) (msgRing 8 [5])
  have hx : IsCt P 0 [msgRing 8 [0, 1], msgRing 8 [5]] ⟨P, [p, q], 0⟩ := ⟨rfl, rfl, .cons hp (.cons hq .nil)⟩
  have hy : IsCt P 0 [msgRing 8 [5], msgRing 8 [0, 1]] ⟨P, [q, p], 0⟩ := ⟨rfl, rfl, .cons hq (.cons hp .nil)⟩
  obtain ⟨z, -, -, h1, -⟩ := c49_inner_product h .debug (fs := [(msgRing 8 [0, 1], msgRing 8 [5]), (msgRing 8 [5], msgRing 8 [0, 1])])
    (gs := [msgRing 8 [0, 1], msgRing 8 [5]]) (.cons hx (.cons hy .nil)) (.cons hp (.cons hq .nil)) rfl (by simp) 0
  refine ⟨P, ⟨P, [p, q], 0⟩, ⟨P, [q, p], 0⟩, p, q, z, h, fun hxy => ?_, h1, ?_⟩
  · refine Ex.not_cong_of_cf (by norm_num) (k := 0) ?_ ((Linear.ct_eq_iff h hx hy).mp hxy).1
    rw [Ex.levelQ_mods0, msgRing, msgRing, cf_ofCoeffs (by norm_num) _ (by norm_num), cf_ofCoeffs (by norm_num) _ (by norm_num)]
    decide
  · rw [← h1]
    refine (c117_inner_product h .debug .release (i := 0) (cts := [⟨P, [p, q], 0⟩, ⟨P, [q, p], 0⟩]) (polys := [p, q]) ?_ ?_ rfl rfl
      (by simpa using List.Perm.swap _ _ _)).symm
    · intro c hc
      simp only [List.mem_cons, List.not_mem_nil, or_false] at hc
      rcases hc with rfl | rfl
      · exact ⟨_, _, hx⟩
      · exact ⟨_, _, hy⟩
    · intro c hc
      simp only [List.mem_cons, List.not_mem_nil, or_false] at hc
      rcases hc with rfl | rfl
      · exact ⟨_, hp⟩
      · exact ⟨_, hq⟩

end OnionPIR
