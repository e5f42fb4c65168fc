import Verif.Proofs.Omr
import Verif.Props.Modulus
import Verif.Props.Ntt
import Verif.Props.Bfv
/-
Property C49 (inner products of ciphertexts and polynomials) and C54 (SIMD encoding of clues).
-/
namespace OnionPIR
open Rg Spec

variable {N t : Nat} {l : List Nat} {variance : Nat} {P : BfvParameters}

/-- C49: the inner product of non-empty lists of the same length is a ciphertext whose phase is the sum of the products. -/
theorem c49_inner_product (h : IsParams N t l variance P) (pr : Profile) {i : Nat} {cts : List BfvCipherText} {polys : List Poly}
    {fs : List (Rg N × Rg N)} {gs : List (Rg N)} (hc : List.Forall₂ (fun f ct => IsCt P i [f.1, f.2] ct) fs cts)
    (hp : List.Forall₂ (PolyAt P i) gs polys) (hlen : cts.length = polys.length) (hne : cts ≠ []) (s : Rg N) :
    ∃ z, ∃ r0 r1 : Rg N, Omr.innerProduct pr cts polys = .ok z ∧ IsCt P i [r0, r1] z ∧
      phase s [r0, r1] = (List.zipWith (fun f g => phase s [f.1, f.2] * g) fs gs).sum := by
  have hlc := hc.length_eq
  have hlp := hp.length_eq
  have hpos : 0 < cts.length := List.length_pos_iff.mpr hne
  have hl : (List.zipWith (fun (f : Rg N × Rg N) g => phase s [f.1, f.2] * g) fs gs).length = cts.length := by
    rw [List.length_zipWith]; omega
  -- one product
  have one : ∀ k, k < cts.length → ∃ c p z, ∃ r0 r1 : Rg N, cts[k]? = some c ∧ polys[k]? = some p ∧ c.mulPoly pr p = .ok z ∧ IsCt P i [r0, r1] z ∧
      phase s [r0, r1] = (List.zipWith (fun f g => phase s [f.1, f.2] * g) fs gs).getD k 0 := by
    intro k hk
    have a := List.Forall₂.get hc (by omega) hk
    have hk' : k < polys.length := by omega
    have b := List.Forall₂.get hp (by omega) hk'
    obtain ⟨z, h1, h2, h3, -⟩ := c34_mul_poly h pr a b s
    refine ⟨_, _, z, _, _, List.getElem?_eq_getElem hk, List.getElem?_eq_getElem hk', h1, h2, ?_⟩
    rw [h3, List.getD_eq_getElem _ _ (by omega), List.getElem_zipWith]
    rfl
  obtain ⟨c, p, z, r0, r1, h1, h2, h3, h4, h5⟩ := one 0 hpos
  obtain ⟨z', h6, q0, q1, h7, h8⟩ := foldR_range_ok (f := fun st k => Omr.ipStep pr cts polys st (k + 1)) (n := cts.length - 1) (s := z)
    (fun k z => ∃ r0 r1 : Rg N, IsCt P i [r0, r1] z ∧
      phase s [r0, r1] = ((List.zipWith (fun f g => phase s [f.1, f.2] * g) fs gs).take (k + 1)).sum)
    ⟨r0, r1, h4, by
      rw [h5, List.take_one]
      cases hz : List.zipWith (fun (f : Rg N × Rg N) g => phase s [f.1, f.2] * g) fs gs with
      | nil => simp
      | cons a as => simp⟩
    (by
      rintro k z hk ⟨r0, r1, h1, h2⟩
      obtain ⟨c, p, z1, q0, q1, g1, g2, g3, g4, g5⟩ := one (k + 1) (by omega)
      obtain ⟨z2, g6, g7, g8, -⟩ := c32_add h pr h1 g4 s
      refine ⟨z2, ?_, _, _, g7, ?_⟩
      · unfold Omr.ipStep
        rw [idx_of g1, res_ok_bind, idx_of g2, res_ok_bind, g3, res_ok_bind, g6]
      · rw [g8, h2, g5, List.sum_take_succ _ (k + 1) (by omega), List.getD_eq_getElem _ _ (by omega)])
  refine ⟨z', q0, q1, ?_, h7, ?_⟩
  · unfold Omr.innerProduct
    rw [rassert_ok hlen, res_ok_bind, idx_of h1, res_ok_bind, idx_of h2, res_ok_bind, h3, res_ok_bind, h6]
  · rw [h8, List.take_of_length_le (by omega)]

/-- C49: lists of different lengths panic. -/
theorem c49_mismatch (pr : Profile) (cts : List BfvCipherText) (polys : List Poly) (h : cts.length ≠ polys.length) :
    Omr.innerProduct pr cts polys = .error .assert := by
  unfold Omr.innerProduct
  rw [rassert_fail h]; rfl

/-- C49: empty lists panic. -/
theorem c49_empty (pr : Profile) : Omr.innerProduct pr [] [] = .error .bounds := rfl

/-- Two actual encryptions and two polynomials. -/
example : ∃ P sk ct p z, ∃ r0 r1 f0 f1 : Rg 8, IsParams 8 17 Ex.mods 10 P ∧ Omr.innerProduct .debug [ct, ct] [p, p] = .ok z ∧ IsCt P 0 [r0, r1] z ∧
    phase (keyRing 8 sk) [r0, r1] = 2 * (phase (keyRing 8 sk) [f0, f1] * msgRing 8 [0, 1]) := by
  obtain ⟨P, sk, ct, f0, f1, h, hk, hb, hct, he⟩ := Ex.setup
  obtain ⟨p, hp⟩ := c33_exists_poly h (i := 0) (by decide) (msgRing 8 [0, 1])
  obtain ⟨z, r0, r1, h1, h2, h3⟩ := c49_inner_product h .debug (fs := [(f0, f1), (f0, f1)]) (gs := [msgRing 8 [0, 1], msgRing 8 [0, 1]])
    (cts := [ct, ct]) (polys := [p, p]) (i := 0) (by simp [hct]) (by simp [hp]) rfl (by simp) (keyRing 8 sk)
  refine ⟨P, sk, ct, p, z, r0, r1, f0, f1, h, h1, h2, ?_⟩
  rw [h3]
  simp only [List.zipWith_cons_cons, List.zipWith_nil_left, List.sum_cons, List.sum_nil]
  ring

/-! ### C54: encoding of clues -/

/-- The values of component `k` of all clues, padded with zeros to `D` slots. -/
def Spec.clueSlots (D : Nat) (comp : PvwCiphertext → List Nat) (clues : List PvwCiphertext) (k : Nat) : List Nat :=
  (List.range D).map fun i => match clues[i]? with
    | some c => (comp c).getD k 0
    | none => 0

/-- A clue for the parameters: canonical components of the right lengths. -/
def Spec.IsClue (params : PvwParams) (c : PvwCiphertext) : Prop := IsVec params.q params.ell c.b ∧ IsVec params.q params.n c.a

/-- C54: whenever the transform for the PVW modulus and `D` slots exists and there are at most `D` clues, `process` returns one
polynomial per component whose forward transform holds that component of every clue in order, followed by zeros. -/
theorem c54_process (pr : Profile) {params : PvwParams} {q : Modulus} (hq : Modulus.new params.q = .ok q) {D : Nat} (hD : D < 2 ^ 64)
    {sample : Nat → Nat → Nat} (hs : ∀ i, sample q.p i < params.q) {op : NttOperator} (hop : NttOperator.new pr (sample q.p) q D = .ok op)
    {clues : List PvwCiphertext} (hlen : clues.length ≤ D) (hc : ∀ c ∈ clues, IsClue params c) :
    ∃ bs as, Omr.process pr sample params D clues = .ok (bs, as) ∧ bs.length = params.ell ∧ as.length = params.n ∧
      (∀ k, k < params.ell → ∃ p, bs[k]? = some p ∧ IsVec params.q D p ∧ op.forward pr p = .ok (clueSlots D PvwCiphertext.b clues k)) ∧
      (∀ k, k < params.n → ∃ p, as[k]? = some p ∧ IsVec params.q D p ∧ op.forward pr p = .ok (clueSlots D PvwCiphertext.a clues k)) := by
  obtain ⟨h2, -, -, -⟩ := Modulus.new_inv hq
  have slots : ∀ (comp : PvwCiphertext → List Nat) k, clues.map (fun c => (comp c).getD k 0) ++ List.replicate (D - clues.length) 0 =
      clueSlots D comp clues k := by
    intro comp k
    unfold clueSlots
    apply List.ext_getElem (by simp; omega)
    intro i h1 h2
    rw [List.getElem_map, List.getElem_range]
    rcases lt_or_ge i clues.length with hi | hi
    · rw [List.getElem_append_left (by simpa using hi), List.getElem_map, List.getElem?_eq_getElem hi]
    · rw [List.getElem_append_right (by simpa using hi), List.getElem_replicate, List.getElem?_eq_none hi]
  have one : ∀ (comp : PvwCiphertext → List Nat) (n k : Nat), (∀ c ∈ clues, IsVec params.q n (comp c)) → k < n → ∃ p,
      Omr.encodeComponent pr op D comp clues k = .ok p ∧ IsVec params.q D p ∧ op.forward pr p = .ok (clueSlots D comp clues k) := by
    intro comp n k hv hk
    have hvec : IsVec params.q D (clueSlots D comp clues k) := by
      rw [← slots]
      refine ⟨by simp; omega, ?_⟩
      intro x hx
      rw [List.mem_append, List.mem_map] at hx
      rcases hx with ⟨c, hc, rfl⟩ | hx
      · obtain ⟨a, b⟩ := hv c hc
        rw [List.getD_eq_getElem _ _ (by omega)]
        exact b _ (List.getElem_mem _)
      · rw [List.eq_of_mem_replicate hx]; omega
    obtain ⟨p, e1, e2, e3⟩ := c16_forward_backward hq pr pr hD hs hop hvec
    refine ⟨p, ?_, e2, e3⟩
    unfold Omr.encodeComponent
    rw [Omr.fill_ok hlen (fun c hc => by rw [(hv c hc).1]; exact hk), res_ok_bind, slots, e1]
  have all : ∀ (comp : PvwCiphertext → List Nat) (n : Nat), (∀ c ∈ clues, IsVec params.q n (comp c)) → ∃ ps,
      mapR (Omr.encodeComponent pr op D comp clues) (List.range n) = .ok ps ∧ ps.length = n ∧
      ∀ k, k < n → ∃ p, ps[k]? = some p ∧ IsVec params.q D p ∧ op.forward pr p = .ok (clueSlots D comp clues k) := by
    intro comp n hv
    have hh : ∀ k : Nat, ∃ p, k < n → Omr.encodeComponent pr op D comp clues k = .ok p ∧ IsVec params.q D p ∧
        op.forward pr p = .ok (clueSlots D comp clues k) := by
      intro k
      rcases lt_or_ge k n with hk | hk
      · obtain ⟨p, hp⟩ := one comp n k hv hk
        exact ⟨p, fun _ => hp⟩
      · exact ⟨[], fun h => absurd h (by omega)⟩
    choose g hg using hh
    refine ⟨(List.range n).map g, mapR_ok (fun k hk => (hg k (List.mem_range.mp hk)).1), by simp, fun k hk => ⟨g k, ?_, (hg k hk).2⟩⟩
    rw [List.getElem?_map, List.getElem?_range hk]; rfl
  obtain ⟨bs, h1, h2, h3⟩ := all _ _ (fun c h => (hc c h).1)
  obtain ⟨as, h4, h5, h6⟩ := all _ _ (fun c h => (hc c h).2)
  refine ⟨bs, as, ?_, h2, h5, h3, h6⟩
  unfold Omr.process
  rw [hq, res_ok_bind, hop, res_ok_bind, h1, res_ok_bind, h4]; rfl

/-- C54: with more clues than slots the copying loop runs out of bounds (there is at least one message bit per clue). -/
theorem c54_too_many (pr : Profile) {params : PvwParams} {q : Modulus} (hq : Modulus.new params.q = .ok q) {D : Nat}
    {sample : Nat → Nat → Nat} {op : NttOperator} (hop : NttOperator.new pr (sample q.p) q D = .ok op) (hl : 0 < params.ell)
    {clues : List PvwCiphertext} (hlen : D < clues.length) (hc : ∀ c ∈ clues, IsClue params c) :
    Omr.process pr sample params D clues = .error .bounds := by
  unfold Omr.process
  rw [hq, res_ok_bind, hop, res_ok_bind]
  obtain ⟨k, hk⟩ : ∃ k, params.ell = k + 1 := ⟨params.ell - 1, by omega⟩
  rw [hk, List.range_succ_eq_map, mapR]
  have : Omr.encodeComponent pr op D PvwCiphertext.b clues 0 = .error .bounds := by
    unfold Omr.encodeComponent
    rw [Omr.fill_overflow hlen (fun c h => by rw [(hc c h).1.1]; exact hl)]; rfl
  rw [this]; rfl

/-- The hypotheses of C54 hold for the parameters in the code, `D = 64` and one clue. -/
example : ∃ q, ∃ sample : Nat → Nat → Nat, ∃ op, Modulus.new PvwParams.default.q = .ok q ∧ (∀ i, sample q.p i < PvwParams.default.q) ∧
    NttOperator.new .debug (sample q.p) q 64 = .ok op ∧
    IsClue PvwParams.default ⟨List.replicate 450 7, [1, 2, 3, 65536]⟩ ∧
    clueSlots 3 PvwCiphertext.b [⟨List.replicate 450 7, [1, 2, 3, 65536]⟩] 3 = [65536, 0, 0] := by
  obtain ⟨q, hq⟩ := (c01_modulus_new 65537).2 (by norm_num)
  obtain ⟨op, hop⟩ := c14_new_succeeds (K := 6) hq .debug (by norm_num) (by norm_num) (by norm_num) (sample := fun _ => 3) (by norm_num)
    ⟨0, by norm_num, by decide +kernel⟩
  refine ⟨q, fun _ _ => 3, op, hq, by simp [PvwParams.default], hop, ?_, rfl⟩
  constructor
  · constructor
    · rfl
    · simp [PvwParams.default]
  · constructor
    · exact List.length_replicate
    · intro x hx; rw [List.eq_of_mem_replicate hx]; simp [PvwParams.default]

/-- C54 for two clues in degree 8, with a small PVW modulus; nine clues are too many, and so are two polynomials for one ciphertext in C49. -/
example : ∃ bs as, Omr.process .debug (fun _ _ => 3) ⟨2, 1, 3, 17, 1⟩ 8 [⟨[1, 2], [3]⟩, ⟨[4, 5], [16]⟩] = .ok (bs, as) ∧ bs.length = 1 ∧ as.length = 2 ∧
    Omr.process .debug (fun _ _ => 3) ⟨2, 1, 3, 17, 1⟩ 8 (List.replicate 9 ⟨[1, 2], [3]⟩) = .error .bounds ∧
    ∀ ct p, Omr.innerProduct .debug [ct] [p, p] = .error .assert := by
  obtain ⟨q, hq⟩ := (c01_modulus_new 17).2 (by norm_num)
  obtain ⟨op, hop⟩ := c14_new_succeeds (K := 3) hq .debug (by norm_num) (by norm_num) (by norm_num) (sample := fun _ => 3) (by norm_num)
    ⟨0, by norm_num, by decide +kernel⟩
  obtain ⟨bs, as, h1, h2, h3, -⟩ := c54_process .debug (params := ⟨2, 1, 3, 17, 1⟩) hq (D := 8) (by norm_num) (sample := fun _ _ => 3) (by simp) hop
    (clues := [⟨[1, 2], [3]⟩, ⟨[4, 5], [16]⟩]) (by simp) (by unfold IsClue IsVec; decide)
  exact ⟨bs, as, h1, h2, h3, c54_too_many .debug (params := ⟨2, 1, 3, 17, 1⟩) hq (D := 8) (sample := fun _ _ => 3) hop (by norm_num) (by simp)
    (fun c hc => by rw [List.eq_of_mem_replicate hc]; unfold IsClue IsVec; decide), fun ct p => c49_mismatch .debug [ct] [p, p] (by simp)⟩

end OnionPIR
