import Verif.Spec.Weighted
import Verif.Proofs.SelectAny
/- The folding loops of `Server::decode` for selectors with arbitrary weights. -/
namespace OnionPIR
open Rg Spec

theorem weigh_end {R : Type} [CommRing R] {n : Nat} {a : Nat → ℤ} {r : Nat → R} {m M : Nat} (hr : ∀ k, m ≤ k → r k = 0) (hM : CeilDiv m n M) {c : Nat}
    (hc : M ≤ c) : weigh n a r c = 0 := by
  refine Finset.sum_eq_zero fun k _ => ?_
  rw [hr _ ?_, mul_zero]
  have := Nat.mul_le_mul_left n hc
  have := hM.1
  rw [Nat.mul_comm c n]; omega

theorem weigh_eq {R : Type} [CommRing R] {n m : Nat} {a : Nat → ℤ} {r : Nat → R} (hm : m ≤ n) (hr : ∀ k, m ≤ k → k < n → r k = 0) :
    ∑ k ∈ Finset.range m, (a k : R) * r k = ∑ k ∈ Finset.range n, (a k : R) * r k := by
  refine Finset.sum_subset (Finset.range_subset_range.mpr hm) fun k hk hk' => ?_
  rw [hr k (by simpa using hk') (by simpa using hk), mul_zero]

theorem cf_weigh {N : Nat} (hN : 0 < N) (n : Nat) (a : Nat → ℤ) (r : Nat → Rg N) (c j : Nat) :
    cf (weigh n a r c) j = weigh n a (fun x => cf (r x) j) c := by
  unfold weigh
  rw [cf_sum hN]
  exact Finset.sum_congr rfl fun k _ => by rw [cf_int_mul hN, Int.cast_id]

theorem cf_weighAll {N : Nat} (hN : 0 < N) (dim : Nat) (as : List (Nat → ℤ)) (r : Nat → Rg N) (c j : Nat) :
    cf (weighAll dim as r c) j = weighAll dim as (fun x => cf (r x) j) c := by
  induction as generalizing r with
  | nil => rfl
  | cons a as ih =>
    rw [weighAll, weighAll, ih]
    congr 1
    funext x
    exact cf_weigh hN dim a r x j

/-- Integer multiples of encodings, summed. -/
theorem BfvP.Encodes.weigh {N t Q : Nat} (hN : 0 < N) {m phi : Nat → Rg N} {V : ℤ} (a : Nat → ℤ) (n : Nat)
    (h : ∀ k, k < n → Encodes t Q (m k) (phi k) V) :
    Encodes t Q (∑ k ∈ Finset.range n, ((a k : ℤ) : Rg N) * m k) (∑ k ∈ Finset.range n, ((a k : ℤ) : Rg N) * phi k)
      ((∑ k ∈ Finset.range n, |a k|) * V) := by
  induction n with
  | zero => exact ⟨0, 0, by simpa using Bdd.zero hN, by simp⟩
  | succ n ih =>
    rw [Finset.sum_range_succ, Finset.sum_range_succ, Finset.sum_range_succ, add_mul]
    refine BfvP.Encodes.add hN (ih fun k hk => h k (by omega)) ?_
    obtain ⟨v, w, hv, e⟩ := h n (by omega)
    exact ⟨((a n : ℤ) : Rg N) * v, ((a n : ℤ) : Rg N) * w, hv.int_mul hN _, by rw [mul_left_comm, e]; ring⟩

namespace Server

variable {N t : Nat} {l : List Nat} {variance : Nat} {P : BfvParameters}

theorem firstChunk_weighted (h : IsParams N t l variance P) (pr : Profile) {s : Rg N} {fd : Nat} {a : Nat → ℤ} {V T : ℤ}
    {cts : List BfvCipherText} (hc : ∀ k, k < fd → ∃ ct, cts[k]? = some ct ∧ CtEncodes P l t s ((a k : ℤ) : Rg N) V ct) {ps : List Poly}
    (hpos : 0 < ps.length) (hlen : ps.length ≤ fd) {r : Nat → Rg N}
    (hp : ∀ k, k < ps.length → ∃ p, ps[k]? = some p ∧ PolyAt P 0 (r k) p ∧ Bdd T (r k)) (hr : ∀ k, ps.length ≤ k → k < fd → r k = 0) :
    ∃ ct, sumProducts pr P (fun (x : BfvCipherText × Poly) => x.1.mulPoly pr x.2) (cts.zip ps) = .ok ct ∧
      CtEncodes P l t s (∑ k ∈ Finset.range fd, ((a k : ℤ) : Rg N) * r k) (fd * (N * V * T)) ct := by
  have hN : 0 < N := by
    obtain ⟨K, ext, rfl, -⟩ := BfvP.params h
    positivity
  have hcl : fd ≤ cts.length := by
    obtain ⟨ct, hct, -⟩ := hc (fd - 1) (by omega)
    have := (List.getElem?_eq_some_iff.mp hct).1
    omega
  have hzl : (cts.zip ps).length = ps.length := by rw [List.length_zip]; omega
  have hex : ∀ k, ∃ φ : Rg N, ∀ x, (cts.zip ps)[k]? = some x → Encodes t (levelQ l 0) (((a k : ℤ) : Rg N) * r k) φ (N * V * T) ∧
      ∃ ct, ∃ r0 r1 : Rg N, x.1.mulPoly pr x.2 = .ok ct ∧ IsCt P 0 [r0, r1] ct ∧ Cong (levelQ l 0) (phase s [r0, r1]) φ := by
    intro k
    by_cases hk : k < ps.length
    · obtain ⟨ct, hct, f0, f1, c1, c2⟩ := hc k (by omega)
      obtain ⟨p, hps, p1, p2⟩ := hp k hk
      obtain ⟨z, z1, z2, -, z4⟩ := c34_mul_poly h pr c1 p1 s
      refine ⟨phase s [f0 * r k, f1 * r k], fun x hx => ?_⟩
      obtain ⟨hx1, hx2⟩ := List.getElem?_zip_eq_some.mp hx
      rw [hct] at hx1
      rw [hps] at hx2
      have e1 := Option.some.inj hx1
      have e2 := Option.some.inj hx2
      rw [← e1, ← e2]
      exact ⟨z4 _ _ _ c2 p2, z, _, _, z1, z2, Evaluation.cong_refl _⟩
    · refine ⟨0, fun x hx => ?_⟩
      have := (List.getElem?_eq_some_iff.mp hx).1
      omega
  choose φ hφ using hex
  obtain ⟨ct, r0, r1, h1, h2, h3⟩ := sumProducts_ok h pr s (xs := cts.zip ps) (by
    intro h0; rw [h0] at hzl; simp at hzl; omega) (fun k x hx => (hφ k x hx).2)
  refine ⟨ct, h1, r0, r1, h2, BfvP.Encodes.congr ?_ h3⟩
  rw [hzl]
  have hall : ∀ k, k < ps.length → Encodes t (levelQ l 0) (((a k : ℤ) : Rg N) * r k) (φ k) (N * V * T) := fun k hk =>
    (hφ k _ (List.getElem?_eq_getElem (by omega))).1
  have := BfvP.Encodes.sum hN ps.length (m := fun k => ((a k : ℤ) : Rg N) * r k) (phi := φ) hall
  rw [weigh_eq hlen hr] at this
  refine BfvP.Encodes.mono this (mul_le_mul_of_nonneg_right (by exact_mod_cast hlen) ?_)
  obtain ⟨v, w, hv, -⟩ := hall 0 hpos
  exact hv.nonneg hN

theorem nextChunk_weighted (h : IsParams N t l variance P) (pr : Profile) {s : Rg N} {dim : Nat} {a : Nat → ℤ} {A V B0 B1 : ℤ}
    (hA : ∑ k ∈ Finset.range dim, |a k| ≤ A)
    {gs : List RgswCt} (hg : ∀ k, k < dim → ∃ g, gs[k]? = some g ∧ IsRgsw P l 0 s ((a k : ℤ) : Rg N) B0 B1 g) {cts : List BfvCipherText}
    (hpos : 0 < cts.length) (hlen : cts.length ≤ dim) {m : Nat → Rg N}
    (hc : ∀ k, k < cts.length → ∃ ct, cts[k]? = some ct ∧ CtEncodes P l t s (m k) V ct) (hm : ∀ k, cts.length ≤ k → k < dim → m k = 0) :
    ∃ ct, sumProducts pr P (fun (x : RgswCt × BfvCipherText) => product pr P x.1 x.2) (gs.zip cts) = .ok ct ∧
      CtEncodes P l t s (∑ k ∈ Finset.range dim, ((a k : ℤ) : Rg N) * m k) (A * V + t * (dim * (switchNoise N l 0 * (B0 + B1)))) ct := by
  have hN : 0 < N := by
    obtain ⟨K, ext, rfl, -⟩ := BfvP.params h
    positivity
  have hgl : dim ≤ gs.length := by
    obtain ⟨g, hg', -⟩ := hg (dim - 1) (by omega)
    have := (List.getElem?_eq_some_iff.mp hg').1
    omega
  have hzl : (gs.zip cts).length = cts.length := by rw [List.length_zip]; omega
  have hex : ∀ k, ∃ φ E : Rg N, ∀ x, (gs.zip cts)[k]? = some x → Encodes t (levelQ l 0) (m k) φ V ∧
      Bdd (switchNoise N l 0 * (B0 + B1)) E ∧ ∃ ct, ∃ r0 r1 : Rg N, product pr P x.1 x.2 = .ok ct ∧ IsCt P 0 [r0, r1] ct ∧
        Cong (levelQ l 0) (phase s [r0, r1]) (((a k : ℤ) : Rg N) * φ + E) := by
    intro k
    by_cases hk : k < cts.length
    · obtain ⟨ct, hct, f0, f1, c1, c2⟩ := hc k hk
      obtain ⟨g, hgs, hgr⟩ := hg k (by omega)
      obtain ⟨z, r0, r1, E, z1, z2, z3, z4⟩ := product_ok h pr hgr c1
      refine ⟨phase s [f0, f1], E, fun x hx => ?_⟩
      obtain ⟨hx1, hx2⟩ := List.getElem?_zip_eq_some.mp hx
      rw [hgs] at hx1
      rw [hct] at hx2
      have e1 := Option.some.inj hx1
      have e2 := Option.some.inj hx2
      rw [← e1, ← e2]
      exact ⟨c2, z3, z, r0, r1, z1, z2, z4⟩
    · refine ⟨0, 0, fun x hx => ?_⟩
      have := (List.getElem?_eq_some_iff.mp hx).1
      omega
  choose φ E hφ using hex
  obtain ⟨ct, r0, r1, h1, h2, h3⟩ := sumProducts_ok h pr s (xs := gs.zip cts) (by
    intro h0; rw [h0] at hzl; simp at hzl; omega) (fun k x hx => (hφ k x hx).2.2)
  refine ⟨ct, h1, r0, r1, h2, BfvP.Encodes.congr ?_ h3⟩
  rw [hzl, Finset.sum_add_distrib, ← weigh_eq hlen hm]
  have hE := Bdd.sum hN (Finset.range cts.length) (A := fun _ => switchNoise N l 0 * (B0 + B1)) (f := E) fun k hk =>
    (hφ k _ (List.getElem?_eq_getElem (by rw [hzl]; exact Finset.mem_range.mp hk))).2.1
  have h0 := hφ 0 _ (List.getElem?_eq_getElem (by omega))
  rw [Finset.sum_const, Finset.card_range, nsmul_eq_mul] at hE
  refine BfvP.Encodes.addError hN ?_ (hE.mono (mul_le_mul_of_nonneg_right (by exact_mod_cast hlen) (h0.2.1.nonneg hN)))
  have hV : 0 ≤ V := by
    obtain ⟨v, w, hv, -⟩ := h0.1
    exact hv.nonneg hN
  refine BfvP.Encodes.mono (BfvP.Encodes.weigh hN a cts.length fun k hk => (hφ k _ (List.getElem?_eq_getElem (by omega))).1)
    (mul_le_mul_of_nonneg_right (le_trans ?_ hA) hV)
  exact Finset.sum_le_sum_of_subset_of_nonneg (Finset.range_subset_range.mpr hlen) fun k _ _ => abs_nonneg _

theorem firstDimension_weighted (h : IsParams N t l variance P) (pr : Profile) {s : Rg N} {fd n : Nat} (hf : 0 < fd) {a : Nat → ℤ} {V T : ℤ}
    {cts : List BfvCipherText} (hc : ∀ k, k < fd → ∃ ct, cts[k]? = some ct ∧ CtEncodes P l t s ((a k : ℤ) : Rg N) V ct) {rows : List Poly}
    (hlen : CeilDiv rows.length fd n) {r : Nat → Rg N}
    (hp : ∀ k, k < rows.length → ∃ p, rows[k]? = some p ∧ PolyAt P 0 (r k) p ∧ Bdd T (r k)) (hr : ∀ k, rows.length ≤ k → r k = 0) :
    ∃ db, firstDimension pr P fd cts rows = .ok db ∧ db.length = n ∧
      ∀ c, c < n → ∃ ct, db[c]? = some ct ∧ CtEncodes P l t s (weigh fd a r c) (fd * (N * V * T)) ct := by
  unfold firstDimension
  rw [chunksR_any hf hlen, res_ok_bind, mapR_map]
  refine mapR_range fun c hc' => ?_
  obtain ⟨l1, l2, l3⟩ := chunk_len_any hlen hc'
  exact firstChunk_weighted h pr hc l1 l2 (r := fun k => r (c * fd + k)) (T := T) (fun k hk => by
    obtain ⟨p, p1, p2⟩ := hp (c * fd + k) ((l3 k (by omega)).mpr hk)
    exact ⟨p, by rw [chunk_get _ _ (by omega), p1], p2⟩) (fun k hle hk => hr _ (by have := l3 k hk; omega))

theorem nextDimension_weighted (h : IsParams N t l variance P) (pr : Profile) {s : Rg N} {dim n : Nat} (hd : 0 < dim) {a : Nat → ℤ}
    {A V B0 B1 : ℤ} (hA : ∑ k ∈ Finset.range dim, |a k| ≤ A)
    {gs : List RgswCt} (hg : ∀ k, k < dim → ∃ g, gs[k]? = some g ∧ IsRgsw P l 0 s ((a k : ℤ) : Rg N) B0 B1 g) {db : List BfvCipherText}
    (hlen : CeilDiv db.length dim n) {m : Nat → Rg N} (hc : ∀ k, k < db.length → ∃ ct, db[k]? = some ct ∧ CtEncodes P l t s (m k) V ct)
    (hm : ∀ k, db.length ≤ k → m k = 0) :
    ∃ db', nextDimension pr P dim db gs = .ok db' ∧ db'.length = n ∧
      ∀ c, c < n → ∃ ct, db'[c]? = some ct ∧
        CtEncodes P l t s (weigh dim a m c) (A * V + t * (dim * (switchNoise N l 0 * (B0 + B1)))) ct := by
  unfold nextDimension
  rw [chunksR_any hd hlen, res_ok_bind, mapR_map]
  refine mapR_range fun c hc' => ?_
  obtain ⟨l1, l2, l3⟩ := chunk_len_any hlen hc'
  exact nextChunk_weighted h pr hA hg l1 l2 (m := fun k => m (c * dim + k)) (V := V) (fun k hk => by
    obtain ⟨p, p1, p2⟩ := hc (c * dim + k) ((l3 k (by omega)).mpr hk)
    exact ⟨p, by rw [chunk_get _ _ (by omega), p1], p2⟩) (fun k hle hk => hm _ (by have := l3 k hk; omega))

theorem dimensions_weighted (h : IsParams N t l variance P) (pr : Profile) {s : Rg N} {dim : Nat} (hd : 0 < dim) {A B0 B1 : ℤ}
    (as : List (Nat → ℤ)) (hA : ∀ a ∈ as, ∑ k ∈ Finset.range dim, |a k| ≤ A) {gss : List (List RgswCt)} (hgl : gss.length = as.length)
    (hg : ∀ (d : Nat) (a : Nat → ℤ), as[d]? = some a → ∃ gs, gss[d]? = some gs ∧ ∀ k, k < dim → ∃ g, gs[k]? = some g ∧
      IsRgsw P l 0 s ((a k : ℤ) : Rg N) B0 B1 g) {V : ℤ} {db : List BfvCipherText} {m : Nat → Rg N}
    (hc : ∀ k, k < db.length → ∃ ct, db[k]? = some ct ∧ CtEncodes P l t s (m k) V ct) (hm : ∀ k, db.length ≤ k → m k = 0) :
    ∃ out, foldR (nextDimension pr P dim) db gss = .ok out ∧ CeilDiv db.length (dim ^ as.length) out.length ∧
      ∀ j, j < out.length → ∃ ct, out[j]? = some ct ∧
        CtEncodes P l t s (weighAll dim as m j) (weighNoise A (t * (dim * (switchNoise N l 0 * (B0 + B1)))) as.length V) ct := by
  induction as generalizing gss db m V with
  | nil =>
    have : gss = [] := List.length_eq_zero_iff.mp hgl
    subst this
    exact ⟨db, foldR_nil .., ⟨by simp, by simp⟩, hc⟩
  | cons a as ih =>
    cases gss with
    | nil => simp at hgl
    | cons gs gss =>
      obtain ⟨gs', e1, e2⟩ := hg 0 a rfl
      have : gs = gs' := by simpa using e1
      subst this
      obtain ⟨n, hn⟩ := CeilDiv.exists db.length hd
      obtain ⟨db', d1, d2, d3⟩ := nextDimension_weighted h pr hd (hA a (by simp)) e2 hn hc hm
      subst d2
      obtain ⟨out, c1, c2, c3⟩ := ih (fun b hb => hA b (by simp [hb])) (by simpa using hgl) (fun d b hd => by
        have := hg (d + 1) b (by simpa using hd)
        simpa using this) (m := weigh dim a m) d3 (fun k hk => weigh_end hm hn hk)
      refine ⟨out, by rw [foldR_cons, d1, res_ok_bind, c1], ?_, c3⟩
      rw [List.length_cons, pow_succ']
      exact CeilDiv.comp hd hn c2

end Server
end OnionPIR
