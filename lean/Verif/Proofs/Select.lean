import Verif.Proofs.Unpack
/- The folding loops of `Server::decode`. -/
namespace OnionPIR
open Rg Spec

/-! ### Chunks -/

theorem chunksAux_eq {α : Type} {size : Nat} (hs : 0 < size) {m : Nat} : ∀ {fuel : Nat} {l : List α}, m ≤ fuel → l.length = size * m →
    chunksAux size fuel l = (List.range m).map fun c => (l.drop (c * size)).take size := by
  induction m with
  | zero =>
    intro fuel l _ hl
    have : l = [] := List.length_eq_zero_iff.mp (by simpa using hl)
    subst this
    cases fuel <;> rfl
  | succ m ih =>
    intro fuel l hf hl
    obtain ⟨fuel, rfl⟩ : ∃ n, fuel = n + 1 := ⟨fuel - 1, by omega⟩
    have hpos : 0 < l.length := by rw [hl]; positivity
    obtain ⟨a, as, rfl⟩ : ∃ a as, l = a :: as := by
      cases l with
      | nil => simp at hpos
      | cons a as => exact ⟨a, as, rfl⟩
    rw [chunksAux, ih (by omega) (by rw [List.length_drop, hl, Nat.mul_succ]; omega), List.range_succ_eq_map, List.map_cons, List.map_map]
    · simp only [Nat.zero_mul, List.drop_zero, List.drop_drop]
      congr 1
      apply List.map_congr_left
      intro c _
      simp only [Function.comp_apply, Nat.succ_eq_add_one, Nat.add_mul, Nat.one_mul, Nat.add_comm]
    · intro h; cases h

theorem chunksR_ok {α : Type} {size : Nat} (hs : 0 < size) {m : Nat} {l : List α} (hl : l.length = size * m) :
    chunksR size l = .ok ((List.range m).map fun c => (l.drop (c * size)).take size) := by
  unfold chunksR
  rw [rassert_ok (by omega), res_ok_bind, chunksAux_eq hs (by rw [hl]; exact Nat.le_mul_of_pos_left _ hs) hl]

theorem chunk_get {α : Type} {size : Nat} (l : List α) (c : Nat) {k : Nat} (hk : k < size) :
    ((l.drop (c * size)).take size)[k]? = l[c * size + k]? := by
  rw [List.getElem?_take_of_lt hk, List.getElem?_drop]

theorem chunk_length {α : Type} {size m : Nat} {l : List α} (hl : l.length = size * m) {c : Nat} (hc : c < m) :
    ((l.drop (c * size)).take size).length = size := by
  rw [List.length_take, List.length_drop, hl]
  have : size * (c + 1) ≤ size * m := Nat.mul_le_mul_left _ hc
  rw [Nat.mul_succ, Nat.mul_comm size c] at this
  omega

/-! ### Sums -/

theorem BfvP.Encodes.sum {N t Q : Nat} (hN : 0 < N) {m phi : Nat → Rg N} {V : ℤ} (n : Nat) (h : ∀ k, k < n → Encodes t Q (m k) (phi k) V) :
    Encodes t Q (∑ k ∈ Finset.range n, m k) (∑ k ∈ Finset.range n, phi k) (n * V) := by
  induction n with
  | zero =>
    refine ⟨0, 0, ?_, by simp⟩
    simpa using Bdd.zero hN
  | succ n ih =>
    rw [Finset.sum_range_succ, Finset.sum_range_succ, Nat.cast_succ, add_mul, one_mul]
    exact BfvP.Encodes.add hN (ih fun k hk => h k (by omega)) (h n (by omega))

theorem sum_bit {N n i : Nat} (hi : i < n) (f : Nat → Rg N) : (∑ k ∈ Finset.range n, bit N k i * f k) = f i := by
  rw [Finset.sum_eq_single i]
  · simp [bit]
  · intro k _ hk; simp [bit, hk]
  · intro h; exact absurd (Finset.mem_range.mpr hi) h

theorem mapR_append_ok {α β : Type} {f : α → Res β} {as : List α} {bs : List β} {a : α} {b : β} (h : mapR f as = .ok bs) (h' : f a = .ok b) :
    mapR f (as ++ [a]) = .ok (bs ++ [b]) := by
  induction as generalizing bs with
  | nil => cases h; simp [mapR, h']
  | cons x xs ih =>
    rw [mapR] at h
    obtain ⟨y, h1, h2⟩ := bind_eq_ok.mp h
    obtain ⟨ys, h3, h4⟩ := bind_eq_ok.mp h2
    cases h4
    rw [List.cons_append, mapR, h1, res_ok_bind, ih h3, res_ok_bind]
    rfl

namespace Server

variable {N t : Nat} {l : List Nat} {variance : Nat} {P : BfvParameters}

theorem sumFold_ok (h : IsParams N t l variance P) (pr : Profile) (s : Rg N) {α : Type} {f : α → Res BfvCipherText} (xs : List α) (x0 : α)
    {φ : Nat → Rg N} (hx : ∀ k x, (xs ++ [x0])[k]? = some x → ∃ ct, ∃ r0 r1 : Rg N, f x = .ok ct ∧ IsCt P 0 [r0, r1] ct ∧
      Cong (levelQ l 0) (phase s [r0, r1]) (φ k)) :
    ∃ ct, ∃ r0 r1 : Rg N, foldR (sumStep pr f) none (xs ++ [x0]) = .ok (some ct) ∧ IsCt P 0 [r0, r1] ct ∧
      Cong (levelQ l 0) (phase s [r0, r1]) (∑ k ∈ Finset.range (xs.length + 1), φ k) := by
  induction xs using List.reverseRecOn generalizing x0 with
  | nil =>
    obtain ⟨ct, r0, r1, h1, h2, h3⟩ := hx 0 x0 rfl
    refine ⟨ct, r0, r1, ?_, h2, by simpa using h3⟩
    rw [List.nil_append, foldR_cons, sumStep, h1, res_ok_bind, res_ok_bind, foldR_nil]
  | append_singleton xs x1 ih =>
    obtain ⟨ct, r0, r1, h1, h2, h3⟩ := ih x1 (fun k x hk => hx k x (by
      rw [List.getElem?_append_left (List.getElem?_eq_some_iff.mp hk).1]; exact hk))
    obtain ⟨ct', r0', r1', h1', h2', h3'⟩ := hx (xs.length + 1) x0 (by rw [List.getElem?_append_right (by simp)]; simp)
    obtain ⟨z, z1, z2, z3, -⟩ := c32_add h pr h2 h2' s
    refine ⟨z, r0 + r0', r1 + r1', ?_, z2, ?_⟩
    · rw [foldR_append, h1, res_ok_bind, foldR_cons, sumStep, h1', res_ok_bind]
      simp only [z1, res_ok_bind, foldR_nil]
    · rw [z3, List.length_append, List.length_singleton, Finset.sum_range_succ]
      exact Evaluation.cong_add h3 h3'

theorem sumProducts_ok (h : IsParams N t l variance P) (pr : Profile) (s : Rg N) {α : Type} {f : α → Res BfvCipherText} {xs : List α}
    (hne : xs ≠ []) {φ : Nat → Rg N} (hx : ∀ k x, xs[k]? = some x → ∃ ct, ∃ r0 r1 : Rg N, f x = .ok ct ∧ IsCt P 0 [r0, r1] ct ∧
      Cong (levelQ l 0) (phase s [r0, r1]) (φ k)) :
    ∃ ct, ∃ r0 r1 : Rg N, sumProducts pr P f xs = .ok ct ∧ IsCt P 0 [r0, r1] ct ∧
      Cong (levelQ l 0) (phase s [r0, r1]) (∑ k ∈ Finset.range xs.length, φ k) := by
  obtain ⟨ys, x0, rfl⟩ : ∃ ys x0, xs = ys ++ [x0] := ⟨xs.dropLast, xs.getLast hne, (List.dropLast_append_getLast hne).symm⟩
  obtain ⟨ct, r0, r1, h1, h2, h3⟩ := sumFold_ok h pr s ys x0 hx
  refine ⟨ct, r0, r1, ?_, h2, by rw [List.length_append, List.length_singleton]; exact h3⟩
  unfold sumProducts
  rw [h1, res_ok_bind, Option.getD_some]

/-- One chunk of rows. -/
theorem firstChunk_ok (h : IsParams N t l variance P) (pr : Profile) {s : Rg N} {fd i : Nat} (hi : i < fd) {V T : ℤ}
    {cts : List BfvCipherText} (hc : ∀ k, k < fd → ∃ ct, cts[k]? = some ct ∧ CtEncodes P l t s (bit N k i) V ct) {ps : List Poly}
    (hlen : ps.length = fd) {r : Nat → Rg N} (hp : ∀ k, k < fd → ∃ p, ps[k]? = some p ∧ PolyAt P 0 (r k) p ∧ Bdd T (r k)) :
    ∃ ct, sumProducts pr P (fun (x : BfvCipherText × Poly) => x.1.mulPoly pr x.2) (cts.zip ps) = .ok ct ∧
      CtEncodes P l t s (r i) (fd * (N * V * T)) ct := by
  have hN : 0 < N := by
    obtain ⟨K, ext, rfl, -⟩ := BfvP.params h
    positivity
  have hcl : fd ≤ cts.length := by
    obtain ⟨ct, hct, -⟩ := hc (fd - 1) (by omega)
    have := (List.getElem?_eq_some_iff.mp hct).1
    omega
  have hzl : (cts.zip ps).length = fd := by rw [List.length_zip, hlen]; omega
  have hex : ∀ k, ∃ φ : Rg N, ∀ x, (cts.zip ps)[k]? = some x → Encodes t (levelQ l 0) (bit N k i * r k) φ (N * V * T) ∧
      ∃ ct, ∃ r0 r1 : Rg N, x.1.mulPoly pr x.2 = .ok ct ∧ IsCt P 0 [r0, r1] ct ∧ Cong (levelQ l 0) (phase s [r0, r1]) φ := by
    intro k
    by_cases hk : k < fd
    · obtain ⟨ct, hct, f0, f1, c1, c2⟩ := hc k hk
      obtain ⟨p, hps, p1, p2⟩ := hp k hk
      obtain ⟨z, z1, z2, -, z4⟩ := c34_mul_poly h pr c1 p1 s
      refine ⟨phase s [f0 * r k, f1 * r k], fun x hx => ?_⟩
      obtain ⟨hx1, hx2⟩ := List.getElem?_zip_eq_some.mp hx
      rw [hct] at hx1
      rw [hps] at hx2
      have e1 := Option.some.inj hx1
      have e2 := Option.some.inj hx2
      rw [← e1, ← e2]
      exact ⟨z4 _ _ _ c2 p2, z, _, _, z1, z2, Evaluation.cong_refl _⟩
    · refine ⟨0, fun x hx => ?_⟩
      have := (List.getElem?_eq_some_iff.mp hx).1
      omega
  choose φ hφ using hex
  obtain ⟨ct, r0, r1, h1, h2, h3⟩ := sumProducts_ok h pr s (xs := cts.zip ps) (by
    intro h0; rw [h0] at hzl; simp at hzl; omega) (fun k x hx => (hφ k x hx).2)
  refine ⟨ct, h1, r0, r1, h2, BfvP.Encodes.congr ?_ h3⟩
  rw [hzl]
  have := BfvP.Encodes.sum hN fd (m := fun k => bit N k i * r k) (phi := φ) fun k hk =>
    (hφ k _ (List.getElem?_eq_getElem (by omega))).1
  rwa [sum_bit hi] at this

theorem product_ok (h : IsParams N t l variance P) (pr : Profile) {s m : Rg N} {B0 B1 : ℤ} {g : RgswCt}
    (hg : IsRgsw P l 0 s m B0 B1 g) {ct : BfvCipherText} {f0 f1 : Rg N} (hct : IsCt P 0 [f0, f1] ct) :
    ∃ ct', ∃ r0 r1 E : Rg N, product pr P g ct = .ok ct' ∧ IsCt P 0 [r0, r1] ct' ∧
      Bdd (switchNoise N l 0 * (B0 + B1)) E ∧ Cong (levelQ l 0) (phase s [r0, r1]) (m * phase s [f0, f1] + E) := by
  obtain ⟨p0, p1, r0, r1, E, y1, y2, y3, y4, -⟩ := c39_external_product h pr hg hct
  refine ⟨_, r0, r1, E, ?_, y2, y3, y4⟩
  unfold product
  rw [y1, res_ok_bind]

/-- One chunk of a further dimension. -/
theorem nextChunk_ok (h : IsParams N t l variance P) (pr : Profile) {s : Rg N} {dim i : Nat} (hi : i < dim) {V B0 B1 : ℤ}
    {gs : List RgswCt} (hg : ∀ k, k < dim → ∃ g, gs[k]? = some g ∧ IsRgsw P l 0 s (bit N k i) B0 B1 g) {cts : List BfvCipherText}
    (hlen : cts.length = dim) {m : Nat → Rg N} (hc : ∀ k, k < dim → ∃ ct, cts[k]? = some ct ∧ CtEncodes P l t s (m k) V ct) :
    ∃ ct, sumProducts pr P (fun (x : RgswCt × BfvCipherText) => product pr P x.1 x.2) (gs.zip cts) = .ok ct ∧
      CtEncodes P l t s (m i) (V + t * (dim * (switchNoise N l 0 * (B0 + B1)))) ct := by
  have hN : 0 < N := by
    obtain ⟨K, ext, rfl, -⟩ := BfvP.params h
    positivity
  have hgl : dim ≤ gs.length := by
    obtain ⟨g, hg', -⟩ := hg (dim - 1) (by omega)
    have := (List.getElem?_eq_some_iff.mp hg').1
    omega
  have hzl : (gs.zip cts).length = dim := by rw [List.length_zip, hlen]; omega
  have hex : ∀ k, ∃ φ E : Rg N, ∀ x, (gs.zip cts)[k]? = some x → Encodes t (levelQ l 0) (m k) φ V ∧
      Bdd (switchNoise N l 0 * (B0 + B1)) E ∧
      ∃ ct, ∃ r0 r1 : Rg N, product pr P x.1 x.2 = .ok ct ∧ IsCt P 0 [r0, r1] ct ∧ Cong (levelQ l 0) (phase s [r0, r1]) (bit N k i * φ + E) := by
    intro k
    by_cases hk : k < dim
    · obtain ⟨ct, hct, f0, f1, c1, c2⟩ := hc k hk
      obtain ⟨g, hgs, hgr⟩ := hg k hk
      obtain ⟨z, r0, r1, E, z1, z2, z3, z4⟩ := product_ok h pr hgr c1
      refine ⟨phase s [f0, f1], E, fun x hx => ?_⟩
      obtain ⟨hx1, hx2⟩ := List.getElem?_zip_eq_some.mp hx
      rw [hgs] at hx1
      rw [hct] at hx2
      have e1 := Option.some.inj hx1
      have e2 := Option.some.inj hx2
      rw [← e1, ← e2]
      exact ⟨c2, z3, z, r0, r1, z1, z2, z4⟩
    · refine ⟨0, 0, fun x hx => ?_⟩
      have := (List.getElem?_eq_some_iff.mp hx).1
      omega
  choose φ E hφ using hex
  obtain ⟨ct, r0, r1, h1, h2, h3⟩ := sumProducts_ok h pr s (xs := gs.zip cts) (by
    intro h0; rw [h0] at hzl; simp at hzl; omega) (fun k x hx => (hφ k x hx).2.2)
  refine ⟨ct, h1, r0, r1, h2, BfvP.Encodes.congr ?_ h3⟩
  rw [hzl, Finset.sum_add_distrib, sum_bit hi]
  have hE := Bdd.sum hN (Finset.range dim) (A := fun _ => switchNoise N l 0 * (B0 + B1)) (f := E) fun k hk =>
    (hφ k _ (List.getElem?_eq_getElem (by rw [hzl]; exact Finset.mem_range.mp hk))).2.1
  rw [Finset.sum_const, Finset.card_range, nsmul_eq_mul] at hE
  exact BfvP.Encodes.addError hN (hφ i _ (List.getElem?_eq_getElem (by omega))).1 hE

theorem mapR_range {α : Type} {f : Nat → Res α} {n : Nat} {p : Nat → α → Prop} (hf : ∀ k, k < n → ∃ a, f k = .ok a ∧ p k a) :
    ∃ as, mapR f (List.range n) = .ok as ∧ as.length = n ∧ ∀ k, k < n → ∃ a, as[k]? = some a ∧ p k a := by
  induction n with
  | zero => exact ⟨[], rfl, rfl, fun k hk => absurd hk (Nat.not_lt_zero _)⟩
  | succ n ih =>
    obtain ⟨as, h1, h2, h3⟩ := ih (fun k hk => hf k (by omega))
    obtain ⟨a, q1, q2⟩ := hf n (by omega)
    refine ⟨as ++ [a], ?_, by simp [h2], fun k hk => ?_⟩
    · rw [List.range_succ]
      exact mapR_append_ok h1 q1
    · rcases Nat.lt_succ_iff_lt_or_eq.mp hk with hk | rfl
      · rw [List.getElem?_append_left (by omega)]; exact h3 k hk
      · rw [List.getElem?_append_right (by omega)]; exact ⟨a, by simp [h2], q2⟩

theorem mapR_list {α β : Type} {f : α → Res β} {xs : List α} {p : Nat → β → Prop}
    (hf : ∀ k x, xs[k]? = some x → ∃ a, f x = .ok a ∧ p k a) :
    ∃ as, mapR f xs = .ok as ∧ as.length = xs.length ∧ ∀ k, k < xs.length → ∃ a, as[k]? = some a ∧ p k a := by
  induction xs using List.reverseRecOn with
  | nil => exact ⟨[], rfl, rfl, fun k hk => absurd hk (Nat.not_lt_zero _)⟩
  | append_singleton xs x ih =>
    obtain ⟨as, h1, h2, h3⟩ := ih (fun k y hk => hf k y (by
      rw [List.getElem?_append_left (List.getElem?_eq_some_iff.mp hk).1]; exact hk))
    obtain ⟨a, q1, q2⟩ := hf xs.length x (by rw [List.getElem?_append_right (by omega)]; simp)
    refine ⟨as ++ [a], mapR_append_ok h1 q1, by simp [h2], fun k hk => ?_⟩
    rw [List.length_append, List.length_singleton] at hk
    rcases Nat.lt_succ_iff_lt_or_eq.mp hk with hk | rfl
    · rw [List.getElem?_append_left (by omega)]; exact h3 k hk
    · rw [List.getElem?_append_right (by omega)]; exact ⟨a, by simp [h2], q2⟩

theorem mapR_map {α β γ : Type} (f : β → Res γ) (g : α → β) (as : List α) : mapR f (as.map g) = mapR (fun a => f (g a)) as := by
  induction as with
  | nil => rfl
  | cons a as ih => rw [List.map_cons, mapR, mapR, ih]

theorem firstDimension_ok (h : IsParams N t l variance P) (pr : Profile) {s : Rg N} {fd i n : Nat} (hi : i < fd) {V T : ℤ}
    {cts : List BfvCipherText} (hc : ∀ k, k < fd → ∃ ct, cts[k]? = some ct ∧ CtEncodes P l t s (bit N k i) V ct) {rows : List Poly}
    (hlen : rows.length = fd * n) {r : Nat → Rg N} (hp : ∀ k, k < fd * n → ∃ p, rows[k]? = some p ∧ PolyAt P 0 (r k) p ∧ Bdd T (r k)) :
    ∃ db, firstDimension pr P fd cts rows = .ok db ∧ db.length = n ∧
      ∀ c, c < n → ∃ ct, db[c]? = some ct ∧ CtEncodes P l t s (r (i + fd * c)) (fd * (N * V * T)) ct := by
  unfold firstDimension
  rw [chunksR_ok (by omega) hlen, res_ok_bind, mapR_map]
  refine mapR_range fun c hc' => ?_
  have hle : fd * (c + 1) ≤ fd * n := Nat.mul_le_mul_left _ hc'
  obtain ⟨ct, h1, h2⟩ := firstChunk_ok h pr hi hc (chunk_length hlen hc') (r := fun k => r (c * fd + k)) (T := T) (fun k hk => by
    obtain ⟨p, p1, p2⟩ := hp (c * fd + k) (by rw [Nat.mul_succ, Nat.mul_comm fd c] at hle; omega)
    exact ⟨p, by rw [chunk_get _ _ hk, p1], p2⟩)
  refine ⟨ct, h1, ?_⟩
  rw [Nat.mul_comm fd c, Nat.add_comm]
  exact h2

theorem nextDimension_ok (h : IsParams N t l variance P) (pr : Profile) {s : Rg N} {dim i n : Nat} (hi : i < dim) {V B0 B1 : ℤ}
    {gs : List RgswCt} (hg : ∀ k, k < dim → ∃ g, gs[k]? = some g ∧ IsRgsw P l 0 s (bit N k i) B0 B1 g) {db : List BfvCipherText}
    (hlen : db.length = dim * n) {m : Nat → Rg N} (hc : ∀ k, k < dim * n → ∃ ct, db[k]? = some ct ∧ CtEncodes P l t s (m k) V ct) :
    ∃ db', nextDimension pr P dim db gs = .ok db' ∧ db'.length = n ∧
      ∀ c, c < n → ∃ ct, db'[c]? = some ct ∧
        CtEncodes P l t s (m (i + dim * c)) (V + t * (dim * (switchNoise N l 0 * (B0 + B1)))) ct := by
  unfold nextDimension
  rw [chunksR_ok (by omega) hlen, res_ok_bind, mapR_map]
  refine mapR_range fun c hc' => ?_
  have hle : dim * (c + 1) ≤ dim * n := Nat.mul_le_mul_left _ hc'
  obtain ⟨ct, h1, h2⟩ := nextChunk_ok h pr hi hg (chunk_length hlen hc') (m := fun k => m (c * dim + k)) (V := V) (fun k hk => by
    obtain ⟨p, p1, p2⟩ := hc (c * dim + k) (by rw [Nat.mul_succ, Nat.mul_comm dim c] at hle; omega)
    exact ⟨p, by rw [chunk_get _ _ hk, p1], p2⟩)
  refine ⟨ct, h1, ?_⟩
  rw [Nat.mul_comm dim c, Nat.add_comm]
  exact h2

theorem dimensions_ok (h : IsParams N t l variance P) (pr : Profile) {s : Rg N} {dim : Nat} {B0 B1 : ℤ} (is : List Nat)
    (hi : ∀ i ∈ is, i < dim) {gss : List (List RgswCt)} (hgl : gss.length = is.length)
    (hg : ∀ d, d < is.length → ∃ gs, gss[d]? = some gs ∧ ∀ k, k < dim → ∃ g, gs[k]? = some g ∧
      IsRgsw P l 0 s (bit N k (is.getD d 0)) B0 B1 g) {V : ℤ} {db : List BfvCipherText} (hlen : db.length = dim ^ is.length) {m : Nat → Rg N}
    (hc : ∀ k, k < dim ^ is.length → ∃ ct, db[k]? = some ct ∧ CtEncodes P l t s (m k) V ct) :
    ∃ ct, foldR (nextDimension pr P dim) db gss = .ok [ct] ∧
      CtEncodes P l t s (m (address dim is)) (V + is.length * (t * (dim * (switchNoise N l 0 * (B0 + B1))))) ct := by
  induction is generalizing gss db m V with
  | nil =>
    have : gss = [] := List.length_eq_zero_iff.mp hgl
    subst this
    obtain ⟨ct, h1, h2⟩ := hc 0 (by simp)
    have hdb : db = [ct] := by
      obtain ⟨a, rfl⟩ := List.length_eq_one_iff.mp (by simpa using hlen)
      simpa using h1
    exact ⟨ct, by rw [foldR_nil, hdb], by simpa [address] using h2⟩
  | cons i is ih =>
    cases gss with
    | nil => simp at hgl
    | cons gs gss =>
      obtain ⟨gs', e1, e2⟩ := hg 0 (by simp)
      have : gs = gs' := by simpa using e1
      subst this
      rw [List.length_cons, pow_succ'] at hlen hc
      obtain ⟨db', d1, d2, d3⟩ := nextDimension_ok h pr (hi i (by simp)) e2 hlen hc
      obtain ⟨ct, c1, c2⟩ := ih (fun j hj => hi j (by simp [hj])) (by simpa using hgl) (fun d hd => by
        have := hg (d + 1) (by simpa using hd)
        simpa using this) d2 (m := fun c => m (i + dim * c)) d3
      refine ⟨ct, by rw [foldR_cons, d1, res_ok_bind, c1], ?_⟩
      rw [address, List.length_cons, Nat.cast_succ, add_mul, one_mul, add_comm ((is.length : ℤ) * _), ← add_assoc]
      exact c2

/-- The `i`-th assembled selector. -/
theorem selectorRgsw_ok (h : IsParams N t l variance P) (pr : Profile) {s b : Rg N} {B B0 B1 S : ℤ} {gs : RgswCt}
    (hg : IsRgsw P l 0 s s B0 B1 gs) (hS : Bdd S s) {vals : List (List BfvCipherText)} (hlen : vals.length = l.length) {i : Nat}
    (hv : ∀ j v, vals[j]? = some v → ∃ ct, ∃ f0 f1 : Rg N, v[i]? = some ct ∧ IsCt P 0 [f0, f1] ct ∧ RlweGarner l 0 j s b B f0 f1) :
    ∃ g, selectorRgsw pr P gs vals i = .ok g ∧ IsRgsw P l 0 s b (N * B * S + switchNoise N l 0 * (B0 + B1)) B g := by
  obtain ⟨lower, h1, h2, h3⟩ := mapR_list (f := fun v : List BfvCipherText => idx v i) (xs := vals)
    (p := fun j ct => ∃ f0 f1 : Rg N, IsCt P 0 [f0, f1] ct ∧ RlweGarner l 0 j s b B f0 f1) (fun j v hj => by
      obtain ⟨ct, f0, f1, c1, c2⟩ := hv j v hj
      exact ⟨ct, idx_of c1, f0, f1, c2⟩)
  obtain ⟨ups, k0, k1, u1, u2, u3, u4⟩ := c40_assembled_rgsw h pr hg hS (h2.trans hlen) (b := b) (B := B) (fun j ct hj => by
    obtain ⟨ct', e1, e2⟩ := h3 j (by rw [← h2]; exact (List.getElem?_eq_some_iff.mp hj).1)
    have : ct = ct' := Option.some.inj (hj.symm.trans e1)
    rw [this]
    exact e2)
  refine ⟨_, ?_, u4⟩
  unfold selectorRgsw
  have hup : mapR (product pr P gs) lower = .ok ups := u1
  rw [h1, res_ok_bind, hup, res_ok_bind, u3, res_ok_bind, u2, res_ok_bind]

/-- Coefficients of a phase that holds a Garner multiple of `M`. -/
theorem rlwe_coeff (hN : 0 < N) {j k : Nat} (hk : k < N) {s M f0 f1 g0 g1 E : Rg N} {B B' : ℤ} (h : RlweGarner l 0 j s M B f0 f1)
    (hE : Bdd B' E) (hc : Cong (levelQ l 0) (phase s [g0, g1]) (((cf (phase s [f0, f1]) k : ℤ) : Rg N) + E)) :
    RlweGarner l 0 j s ((cf M k : ℤ) : Rg N) (B + B') g0 g1 := by
  obtain ⟨g, hg, e, he, w, hw⟩ := h
  refine ⟨g, hg, ((cf e k : ℤ) : Rg N) + E, Bdd.add hN (fun i _ => ?_) hE, ?_⟩
  · rw [cf_int hN]
    split_ifs
    · exact he k hk
    · rw [abs_zero]; exact he.nonneg hN
  · rw [BfvP.phase_two] at hc
    refine Evaluation.cong_trans hc ?_
    refine ⟨((cf w k : ℤ) : Rg N), ?_⟩
    have h1 := congrArg (fun f => cf f k) hw
    simp only [mul_comm M, cf_sub hN, cf_add hN (((g : ℤ) : Rg N) * M), cf_int_mul hN] at h1
    rw [← BfvP.phase_two] at h1
    have h2 := congrArg (fun z : ℤ => (z : Rg N)) h1
    push_cast at h2 ⊢
    linear_combination h2

end Server
end OnionPIR
