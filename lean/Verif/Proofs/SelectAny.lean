import Verif.Proofs.Select
/- The folding loops of `Server::decode` for a database of any size. -/
namespace OnionPIR
open Rg Spec

/-- `n` is `len / size`, rounded up. -/
def CeilDiv (len size n : Nat) : Prop := len ≤ size * n ∧ size * n < len + size

theorem CeilDiv.comp {len a b n m : Nat} (ha : 0 < a) (h1 : CeilDiv len a n) (h2 : CeilDiv n b m) : CeilDiv len (a * b) m := by
  obtain ⟨x1, x2⟩ := h1
  obtain ⟨y1, y2⟩ := h2
  constructor
  · calc len ≤ a * n := x1
      _ ≤ a * (b * m) := Nat.mul_le_mul_left _ y1
      _ = a * b * m := by ring
  · have : a * (b * m + 1) ≤ a * (n + b) := Nat.mul_le_mul_left _ y2
    have e1 : a * (b * m + 1) = a * b * m + a := by ring
    have e2 : a * (n + b) = a * n + a * b := by ring
    omega

theorem CeilDiv.eq {len size n : Nat} (h : CeilDiv len size n) : n = (len + size - 1) / size := by
  obtain ⟨h1, h2⟩ := h
  have hs : 0 < size := by
    rcases Nat.eq_zero_or_pos size with rfl | h
    · omega
    · exact h
  symm
  rw [Nat.div_eq_iff hs]
  rw [Nat.mul_comm] at h1 h2
  constructor
  · omega
  · omega

theorem CeilDiv.exists (len : Nat) {size : Nat} (hs : 0 < size) : ∃ n, CeilDiv len size n := by
  refine ⟨(len + size - 1) / size, ?_, ?_⟩
  · have := Nat.lt_div_mul_add hs (a := len + size - 1)
    rw [Nat.mul_comm]; omega
  · have := Nat.div_mul_le_self (len + size - 1) size
    rw [Nat.mul_comm]; omega

theorem chunksAux_any {α : Type} {size : Nat} (hs : 0 < size) {m : Nat} : ∀ {fuel : Nat} {l : List α}, m ≤ fuel → CeilDiv l.length size m →
    chunksAux size fuel l = (List.range m).map fun c => (l.drop (c * size)).take size := by
  induction m with
  | zero =>
    intro fuel l _ hl
    have : l = [] := List.length_eq_zero_iff.mp (by have := hl.1; omega)
    subst this
    cases fuel <;> rfl
  | succ m ih =>
    intro fuel l hf hl
    obtain ⟨fuel, rfl⟩ : ∃ n, fuel = n + 1 := ⟨fuel - 1, by omega⟩
    obtain ⟨h1, h2⟩ := hl
    rw [Nat.mul_succ] at h1 h2
    have hpos : 0 < l.length := by omega
    obtain ⟨a, as, rfl⟩ : ∃ a as, l = a :: as := by
      cases l with
      | nil => simp at hpos
      | cons a as => exact ⟨a, as, rfl⟩
    rw [chunksAux, ih (by omega) (by constructor <;> rw [List.length_drop] <;> omega), List.range_succ_eq_map, List.map_cons, List.map_map]
    · simp only [Nat.zero_mul, List.drop_zero, List.drop_drop]
      congr 1
      apply List.map_congr_left
      intro c _
      simp only [Function.comp_apply, Nat.succ_eq_add_one, Nat.add_mul, Nat.one_mul, Nat.add_comm]
    · intro h; cases h

theorem chunksR_any {α : Type} {size : Nat} (hs : 0 < size) {m : Nat} {l : List α} (hl : CeilDiv l.length size m) :
    chunksR size l = .ok ((List.range m).map fun c => (l.drop (c * size)).take size) := by
  unfold chunksR
  rw [rassert_ok (by omega), res_ok_bind, chunksAux_any hs ?_ hl]
  obtain ⟨h1, h2⟩ := hl
  by_contra hc
  have : size * (l.length + 1) ≤ size * m := Nat.mul_le_mul_left _ (by omega)
  have : 1 * l.length ≤ size * l.length := Nat.mul_le_mul_right _ hs
  rw [Nat.mul_succ] at *
  omega

theorem chunk_len_any {α : Type} {size m : Nat} {l : List α} (hl : CeilDiv l.length size m) {c : Nat} (hc : c < m) :
    0 < ((l.drop (c * size)).take size).length ∧ ((l.drop (c * size)).take size).length ≤ size ∧
      ∀ k, k < size → (c * size + k < l.length ↔ k < ((l.drop (c * size)).take size).length) := by
  obtain ⟨h1, h2⟩ := hl
  have : size * (c + 1) ≤ size * m := Nat.mul_le_mul_left _ hc
  rw [Nat.mul_succ, Nat.mul_comm size c] at this
  rw [List.length_take, List.length_drop]
  refine ⟨by omega, by omega, fun k hk => by omega⟩

/-- A selected sum over the first `n` positions, all later terms being zero. -/
theorem sum_bit_any {N n i : Nat} {f : Nat → Rg N} (hf : n ≤ i → f i = 0) : (∑ k ∈ Finset.range n, bit N k i * f k) = f i := by
  by_cases hi : i < n
  · exact sum_bit hi f
  · rw [hf (by omega)]
    refine Finset.sum_eq_zero fun k hk => ?_
    have := Finset.mem_range.mp hk
    rw [bit, if_neg (by omega), zero_mul]

namespace Server

variable {N t : Nat} {l : List Nat} {variance : Nat} {P : BfvParameters}

theorem firstChunk_any (h : IsParams N t l variance P) (pr : Profile) {s : Rg N} {fd i : Nat} (hi : i < fd) {V T : ℤ}
    {cts : List BfvCipherText} (hc : ∀ k, k < fd → ∃ ct, cts[k]? = some ct ∧ CtEncodes P l t s (bit N k i) V ct) {ps : List Poly}
    (hpos : 0 < ps.length) (hlen : ps.length ≤ fd) {r : Nat → Rg N}
    (hp : ∀ k, k < ps.length → ∃ p, ps[k]? = some p ∧ PolyAt P 0 (r k) p ∧ Bdd T (r k)) (hr : ps.length ≤ i → r i = 0) :
    ∃ ct, sumProducts pr P (fun (x : BfvCipherText × Poly) => x.1.mulPoly pr x.2) (cts.zip ps) = .ok ct ∧
      CtEncodes P l t s (r i) (fd * (N * V * T)) ct := by
  have hN : 0 < N := by
    obtain ⟨K, ext, rfl, -⟩ := BfvP.params h
    positivity
  have hcl : fd ≤ cts.length := by
    obtain ⟨ct, hct, -⟩ := hc (fd - 1) (by omega)
    have := (List.getElem?_eq_some_iff.mp hct).1
    omega
  have hzl : (cts.zip ps).length = ps.length := by rw [List.length_zip]; omega
  have hex : ∀ k, ∃ φ : Rg N, ∀ x, (cts.zip ps)[k]? = some x → Encodes t (levelQ l 0) (bit N k i * r k) φ (N * V * T) ∧
      ∃ ct, ∃ r0 r1 : Rg N, x.1.mulPoly pr x.2 = .ok ct ∧ IsCt P 0 [r0, r1] ct ∧ Cong (levelQ l 0) (phase s [r0, r1]) φ := by
    intro k
    by_cases hk : k < ps.length
    · obtain ⟨ct, hct, f0, f1, c1, c2⟩ := hc k (by omega)
      obtain ⟨p, hps, p1, p2⟩ := hp k hk
      obtain ⟨z, z1, z2, -, z4⟩ := c34_mul_poly h pr c1 p1 s
      refine ⟨phase s [f0 * r k, f1 * r k], fun x hx => ?_⟩
      obtain ⟨hx1, hx2⟩ := List.getElem?_zip_eq_some.mp hx
      rw [hct] at hx1
      rw [hps] at hx2
      have e1 := Option.some.inj hx1
      have e2 := Option.some.inj hx2
      rw [← e1, ← e2]
      exact ⟨z4 _ _ _ c2 p2, z, _, _, z1, z2, Evaluation.cong_refl _⟩
    · refine ⟨0, fun x hx => ?_⟩
      have := (List.getElem?_eq_some_iff.mp hx).1
      omega
  choose φ hφ using hex
  obtain ⟨ct, r0, r1, h1, h2, h3⟩ := sumProducts_ok h pr s (xs := cts.zip ps) (by
    intro h0; rw [h0] at hzl; simp at hzl; omega) (fun k x hx => (hφ k x hx).2)
  refine ⟨ct, h1, r0, r1, h2, BfvP.Encodes.congr ?_ h3⟩
  rw [hzl]
  have hall : ∀ k, k < ps.length → Encodes t (levelQ l 0) (bit N k i * r k) (φ k) (N * V * T) := fun k hk =>
    (hφ k _ (List.getElem?_eq_getElem (by omega))).1
  have := BfvP.Encodes.sum hN ps.length (m := fun k => bit N k i * r k) (phi := φ) hall
  rw [sum_bit_any hr] at this
  refine BfvP.Encodes.mono this (mul_le_mul_of_nonneg_right (by exact_mod_cast hlen) ?_)
  obtain ⟨v, w, hv, -⟩ := hall 0 hpos
  exact hv.nonneg hN

theorem nextChunk_any (h : IsParams N t l variance P) (pr : Profile) {s : Rg N} {dim i : Nat} (hi : i < dim) {V B0 B1 : ℤ}
    {gs : List RgswCt} (hg : ∀ k, k < dim → ∃ g, gs[k]? = some g ∧ IsRgsw P l 0 s (bit N k i) B0 B1 g) {cts : List BfvCipherText}
    (hpos : 0 < cts.length) (hlen : cts.length ≤ dim) {m : Nat → Rg N}
    (hc : ∀ k, k < cts.length → ∃ ct, cts[k]? = some ct ∧ CtEncodes P l t s (m k) V ct) (hm : cts.length ≤ i → m i = 0) :
    ∃ ct, sumProducts pr P (fun (x : RgswCt × BfvCipherText) => product pr P x.1 x.2) (gs.zip cts) = .ok ct ∧
      CtEncodes P l t s (m i) (V + t * (dim * (switchNoise N l 0 * (B0 + B1)))) ct := by
  have hN : 0 < N := by
    obtain ⟨K, ext, rfl, -⟩ := BfvP.params h
    positivity
  have hgl : dim ≤ gs.length := by
    obtain ⟨g, hg', -⟩ := hg (dim - 1) (by omega)
    have := (List.getElem?_eq_some_iff.mp hg').1
    omega
  have hzl : (gs.zip cts).length = cts.length := by rw [List.length_zip]; omega
  have hex : ∀ k, ∃ φ E : Rg N, (cts.length ≤ k → φ = 0) ∧ ∀ x, (gs.zip cts)[k]? = some x → Encodes t (levelQ l 0) (m k) φ V ∧
      Bdd (switchNoise N l 0 * (B0 + B1)) E ∧
      ∃ ct, ∃ r0 r1 : Rg N, product pr P x.1 x.2 = .ok ct ∧ IsCt P 0 [r0, r1] ct ∧ Cong (levelQ l 0) (phase s [r0, r1]) (bit N k i * φ + E) := by
    intro k
    by_cases hk : k < cts.length
    · obtain ⟨ct, hct, f0, f1, c1, c2⟩ := hc k hk
      obtain ⟨g, hgs, hgr⟩ := hg k (by omega)
      obtain ⟨z, r0, r1, E, z1, z2, z3, z4⟩ := product_ok h pr hgr c1
      refine ⟨phase s [f0, f1], E, fun h => by omega, fun x hx => ?_⟩
      obtain ⟨hx1, hx2⟩ := List.getElem?_zip_eq_some.mp hx
      rw [hgs] at hx1
      rw [hct] at hx2
      have e1 := Option.some.inj hx1
      have e2 := Option.some.inj hx2
      rw [← e1, ← e2]
      exact ⟨c2, z3, z, r0, r1, z1, z2, z4⟩
    · refine ⟨0, 0, fun _ => rfl, fun x hx => ?_⟩
      have := (List.getElem?_eq_some_iff.mp hx).1
      omega
  choose φ E hφ0 hφ using hex
  obtain ⟨ct, r0, r1, h1, h2, h3⟩ := sumProducts_ok h pr s (xs := gs.zip cts) (by
    intro h0; rw [h0] at hzl; simp at hzl; omega) (fun k x hx => (hφ k x hx).2.2)
  refine ⟨ct, h1, r0, r1, h2, BfvP.Encodes.congr ?_ h3⟩
  rw [hzl, Finset.sum_add_distrib, sum_bit_any (hφ0 i)]
  have hE := Bdd.sum hN (Finset.range cts.length) (A := fun _ => switchNoise N l 0 * (B0 + B1)) (f := E) fun k hk =>
    (hφ k _ (List.getElem?_eq_getElem (by rw [hzl]; exact Finset.mem_range.mp hk))).2.1
  have h0 := hφ 0 _ (List.getElem?_eq_getElem (by omega))
  rw [Finset.sum_const, Finset.card_range, nsmul_eq_mul] at hE
  refine BfvP.Encodes.addError hN ?_ (hE.mono (mul_le_mul_of_nonneg_right (by exact_mod_cast hlen) (h0.2.1.nonneg hN)))
  by_cases hil : i < cts.length
  · exact (hφ i _ (List.getElem?_eq_getElem (by omega))).1
  · obtain ⟨v, w, hv, -⟩ := h0.1
    rw [hφ0 i (by omega), hm (by omega)]
    exact ⟨0, 0, (Bdd.zero hN).mono (hv.nonneg hN), by simp⟩

theorem firstDimension_any (h : IsParams N t l variance P) (pr : Profile) {s : Rg N} {fd i n : Nat} (hi : i < fd) {V T : ℤ}
    {cts : List BfvCipherText} (hc : ∀ k, k < fd → ∃ ct, cts[k]? = some ct ∧ CtEncodes P l t s (bit N k i) V ct) {rows : List Poly}
    (hlen : CeilDiv rows.length fd n) {r : Nat → Rg N}
    (hp : ∀ k, k < rows.length → ∃ p, rows[k]? = some p ∧ PolyAt P 0 (r k) p ∧ Bdd T (r k)) (hr : ∀ k, rows.length ≤ k → r k = 0) :
    ∃ db, firstDimension pr P fd cts rows = .ok db ∧ db.length = n ∧
      ∀ c, c < n → ∃ ct, db[c]? = some ct ∧ CtEncodes P l t s (r (i + fd * c)) (fd * (N * V * T)) ct := by
  unfold firstDimension
  rw [chunksR_any (by omega) hlen, res_ok_bind, mapR_map]
  refine mapR_range fun c hc' => ?_
  obtain ⟨l1, l2, l3⟩ := chunk_len_any hlen hc'
  obtain ⟨ct, h1, h2⟩ := firstChunk_any h pr hi hc l1 l2 (r := fun k => r (c * fd + k)) (T := T) (fun k hk => by
    obtain ⟨p, p1, p2⟩ := hp (c * fd + k) ((l3 k (by omega)).mpr hk)
    exact ⟨p, by rw [chunk_get _ _ (by omega), p1], p2⟩) (fun hle => hr _ (by have := l3 i hi; omega))
  refine ⟨ct, h1, ?_⟩
  rw [Nat.mul_comm fd c, Nat.add_comm]
  exact h2

theorem nextDimension_any (h : IsParams N t l variance P) (pr : Profile) {s : Rg N} {dim i n : Nat} (hi : i < dim) {V B0 B1 : ℤ}
    {gs : List RgswCt} (hg : ∀ k, k < dim → ∃ g, gs[k]? = some g ∧ IsRgsw P l 0 s (bit N k i) B0 B1 g) {db : List BfvCipherText}
    (hlen : CeilDiv db.length dim n) {m : Nat → Rg N} (hc : ∀ k, k < db.length → ∃ ct, db[k]? = some ct ∧ CtEncodes P l t s (m k) V ct)
    (hm : ∀ k, db.length ≤ k → m k = 0) :
    ∃ db', nextDimension pr P dim db gs = .ok db' ∧ db'.length = n ∧
      ∀ c, c < n → ∃ ct, db'[c]? = some ct ∧
        CtEncodes P l t s (m (i + dim * c)) (V + t * (dim * (switchNoise N l 0 * (B0 + B1)))) ct := by
  unfold nextDimension
  rw [chunksR_any (by omega) hlen, res_ok_bind, mapR_map]
  refine mapR_range fun c hc' => ?_
  obtain ⟨l1, l2, l3⟩ := chunk_len_any hlen hc'
  obtain ⟨ct, h1, h2⟩ := nextChunk_any h pr hi hg l1 l2 (m := fun k => m (c * dim + k)) (V := V) (fun k hk => by
    obtain ⟨p, p1, p2⟩ := hc (c * dim + k) ((l3 k (by omega)).mpr hk)
    exact ⟨p, by rw [chunk_get _ _ (by omega), p1], p2⟩) (fun hle => hm _ (by have := l3 i hi; omega))
  refine ⟨ct, h1, ?_⟩
  rw [Nat.mul_comm dim c, Nat.add_comm]
  exact h2

theorem dimensions_any (h : IsParams N t l variance P) (pr : Profile) {s : Rg N} {dim : Nat} (hd : 0 < dim) {B0 B1 : ℤ} (is : List Nat)
    (hi : ∀ i ∈ is, i < dim) {gss : List (List RgswCt)} (hgl : gss.length = is.length)
    (hg : ∀ d, d < is.length → ∃ gs, gss[d]? = some gs ∧ ∀ k, k < dim → ∃ g, gs[k]? = some g ∧
      IsRgsw P l 0 s (bit N k (is.getD d 0)) B0 B1 g) {V : ℤ} {db : List BfvCipherText} {m : Nat → Rg N}
    (hc : ∀ k, k < db.length → ∃ ct, db[k]? = some ct ∧ CtEncodes P l t s (m k) V ct) (hm : ∀ k, db.length ≤ k → m k = 0) :
    ∃ out, foldR (nextDimension pr P dim) db gss = .ok out ∧ CeilDiv db.length (dim ^ is.length) out.length ∧
      ∀ j, j < out.length → ∃ ct, out[j]? = some ct ∧
        CtEncodes P l t s (m (address dim is + dim ^ is.length * j)) (V + is.length * (t * (dim * (switchNoise N l 0 * (B0 + B1))))) ct := by
  induction is generalizing gss db m V with
  | nil =>
    have : gss = [] := List.length_eq_zero_iff.mp hgl
    subst this
    refine ⟨db, foldR_nil .., ⟨by simp, by simp⟩, fun j hj => ?_⟩
    obtain ⟨ct, h1, h2⟩ := hc j hj
    exact ⟨ct, h1, by simpa [address] using h2⟩
  | cons i is ih =>
    cases gss with
    | nil => simp at hgl
    | cons gs gss =>
      obtain ⟨gs', e1, e2⟩ := hg 0 (by simp)
      have : gs = gs' := by simpa using e1
      subst this
      obtain ⟨n, hn⟩ := CeilDiv.exists db.length hd
      obtain ⟨db', d1, d2, d3⟩ := nextDimension_any h pr (hi i (by simp)) e2 hn hc hm
      subst d2
      obtain ⟨out, c1, c2, c3⟩ := ih (fun j hj => hi j (by simp [hj])) (by simpa using hgl) (fun d hd => by
        have := hg (d + 1) (by simpa using hd)
        simpa using this) (m := fun c => m (i + dim * c)) d3 (fun k hk => hm _ (by
          have := Nat.mul_le_mul_left dim hk
          have := hn.1
          omega))
      refine ⟨out, by rw [foldR_cons, d1, res_ok_bind, c1], ?_, fun j hj => ?_⟩
      · rw [List.length_cons, pow_succ']
        exact CeilDiv.comp hd hn c2
      · obtain ⟨ct, x1, x2⟩ := c3 j hj
        refine ⟨ct, x1, ?_⟩
        rw [address, List.length_cons, Nat.cast_succ, add_mul, one_mul, add_comm ((is.length : ℤ) * _), ← add_assoc, pow_succ', Nat.mul_assoc,
          Nat.add_assoc, ← Nat.mul_add]
        exact x2

end Server
end OnionPIR
