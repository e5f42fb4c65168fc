import Verif.Proofs.Select
import Verif.Props.Pir
import Verif.Props.Unpack
/- Properties C43 (selection by the server) and C44 (answer of the server). -/
namespace OnionPIR
open Rg Spec

variable {N t : Nat} {l : List Nat} {variance : Nat} {P : BfvParameters}

/-! ### C43 -/

/-- C43: the server stores every row as a polynomial holding its values. -/
theorem c43_new (h : IsParams N t l variance P) (pr : Profile) (fd dim : Nat) {db : List Plaintext} (hdb : ∀ p ∈ db, p.values.length ≤ N)
    (hv : ∀ p ∈ db, ∀ a ∈ p.values, a < 2 ^ 64) :
    ∃ srv, Server.new pr fd dim db P = .ok srv ∧ srv.firstDim = fd ∧ srv.dim = dim ∧ srv.db = db ∧ srv.dbScaled.length = db.length ∧
      ∀ (k : Nat) (row : Plaintext), db[k]? = some row → ∃ p, srv.dbScaled[k]? = some p ∧ PolyAt P 0 (msgRing N row.values) p := by
  obtain ⟨K, -, hNK, -⟩ := BfvP.params h
  subst hNK
  obtain ⟨ext, L, hw, hL, -, hml, -⟩ := Evaluation.level_zero h
  have hrow : ∀ row ∈ db, Server.scaledRow pr P row = .ok (enc L.qCtx .ntt (msgRing (2 ^ K) row.values)) := by
    intro row hrow
    unfold Server.scaledRow
    rw [idx_of hL.q, res_ok_bind, Poly.tryFromVecU64_ok hL.wf.ctx pr (hdb row hrow) (hv row hrow), res_ok_bind, Poly.toNtt_enc hL.wf.ctx,
      BfvP.msgRing_eq]
  refine ⟨⟨fd, dim, db, db.map fun row => enc L.qCtx .ntt (msgRing (2 ^ K) row.values)⟩, ?_, rfl, rfl, rfl, by simp, fun k row hk => ?_⟩
  · unfold Server.new
    rw [mapR_ok hrow, res_ok_bind]
  · refine ⟨enc L.qCtx .ntt (msgRing (2 ^ K) row.values), by rw [List.getElem?_map, hk]; rfl, (BfvP.polyAt_iff hL _ _).mpr rfl⟩

/-- C43: with selectors for the coordinates `i0` and `is`, over a database of `first_dim · dim^(d-1)` rows with coefficients at most `T`,
the folding returns exactly one ciphertext, encoding the row `i0 + first_dim · (i1 + dim · (i2 + …))`. The selectors of the first dimension
are ciphertexts of the bits with noise `V`, the others are RGSW ciphertexts of the bits with errors `B0`, `B1`. -/
theorem c43_select (h : IsParams N t l variance P) (pr : Profile) {s : Rg N} (srv : Server) {i0 : Nat} {is : List Nat}
    (h0 : i0 < srv.firstDim) (his : ∀ i ∈ is, i < srv.dim) (hd : 0 < srv.dim) {V T B0 B1 : ℤ} {r : Nat → Rg N}
    (hlen : srv.dbScaled.length = srv.firstDim * srv.dim ^ is.length)
    (hrow : ∀ k, k < srv.dbScaled.length → ∃ p, srv.dbScaled[k]? = some p ∧ PolyAt P 0 (r k) p ∧ Bdd T (r k)) {cts : List BfvCipherText}
    (hc : ∀ k, k < srv.firstDim → ∃ ct, cts[k]? = some ct ∧ CtEncodes P l t s (bit N k i0) V ct) {rgsws : List RgswCt}
    (hgl : rgsws.length = srv.dim * is.length)
    (hg : ∀ d k, d < is.length → k < srv.dim → ∃ g, rgsws[d * srv.dim + k]? = some g ∧ IsRgsw P l 0 s (bit N k (is.getD d 0)) B0 B1 g) :
    ∃ ct, srv.select pr P cts rgsws = .ok [ct] ∧ CtEncodes P l t s (r (i0 + srv.firstDim * address srv.dim is))
      (srv.firstDim * (N * V * T) + is.length * (t * (srv.dim * (switchNoise N l 0 * (B0 + B1))))) ct := by
  rw [hlen] at hrow
  obtain ⟨db, d1, d2, d3⟩ := Server.firstDimension_ok h pr h0 hc hlen hrow
  obtain ⟨ct, c1, c2⟩ := Server.dimensions_ok h pr is his
    (gss := (List.range is.length).map fun c => (rgsws.drop (c * srv.dim)).take srv.dim) (by simp) (fun d hd' => by
      refine ⟨(rgsws.drop (d * srv.dim)).take srv.dim, by simp [hd'], fun k hk => ?_⟩
      obtain ⟨g, g1, g2⟩ := hg d k hd' hk
      exact ⟨g, by rw [chunk_get _ _ hk, g1], g2⟩) d2 (m := fun c => r (i0 + srv.firstDim * c)) d3
  refine ⟨ct, ?_, c2⟩
  unfold Server.select
  rw [chunksR_ok hd hgl, res_ok_bind, d1, res_ok_bind, c1]

/-! ### C44 -/

theorem Server.unpack_bits (h : IsParams N t l variance P) (pr : Profile) {s : Rg N} {B B0 B1 : ℤ} {ev : Evaluation}
    (hev : IsEval P l s B B0 B1 ev) {xPows : List Poly} (hx : IsMonomials N P xPows) {ct : BfvCipherText} {V : ℤ} {M : Rg N}
    (hct : CtEncodes P l t s M V ct) {n : Nat} (hn : n ≤ N) :
    ∃ u, ev.unpackWith pr xPows ct = .ok u ∧ n ≤ u.length ∧
      ∀ k, k < n → ∃ c, (u.take n)[k]? = some c ∧ CtEncodes P l t s ((cf M k : ℤ) : Rg N) (V + t * ((N - 1) * B)) c := by
  obtain ⟨f0, f1, c1, c2⟩ := hct
  obtain ⟨u, u1, u2, u3⟩ := c41_unpack_partial h pr hev hx c1
  refine ⟨u, u1, by omega, fun k hk => ?_⟩
  obtain ⟨c, g0, g1, E, e1, e2, -, -, e5⟩ := u3 k (by omega)
  exact ⟨c, by rw [List.getElem?_take_of_lt hk, e1], g0, g1, e2, e5 _ _ c2⟩

theorem Server.unpack_rlwe (h : IsParams N t l variance P) (pr : Profile) {s : Rg N} {B B0 B1 : ℤ} {ev : Evaluation}
    (hev : IsEval P l s B B0 B1 ev) {xPows : List Poly} (hx : IsMonomials N P xPows) {ct : BfvCipherText} {j : Nat} {B2 : ℤ} {M f0 f1 : Rg N}
    (hct : IsCt P 0 [f0, f1] ct) (hr : RlweGarner l 0 j s M B2 f0 f1) {n : Nat} (hn : n ≤ N) :
    ∃ u, ev.unpackWith pr xPows ct = .ok u ∧ n ≤ u.length ∧
      ∀ k, k < n → ∃ c, ∃ g0 g1 : Rg N, (u.take n)[k]? = some c ∧ IsCt P 0 [g0, g1] c ∧
        RlweGarner l 0 j s ((cf M k : ℤ) : Rg N) (B2 + (N - 1) * B) g0 g1 := by
  have hN : 0 < N := by
    obtain ⟨K, ext, rfl, -⟩ := BfvP.params h
    positivity
  obtain ⟨u, u1, u2, u3⟩ := c41_unpack_partial h pr hev hx hct
  refine ⟨u, u1, by omega, fun k hk => ?_⟩
  obtain ⟨c, g0, g1, E, e1, e2, e3, e4, -⟩ := u3 k (by omega)
  exact ⟨c, g0, g1, by rw [List.getElem?_take_of_lt hk, e1], e2, Server.rlwe_coeff hN (by omega) hr e3 e4⟩

/-- The noise of the answer of the server: `V` is the noise of the query ciphertext of the first dimension, `B2` the error of the
others, `T` bounds the rows and `S` the key, `B`, `B0`, `B1` are the errors of the evaluation keys. -/
noncomputable def Spec.answerNoise (N t : Nat) (l : List Nat) (fd dim d : Nat) (V B2 T S B B0 B1 : ℤ) : ℤ :=
  fd * (N * (V + t * ((N - 1) * B)) * T) + d * (t * (dim * (switchNoise N l 0 *
    (N * (B2 + (N - 1) * B) * S + switchNoise N l 0 * (B0 + B1) + (B2 + (N - 1) * B)))))

theorem Server.decodeBy_ok (h : IsParams N t l variance P) (pr : Profile) {s : Rg N} {S B B0 B1 : ℤ} (hS : Bdd S s) {ev : Evaluation}
    (hev : IsEval P l s B B0 B1 ev) {xPows : List Poly} (hx : IsMonomials N P xPows) (srv : Server) {i0 : Nat} {is : List Nat}
    (h0 : i0 < srv.firstDim) (his : ∀ i ∈ is, i < srv.dim) (hd : 0 < srv.dim) (hfN : srv.firstDim ≤ N) (hdN : srv.dim * is.length ≤ N)
    {dims : Res Nat} (hdim : dims = .ok (is.length + 1)) {T : ℤ} {r : Nat → Rg N}
    (hlen : srv.dbScaled.length = srv.firstDim * srv.dim ^ is.length)
    (hrow : ∀ k, k < srv.dbScaled.length → ∃ p, srv.dbScaled[k]? = some p ∧ PolyAt P 0 (r k) p ∧ Bdd T (r k)) {q0 : BfvCipherText} {V : ℤ}
    {M0 : Rg N} (hq0 : CtEncodes P l t s M0 V q0) (hM0 : ∀ k, k < srv.firstDim → cf M0 k = if k = i0 then 1 else 0)
    {qs : List BfvCipherText} (hqs : qs.length = l.length) {M1 : Rg N} {B2 : ℤ}
    (hq : ∀ j ct, qs[j]? = some ct → ∃ f0 f1 : Rg N, IsCt P 0 [f0, f1] ct ∧ RlweGarner l 0 j s M1 B2 f0 f1)
    (hM1 : ∀ d k, d < is.length → k < srv.dim → cf M1 (d * srv.dim + k) = if k = is.getD d 0 then 1 else 0) :
    ∃ ct, Server.decodeBy pr dims (ev.unpackWith pr xPows) srv (q0 :: qs) ev P = .ok [ct] ∧ CtEncodes P l t s (r (i0 + srv.firstDim * address srv.dim is))
      (answerNoise N t l srv.firstDim srv.dim is.length V B2 T S B B0 B1) ct := by
  obtain ⟨K, -, hNK, -⟩ := BfvP.params h
  subst hNK
  obtain ⟨ext, L, hw, hL, -, hml, -⟩ := Evaluation.level_zero h
  have hN62 : 2 ^ K ≤ 2 ^ 62 := Nat.pow_le_pow_right (by norm_num) hL.wf.ctx.core.K_le
  have hbit : ∀ k i, ((if k = i then 1 else 0 : ℤ) : Rg (2 ^ K)) = bit (2 ^ K) k i := by
    intro k i; unfold bit; split_ifs <;> simp
  obtain ⟨u0, a1, a2, a3⟩ := Server.unpack_bits h pr hev hx hq0 hfN
  obtain ⟨vals, v1, v2, v3⟩ := Server.mapR_list (xs := qs)
    (f := fun q => do let u ← ev.unpackWith pr xPows q; takeR u (srv.dim * is.length))
    (p := fun j v => ∀ k, k < srv.dim * is.length → ∃ c, ∃ g0 g1 : Rg (2 ^ K), v[k]? = some c ∧ IsCt P 0 [g0, g1] c ∧
        RlweGarner l 0 j s ((cf M1 k : ℤ) : Rg (2 ^ K)) (B2 + ((2 ^ K : ℕ) - 1) * B) g0 g1) (fun j ct hj => by
      obtain ⟨f0, f1, c1, c2⟩ := hq j ct hj
      obtain ⟨u, b1, b2, b3⟩ := Server.unpack_rlwe h pr hev hx c1 c2 hdN
      exact ⟨_, by rw [b1, res_ok_bind, takeR_ok b2], b3⟩)
  obtain ⟨rgsws, w1, w2, w3⟩ := Server.mapR_range (f := Server.selectorRgsw pr P ev.skRgsw vals) (n := srv.dim * is.length)
    (p := fun k g => IsRgsw P l 0 s ((cf M1 k : ℤ) : Rg (2 ^ K)) ((2 ^ K : ℕ) * (B2 + ((2 ^ K : ℕ) - 1) * B) * S + switchNoise (2 ^ K) l 0 * (B0 + B1))
      (B2 + ((2 ^ K : ℕ) - 1) * B) g) (fun k hk => by
      refine Server.selectorRgsw_ok h pr hev.rgsw hS (v2.trans hqs) fun j v hj => ?_
      obtain ⟨v', e1, e2⟩ := v3 j (by rw [← v2]; exact (List.getElem?_eq_some_iff.mp hj).1)
      have : v = v' := Option.some.inj (hj.symm.trans e1)
      rw [this]
      exact e2 k hk)
  obtain ⟨ct, c1, c2⟩ := c43_select h pr srv h0 his hd hlen hrow (cts := u0.take srv.firstDim) (fun k hk => by
      obtain ⟨c, x1, x2⟩ := a3 k hk
      rw [hM0 k hk, hbit] at x2
      exact ⟨c, x1, x2⟩) w2 (fun d k hd' hk => by
      have hle : srv.dim * (d + 1) ≤ srv.dim * is.length := Nat.mul_le_mul_left _ hd'
      obtain ⟨g, x1, x2⟩ := w3 (d * srv.dim + k) (by rw [Nat.mul_succ, Nat.mul_comm srv.dim d] at hle; omega)
      rw [hM1 d k hd' hk, hbit] at x2
      exact ⟨g, x1, x2⟩)
  refine ⟨ct, ?_, c2⟩
  unfold Server.decodeBy
  have hml' : L.qCtx.moduli.length = l.length := by
    rw [hL.wf.ctx.core.mods, Ksk.moduli_len hL.wf.ctx, BfvP.len_level hL, hml]
    simp [levelModuli]
  rw [idx_of hL.q, res_ok_bind, rassert_ok (by rw [hml', List.length_cons, hqs]), res_ok_bind, show idx (q0 :: qs) 0 = .ok q0 from rfl, res_ok_bind,
    a1, res_ok_bind, takeR_ok a2, res_ok_bind, hdim, res_ok_bind, subW_ok (by omega), res_ok_bind, Nat.add_sub_cancel,
    mulW_ok (by rw [Nat.mul_comm]; omega), res_ok_bind, Nat.mul_comm is.length, List.drop_one, List.tail_cons, v1, res_ok_bind, w1, res_ok_bind, c1]

/-- C44, partial: `decode` with the monomials `X^(-2^i)` in place of the result of `gen_x_pows` returns exactly one ciphertext, and it
encodes the addressed row. Assumed: `first_dim` and the number of selectors are at most the degree and `decode` computes the right number of
dimensions (`c53_dimensions_partial` gives that for powers of two). The full statement is about `decode` itself, and fails: see
`c44_decode_panics`. -/
theorem c44_decode_partial (h : IsParams N t l variance P) (pr : Profile) {s : Rg N} {S B B0 B1 : ℤ} (hS : Bdd S s) {ev : Evaluation}
    (hev : IsEval P l s B B0 B1 ev) {xPows : List Poly} (hx : IsMonomials N P xPows) (srv : Server) {i0 : Nat} {is : List Nat}
    (h0 : i0 < srv.firstDim) (his : ∀ i ∈ is, i < srv.dim) (hd : 0 < srv.dim) (hfN : srv.firstDim ≤ N) (hdN : srv.dim * is.length ≤ N)
    (hdim : srv.dimensions pr = .ok (is.length + 1)) {T : ℤ} {r : Nat → Rg N}
    (hlen : srv.dbScaled.length = srv.firstDim * srv.dim ^ is.length)
    (hrow : ∀ k, k < srv.dbScaled.length → ∃ p, srv.dbScaled[k]? = some p ∧ PolyAt P 0 (r k) p ∧ Bdd T (r k)) {q0 : BfvCipherText} {V : ℤ}
    {M0 : Rg N} (hq0 : CtEncodes P l t s M0 V q0) (hM0 : ∀ k, k < srv.firstDim → cf M0 k = if k = i0 then 1 else 0)
    {qs : List BfvCipherText} (hqs : qs.length = l.length) {M1 : Rg N} {B2 : ℤ}
    (hq : ∀ j ct, qs[j]? = some ct → ∃ f0 f1 : Rg N, IsCt P 0 [f0, f1] ct ∧ RlweGarner l 0 j s M1 B2 f0 f1)
    (hM1 : ∀ d k, d < is.length → k < srv.dim → cf M1 (d * srv.dim + k) = if k = is.getD d 0 then 1 else 0) :
    ∃ ct, srv.decodeWith pr xPows (q0 :: qs) ev P = .ok [ct] ∧ CtEncodes P l t s (r (i0 + srv.firstDim * address srv.dim is))
      (answerNoise N t l srv.firstDim srv.dim is.length V B2 T S B B0 B1) ct :=
  Server.decodeBy_ok h pr hS hev hx srv h0 his hd hfN hdN hdim hlen hrow hq0 hM0 hqs hq hM1

theorem Spec.address_lt {dim : Nat} {is : List Nat} (h : ∀ i ∈ is, i < dim) : address dim is < dim ^ is.length := by
  induction is with
  | nil => simp [address]
  | cons i is ih =>
    have h1 := h i (by simp)
    have h2 := ih fun j hj => h j (by simp [hj])
    rw [address, List.length_cons, pow_succ']
    calc i + dim * address dim is < dim * (address dim is + 1) := by rw [Nat.mul_succ]; omega
      _ ≤ dim * dim ^ is.length := Nat.mul_le_mul_left _ h2

/-- The ciphertexts of a query for the encoded vector `v`, as the test `query` builds them (src/evaluations.rs:437-449): an encryption of
`v`, and for every Garner coefficient an encryption of the selectors after the first dimension times that coefficient. -/
structure Spec.IsQuery (N : Nat) (P : BfvParameters) (l : List Nat) (sk : SecretKey) (fd : Nat) (v : List Nat) (q0 : BfvCipherText)
    (qs : List BfvCipherText) : Prop where
  first : ∃ pr tape rng, TapeAt l 0 tape ∧ (∀ i, rng i < 2 ^ 64) ∧ sk.encrypt pr ⟨P, 0, .poly, v⟩ tape rng = .ok q0
  length : qs.length = l.length
  rest : ∀ j ct, qs[j]? = some ct → ∃ pr g p tape rng, IsGarner l 0 j g ∧ PolyAt P 0 (msgRing N (v.drop fd) * (g : Rg N)) p ∧
    TapeAt l 0 tape ∧ (∀ i, rng i < 2 ^ 64) ∧ sk.encryptPoly pr p tape rng = .ok ct

/-- Queries exist for every vector of at most `N` words. -/
theorem c44_query (h : IsParams N t l variance P) {sk : SecretKey} (hk : IsKey P sk) (hv1 : 1 ≤ variance) (hv2 : variance ≤ 16)
    {v : List Nat} (hlen : v.length ≤ N) (hv : ∀ a ∈ v, a < 2 ^ 64) (fd : Nat) : ∃ q0 qs, IsQuery N P l sk fd v q0 qs := by
  have hl1 : ∀ q ∈ l, 1 < q := fun q hq => by
    obtain ⟨K, ext, -, hw, rfl, -⟩ := BfvP.params h
    exact hw.t_prime.one_lt.trans (h.2.2.1 q hq)
  obtain ⟨q0, f0, f1, e1, -⟩ := c30_encrypt h hk .release hv1 hv2 (pt := ⟨P, 0, .poly, v⟩) rfl rfl hlen hv (Ex.tape0 hl1) Ex.wordTape
  have hq : ∀ j, j < l.length → ∃ ct, ∃ pr g p tape rng, IsGarner l 0 j g ∧ PolyAt P 0 (msgRing N (v.drop fd) * (g : Rg N)) p ∧
      TapeAt l 0 tape ∧ (∀ i, rng i < 2 ^ 64) ∧ sk.encryptPoly pr p tape rng = .ok ct := by
    intro j hj
    obtain ⟨g, hg⟩ := c40_garner h (i := 0) (j := j) (by omega) (by simpa [levelModuli] using hj)
    obtain ⟨p, hp⟩ := c33_exists_poly h (i := 0) (by omega) (msgRing N (v.drop fd) * (g : Rg N))
    obtain ⟨ct, f0, f1, h1, -⟩ := c40_rlwe h hk .release hv1 hv2 hg hp (Ex.tape0 hl1) Ex.wordTape
    exact ⟨ct, .release, g, p, _, _, hg, hp, Ex.tape0 hl1, Ex.wordTape, h1⟩
  obtain ⟨qs, -, q2, q3⟩ := Server.mapR_range (f := fun j => if hj : j < l.length then .ok (hq j hj).choose else .error .bounds) (n := l.length)
    (p := fun j ct => ∃ pr g p tape rng, IsGarner l 0 j g ∧ PolyAt P 0 (msgRing N (v.drop fd) * (g : Rg N)) p ∧
      TapeAt l 0 tape ∧ (∀ i, rng i < 2 ^ 64) ∧ sk.encryptPoly pr p tape rng = .ok ct) (fun j hj => ⟨_, dif_pos hj, (hq j hj).choose_spec⟩)
  refine ⟨q0, qs, ⟨.release, _, _, Ex.tape0 hl1, Ex.wordTape, e1⟩, q2, fun j ct hj => ?_⟩
  obtain ⟨ct', e1, e2⟩ := q3 j (by rw [← q2]; exact (List.getElem?_eq_some_iff.mp hj).1)
  have : ct = ct' := Option.some.inj (hj.symm.trans e1)
  rw [this]
  exact e2

/-- The entries of an encoded query are bits. -/
theorem Client.bits {fd dim i0 : Nat} {is v : List Nat} (hd : 0 < dim) (e2 : v.length = fd + dim * is.length)
    (e3 : OneHotAt v 0 fd i0) (e4 : ∀ k, k < is.length → OneHotAt v (fd + k * dim) dim (is.getD k 0)) : ∀ a ∈ v, a < 2 ^ 64 := by
  have hrest : ∀ d k, d < is.length → k < dim → v.getD (fd + (d * dim + k)) 0 = if k = is.getD d 0 then 1 else 0 := by
    intro d k hd' hk
    have := e4 d hd' k hk
    rw [List.getD_eq_getElem?_getD, ← Nat.add_assoc, this]
    rfl
  intro a ha
  obtain ⟨k, hk, rfl⟩ := List.mem_iff_getElem.mp ha
  have hk' : k < fd + dim * is.length := by rw [← e2]; exact hk
  have hle : v[k] ≤ 1 := by
    by_cases hkf : k < fd
    · have := e3 k hkf
      rw [Nat.zero_add, List.getElem?_eq_getElem hk] at this
      rw [Option.some.inj this]
      split_ifs <;> omega
    · have h1 := hrest ((k - fd) / dim) ((k - fd) % dim) (Nat.div_lt_of_lt_mul (by omega)) (Nat.mod_lt _ hd)
      rw [Nat.mul_comm, Nat.div_add_mod, Nat.add_sub_cancel' (by omega), List.getD_eq_getElem _ _ hk] at h1
      rw [h1]
      split_ifs <;> omega
  omega

theorem Server.answer (h : IsParams N t l variance P) {sk : SecretKey} (hk : IsKey P sk) (pr pd : Profile) (hv1 : 1 ≤ variance)
    (hv2 : variance ≤ 16) (hl : l.length ≠ 1) (hN : N ≤ 2 ^ 31) {S : ℤ} (hS : Bdd S (keyRing N sk))
    -- evaluation keys
    {aTape : Nat → Nat → Nat → Nat → Nat} (ha : ∀ k j, TapeAt l 0 (aTape k j))
    {rng : Nat → Nat → Nat → Nat} (hr : ∀ k j i, rng k j i < 2 ^ 64) {a0 a1 : Nat → Nat → Nat → Nat} (ha0 : ∀ j, TapeAt l 0 (a0 j))
    (ha1 : ∀ j, TapeAt l 0 (a1 j)) {r0 r1 : Nat → Nat → Nat} (hr0 : ∀ j i, r0 j i < 2 ^ 64) (hr1 : ∀ j i, r1 j i < 2 ^ 64)
    {ev : Evaluation} {pr1 : Profile} (hev : Evaluation.build pr1 sk P aTape rng a0 a1 r0 r1 = .ok ev)
    {xPows : List Poly} (hx : IsMonomials N P xPows)
    -- database
    {fd dim : Nat} {db : List Plaintext} (hdb : ∀ p ∈ db, p.values.length ≤ N) (hv : ∀ p ∈ db, ∀ a ∈ p.values, a < t) {srv : Server}
    {pr2 : Profile} (hsrv : Server.new pr2 fd dim db P = .ok srv)
    -- query
    {i0 : Nat} {is : List Nat} (h0 : i0 < fd) (his : ∀ i ∈ is, i < dim) (hd : 0 < dim) (hrows : db.length = fd * dim ^ is.length)
    (hfit : fd + dim * is.length ≤ N) (hpow : dim ^ is.length < 2 ^ 64) {v : List Nat} {pr3 : Profile}
    (hv' : (Client.mk fd dim).encode pr3 (i0 :: is) db.length = .ok v) {q0 : BfvCipherText} {qs : List BfvCipherText}
    {z : Nat} (hz : v.length + z ≤ N)
    (hq : IsQuery N P l sk fd (v ++ List.replicate z 0) q0 qs) {dims : Res Nat} (hdim : dims = .ok (is.length + 1))
    -- noise
    (h2t : 2 * t ≤ l.getD 0 0)
    (hnoise : 4 * answerNoise N t l fd dim is.length (2 * t * variance + 2 * t) (2 * variance) t S (switchNoise N l 0 * (2 * variance))
      (2 * variance) (2 * variance) ≤ levelQ l 0) :
    ∃ ct pt row, db[i0 + fd * address dim is]? = some row ∧ Server.decodeBy pr dims (ev.unpackWith pr xPows) srv (q0 :: qs) ev P = .ok [ct] ∧
      sk.decrypt pd ct = .ok pt ∧ pt.values = (List.range N).map fun k => row.values.getD k 0 := by
  obtain ⟨K, -, hNK, -⟩ := BfvP.params h
  subst hNK
  have hpos : 0 < 2 ^ K := by positivity
  -- keys
  obtain ⟨ev', b1, b2⟩ := c41_build h hk pr1 hv1 hv2 hl hN ha hr ha0 ha1 hr0 hr1
  obtain rfl := Except.ok.inj (hev.symm.trans b1)
  -- database
  have ht64 : t < 2 ^ 64 := by
    obtain ⟨_, _, _, hw, rfl, -⟩ := BfvP.params h
    exact hw.t_lt.trans (by norm_num)
  obtain ⟨srv', s1, s2, s3, s4, s5, s6⟩ := c43_new h pr2 fd dim hdb (fun p hp a ha => (hv p hp a ha).trans ht64)
  obtain rfl := Except.ok.inj (hsrv.symm.trans s1)
  -- encoded query
  obtain ⟨v', e1, e2, e3, e4⟩ := c42_encode pr3 (Client.mk fd dim) (i0 := i0) (rest := is) h0 his hpow (by
    have : 1 * is.length ≤ dim * is.length := Nat.mul_le_mul_right _ hd
    omega) hrows
  obtain rfl := Except.ok.inj (hv'.symm.trans e1)
  obtain ⟨⟨prq, tape, rngq, t1, t2, t3⟩, hql, hqr⟩ := hq
  have hrest : ∀ d k, d < is.length → k < dim → v.getD (fd + (d * dim + k)) 0 = if k = is.getD d 0 then 1 else 0 := by
    intro d k hd' hk
    have := e4 d hd' k hk
    rw [List.getD_eq_getElem?_getD, ← Nat.add_assoc, this]
    rfl
  have hvb : ∀ a ∈ v ++ List.replicate z 0, a < 2 ^ 64 := fun a ha => by
    rcases List.mem_append.mp ha with ha | ha
    · exact Client.bits hd e2 e3 e4 a ha
    · rw [(List.mem_replicate.mp ha).2]; norm_num
  have hpad : ∀ k, (v ++ List.replicate z 0).getD k 0 = v.getD k 0 := fun k => by
    simp only [List.getD, List.getElem?_append, List.getElem?_replicate]
    split_ifs <;> simp_all
  obtain ⟨q0', f0, f1, c1, c2, c3⟩ := c30_encrypt h hk prq hv1 hv2 (pt := ⟨P, 0, .poly, v ++ List.replicate z 0⟩) rfl rfl (by simpa using hz) hvb t1 t2
  obtain rfl := Except.ok.inj (t3.symm.trans c1)
  obtain ⟨ct, d1, f0', f1', d2, d3⟩ := Server.decodeBy_ok h pr hS b2 hx srv (i0 := i0) (is := is) (by rw [s2]; exact h0) (by rw [s3]; exact his)
    (by rw [s3]; exact hd) (by rw [s2]; omega) (by rw [s3]; omega) hdim (T := t)
    (r := fun k => msgRing (2 ^ K) ((db.map (·.values)).getD k []))
    (by rw [s5, s2, s3, hrows]) (fun k hk => by
      rw [s5] at hk
      obtain ⟨p, p1, p2⟩ := s6 k _ (List.getElem?_eq_getElem hk)
      have e : (db.map (·.values)).getD k [] = db[k].values := by simp [hk]
      refine ⟨p, p1, by rw [e]; exact p2, ?_⟩
      rw [e]
      exact BfvP.msgRing_bdd fun a ha => (hv _ (List.getElem_mem hk) a ha).le)
    ⟨f0, f1, c2, c3⟩ (fun k hk => by
      rw [s2] at hk
      unfold msgRing
      rw [cf_ofCoeffs hpos _ (by omega)]
      have := e3 k hk
      rw [Nat.zero_add] at this
      rw [hpad, List.getD_eq_getElem?_getD, this]
      split_ifs <;> rfl) hql (M1 := msgRing (2 ^ K) ((v ++ List.replicate z 0).drop fd)) (B2 := 2 * variance) (fun j ct hj => by
      obtain ⟨pr', g, p, tape', rng', g1, g2, g3, g4, g5⟩ := hqr j ct hj
      obtain ⟨ct', x0, x1, y1, y2, y3⟩ := c40_rlwe h hk pr' hv1 hv2 g1 g2 g3 g4
      obtain rfl := Except.ok.inj (g5.symm.trans y1)
      exact ⟨x0, x1, y2, y3⟩) (fun d k hd' hk => by
      rw [s3] at hk ⊢
      have hle : dim * (d + 1) ≤ dim * is.length := Nat.mul_le_mul_left _ hd'
      unfold msgRing
      rw [cf_ofCoeffs hpos _ (by rw [Nat.mul_succ, Nat.mul_comm dim d] at hle; omega), List.getD_eq_getElem?_getD, List.getElem?_drop,
        ← List.getD_eq_getElem?_getD, hpad, hrest d k hd' hk]
      split_ifs <;> rfl)
  rw [s2, s3] at d3
  obtain ⟨pt, p1, -, -, p2⟩ := c30_decrypt h hk pd (by simp) d2 h2t d3 hnoise
  have hlt : i0 + fd * address dim is < db.length := by
    have := Spec.address_lt his
    rw [hrows]
    calc i0 + fd * address dim is < fd * (address dim is + 1) := by rw [Nat.mul_succ]; omega
      _ ≤ fd * dim ^ is.length := Nat.mul_le_mul_left _ this
  refine ⟨ct, pt, _, List.getElem?_eq_getElem hlt, d1, p1, ?_⟩
  rw [p2, residues_msgRing]
  apply List.map_congr_left
  intro k _
  have e : (db.map (·.values)).getD (i0 + fd * address dim is) [] = db[i0 + fd * address dim is].values := by simp [hlt]
  rw [e]
  by_cases hk : k < (db[i0 + fd * address dim is].values).length
  · rw [List.getD_eq_getElem _ _ hk]
    exact Nat.mod_eq_of_lt (hv _ (List.getElem_mem hlt) _ (List.getElem_mem hk))
  · rw [List.getD_eq_default _ _ (by omega), Nat.zero_mod]

/-- C44, partial, end to end: for every database, coordinates, key and randomness, with keys from `build`, a query made of the encoding of the
coordinates, and a server made by `Server::new`, the answer decrypts to the addressed row if the noise fits. As in `c44_decode_partial`, the
monomials are given in place of the result of `gen_x_pows`, and the dimension count is assumed right. -/
theorem c44_answer_partial (h : IsParams N t l variance P) {sk : SecretKey} (hk : IsKey P sk) (pr pd : Profile) (hv1 : 1 ≤ variance)
    (hv2 : variance ≤ 16) (hl : l.length ≠ 1) (hN : N ≤ 2 ^ 31) {S : ℤ} (hS : Bdd S (keyRing N sk))
    -- evaluation keys
    {aTape : Nat → Nat → Nat → Nat → Nat} (ha : ∀ k j, TapeAt l 0 (aTape k j))
    {rng : Nat → Nat → Nat → Nat} (hr : ∀ k j i, rng k j i < 2 ^ 64) {a0 a1 : Nat → Nat → Nat → Nat} (ha0 : ∀ j, TapeAt l 0 (a0 j))
    (ha1 : ∀ j, TapeAt l 0 (a1 j)) {r0 r1 : Nat → Nat → Nat} (hr0 : ∀ j i, r0 j i < 2 ^ 64) (hr1 : ∀ j i, r1 j i < 2 ^ 64)
    {ev : Evaluation} {pr1 : Profile} (hev : Evaluation.build pr1 sk P aTape rng a0 a1 r0 r1 = .ok ev)
    {xPows : List Poly} (hx : IsMonomials N P xPows)
    -- database
    {fd dim : Nat} {db : List Plaintext} (hdb : ∀ p ∈ db, p.values.length ≤ N) (hv : ∀ p ∈ db, ∀ a ∈ p.values, a < t) {srv : Server}
    {pr2 : Profile} (hsrv : Server.new pr2 fd dim db P = .ok srv)
    -- query
    {i0 : Nat} {is : List Nat} (h0 : i0 < fd) (his : ∀ i ∈ is, i < dim) (hd : 0 < dim) (hrows : db.length = fd * dim ^ is.length)
    (hfit : fd + dim * is.length ≤ N) (hpow : dim ^ is.length < 2 ^ 64) {v : List Nat} {pr3 : Profile}
    (hv' : (Client.mk fd dim).encode pr3 (i0 :: is) db.length = .ok v) {q0 : BfvCipherText} {qs : List BfvCipherText}
    (hq : IsQuery N P l sk fd v q0 qs) (hdim : srv.dimensions pr = .ok (is.length + 1))
    -- noise
    (h2t : 2 * t ≤ l.getD 0 0)
    (hnoise : 4 * answerNoise N t l fd dim is.length (2 * t * variance + 2 * t) (2 * variance) t S (switchNoise N l 0 * (2 * variance))
      (2 * variance) (2 * variance) ≤ levelQ l 0) :
    ∃ ct pt row, db[i0 + fd * address dim is]? = some row ∧ srv.decodeWith pr xPows (q0 :: qs) ev P = .ok [ct] ∧
      sk.decrypt pd ct = .ok pt ∧ pt.values = (List.range N).map fun k => row.values.getD k 0 :=
  Server.answer h hk pr pd hv1 hv2 hl hN hS ha hr ha0 ha1 hr0 hr1 hev hx hdb hv hsrv h0 his hd hrows hfit hpow hv' (z := 0)
    (by
      obtain ⟨v', e1, e2, -⟩ := c42_encode pr3 (Client.mk fd dim) (i0 := i0) (rest := is) h0 his hpow (by
        have : 1 * is.length ≤ dim * is.length := Nat.mul_le_mul_right _ hd
        omega) hrows
      obtain rfl := Except.ok.inj (hv'.symm.trans e1)
      dsimp only at e2
      omega) (by simpa using hq) hdim h2t hnoise

/-- C44: `decode` as written panics for every query, in both builds, whatever the keys and the database. -/
theorem c44_decode_panics (h : IsParams N t l variance P) (hN : N ≤ 2 ^ 31) (pr : Profile) (srv : Server) (ev : Evaluation)
    {q : List BfvCipherText} (hq : ∀ ct ∈ q, ct.params = P ∧ ct.level < l.length) : srv.decode pr q ev P = .error .assert := by
  obtain ⟨K, -, hNK, -⟩ := BfvP.params h
  subst hNK
  obtain ⟨ext, L, hw, hL, -, hml, -⟩ := Evaluation.level_zero h
  unfold Server.decode Server.decodeBy
  rw [idx_of hL.q, res_ok_bind]
  by_cases hlen : L.qCtx.moduli.length + 1 = q.length
  · rw [rassert_ok hlen, res_ok_bind]
    cases q with
    | nil => simp at hlen
    | cons q0 qs =>
      rw [show idx (q0 :: qs) 0 = .ok q0 from rfl, res_ok_bind, c41_unpack_panics h hN pr ev (hq q0 (by simp)).1 (hq q0 (by simp)).2]
      rfl
  · rw [rassert_fail hlen]
    rfl

/-! ### A concrete run -/

namespace Ex

/-- Moduli with room for the noise of a two-dimensional query. -/
def mods4 : List Nat := [16777441, 16777601, 16777633, 16777681]

theorem exists_params4 : ∃ P, IsParams 8 17 mods4 10 P := by
  obtain ⟨P, -, h⟩ := c51_new_succeeds .debug (K := 3) (by norm_num) (by norm_num) (t := 17) (by norm_num) (by norm_num) (by norm_num)
    (l := mods4) (by simp [mods4]) (by decide)
    (by
      unfold mods4
      simp only [List.mem_cons, List.not_mem_nil, or_false]
      rintro q (rfl | rfl | rfl | rfl) <;> norm_num)
    (by unfold mods4; simp) (by simp [mods4])
    ⟨bigPrimes, by decide, by simp [mods4, bigPrimes], fun p hp => ⟨bigPrimes_prime p hp, by
      revert p; unfold bigPrimes mods4; decide⟩⟩
    goodSample_lt (fun q hq hc => ⟨0, by norm_num, goodSample_good hq (by rintro rfl; norm_num at hc)⟩) 10 ⟨1, 1⟩
  exact ⟨P, h⟩

theorem mods4_gt : ∀ q ∈ mods4, 1 < q := by decide

/-- Four rows. -/
def rows4 (P : BfvParameters) : List Plaintext := [⟨P, 0, .poly, [1, 2]⟩, ⟨P, 0, .poly, [3]⟩, ⟨P, 0, .poly, [5, 6, 7]⟩, ⟨P, 0, .poly, [9, 16]⟩]

end Ex

/-- A query for the coordinates `(0, 1)` in a database of `2 × 2` rows: all hypotheses of `c44_answer_partial` hold, and the answer decrypts
to the third row. -/
example : ∃ P sk ev xs srv v q0 qs ct pt, IsParams 8 17 Ex.mods4 10 P ∧ IsKey P sk ∧ Server.new .release 2 2 (Ex.rows4 P) P = .ok srv ∧
    (Client.mk 2 2).encode .release [0, 1] 4 = .ok v ∧ IsQuery 8 P Ex.mods4 sk 2 v q0 qs ∧
    srv.decodeWith .debug xs (q0 :: qs) ev P = .ok [ct] ∧ sk.decrypt .debug ct = .ok pt ∧ pt.values = [5, 6, 7, 0, 0, 0, 0, 0] := by
  obtain ⟨P, h⟩ := Ex.exists_params4
  obtain ⟨sk, -, hk, hb⟩ := c30_generate h .release (by norm_num) (by norm_num) Ex.wordTape
  have ht : TapeAt Ex.mods4 0 fun _ _ => 0 := Ex.tape0 Ex.mods4_gt
  obtain ⟨ev, h1, h2⟩ := c41_build h hk .release (by norm_num) (by norm_num) (by decide) (by norm_num) (aTape := fun _ _ _ _ => 0)
    (fun _ _ => ht) (rng := fun _ _ i => i % 1000) (fun _ _ => Ex.wordTape) (a0 := fun _ _ _ => 0)
    (fun _ => ht) (a1 := fun _ _ _ => 0) (fun _ => ht) (r0 := fun _ i => i % 1000) (fun _ => Ex.wordTape)
    (r1 := fun _ i => i % 1000) (fun _ => Ex.wordTape)
  obtain ⟨xs, hx⟩ := Ex.monomials h (by decide)
  have hlen : ∀ p ∈ Ex.rows4 P, p.values.length ≤ 8 := by simp [Ex.rows4]
  have hval : ∀ p ∈ Ex.rows4 P, ∀ a ∈ p.values, a < 17 := by simp [Ex.rows4]
  obtain ⟨srv, s1, s2, s3, s4, -⟩ := c43_new h .release 2 2 (db := Ex.rows4 P) hlen (fun p hp a ha => (hval p hp a ha).trans (by norm_num))
  have hv : (Client.mk 2 2).encode .release [0, 1] 4 = .ok [1, 0, 0, 1] := by decide +kernel
  obtain ⟨q0, qs, hq⟩ := c44_query h hk (by norm_num) (by norm_num) (v := [1, 0, 0, 1]) (by norm_num) (by simp) 2
  have hdim : srv.dimensions .debug = .ok 2 :=
    c53_dimensions_partial .debug srv (by rw [s2]; norm_num) (a := 1) (k := 1) (by norm_num) (by rw [s3]; rfl) (by rw [s2, s3, s4]; rfl)
      (by rw [s4]; simp [Ex.rows4]) (by norm_num)
  obtain ⟨ct, pt, row, r1, r2, r3, r4⟩ := c44_answer_partial h hk .debug .debug (by norm_num) (by norm_num) (by decide) (by norm_num) hb (fun _ _ => ht)
    (fun _ _ => Ex.wordTape) (fun _ => ht) (fun _ => ht) (fun _ => Ex.wordTape) (fun _ => Ex.wordTape) h1 hx hlen hval s1 (i0 := 0) (is := [1])
    (by norm_num) (by simp) (by norm_num) rfl (by norm_num) (by norm_num) hv hq hdim (by decide) (by
      unfold answerNoise
      rw [show switchNoise 8 Ex.mods4 0 = 8 * (16777441 + 16777601 + 16777633 + 16777681) by decide +kernel,
        show levelQ Ex.mods4 0 = 16777441 * 16777601 * 16777633 * 16777681 by decide +kernel]
      norm_num)
  have hrow : row = ⟨P, 0, .poly, [5, 6, 7]⟩ := (Option.some.inj r1).symm
  rw [hrow] at r4
  exact ⟨P, sk, ev, xs, srv, _, q0, qs, ct, pt, h, hk, s1, hv, hq, r2, r3, r4.trans rfl⟩

/-- The same query makes `decode` panic. -/
example : ∃ P, IsParams 8 17 Ex.mods4 10 P ∧ ∀ srv ev q, (∀ ct ∈ q, ct.params = P ∧ ct.level < 4) →
    Server.decode .release srv q ev P = .error .assert := by
  obtain ⟨P, h⟩ := Ex.exists_params4
  exact ⟨P, h, fun srv ev q hq => c44_decode_panics h (by norm_num) .release srv ev hq⟩

end OnionPIR
