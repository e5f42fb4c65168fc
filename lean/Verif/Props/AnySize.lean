import Verif.Proofs.SelectAny
import Verif.Props.Server
/- Property C87: the server for databases of any size. -/
namespace OnionPIR
open Rg Spec

variable {N t : Nat} {l : List Nat} {variance : Nat} {P : BfvParameters}

/-- C87: for a database of any size, rows beyond its end counting as zero, the folding of `decode` returns one ciphertext for every started
block of `first_dim · dim^(d-1)` rows, and the `j`-th one encodes the row with the requested coordinates in the `j`-th block. The noise bound
is that of `c43_select`. -/
theorem c87_select (h : IsParams N t l variance P) (pr : Profile) {s : Rg N} (srv : Server) {i0 : Nat} {is : List Nat}
    (h0 : i0 < srv.firstDim) (his : ∀ i ∈ is, i < srv.dim) (hd : 0 < srv.dim) {V T B0 B1 : ℤ} {r : Nat → Rg N}
    (hrow : ∀ k, k < srv.dbScaled.length → ∃ p, srv.dbScaled[k]? = some p ∧ PolyAt P 0 (r k) p ∧ Bdd T (r k))
    (hend : ∀ k, srv.dbScaled.length ≤ k → r k = 0) {cts : List BfvCipherText}
    (hc : ∀ k, k < srv.firstDim → ∃ ct, cts[k]? = some ct ∧ CtEncodes P l t s (bit N k i0) V ct) {rgsws : List RgswCt}
    (hgl : rgsws.length = srv.dim * is.length)
    (hg : ∀ d k, d < is.length → k < srv.dim → ∃ g, rgsws[d * srv.dim + k]? = some g ∧ IsRgsw P l 0 s (bit N k (is.getD d 0)) B0 B1 g) :
    ∃ out, srv.select pr P cts rgsws = .ok out ∧
      out.length = (srv.dbScaled.length + srv.firstDim * srv.dim ^ is.length - 1) / (srv.firstDim * srv.dim ^ is.length) ∧
      ∀ j, j < out.length → ∃ ct, out[j]? = some ct ∧
        CtEncodes P l t s (r (i0 + srv.firstDim * address srv.dim is + srv.firstDim * srv.dim ^ is.length * j))
          (srv.firstDim * (N * V * T) + is.length * (t * (srv.dim * (switchNoise N l 0 * (B0 + B1))))) ct := by
  have hf : 0 < srv.firstDim := by omega
  obtain ⟨n, hn⟩ := CeilDiv.exists srv.dbScaled.length hf
  obtain ⟨db, d1, d2, d3⟩ := Server.firstDimension_any h pr h0 hc hn hrow hend
  subst d2
  obtain ⟨out, c1, c2, c3⟩ := Server.dimensions_any h pr hd is his
    (gss := (List.range is.length).map fun c => (rgsws.drop (c * srv.dim)).take srv.dim) (by simp) (fun d hd' => by
      refine ⟨(rgsws.drop (d * srv.dim)).take srv.dim, by simp [hd'], fun k hk => ?_⟩
      obtain ⟨g, g1, g2⟩ := hg d k hd' hk
      exact ⟨g, by rw [chunk_get _ _ hk, g1], g2⟩) (m := fun c => r (i0 + srv.firstDim * c)) d3 (fun k hk => hend _ (by
        have := Nat.mul_le_mul_left srv.firstDim hk
        have := hn.1
        omega))
  refine ⟨out, ?_, CeilDiv.eq (CeilDiv.comp hf hn c2), fun j hj => ?_⟩
  · unfold Server.select
    rw [chunksR_ok hd hgl, res_ok_bind, d1, res_ok_bind, c1]
  · obtain ⟨ct, x1, x2⟩ := c3 j hj
    refine ⟨ct, x1, ?_⟩
    rw [Nat.add_assoc, Nat.mul_assoc, ← Nat.mul_add]
    exact x2

/-- C87: every row of a database of any size has exactly one block number and exactly one list of coordinates. -/
theorem c87_coordinates {fd dim : Nat} (hf : 0 < fd) (hd : 0 < dim) (k x : Nat) :
    ∃ i0 is j, (i0 < fd ∧ is.length = k ∧ (∀ i ∈ is, i < dim) ∧ x = i0 + fd * address dim is + fd * dim ^ k * j) ∧
      ∀ i0' is' j', i0' < fd → is'.length = k → (∀ i ∈ is', i < dim) → x = i0' + fd * address dim is' + fd * dim ^ k * j' →
        i0' = i0 ∧ is' = is ∧ j' = j := by
  have step : ∀ (m a b c : Nat), 0 < m → a < m → c = a + m * b → a = c % m ∧ b = c / m := by
    intro m a b c hm ha hc
    subst hc
    exact ⟨by rw [Nat.add_mul_mod_self_left, Nat.mod_eq_of_lt ha], by rw [Nat.add_mul_div_left _ _ hm, Nat.div_eq_of_lt ha, Nat.zero_add]⟩
  have main : ∀ k y, ∃ is j, (is.length = k ∧ (∀ i ∈ is, i < dim) ∧ y = address dim is + dim ^ k * j) ∧
      ∀ is' j', is'.length = k → (∀ i ∈ is', i < dim) → y = address dim is' + dim ^ k * j' → is' = is ∧ j' = j := by
    intro k
    induction k with
    | zero =>
      intro y
      refine ⟨[], y, ⟨rfl, by simp, by simp [address]⟩, fun is' j' h1 _ h3 => ?_⟩
      have := List.length_eq_zero_iff.mp h1
      subst this
      exact ⟨rfl, by simpa [address] using h3.symm⟩
    | succ k ih =>
      intro y
      obtain ⟨is, j, ⟨e1, e2, e3⟩, e4⟩ := ih (y / dim)
      refine ⟨y % dim :: is, j, ⟨by simp [e1], ?_, ?_⟩, fun is' j' h1 h2 h3 => ?_⟩
      · intro i hi
        rcases List.mem_cons.mp hi with rfl | hi
        · exact Nat.mod_lt _ hd
        · exact e2 i hi
      · rw [address, pow_succ', Nat.mul_assoc, Nat.add_assoc, ← Nat.mul_add, ← e3, Nat.mod_add_div]
      · cases is' with
        | nil => simp at h1
        | cons i is' =>
          rw [address, pow_succ', Nat.mul_assoc, Nat.add_assoc, ← Nat.mul_add] at h3
          obtain ⟨a1, a2⟩ := step dim i _ y hd (h2 i (by simp)) h3
          obtain ⟨b1, b2⟩ := e4 is' j' (by simpa using h1) (fun i hi => h2 i (by simp [hi])) a2.symm
          exact ⟨by rw [a1, b1], b2⟩
  obtain ⟨is, j, ⟨e1, e2, e3⟩, e4⟩ := main k (x / fd)
  refine ⟨x % fd, is, j, ⟨Nat.mod_lt _ hf, e1, e2, ?_⟩, fun i0' is' j' h0 h1 h2 h3 => ?_⟩
  · rw [Nat.mul_assoc, Nat.add_assoc, ← Nat.mul_add, ← e3, Nat.mod_add_div]
  · rw [Nat.mul_assoc, Nat.add_assoc, ← Nat.mul_add] at h3
    obtain ⟨a1, a2⟩ := step fd i0' _ x hf h0 h3
    obtain ⟨b1, b2⟩ := e4 is' j' h1 h2 a2.symm
    exact ⟨a1, b1, b2⟩

/-- C87: without selectors every block gives a ciphertext without components at level 0. -/
theorem c87_no_selectors (pr : Profile) (srv : Server) (hf : 0 < srv.firstDim) (hd : 0 < srv.dim) :
    srv.select pr P [] [] = .ok (List.replicate ((srv.dbScaled.length + srv.firstDim - 1) / srv.firstDim) ⟨P, [], 0⟩) := by
  obtain ⟨n, hn⟩ := CeilDiv.exists srv.dbScaled.length hf
  unfold Server.select Server.firstDimension
  rw [chunksR_ok hd (m := 0) (l := ([] : List RgswCt)) (by simp), res_ok_bind, chunksR_any hf hn, res_ok_bind, Server.mapR_map, ← hn.eq]
  rw [mapR_ok (g := fun _ => (⟨P, [], 0⟩ : BfvCipherText)) (fun _ _ => by simp [Server.sumProducts, foldR_nil, res_ok_bind]), res_ok_bind]
  simp [foldR_nil]

/-- C87: with a power of two as dimension, `decode` computes the number of coordinates for every database size that the client accepts. -/
theorem c87_dimensions (pr : Profile) (s : Server) (hf : 0 < s.firstDim) {a k : Nat} (ha : 0 < a) (hd : s.dim = 2 ^ a)
    (hlo : s.firstDim * s.dim ^ k ≤ s.db.length) (hhi : s.db.length < 2 * (s.firstDim * s.dim ^ k)) (hlen : s.db.length < 2 ^ 64)
    (hda : a < 64) : s.dimensions pr = .ok (k + 1) := by
  have hpow : s.dim ^ k = 2 ^ (a * k) := by rw [hd, ← pow_mul]
  rw [hpow] at hlo hhi
  have x1 : 2 ^ (a * k) ≤ s.db.length / s.firstDim := (Nat.le_div_iff_mul_le hf).2 (by rw [Nat.mul_comm]; exact hlo)
  have x2 : s.db.length / s.firstDim < 2 ^ (a * k + 1) := by
    rw [Nat.div_lt_iff_lt_mul hf, pow_succ]
    calc s.db.length < 2 * (s.firstDim * 2 ^ (a * k)) := hhi
      _ = _ := by ring
  obtain ⟨y, y1, y2, y3⟩ := c13_ilog2 pr (w := 64) (by norm_num) (lt_of_lt_of_le (by positivity) x1)
    (lt_of_le_of_lt (Nat.div_le_self _ _) hlen)
  have z1 := (Nat.pow_lt_pow_iff_right (by norm_num : 1 < 2)).1 (lt_of_le_of_lt x1 y3)
  have z2 := (Nat.pow_lt_pow_iff_right (by norm_num : 1 < 2)).1 (lt_of_le_of_lt y2 x2)
  have hy : y = a * k := by omega
  have hy64 : y < 64 := (Nat.pow_lt_pow_iff_right (by norm_num : 1 < 2)).1
    (lt_of_le_of_lt (y2.trans (Nat.div_le_self _ _)) hlen)
  have hk : k ≤ a * k := Nat.le_mul_of_pos_left _ ha
  unfold Server.dimensions
  rw [divR_ok (by omega), res_ok_bind, y1, res_ok_bind, hd, RnsScaler.ilog2_two_pow pr hda, res_ok_bind, divR_ok (by omega), res_ok_bind, hy,
    Nat.mul_div_cancel_left _ ha, addW_ok (by omega)]

/-- The statement of `c87_decode_partial` for a given count of dimensions. -/
theorem Server.decodeBy_any (h : IsParams N t l variance P) (pr : Profile) {s : Rg N} {S B B0 B1 : ℤ} (hS : Bdd S s) {ev : Evaluation}
    (hev : IsEval P l s B B0 B1 ev) {xPows : List Poly} (hx : IsMonomials N P xPows) (srv : Server) {i0 : Nat} {is : List Nat}
    (h0 : i0 < srv.firstDim) (his : ∀ i ∈ is, i < srv.dim) (hd : 0 < srv.dim) (hfN : srv.firstDim ≤ N) (hdN : srv.dim * is.length ≤ N)
    {dims : Res Nat} (hdim : dims = .ok (is.length + 1)) {T : ℤ} {r : Nat → Rg N}
    (hrow : ∀ k, k < srv.dbScaled.length → ∃ p, srv.dbScaled[k]? = some p ∧ PolyAt P 0 (r k) p ∧ Bdd T (r k))
    (hend : ∀ k, srv.dbScaled.length ≤ k → r k = 0) {q0 : BfvCipherText} {V : ℤ}
    {M0 : Rg N} (hq0 : CtEncodes P l t s M0 V q0) (hM0 : ∀ k, k < srv.firstDim → cf M0 k = if k = i0 then 1 else 0)
    {qs : List BfvCipherText} (hqs : qs.length = l.length) {M1 : Rg N} {B2 : ℤ}
    (hq : ∀ j ct, qs[j]? = some ct → ∃ f0 f1 : Rg N, IsCt P 0 [f0, f1] ct ∧ RlweGarner l 0 j s M1 B2 f0 f1)
    (hM1 : ∀ d k, d < is.length → k < srv.dim → cf M1 (d * srv.dim + k) = if k = is.getD d 0 then 1 else 0) :
    ∃ out, Server.decodeBy pr dims (ev.unpackWith pr xPows) srv (q0 :: qs) ev P = .ok out ∧
      out.length = (srv.dbScaled.length + srv.firstDim * srv.dim ^ is.length - 1) / (srv.firstDim * srv.dim ^ is.length) ∧
      ∀ j, j < out.length → ∃ ct, out[j]? = some ct ∧
        CtEncodes P l t s (r (i0 + srv.firstDim * address srv.dim is + srv.firstDim * srv.dim ^ is.length * j))
          (answerNoise N t l srv.firstDim srv.dim is.length V B2 T S B B0 B1) ct := by
  obtain ⟨K, -, hNK, -⟩ := BfvP.params h
  subst hNK
  obtain ⟨ext, L, hw, hL, -, hml, -⟩ := Evaluation.level_zero h
  have hN62 : 2 ^ K ≤ 2 ^ 62 := Nat.pow_le_pow_right (by norm_num) hL.wf.ctx.core.K_le
  have hbit : ∀ k i, ((if k = i then 1 else 0 : ℤ) : Rg (2 ^ K)) = bit (2 ^ K) k i := by
    intro k i; unfold bit; split_ifs <;> simp
  obtain ⟨u0, a1, a2, a3⟩ := Server.unpack_bits h pr hev hx hq0 hfN
  obtain ⟨vals, v1, v2, v3⟩ := Server.mapR_list (xs := qs)
    (f := fun q => do let u ← ev.unpackWith pr xPows q; takeR u (srv.dim * is.length))
    (p := fun j v => ∀ k, k < srv.dim * is.length → ∃ c, ∃ g0 g1 : Rg (2 ^ K), v[k]? = some c ∧ IsCt P 0 [g0, g1] c ∧
        RlweGarner l 0 j s ((cf M1 k : ℤ) : Rg (2 ^ K)) (B2 + ((2 ^ K : ℕ) - 1) * B) g0 g1) (fun j ct hj => by
      obtain ⟨f0, f1, c1, c2⟩ := hq j ct hj
      obtain ⟨u, b1, b2, b3⟩ := Server.unpack_rlwe h pr hev hx c1 c2 hdN
      exact ⟨_, by rw [b1, res_ok_bind, takeR_ok b2], b3⟩)
  obtain ⟨rgsws, w1, w2, w3⟩ := Server.mapR_range (f := Server.selectorRgsw pr P ev.skRgsw vals) (n := srv.dim * is.length)
    (p := fun k g => IsRgsw P l 0 s ((cf M1 k : ℤ) : Rg (2 ^ K)) ((2 ^ K : ℕ) * (B2 + ((2 ^ K : ℕ) - 1) * B) * S + switchNoise (2 ^ K) l 0 * (B0 + B1))
      (B2 + ((2 ^ K : ℕ) - 1) * B) g) (fun k hk => by
      refine Server.selectorRgsw_ok h pr hev.rgsw hS (v2.trans hqs) fun j v hj => ?_
      obtain ⟨v', e1, e2⟩ := v3 j (by rw [← v2]; exact (List.getElem?_eq_some_iff.mp hj).1)
      have : v = v' := Option.some.inj (hj.symm.trans e1)
      rw [this]
      exact e2 k hk)
  obtain ⟨out, c1, c2, c3⟩ := c87_select h pr srv h0 his hd hrow hend (cts := u0.take srv.firstDim) (fun k hk => by
      obtain ⟨c, x1, x2⟩ := a3 k hk
      rw [hM0 k hk, hbit] at x2
      exact ⟨c, x1, x2⟩) w2 (fun d k hd' hk => by
      have hle : srv.dim * (d + 1) ≤ srv.dim * is.length := Nat.mul_le_mul_left _ hd'
      obtain ⟨g, x1, x2⟩ := w3 (d * srv.dim + k) (by rw [Nat.mul_succ, Nat.mul_comm srv.dim d] at hle; omega)
      rw [hM1 d k hd' hk, hbit] at x2
      exact ⟨g, x1, x2⟩)
  refine ⟨out, ?_, c2, c3⟩
  unfold Server.decodeBy
  have hml' : L.qCtx.moduli.length = l.length := by
    rw [hL.wf.ctx.core.mods, Ksk.moduli_len hL.wf.ctx, BfvP.len_level hL, hml]
    simp [levelModuli]
  rw [idx_of hL.q, res_ok_bind, rassert_ok (by rw [hml', List.length_cons, hqs]), res_ok_bind, show idx (q0 :: qs) 0 = .ok q0 from rfl, res_ok_bind,
    a1, res_ok_bind, takeR_ok a2, res_ok_bind, hdim, res_ok_bind, subW_ok (by omega), res_ok_bind, Nat.add_sub_cancel,
    mulW_ok (by rw [Nat.mul_comm]; omega), res_ok_bind, Nat.mul_comm is.length, List.drop_one, List.tail_cons, v1, res_ok_bind, w1, res_ok_bind, c1]

/-- C87, partial: `decode`, with the monomials `X^(-2^i)` in place of the result of `gen_x_pows`, for a database of any size: one ciphertext
for every started block of `first_dim · dim^(d-1)` rows, the `j`-th encoding the row with the requested coordinates in the `j`-th block.
The full statement is about `decode` itself, which panics: see `c44_decode_panics`. -/
theorem c87_decode_partial (h : IsParams N t l variance P) (pr : Profile) {s : Rg N} {S B B0 B1 : ℤ} (hS : Bdd S s) {ev : Evaluation}
    (hev : IsEval P l s B B0 B1 ev) {xPows : List Poly} (hx : IsMonomials N P xPows) (srv : Server) {i0 : Nat} {is : List Nat}
    (h0 : i0 < srv.firstDim) (his : ∀ i ∈ is, i < srv.dim) (hd : 0 < srv.dim) (hfN : srv.firstDim ≤ N) (hdN : srv.dim * is.length ≤ N)
    (hdim : srv.dimensions pr = .ok (is.length + 1)) {T : ℤ} {r : Nat → Rg N}
    (hrow : ∀ k, k < srv.dbScaled.length → ∃ p, srv.dbScaled[k]? = some p ∧ PolyAt P 0 (r k) p ∧ Bdd T (r k))
    (hend : ∀ k, srv.dbScaled.length ≤ k → r k = 0) {q0 : BfvCipherText} {V : ℤ}
    {M0 : Rg N} (hq0 : CtEncodes P l t s M0 V q0) (hM0 : ∀ k, k < srv.firstDim → cf M0 k = if k = i0 then 1 else 0)
    {qs : List BfvCipherText} (hqs : qs.length = l.length) {M1 : Rg N} {B2 : ℤ}
    (hq : ∀ j ct, qs[j]? = some ct → ∃ f0 f1 : Rg N, IsCt P 0 [f0, f1] ct ∧ RlweGarner l 0 j s M1 B2 f0 f1)
    (hM1 : ∀ d k, d < is.length → k < srv.dim → cf M1 (d * srv.dim + k) = if k = is.getD d 0 then 1 else 0) :
    ∃ out, srv.decodeWith pr xPows (q0 :: qs) ev P = .ok out ∧
      out.length = (srv.dbScaled.length + srv.firstDim * srv.dim ^ is.length - 1) / (srv.firstDim * srv.dim ^ is.length) ∧
      ∀ j, j < out.length → ∃ ct, out[j]? = some ct ∧
        CtEncodes P l t s (r (i0 + srv.firstDim * address srv.dim is + srv.firstDim * srv.dim ^ is.length * j))
          (answerNoise N t l srv.firstDim srv.dim is.length V B2 T S B B0 B1) ct :=
  Server.decodeBy_any h pr hS hev hx srv h0 his hd hfN hdN hdim hrow hend hq0 hM0 hqs hq hM1

/-- The encoding of coordinates does not depend on the number of rows. -/
theorem Client.encode_rows {pr : Profile} {c : Client} {q : List Nat} {m n : Nat} {v w : List Nat} (h1 : c.encode pr q m = .ok v)
    (h2 : c.encode pr q n = .ok w) : v = w := by
  unfold Client.encode at h1 h2
  cases e0 : idx q 0 with
  | error e => rw [e0] at h1; cases h1
  | ok q0 =>
    rw [e0, res_ok_bind] at h1 h2
    by_cases a0 : q0 < c.firstDim
    · rw [rassert_ok a0, res_ok_bind, divR_ok (by omega), res_ok_bind] at h1 h2
      cases e1 : powW 64 pr c.dim (q.length - 1) with
      | error e => rw [e1] at h1; cases h1
      | ok p =>
        rw [e1, res_ok_bind] at h1 h2
        by_cases a1 : p = 0
        · rw [a1] at h1; simp [divR, bind, Except.bind] at h1
        · rw [divR_ok a1, res_ok_bind] at h1 h2
          by_cases a2 : m / c.firstDim / p = 1
          · by_cases a3 : n / c.firstDim / p = 1
            · rw [rassert_ok a2, res_ok_bind] at h1
              rw [rassert_ok a3, res_ok_bind] at h2
              exact Except.ok.inj (h1.symm.trans h2)
            · rw [rassert_fail a3] at h2; cases h2
          · rw [rassert_fail a2] at h1; cases h1
    · rw [rassert_fail a0] at h1; cases h1

/-- What the answer encodes, with its noise, for rows with any entries; `b` are integers congruent to them modulo the ciphertext modulus. -/
theorem Server.answer_encodes (h : IsParams N t l variance P) {sk : SecretKey} (hk : IsKey P sk) (pr : Profile) (hv1 : 1 ≤ variance)
    (hv2 : variance ≤ 16) (hl : l.length ≠ 1) (hN : N ≤ 2 ^ 31) {S : ℤ} (hS : Bdd S (keyRing N sk))
    -- evaluation keys
    {aTape : Nat → Nat → Nat → Nat → Nat} (ha : ∀ k j, TapeAt l 0 (aTape k j))
    {rng : Nat → Nat → Nat → Nat} (hr : ∀ k j i, rng k j i < 2 ^ 64) {a0 a1 : Nat → Nat → Nat → Nat} (ha0 : ∀ j, TapeAt l 0 (a0 j))
    (ha1 : ∀ j, TapeAt l 0 (a1 j)) {r0 r1 : Nat → Nat → Nat} (hr0 : ∀ j i, r0 j i < 2 ^ 64) (hr1 : ∀ j i, r1 j i < 2 ^ 64)
    {ev : Evaluation} {pr1 : Profile} (hev : Evaluation.build pr1 sk P aTape rng a0 a1 r0 r1 = .ok ev)
    {xPows : List Poly} (hx : IsMonomials N P xPows)
    -- database
    {fd dim : Nat} {db : List Plaintext} (hdb : ∀ p ∈ db, p.values.length ≤ N) (hv : ∀ p ∈ db, ∀ a ∈ p.values, a < 2 ^ 64)
    {b : Nat → Nat → ℤ} {T : ℤ} (hb : ∀ k j, k < db.length → j < N → b k j ≡ ((((db.map (·.values)).getD k []).getD j 0 : Nat) : ℤ) [ZMOD levelQ l 0])
    (hbT : ∀ k j, |b k j| ≤ T) (hb0 : ∀ k j, db.length ≤ k → b k j = 0) {srv : Server} {pr2 : Profile} (hsrv : Server.new pr2 fd dim db P = .ok srv)
    -- query
    {i0 : Nat} {is : List Nat} (hd : 0 < dim) (hfit : fd + dim * is.length ≤ N) (hpow : dim ^ is.length < 2 ^ 64) {v : List Nat} {pr3 : Profile}
    (hv' : (Client.mk fd dim).encode pr3 (i0 :: is) db.length = .ok v) {q0 : BfvCipherText} {qs : List BfvCipherText}
    (hq : IsQuery N P l sk fd v q0 qs) {dims : Res Nat} (hdim : dims = .ok (is.length + 1)) :
    i0 + fd * address dim is < db.length ∧
    ∃ cts, Server.decodeBy pr dims (ev.unpackWith pr xPows) srv (q0 :: qs) ev P = .ok cts ∧ cts.length = (if db.length = fd * dim ^ is.length then 1 else 2) ∧
      ∀ j ct, cts[j]? = some ct → CtEncodes P l t (keyRing N sk) (ofCoeffs N (b (i0 + fd * address dim is + fd * dim ^ is.length * j)))
        (answerNoise N t l fd dim is.length (2 * t * variance + 2 * t) (2 * variance) T S (switchNoise N l 0 * (2 * variance)) (2 * variance)
          (2 * variance)) ct := by
  obtain ⟨K, -, hNK, -⟩ := BfvP.params h
  subst hNK
  have hpos : 0 < 2 ^ K := by positivity
  -- keys
  obtain ⟨ev', b1, b2⟩ := c41_build h hk pr1 hv1 hv2 hl hN ha hr ha0 ha1 hr0 hr1
  obtain rfl := Except.ok.inj (hev.symm.trans b1)
  -- database
  obtain ⟨srv', s1, s2, s3, s4, s5, s6⟩ := c43_new h pr2 fd dim hdb hv
  obtain rfl := Except.ok.inj (hsrv.symm.trans s1)
  -- encoded query
  have h32 : is.length < 2 ^ 32 := by
    have : 1 * is.length ≤ dim * is.length := Nat.mul_le_mul_right _ hd
    omega
  obtain ⟨h0, his, hlo, hhi⟩ := (c42_accepts_partial pr3 (Client.mk fd dim) hpow h32 db.length).mp ⟨v, hv'⟩
  dsimp only at h0 his hlo hhi
  obtain ⟨v', e1, e2, e3, e4⟩ := c42_encode pr3 (Client.mk fd dim) (i0 := i0) (rest := is) h0 his hpow h32 rfl
  obtain rfl := Client.encode_rows hv' e1
  dsimp only at e2 e3 e4
  obtain ⟨⟨prq, tape, rngq, t1, t2, t3⟩, hql, hqr⟩ := hq
  have hrest : ∀ d k, d < is.length → k < dim → v.getD (fd + (d * dim + k)) 0 = if k = is.getD d 0 then 1 else 0 := by
    intro d k hd' hk
    have := e4 d hd' k hk
    rw [List.getD_eq_getElem?_getD, ← Nat.add_assoc, this]
    rfl
  have hvb : ∀ a ∈ v, a < 2 ^ 64 := Client.bits hd e2 e3 e4
  obtain ⟨q0', f0, f1, c1, c2, c3⟩ := c30_encrypt h hk prq hv1 hv2 (pt := ⟨P, 0, .poly, v⟩) rfl rfl (by show v.length ≤ _; omega) hvb t1 t2
  obtain rfl := Except.ok.inj (t3.symm.trans c1)
  obtain ⟨out, d1, d2, d3⟩ := Server.decodeBy_any h pr hS b2 hx srv (i0 := i0) (is := is) (by rw [s2]; exact h0) (by rw [s3]; exact his)
    (by rw [s3]; exact hd) (by rw [s2]; omega) (by rw [s3]; omega) hdim (T := T)
    (r := fun k => ofCoeffs (2 ^ K) (b k))
    (fun k hk => by
      rw [s5] at hk
      obtain ⟨p, p1, p2⟩ := s6 k _ (List.getElem?_eq_getElem hk)
      have e : (db.map (·.values)).getD k [] = db[k].values := by simp [hk]
      refine ⟨p, p1, ?_, fun j hj => by rw [cf_ofCoeffs hpos _ hj]; exact hbT k j⟩
      obtain ⟨ext, L, hw, hL, -, hml, -⟩ := Evaluation.level_zero h
      rw [BfvP.polyAt_iff hL] at p2 ⊢
      rw [p2, enc_eq_iff hL.wf.ctx, dvd_iff hpos]
      intro j hj
      rw [cf_sub hpos, cf_ofCoeffs hpos _ hj, ← e, BfvP.cf_msgRing _ hj, BfvP.levelQ_eq hL, hml]
      exact (hb k j hk hj).dvd)
    (fun k hk => by
      refine ext_cf hpos fun j hj => ?_
      rw [cf_ofCoeffs hpos _ hj, cf_zero hpos, hb0 k j (by rw [← s5]; exact hk)])
    ⟨f0, f1, c2, c3⟩ (fun k hk => by
      rw [s2] at hk
      unfold msgRing
      rw [cf_ofCoeffs hpos _ (by omega)]
      have := e3 k hk
      rw [Nat.zero_add] at this
      rw [List.getD_eq_getElem?_getD, this]
      split_ifs <;> rfl) hql (M1 := msgRing (2 ^ K) ((v).drop fd)) (B2 := 2 * variance) (fun j ct hj => by
      obtain ⟨pr', g, p, tape', rng', g1, g2, g3, g4, g5⟩ := hqr j ct hj
      obtain ⟨ct', x0, x1, y1, y2, y3⟩ := c40_rlwe h hk pr' hv1 hv2 g1 g2 g3 g4
      obtain rfl := Except.ok.inj (g5.symm.trans y1)
      exact ⟨x0, x1, y2, y3⟩) (fun d k hd' hk => by
      rw [s3] at hk ⊢
      have hle : dim * (d + 1) ≤ dim * is.length := Nat.mul_le_mul_left _ hd'
      unfold msgRing
      rw [cf_ofCoeffs hpos _ (by rw [Nat.mul_succ, Nat.mul_comm dim d] at hle; omega), List.getD_eq_getElem?_getD, List.getElem?_drop,
        ← List.getD_eq_getElem?_getD, hrest d k hd' hk]
      split_ifs <;> rfl)
  rw [s2, s3] at d3
  have hbase : i0 + fd * address dim is < fd * dim ^ is.length := by
    have := Spec.address_lt his
    calc i0 + fd * address dim is < fd * (address dim is + 1) := by rw [Nat.mul_succ]; omega
      _ ≤ fd * dim ^ is.length := Nat.mul_le_mul_left _ this
  refine ⟨by omega, out, d1, ?_, fun j ct hj => ?_⟩
  · rw [d2, s2, s3, s5]
    split_ifs with he
    · rw [he, Nat.div_eq_iff (by omega)]; omega
    · rw [Nat.div_eq_iff (by omega)]; omega
  · obtain ⟨ct', x1, x2⟩ := d3 j (List.getElem?_eq_some_iff.mp hj).1
    obtain rfl := Option.some.inj (hj.symm.trans x1)
    exact x2

/-- The statement of `c87_answer_partial` for rows with any entries; `b` are integers congruent to them modulo the ciphertext modulus. -/
theorem Server.answer_any (h : IsParams N t l variance P) {sk : SecretKey} (hk : IsKey P sk) (pr pd : Profile) (hv1 : 1 ≤ variance)
    (hv2 : variance ≤ 16) (hl : l.length ≠ 1) (hN : N ≤ 2 ^ 31) {S : ℤ} (hS : Bdd S (keyRing N sk))
    -- evaluation keys
    {aTape : Nat → Nat → Nat → Nat → Nat} (ha : ∀ k j, TapeAt l 0 (aTape k j))
    {rng : Nat → Nat → Nat → Nat} (hr : ∀ k j i, rng k j i < 2 ^ 64) {a0 a1 : Nat → Nat → Nat → Nat} (ha0 : ∀ j, TapeAt l 0 (a0 j))
    (ha1 : ∀ j, TapeAt l 0 (a1 j)) {r0 r1 : Nat → Nat → Nat} (hr0 : ∀ j i, r0 j i < 2 ^ 64) (hr1 : ∀ j i, r1 j i < 2 ^ 64)
    {ev : Evaluation} {pr1 : Profile} (hev : Evaluation.build pr1 sk P aTape rng a0 a1 r0 r1 = .ok ev)
    {xPows : List Poly} (hx : IsMonomials N P xPows)
    -- database
    {fd dim : Nat} {db : List Plaintext} (hdb : ∀ p ∈ db, p.values.length ≤ N) (hv : ∀ p ∈ db, ∀ a ∈ p.values, a < 2 ^ 64)
    {b : Nat → Nat → ℤ} {T : ℤ} (hb : ∀ k j, k < db.length → j < N → b k j ≡ ((((db.map (·.values)).getD k []).getD j 0 : Nat) : ℤ) [ZMOD levelQ l 0])
    (hbT : ∀ k j, |b k j| ≤ T) (hb0 : ∀ k j, db.length ≤ k → b k j = 0) {srv : Server} {pr2 : Profile} (hsrv : Server.new pr2 fd dim db P = .ok srv)
    -- query
    {i0 : Nat} {is : List Nat} (hd : 0 < dim) (hfit : fd + dim * is.length ≤ N) (hpow : dim ^ is.length < 2 ^ 64) {v : List Nat} {pr3 : Profile}
    (hv' : (Client.mk fd dim).encode pr3 (i0 :: is) db.length = .ok v) {q0 : BfvCipherText} {qs : List BfvCipherText}
    (hq : IsQuery N P l sk fd v q0 qs) {dims : Res Nat} (hdim : dims = .ok (is.length + 1))
    -- noise
    (h2t : 2 * t ≤ l.getD 0 0)
    (hnoise : 4 * answerNoise N t l fd dim is.length (2 * t * variance + 2 * t) (2 * variance) T S (switchNoise N l 0 * (2 * variance))
      (2 * variance) (2 * variance) ≤ levelQ l 0) :
    i0 + fd * address dim is < db.length ∧
    ∃ cts, Server.decodeBy pr dims (ev.unpackWith pr xPows) srv (q0 :: qs) ev P = .ok cts ∧ cts.length = (if db.length = fd * dim ^ is.length then 1 else 2) ∧
      ∀ j ct, cts[j]? = some ct → ∃ pt, sk.decrypt pd ct = .ok pt ∧
        pt.values = (List.range N).map fun k => (b (i0 + fd * address dim is + fd * dim ^ is.length * j) k % (t : ℤ)).toNat := by
  obtain ⟨x1, cts, x2, x3, x4⟩ := Server.answer_encodes h hk pr hv1 hv2 hl hN hS ha hr ha0 ha1 hr0 hr1 hev hx hdb hv hb hbT hb0 hsrv hd hfit hpow hv'
    hq hdim
  refine ⟨x1, cts, x2, x3, fun j ct hj => ?_⟩
  obtain ⟨f0, f1, y1, y2⟩ := x4 j ct hj
  obtain ⟨pt, p1, -, -, p2⟩ := c30_decrypt h hk pd (by simp) y1 h2t y2 hnoise
  refine ⟨pt, p1, ?_⟩
  have hpos : 0 < N := by
    obtain ⟨K, -, rfl, -⟩ := BfvP.params h
    positivity
  rw [p2]
  unfold residues
  refine List.map_congr_left fun k hk => ?_
  rw [cf_ofCoeffs hpos _ (List.mem_range.mp hk)]

/-- C87, partial, end to end: whenever the client accepts the number of rows, the answer has one ciphertext if the rows form one block and
two otherwise, and the `j`-th decrypts to the row with the requested coordinates in the `j`-th block, or to zeros if there is no such row. In
particular the first ciphertext is the addressed row. As in `c44_answer_partial`, the monomials are given in place of the result of
`gen_x_pows`, and the dimension count is assumed right (`c87_dimensions` gives it for powers of two). -/
theorem c87_answer_partial (h : IsParams N t l variance P) {sk : SecretKey} (hk : IsKey P sk) (pr pd : Profile) (hv1 : 1 ≤ variance)
    (hv2 : variance ≤ 16) (hl : l.length ≠ 1) (hN : N ≤ 2 ^ 31) {S : ℤ} (hS : Bdd S (keyRing N sk))
    -- evaluation keys
    {aTape : Nat → Nat → Nat → Nat → Nat} (ha : ∀ k j, TapeAt l 0 (aTape k j))
    {rng : Nat → Nat → Nat → Nat} (hr : ∀ k j i, rng k j i < 2 ^ 64) {a0 a1 : Nat → Nat → Nat → Nat} (ha0 : ∀ j, TapeAt l 0 (a0 j))
    (ha1 : ∀ j, TapeAt l 0 (a1 j)) {r0 r1 : Nat → Nat → Nat} (hr0 : ∀ j i, r0 j i < 2 ^ 64) (hr1 : ∀ j i, r1 j i < 2 ^ 64)
    {ev : Evaluation} {pr1 : Profile} (hev : Evaluation.build pr1 sk P aTape rng a0 a1 r0 r1 = .ok ev)
    {xPows : List Poly} (hx : IsMonomials N P xPows)
    -- database
    {fd dim : Nat} {db : List Plaintext} (hdb : ∀ p ∈ db, p.values.length ≤ N) (hv : ∀ p ∈ db, ∀ a ∈ p.values, a < t) {srv : Server}
    {pr2 : Profile} (hsrv : Server.new pr2 fd dim db P = .ok srv)
    -- query
    {i0 : Nat} {is : List Nat} (hd : 0 < dim) (hfit : fd + dim * is.length ≤ N) (hpow : dim ^ is.length < 2 ^ 64) {v : List Nat} {pr3 : Profile}
    (hv' : (Client.mk fd dim).encode pr3 (i0 :: is) db.length = .ok v) {q0 : BfvCipherText} {qs : List BfvCipherText}
    (hq : IsQuery N P l sk fd v q0 qs) (hdim : srv.dimensions pr = .ok (is.length + 1))
    -- noise
    (h2t : 2 * t ≤ l.getD 0 0)
    (hnoise : 4 * answerNoise N t l fd dim is.length (2 * t * variance + 2 * t) (2 * variance) t S (switchNoise N l 0 * (2 * variance))
      (2 * variance) (2 * variance) ≤ levelQ l 0) :
    i0 + fd * address dim is < db.length ∧
    ∃ cts, srv.decodeWith pr xPows (q0 :: qs) ev P = .ok cts ∧ cts.length = (if db.length = fd * dim ^ is.length then 1 else 2) ∧
      ∀ j ct, cts[j]? = some ct → ∃ pt, sk.decrypt pd ct = .ok pt ∧
        pt.values = (List.range N).map fun k => ((db.map (·.values)).getD (i0 + fd * address dim is + fd * dim ^ is.length * j) []).getD k 0 := by
  have ht64 : t < 2 ^ 64 := by
    obtain ⟨_, _, _, hw, rfl, -⟩ := BfvP.params h
    exact hw.t_lt.trans (by norm_num)
  have hmem : ∀ k j, ((db.map (·.values)).getD k []).getD j 0 < t ∨ ((db.map (·.values)).getD k []).getD j 0 = 0 := by
    intro k j
    by_cases hlt : k < db.length
    · have e : (db.map (·.values)).getD k [] = db[k].values := by simp [hlt]
      rw [e]
      by_cases hj : j < db[k].values.length
      · rw [List.getD_eq_getElem _ _ hj]
        exact .inl (hv _ (List.getElem_mem hlt) _ (List.getElem_mem hj))
      · rw [List.getD_eq_default _ _ (by omega)]; exact .inr rfl
    · rw [List.getD_eq_default (l := db.map _) _ (by rw [List.length_map]; omega)]
      simp
  obtain ⟨x1, cts, x2, x3, x4⟩ := Server.answer_any h hk pr pd hv1 hv2 hl hN hS ha hr ha0 ha1 hr0 hr1 hev hx hdb
    (fun p hp a ha => (hv p hp a ha).trans ht64) (b := fun k j => ((((db.map (·.values)).getD k []).getD j 0 : Nat) : ℤ)) (T := t) (fun _ _ _ _ => Int.ModEq.refl _)
    (fun k j => by
      rw [abs_of_nonneg (by positivity)]
      have := hmem k j
      omega)
    (fun k j hk => by
      rw [List.getD_eq_default (l := db.map _) _ (by rw [List.length_map]; exact hk)]
      simp) hsrv hd hfit hpow hv' hq hdim h2t hnoise
  refine ⟨x1, cts, x2, x3, fun j ct hj => ?_⟩
  obtain ⟨pt, p1, p2⟩ := x4 j ct hj
  refine ⟨pt, p1, ?_⟩
  rw [p2]
  refine List.map_congr_left fun k _ => ?_
  rcases hmem (i0 + fd * address dim is + fd * dim ^ is.length * j) k with h' | h'
  · rw [← Int.natCast_mod, Int.toNat_natCast, Nat.mod_eq_of_lt h']
  · rw [h']; rfl

/-- Three dimensions have eight coordinates; row 11 of a larger database is in the second block. -/
example : ∃ i0 is j, (i0 < 2 ∧ is.length = 2 ∧ (∀ i ∈ is, i < 2) ∧ 11 = i0 + 2 * address 2 is + 2 * 2 ^ 2 * j) ∧
      ∀ i0' is' j', i0' < 2 → is'.length = 2 → (∀ i ∈ is', i < 2) → 11 = i0' + 2 * address 2 is' + 2 * 2 ^ 2 * j' →
        i0' = i0 ∧ is' = is ∧ j' = j := c87_coordinates (by norm_num) (by norm_num) 2 11

/-- Eleven rows for a server of dimensions two and two. -/
example : ∃ P, IsParams 8 17 Ex.mods4 10 P ∧ ∃ srv, Server.new .debug 2 2 (List.replicate 11 ⟨P, 0, .poly, [1, 2]⟩) P = .ok srv ∧
    srv.dimensions .debug = .ok 3 ∧ srv.select .debug P [] [] = .ok (List.replicate 6 ⟨P, [], 0⟩) := by
  obtain ⟨P, h⟩ := Ex.exists_params4
  obtain ⟨srv, s1, s2, s3, s4, s5, -⟩ := c43_new h .debug 2 2 (db := List.replicate 11 ⟨P, 0, .poly, [1, 2]⟩) (by simp) (by simp)
  refine ⟨P, h, srv, s1, c87_dimensions .debug srv (by rw [s2]; norm_num) (a := 1) (k := 2) (by norm_num) (by rw [s3]; rfl)
    (by rw [s2, s3, s4, List.length_replicate]; norm_num) (by rw [s2, s3, s4, List.length_replicate]; norm_num)
    (by rw [s4, List.length_replicate]; norm_num) (by norm_num), ?_⟩
  rw [c87_no_selectors .debug srv (by rw [s2]; norm_num) (by rw [s3]; norm_num), s2, s5, List.length_replicate]

/-- Seven rows, the last of them beyond the `2 × 2` block of the query `(0, 1)`: the answer has two ciphertexts, which decrypt to the rows
with the numbers 2 and 6. -/
example : ∃ P sk ev xs srv v q0 qs ct ct' pt pt', IsParams 8 17 Ex.mods4 10 P ∧ IsKey P sk ∧
    Server.new .release 2 2 (Ex.rows4 P ++ [⟨P, 0, .poly, [4]⟩, ⟨P, 0, .poly, [8]⟩, ⟨P, 0, .poly, [15, 16]⟩]) P = .ok srv ∧
    (Client.mk 2 2).encode .release [0, 1] 7 = .ok v ∧ IsQuery 8 P Ex.mods4 sk 2 v q0 qs ∧
    srv.decodeWith .debug xs (q0 :: qs) ev P = .ok [ct, ct'] ∧ sk.decrypt .debug ct = .ok pt ∧ pt.values = [5, 6, 7, 0, 0, 0, 0, 0] ∧
    sk.decrypt .debug ct' = .ok pt' ∧ pt'.values = [15, 16, 0, 0, 0, 0, 0, 0] := by
  obtain ⟨P, h⟩ := Ex.exists_params4
  obtain ⟨sk, -, hk, hb⟩ := c30_generate h .release (by norm_num) (by norm_num) Ex.wordTape
  have ht : TapeAt Ex.mods4 0 fun _ _ => 0 := Ex.tape0 Ex.mods4_gt
  obtain ⟨ev, h1, h2⟩ := c41_build h hk .release (by norm_num) (by norm_num) (by decide) (by norm_num) (aTape := fun _ _ _ _ => 0)
    (fun _ _ => ht) (rng := fun _ _ i => i % 1000) (fun _ _ => Ex.wordTape) (a0 := fun _ _ _ => 0)
    (fun _ => ht) (a1 := fun _ _ _ => 0) (fun _ => ht) (r0 := fun _ i => i % 1000) (fun _ => Ex.wordTape)
    (r1 := fun _ i => i % 1000) (fun _ => Ex.wordTape)
  obtain ⟨xs, hx⟩ := Ex.monomials h (by decide)
  obtain ⟨db, hdb⟩ : ∃ db, db = Ex.rows4 P ++ [⟨P, 0, .poly, [4]⟩, ⟨P, 0, .poly, [8]⟩, ⟨P, 0, .poly, [15, 16]⟩] := ⟨_, rfl⟩
  have hl7 : db.length = 7 := by rw [hdb]; rfl
  have hlen : ∀ p ∈ db, p.values.length ≤ 8 := by rw [hdb]; simp [Ex.rows4]
  have hval : ∀ p ∈ db, ∀ a ∈ p.values, a < 17 := by rw [hdb]; simp [Ex.rows4]
  obtain ⟨srv, s1, s2, s3, s4, -⟩ := c43_new h .release 2 2 (db := db) hlen (fun p hp a ha => (hval p hp a ha).trans (by norm_num))
  have hv : (Client.mk 2 2).encode .release [0, 1] 7 = .ok [1, 0, 0, 1] := by decide +kernel
  obtain ⟨q0, qs, hq⟩ := c44_query h hk (by norm_num) (by norm_num) (v := [1, 0, 0, 1]) (by norm_num) (by simp) 2
  have hdim : srv.dimensions .debug = .ok 2 :=
    c87_dimensions .debug srv (by rw [s2]; norm_num) (a := 1) (k := 1) (by norm_num) (by rw [s3]; rfl) (by rw [s2, s3, s4, hl7]; norm_num)
      (by rw [s2, s3, s4, hl7]; norm_num) (by rw [s4, hl7]; norm_num) (by norm_num)
  obtain ⟨-, cts, r2, r3, r4⟩ := c87_answer_partial h hk .debug .debug (by norm_num) (by norm_num) (by decide) (by norm_num) hb (fun _ _ => ht)
    (fun _ _ => Ex.wordTape) (fun _ => ht) (fun _ => ht) (fun _ => Ex.wordTape) (fun _ => Ex.wordTape) h1 hx hlen hval s1 (i0 := 0) (is := [1])
    (by norm_num) (by norm_num) (by norm_num) (by rw [hl7]; exact hv) hq hdim (by decide) (by
      unfold answerNoise
      rw [show switchNoise 8 Ex.mods4 0 = 8 * (16777441 + 16777601 + 16777633 + 16777681) by decide +kernel,
        show levelQ Ex.mods4 0 = 16777441 * 16777601 * 16777633 * 16777681 by decide +kernel]
      norm_num)
  rw [hl7] at r3
  match cts, r3, r2, r4 with
  | [ct, ct'], _, r2, r4 =>
    obtain ⟨pt, p1, p2⟩ := r4 0 ct rfl
    obtain ⟨pt', p3, p4⟩ := r4 1 ct' rfl
    refine ⟨P, sk, ev, xs, srv, _, q0, qs, ct, ct', pt, pt', h, hk, hdb ▸ s1, hv, hq, r2, p1, ?_, p3, ?_⟩
    · rw [p2, hdb]; rfl
    · rw [p4, hdb]; rfl

end OnionPIR
