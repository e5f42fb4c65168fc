import Verif.Proofs.Weighted
import Verif.Props.RepairPir
import Verif.Props.AnySize
/- Property C102: the server for selectors with arbitrary weights. -/
namespace OnionPIR
open Rg Spec

variable {N t : Nat} {l : List Nat} {variance : Nat} {P : BfvParameters}

/-- C102: for a database of any size and selectors with arbitrary integer weights, the folding of `decode` returns one ciphertext for every
started block of rows, and it encodes the sum of the rows with the products of the weights of all dimensions. The weights of the first
dimension do not enter the noise, those of the other dimensions multiply it. -/
theorem c102_select (h : IsParams N t l variance P) (pr : Profile) {s : Rg N} (srv : Server) (hf : 0 < srv.firstDim) (hd : 0 < srv.dim)
    (a0 : Nat → ℤ) (as : List (Nat → ℤ)) {A V T B0 B1 : ℤ} (hA : ∀ a ∈ as, ∑ k ∈ Finset.range srv.dim, |a k| ≤ A) {r : Nat → Rg N}
    (hrow : ∀ k, k < srv.dbScaled.length → ∃ p, srv.dbScaled[k]? = some p ∧ PolyAt P 0 (r k) p ∧ Bdd T (r k))
    (hend : ∀ k, srv.dbScaled.length ≤ k → r k = 0) {cts : List BfvCipherText}
    (hc : ∀ k, k < srv.firstDim → ∃ ct, cts[k]? = some ct ∧ CtEncodes P l t s ((a0 k : ℤ) : Rg N) V ct) {rgsws : List RgswCt}
    (hgl : rgsws.length = srv.dim * as.length)
    (hg : ∀ (d : Nat) (a : Nat → ℤ) k, as[d]? = some a → k < srv.dim →
      ∃ g, rgsws[d * srv.dim + k]? = some g ∧ IsRgsw P l 0 s ((a k : ℤ) : Rg N) B0 B1 g) :
    ∃ out, srv.select pr P cts rgsws = .ok out ∧
      out.length = (srv.dbScaled.length + srv.firstDim * srv.dim ^ as.length - 1) / (srv.firstDim * srv.dim ^ as.length) ∧
      ∀ j, j < out.length → ∃ ct, out[j]? = some ct ∧ CtEncodes P l t s (weighAll srv.dim as (weigh srv.firstDim a0 r) j)
        (weighNoise A (t * (srv.dim * (switchNoise N l 0 * (B0 + B1)))) as.length (srv.firstDim * (N * V * T))) ct := by
  obtain ⟨n, hn⟩ := CeilDiv.exists srv.dbScaled.length hf
  obtain ⟨db, d1, d2, d3⟩ := Server.firstDimension_weighted h pr hf hc hn hrow hend
  subst d2
  obtain ⟨out, c1, c2, c3⟩ := Server.dimensions_weighted h pr hd as hA
    (gss := (List.range as.length).map fun c => (rgsws.drop (c * srv.dim)).take srv.dim) (by simp) (fun d a hd' => by
      refine ⟨(rgsws.drop (d * srv.dim)).take srv.dim, by simp [(List.getElem?_eq_some_iff.mp hd').1], fun k hk => ?_⟩
      obtain ⟨g, g1, g2⟩ := hg d a k hd' hk
      exact ⟨g, by rw [chunk_get _ _ hk, g1], g2⟩) (m := weigh srv.firstDim a0 r) d3 (fun k hk => weigh_end hend hn hk)
  refine ⟨out, ?_, CeilDiv.eq (CeilDiv.comp hf hn c2), c3⟩
  unfold Server.select
  rw [chunksR_ok hd hgl, res_ok_bind, d1, res_ok_bind, c1]

/-- C102: one 1 for every dimension selects one row, as in C43 and C87. -/
theorem c102_one_row {R : Type} [CommRing R] {fd dim : Nat} {i0 : Nat} {is : List Nat} (h0 : i0 < fd) (his : ∀ i ∈ is, i < dim) (r : Nat → R)
    (j : Nat) : weighAll dim (is.map fun i k => if k = i then 1 else 0) (weigh fd (fun k => if k = i0 then 1 else 0) r) j =
      r (i0 + fd * address dim is + fd * dim ^ is.length * j) := by
  have hw : ∀ (n i : Nat), i < n → ∀ r : Nat → R, weigh n (fun k => if k = i then 1 else 0) r = fun c => r (i + n * c) := by
    intro n i hi r
    funext c
    unfold weigh
    rw [Finset.sum_eq_single i (fun k _ hk => by simp [hk]) (fun h => absurd (Finset.mem_range.mpr hi) h)]
    simp [Nat.add_comm, Nat.mul_comm]
  have main : ∀ (is : List Nat), (∀ i ∈ is, i < dim) → ∀ (r : Nat → R) (j : Nat),
      weighAll dim (is.map fun i k => if k = i then 1 else 0) r j = r (address dim is + dim ^ is.length * j) := by
    intro is
    induction is with
    | nil => intro _ r j; simp [weighAll, address]
    | cons i is ih =>
      intro hi r j
      rw [List.map_cons, weighAll, ih (fun k hk => hi k (by simp [hk])), hw dim i (hi i (by simp)), address, List.length_cons, pow_succ',
        Nat.mul_assoc, Nat.add_assoc, ← Nat.mul_add]
  rw [main is his, hw fd i0 h0, Nat.add_assoc, Nat.mul_assoc, ← Nat.mul_add]

/-- The weights of the dimensions after the first that a message of the query holds. -/
noncomputable def Spec.weightsOf (dim n : Nat) (M : Rg N) : List (Nat → ℤ) := (List.range n).map fun d k => cf M (d * dim + k)

/-- The noise of the answer for weights: as `answerNoise`, the sums of the weights of the later dimensions being at most `A`. -/
noncomputable def Spec.weightedNoise (N t : Nat) (l : List Nat) (fd dim d : Nat) (A V B2 T S B B0 B1 : ℤ) : ℤ :=
  weighNoise A (t * (dim * (switchNoise N l 0 *
    (N * (B2 + (N - 1) * B) * S + switchNoise N l 0 * (B0 + B1) + (B2 + (N - 1) * B))))) d (fd * (N * (V + t * ((N - 1) * B)) * T))

theorem Server.decodeBy_weighted (h : IsParams N t l variance P) (pr : Profile) {s : Rg N} {S B B0 B1 : ℤ} (hS : Bdd S s) {ev : Evaluation}
    (hev : IsEval P l s B B0 B1 ev) {xPows : List Poly} (hx : IsMonomials N P xPows) (srv : Server) (n : Nat)
    (hf : 0 < srv.firstDim) (hd : 0 < srv.dim) (hfN : srv.firstDim ≤ N) (hdN : srv.dim * n ≤ N)
    {dims : Res Nat} (hdim : dims = .ok (n + 1)) {A T : ℤ} {r : Nat → Rg N}
    (hrow : ∀ k, k < srv.dbScaled.length → ∃ p, srv.dbScaled[k]? = some p ∧ PolyAt P 0 (r k) p ∧ Bdd T (r k))
    (hend : ∀ k, srv.dbScaled.length ≤ k → r k = 0) {q0 : BfvCipherText} {V : ℤ} {M0 : Rg N} (hq0 : CtEncodes P l t s M0 V q0)
    {qs : List BfvCipherText} (hqs : qs.length = l.length) {M1 : Rg N} {B2 : ℤ}
    (hq : ∀ j ct, qs[j]? = some ct → ∃ f0 f1 : Rg N, IsCt P 0 [f0, f1] ct ∧ RlweGarner l 0 j s M1 B2 f0 f1)
    (hA : ∀ d, d < n → ∑ k ∈ Finset.range srv.dim, |cf M1 (d * srv.dim + k)| ≤ A) :
    ∃ out, Server.decodeBy pr dims (ev.unpackWith pr xPows) srv (q0 :: qs) ev P = .ok out ∧
      out.length = (srv.dbScaled.length + srv.firstDim * srv.dim ^ n - 1) / (srv.firstDim * srv.dim ^ n) ∧
      ∀ j, j < out.length → ∃ ct, out[j]? = some ct ∧
        CtEncodes P l t s (weighAll srv.dim (weightsOf srv.dim n M1) (weigh srv.firstDim (cf M0) r) j)
          (weightedNoise N t l srv.firstDim srv.dim n A V B2 T S B B0 B1) ct := by
  obtain ⟨K, -, hNK, -⟩ := BfvP.params h
  subst hNK
  obtain ⟨ext, L, hw, hL, -, hml, -⟩ := Evaluation.level_zero h
  have hN62 : 2 ^ K ≤ 2 ^ 62 := Nat.pow_le_pow_right (by norm_num) hL.wf.ctx.core.K_le
  obtain ⟨u0, a1, a2, a3⟩ := Server.unpack_bits h pr hev hx hq0 hfN
  obtain ⟨vals, v1, v2, v3⟩ := Server.mapR_list (xs := qs)
    (f := fun q => do let u ← ev.unpackWith pr xPows q; takeR u (srv.dim * n))
    (p := fun j v => ∀ k, k < srv.dim * n → ∃ c, ∃ g0 g1 : Rg (2 ^ K), v[k]? = some c ∧ IsCt P 0 [g0, g1] c ∧
        RlweGarner l 0 j s ((cf M1 k : ℤ) : Rg (2 ^ K)) (B2 + ((2 ^ K : ℕ) - 1) * B) g0 g1) (fun j ct hj => by
      obtain ⟨f0, f1, c1, c2⟩ := hq j ct hj
      obtain ⟨u, b1, b2, b3⟩ := Server.unpack_rlwe h pr hev hx c1 c2 hdN
      exact ⟨_, by rw [b1, res_ok_bind, takeR_ok b2], b3⟩)
  obtain ⟨rgsws, w1, w2, w3⟩ := Server.mapR_range (f := Server.selectorRgsw pr P ev.skRgsw vals) (n := srv.dim * n)
    (p := fun k g => IsRgsw P l 0 s ((cf M1 k : ℤ) : Rg (2 ^ K)) ((2 ^ K : ℕ) * (B2 + ((2 ^ K : ℕ) - 1) * B) * S + switchNoise (2 ^ K) l 0 * (B0 + B1))
      (B2 + ((2 ^ K : ℕ) - 1) * B) g) (fun k hk => by
      refine Server.selectorRgsw_ok h pr hev.rgsw hS (v2.trans hqs) fun j v hj => ?_
      obtain ⟨v', e1, e2⟩ := v3 j (by rw [← v2]; exact (List.getElem?_eq_some_iff.mp hj).1)
      have : v = v' := Option.some.inj (hj.symm.trans e1)
      rw [this]
      exact e2 k hk)
  obtain ⟨out, c1, c2, c3⟩ := c102_select h pr srv hf hd (cf M0) (weightsOf srv.dim n M1) (A := A) (fun a ha => by
      obtain ⟨d, hd', rfl⟩ := List.mem_map.mp ha
      exact hA d (List.mem_range.mp hd')) hrow hend (cts := u0.take srv.firstDim) a3 (rgsws := rgsws) (by rw [w2]; simp [weightsOf])
    (fun d a k hd' hk => by
      have hdn : d < n := by simpa [weightsOf] using (List.getElem?_eq_some_iff.mp hd').1
      have : (fun k => cf M1 (d * srv.dim + k)) = a := by simpa [weightsOf, hdn] using hd'
      subst this
      have hle : srv.dim * (d + 1) ≤ srv.dim * n := Nat.mul_le_mul_left _ hdn
      exact w3 (d * srv.dim + k) (by rw [Nat.mul_succ, Nat.mul_comm srv.dim d] at hle; omega))
  have hwl : (weightsOf srv.dim n M1).length = n := by simp [weightsOf]
  rw [hwl] at c2 c3
  refine ⟨out, ?_, c2, c3⟩
  unfold Server.decodeBy
  have hml' : L.qCtx.moduli.length = l.length := by
    rw [hL.wf.ctx.core.mods, Ksk.moduli_len hL.wf.ctx, BfvP.len_level hL, hml]
    simp [levelModuli]
  rw [idx_of hL.q, res_ok_bind, rassert_ok (by rw [hml', List.length_cons, hqs]), res_ok_bind, show idx (q0 :: qs) 0 = .ok q0 from rfl, res_ok_bind,
    a1, res_ok_bind, takeR_ok a2, res_ok_bind, hdim, res_ok_bind, subW_ok (by omega), res_ok_bind, Nat.add_sub_cancel,
    mulW_ok (by rw [Nat.mul_comm]; omega), res_ok_bind, Nat.mul_comm n, List.drop_one, List.tail_cons, v1, res_ok_bind, w1, res_ok_bind, c1]

/-- C102, end to end, for the corrected `decode` of C80: a query that encrypts any vector `v` of words gets the weighted sum of the rows. The
first `first_dim` entries of `v` are the weights of the first dimension, then come those of the others. A client that does not keep to
one-hot vectors thus learns any such combination of rows with one query. -/
theorem c102_answer (h : IsParams N t l variance P) {sk : SecretKey} (hk : IsKey P sk) (pr pd : Profile) (hv1 : 1 ≤ variance)
    (hv2 : variance ≤ 16) (hl : l.length ≠ 1) (hN : N ≤ 2 ^ 31) {S : ℤ} (hS : Bdd S (keyRing N sk))
    {aTape : Nat → Nat → Nat → Nat → Nat} (ha : ∀ k j, TapeAt l 0 (aTape k j))
    {rng : Nat → Nat → Nat → Nat} (hr : ∀ k j i, rng k j i < 2 ^ 64) {a0 a1 : Nat → Nat → Nat → Nat} (ha0 : ∀ j, TapeAt l 0 (a0 j))
    (ha1 : ∀ j, TapeAt l 0 (a1 j)) {r0 r1 : Nat → Nat → Nat} (hr0 : ∀ j i, r0 j i < 2 ^ 64) (hr1 : ∀ j i, r1 j i < 2 ^ 64)
    {ev : Evaluation} {pr1 : Profile} (hev : Evaluation.build pr1 sk P aTape rng a0 a1 r0 r1 = .ok ev)
    {fd dim : Nat} {db : List Plaintext} (hdb : ∀ p ∈ db, p.values.length ≤ N) (hv : ∀ p ∈ db, ∀ a ∈ p.values, a < t) {srv : Server}
    {pr2 : Profile} (hsrv : Server.new pr2 fd dim db P = .ok srv) (hfd : 0 < fd) (hd : 2 ≤ dim) {n : Nat}
    (hrows : db.length = fd * dim ^ n) (hfit : fd + dim * n ≤ N) (hmem : db.length < 2 ^ 64)
    {v : List Nat} (hvl : v.length ≤ N) (hvb : ∀ x ∈ v, x < 2 ^ 64) {q0 : BfvCipherText} {qs : List BfvCipherText}
    (hq : IsQuery N P l sk fd v q0 qs) {A : Nat} (hA : ∀ d, d < n → ∑ k ∈ Finset.range dim, v.getD (fd + (d * dim + k)) 0 ≤ A)
    (h2t : 2 * t ≤ l.getD 0 0)
    (hnoise : 4 * weightedNoise N t l fd dim n A (2 * t * variance + 2 * t) (2 * variance) t S (switchNoise N l 0 * (2 * variance))
      (2 * variance) (2 * variance) ≤ levelQ l 0) :
    ∃ ct pt, Repair.decode pr srv (q0 :: qs) ev P = .ok [ct] ∧ sk.decrypt pd ct = .ok pt ∧
      pt.values = (List.range N).map fun k =>
        (weighAll dim ((List.range n).map fun d i => (v.getD (fd + (d * dim + i)) 0 : ℤ)) (weigh fd (fun i => (v.getD i 0 : ℤ))
          fun x => ((((db.map (·.values)).getD x []).getD k 0 : ℕ) : ℤ)) 0 % t).toNat := by
  obtain ⟨K, -, hNK, -⟩ := BfvP.params h
  subst hNK
  have hpos : 0 < 2 ^ K := by positivity
  obtain ⟨ev', b1, b2⟩ := c41_build h hk pr1 hv1 hv2 hl hN ha hr ha0 ha1 hr0 hr1
  obtain rfl := Except.ok.inj (hev.symm.trans b1)
  have ht64 : t < 2 ^ 64 := by
    obtain ⟨_, _, _, hw, rfl, -⟩ := BfvP.params h
    exact hw.t_lt.trans (by norm_num)
  obtain ⟨srv', s1, s2, s3, s4, s5, s6⟩ := c43_new h pr2 fd dim hdb (fun p hp a ha => (hv p hp a ha).trans ht64)
  obtain rfl := Except.ok.inj (hsrv.symm.trans s1)
  have hnil : msgRing (2 ^ K) [] = 0 := by
    refine ext_cf hpos fun k hk => ?_
    unfold msgRing
    rw [cf_ofCoeffs hpos _ hk, cf_zero hpos]
    simp
  obtain ⟨xs, hx, hu⟩ := Repair.unpack_eq h pr
  have hdim := c80_dimensions pr srv (by rw [s2]; exact hfd) (by rw [s3]; exact hd) (k := n) (by rw [s2, s3, s4, hrows]) (by rw [s4]; exact hmem)
  have hlev := hq.level h hk hv1 hv2 hvl hvb
  obtain ⟨⟨prq, tape, rngq, t1, t2, t3⟩, hql, hqr⟩ := hq
  obtain ⟨q0', f0, f1, c1, c2, c3⟩ := c30_encrypt h hk prq hv1 hv2 (pt := ⟨P, 0, .poly, v⟩) rfl rfl hvl hvb t1 t2
  obtain rfl := Except.ok.inj (t3.symm.trans c1)
  have hcf0 : ∀ k, k < 2 ^ K → cf (msgRing (2 ^ K) v) k = (v.getD k 0 : ℤ) := fun k hk => by
    unfold msgRing
    rw [cf_ofCoeffs hpos _ hk]
  have hcf1 : ∀ k, k < 2 ^ K → cf (msgRing (2 ^ K) (v.drop fd)) k = (v.getD (fd + k) 0 : ℤ) := fun k hk => by
    unfold msgRing
    rw [cf_ofCoeffs hpos _ hk, List.getD_eq_getElem?_getD, List.getElem?_drop, ← List.getD_eq_getElem?_getD]
  have hin : ∀ d k, d < n → k < dim → d * dim + k < 2 ^ K := fun d k hd' hk => by
    have hle : dim * (d + 1) ≤ dim * n := Nat.mul_le_mul_left _ hd'
    rw [Nat.mul_succ, Nat.mul_comm dim d] at hle
    omega
  obtain ⟨out, d1, d2, d3⟩ := Server.decodeBy_weighted h pr hS b2 hx srv n (by rw [s2]; exact hfd) (by rw [s3]; omega) (by rw [s2]; omega)
    (by rw [s3]; omega) hdim (A := A) (T := t) (r := fun k => msgRing (2 ^ K) ((db.map (·.values)).getD k []))
    (fun k hk => by
      rw [s5] at hk
      obtain ⟨p, p1, p2⟩ := s6 k _ (List.getElem?_eq_getElem hk)
      have e : (db.map (·.values)).getD k [] = db[k].values := by simp [hk]
      refine ⟨p, p1, by rw [e]; exact p2, ?_⟩
      rw [e]
      exact BfvP.msgRing_bdd fun a ha => (hv _ (List.getElem_mem hk) a ha).le)
    (fun k hk => by
      rw [List.getD_eq_default _ _ (by rw [List.length_map, ← s5]; exact hk)]
      exact hnil)
    ⟨f0, f1, c2, c3⟩ hql (M1 := msgRing (2 ^ K) (v.drop fd)) (B2 := 2 * variance) (fun j ct hj => by
      obtain ⟨pr', g, p, tape', rng', g1, g2, g3, g4, g5⟩ := hqr j ct hj
      obtain ⟨ct', x0, x1, y1, y2, y3⟩ := c40_rlwe h hk pr' hv1 hv2 g1 g2 g3 g4
      obtain rfl := Except.ok.inj (g5.symm.trans y1)
      exact ⟨x0, x1, y2, y3⟩) (fun d hd' => by
      rw [s3]
      refine le_trans (le_of_eq ?_) (Int.ofNat_le.mpr (hA d hd'))
      push_cast
      refine Finset.sum_congr rfl fun k hk => ?_
      rw [hcf1 _ (hin d k hd' (Finset.mem_range.mp hk))]
      exact abs_of_nonneg (by positivity))
  have hone : out.length = 1 := by
    rw [d2, s2, s3, s5, hrows]
    have : 0 < fd * dim ^ n := by positivity
    rw [Nat.div_eq_iff this]; omega
  obtain ⟨ct, x1, f0', f1', x2, x3⟩ := d3 0 (by omega)
  rw [s2, s3] at x3
  obtain ⟨pt, p1, -, -, p2⟩ := c30_decrypt h hk pd (by simp) x2 h2t x3 hnoise
  refine ⟨ct, pt, ?_, p1, ?_⟩
  · unfold Repair.decode
    rw [Repair.decodeBy_congr pr _ srv (fun ct hct => hu ev ct (hlev ct hct).1 (hlev ct hct).2) ev P, d1]
    match out, hone, x1 with
    | [c], _, x1 => rw [show c = ct by simpa using x1]
  · rw [p2]
    unfold residues
    refine List.map_congr_left fun k hk => ?_
    have hk' := List.mem_range.mp hk
    rw [cf_weighAll hpos]
    have e1 : weigh fd (cf (msgRing (2 ^ K) v)) (fun k => msgRing (2 ^ K) ((db.map (·.values)).getD k [])) =
        weigh fd (fun i => (v.getD i 0 : ℤ)) (fun k => msgRing (2 ^ K) ((db.map (·.values)).getD k [])) := by
      funext c
      refine Finset.sum_congr rfl fun i hi => ?_
      rw [hcf0 i (by have := Finset.mem_range.mp hi; omega)]
    have e2 : (fun x => cf (weigh fd (cf (msgRing (2 ^ K) v)) (fun k => msgRing (2 ^ K) ((db.map (·.values)).getD k [])) x) k) =
        weigh fd (fun i => (v.getD i 0 : ℤ)) fun x => ((((db.map (·.values)).getD x []).getD k 0 : ℕ) : ℤ) := by
      rw [e1]
      funext c
      rw [cf_weigh hpos]
      congr 1
      funext x
      unfold msgRing
      rw [cf_ofCoeffs hpos _ hk']
    rw [e2]
    have e3 : ∀ (as bs : List (Nat → ℤ)), as.length = bs.length → (∀ (d : Nat) a b k, as[d]? = some a → bs[d]? = some b → k < dim → a k = b k) →
        ∀ (f : Nat → ℤ) j, weighAll dim as f j = weighAll dim bs f j := by
      intro as
      induction as with
      | nil =>
        intro bs hl _ f j
        have := List.length_eq_zero_iff.mp hl.symm
        subst this; rfl
      | cons a as ih =>
        intro bs hl he f j
        match bs, hl, he with
        | b :: bs, hl, he =>
          have : weigh dim a f = weigh dim b f := by
            funext c
            refine Finset.sum_congr rfl fun i hi => ?_
            rw [he 0 a b i rfl rfl (Finset.mem_range.mp hi)]
          rw [weighAll, weighAll, this]
          exact ih bs (by simpa using hl) (fun d a' b' k h1 h2 hk => he (d + 1) a' b' k (by simpa using h1) (by simpa using h2) hk) _ j
    rw [e3 _ ((List.range n).map fun d i => (v.getD (fd + (d * dim + i)) 0 : ℤ)) (by simp [weightsOf]) (fun d a b i h1 h2 hi => by
      have hdn : d < n := by simpa using (List.getElem?_eq_some_iff.mp h2).1
      have : (fun k => cf (msgRing (2 ^ K) (v.drop fd)) (d * dim + k)) = a := by simpa [weightsOf, hdn] using h1
      subst this
      have : (fun i => (v.getD (fd + (d * dim + i)) 0 : ℤ)) = b := by simpa [hdn] using h2
      subst this
      exact hcf1 _ (hin d i hdn hi))]

/-- The query `(1, 1), (1, 1)` for four rows: the answer decrypts to the sum of all rows modulo 17. -/
example : ∃ P sk ev srv q0 qs ct pt, IsParams 8 17 Ex.mods4 10 P ∧ IsKey P sk ∧ Server.new .release 2 2 (Ex.rows4 P) P = .ok srv ∧
    IsQuery 8 P Ex.mods4 sk 2 [1, 1, 1, 1] q0 qs ∧ Repair.decode .debug srv (q0 :: qs) ev P = .ok [ct] ∧ sk.decrypt .debug ct = .ok pt ∧
    pt.values = [1, 7, 7, 0, 0, 0, 0, 0] := by
  obtain ⟨P, h⟩ := Ex.exists_params4
  obtain ⟨sk, -, hk, hb⟩ := c30_generate h .release (by norm_num) (by norm_num) Ex.wordTape
  have ht : TapeAt Ex.mods4 0 fun _ _ => 0 := Ex.tape0 Ex.mods4_gt
  obtain ⟨ev, h1, h2⟩ := c41_build h hk .release (by norm_num) (by norm_num) (by decide) (by norm_num) (aTape := fun _ _ _ _ => 0)
    (fun _ _ => ht) (rng := fun _ _ i => i % 1000) (fun _ _ => Ex.wordTape) (a0 := fun _ _ _ => 0)
    (fun _ => ht) (a1 := fun _ _ _ => 0) (fun _ => ht) (r0 := fun _ i => i % 1000) (fun _ => Ex.wordTape)
    (r1 := fun _ i => i % 1000) (fun _ => Ex.wordTape)
  have hlen : ∀ p ∈ Ex.rows4 P, p.values.length ≤ 8 := by simp [Ex.rows4]
  have hval : ∀ p ∈ Ex.rows4 P, ∀ a ∈ p.values, a < 17 := by simp [Ex.rows4]
  obtain ⟨srv, s1, -⟩ := c43_new h .release 2 2 (db := Ex.rows4 P) hlen (fun p hp a ha => (hval p hp a ha).trans (by norm_num))
  obtain ⟨q0, qs, hq⟩ := c44_query h hk (by norm_num) (by norm_num) (v := [1, 1, 1, 1]) (by norm_num) (by simp) 2
  obtain ⟨ct, pt, r1, r2, r3⟩ := c102_answer h hk .debug .debug (by norm_num) (by norm_num) (by decide) (by norm_num) hb (fun _ _ => ht)
    (fun _ _ => Ex.wordTape) (fun _ => ht) (fun _ => ht) (fun _ => Ex.wordTape) (fun _ => Ex.wordTape) h1 hlen hval s1
    (by norm_num) (by norm_num) (n := 1) (by simp [Ex.rows4]) (by norm_num) (by simp [Ex.rows4]) (by norm_num) (by simp) hq (A := 2)
    (by decide) (by decide) (by
      unfold weightedNoise weighNoise weighNoise
      rw [show switchNoise 8 Ex.mods4 0 = 8 * (16777441 + 16777601 + 16777633 + 16777681) by decide +kernel,
        show levelQ Ex.mods4 0 = 16777441 * 16777601 * 16777633 * 16777681 by decide +kernel]
      norm_num)
  refine ⟨P, sk, ev, srv, q0, qs, ct, pt, h, hk, s1, hq, r1, r2, ?_⟩
  rw [r3]
  simp [Ex.rows4, List.range_succ, weighAll, weigh, Finset.sum_range_succ]

/-- Two ones in two dimensions of a 3 by 2 cube select row `2 + 3 * 1`. -/
example (r : Nat → ℤ) : weighAll 2 [fun k => if k = 1 then 1 else 0] (weigh 3 (fun k => if k = 2 then 1 else 0) r) 0 = r 5 :=
  c102_one_row (fd := 3) (dim := 2) (i0 := 2) (is := [1]) (by norm_num) (by simp) r 0

end OnionPIR
