import Verif.Props.RepairPir
import Verif.Proofs.ExpandTail
/- The answer of the server with an expansion whose errors are bounded by any `D`. -/
namespace OnionPIR
open Rg Poly Spec Sampling

variable {N t : Nat} {l : List Nat} {variance : Nat} {P : BfvParameters}

/-- The noise of an answer if the errors of the expanded ciphertexts are bounded by `D`: `answerNoise` with `D` for `(N-1) B`. -/
noncomputable def Spec.expandedNoise (N t : Nat) (l : List Nat) (fd dim d : Nat) (V B2 T S D B0 B1 : ℤ) : ℤ :=
  fd * (N * (V + t * D) * T) + d * (t * (dim * (switchNoise N l 0 *
    (N * (B2 + D) * S + switchNoise N l 0 * (B0 + B1) + (B2 + D)))))

/-- The function `u` expands the ciphertext `ct` into `N` ciphertexts of the coefficients of its phase, up to errors bounded by `D`. -/
def Spec.Expands (P : BfvParameters) (l : List Nat) (s : Rg N) (D : ℤ) (u : BfvCipherText → Res (List BfvCipherText)) (ct : BfvCipherText) : Prop :=
  ∀ f0 f1 : Rg N, IsCt P 0 [f0, f1] ct → ∃ bits, u ct = .ok bits ∧ bits.length = N ∧
    ∀ j, j < N → ∃ c, ∃ g0 g1 E : Rg N, bits[j]? = some c ∧ IsCt P 0 [g0, g1] c ∧ Bdd D E ∧
      Cong (levelQ l 0) (phase s [g0, g1]) (((cf (phase s [f0, f1]) j : ℤ) : Rg N) + E)

/-- The coefficients of `M` at positions `n` and above are zero. -/
def Spec.Below (n : Nat) (M : Rg N) : Prop := ∀ k, n ≤ k → k < N → cf M k = 0

/-- The function `u` expands the ciphertext `ct` into ciphertexts of the first `n` coefficients of its message, whenever that has no others,
with additional errors bounded by `D`. -/
def Spec.Serves (P : BfvParameters) (l : List Nat) (t : Nat) (s : Rg N) (D : ℤ) (n : Nat) (u : BfvCipherText → Res (List BfvCipherText))
    (ct : BfvCipherText) : Prop :=
  (∀ M V, CtEncodes P l t s M V ct → Below n M → ∃ bits, u ct = .ok bits ∧ n ≤ bits.length ∧
    ∀ k, k < n → ∃ c, bits[k]? = some c ∧ CtEncodes P l t s ((cf M k : ℤ) : Rg N) (V + t * D) c) ∧
  ∀ j M B f0 f1, IsCt P 0 [f0, f1] ct → RlweGarner l 0 j s M B f0 f1 → Below n M → ∃ bits, u ct = .ok bits ∧ n ≤ bits.length ∧
    ∀ k, k < n → ∃ c, ∃ g0 g1 : Rg N, bits[k]? = some c ∧ IsCt P 0 [g0, g1] c ∧ RlweGarner l 0 j s ((cf M k : ℤ) : Rg N) (B + D) g0 g1

theorem Spec.Expands.serves (hN : 0 < N) {s : Rg N} {D : ℤ} {u : BfvCipherText → Res (List BfvCipherText)} {ct : BfvCipherText}
    (hu : Expands P l s D u ct) {n : Nat} (hn : n ≤ N) : Serves P l t s D n u ct := by
  constructor
  · rintro M V ⟨f0, f1, c1, c2⟩ -
    obtain ⟨u, u1, u2, u3⟩ := hu f0 f1 c1
    refine ⟨u, u1, by omega, fun k hk => ?_⟩
    obtain ⟨c, g0, g1, E, e1, e2, e3, e4⟩ := u3 k (by omega)
    exact ⟨c, e1, g0, g1, e2,
      BfvP.Encodes.congr (BfvP.Encodes.addError hN (Evaluation.encodes_coeff hN c2 (by omega)) e3) e4⟩
  · intro j M B f0 f1 hct hr _
    obtain ⟨u, u1, u2, u3⟩ := hu f0 f1 hct
    refine ⟨u, u1, by omega, fun k hk => ?_⟩
    obtain ⟨c, g0, g1, E, e1, e2, e3, e4⟩ := u3 k (by omega)
    exact ⟨c, g0, g1, e1, e2, Server.rlwe_coeff hN (by omega) hr e3 e4⟩

/-- `decodeBy` with any expansion that is right for the ciphertexts of the query, up to errors bounded by `D`. -/
theorem AnswerTail.decode (h : IsParams N t l variance P) (pr : Profile) {s : Rg N} {S D B0 B1 : ℤ} (hS : Bdd S s) {ev : Evaluation}
    (hev : IsRgsw P l 0 s s B0 B1 ev.skRgsw) {u : BfvCipherText → Res (List BfvCipherText)} (srv : Server) {i0 : Nat} {is : List Nat}
    (h0 : i0 < srv.firstDim) (his : ∀ i ∈ is, i < srv.dim) (hd : 0 < srv.dim) {n : Nat} (hnN : n ≤ N) (hfN : srv.firstDim ≤ n)
    (hdN : srv.dim * is.length ≤ n) {dims : Res Nat} (hdim : dims = .ok (is.length + 1)) {T : ℤ} {r : Nat → Rg N}
    (hlen : srv.dbScaled.length = srv.firstDim * srv.dim ^ is.length)
    (hrow : ∀ k, k < srv.dbScaled.length → ∃ p, srv.dbScaled[k]? = some p ∧ PolyAt P 0 (r k) p ∧ Bdd T (r k)) {q0 : BfvCipherText} {V : ℤ}
    {M0 : Rg N} (hq0 : CtEncodes P l t s M0 V q0) (hM0 : ∀ k, k < srv.firstDim → cf M0 k = if k = i0 then 1 else 0)
    (hB0 : Below n M0)
    {qs : List BfvCipherText} (hqs : qs.length = l.length) {M1 : Rg N} {B2 : ℤ}
    (hq : ∀ j ct, qs[j]? = some ct → ∃ f0 f1 : Rg N, IsCt P 0 [f0, f1] ct ∧ RlweGarner l 0 j s M1 B2 f0 f1)
    (hM1 : ∀ d k, d < is.length → k < srv.dim → cf M1 (d * srv.dim + k) = if k = is.getD d 0 then 1 else 0)
    (hB1 : Below n M1) (hu : ∀ ct ∈ q0 :: qs, Serves P l t s D n u ct) :
    ∃ ct, Server.decodeBy pr dims u srv (q0 :: qs) ev P = .ok [ct] ∧ CtEncodes P l t s (r (i0 + srv.firstDim * address srv.dim is))
      (expandedNoise N t l srv.firstDim srv.dim is.length V B2 T S D B0 B1) ct := by
  obtain ⟨K, -, hNK, -⟩ := BfvP.params h
  subst hNK
  have hpos : 0 < 2 ^ K := by positivity
  obtain ⟨ext, L, hw, hL, -, hml, -⟩ := Evaluation.level_zero h
  have hN62 : 2 ^ K ≤ 2 ^ 62 := Nat.pow_le_pow_right (by norm_num) hL.wf.ctx.core.K_le
  have hbit : ∀ k i, ((if k = i then 1 else 0 : ℤ) : Rg (2 ^ K)) = bit (2 ^ K) k i := by
    intro k i; unfold bit; split_ifs <;> simp
  obtain ⟨u0, a1, a2, a3⟩ := (hu q0 (by simp)).1 M0 V hq0 hB0
  obtain ⟨vals, v1, v2, v3⟩ := Server.mapR_list (xs := qs)
    (f := fun q => do let v ← u q; takeR v (srv.dim * is.length))
    (p := fun j v => ∀ k, k < srv.dim * is.length → ∃ c, ∃ g0 g1 : Rg (2 ^ K), v[k]? = some c ∧ IsCt P 0 [g0, g1] c ∧
        RlweGarner l 0 j s ((cf M1 k : ℤ) : Rg (2 ^ K)) (B2 + D) g0 g1) (fun j ct hj => by
      obtain ⟨f0, f1, c1, c2⟩ := hq j ct hj
      obtain ⟨_, b1, b2, b3⟩ := (hu ct (List.mem_cons_of_mem _ (List.mem_of_getElem? hj))).2 j M1 B2 f0 f1 c1 c2 hB1
      refine ⟨_, by rw [b1, res_ok_bind, takeR_ok (hdN.trans b2)], fun k hk => ?_⟩
      rw [List.getElem?_take_of_lt hk]
      exact b3 k (by omega))
  obtain ⟨rgsws, w1, w2, w3⟩ := Server.mapR_range (f := Server.selectorRgsw pr P ev.skRgsw vals) (n := srv.dim * is.length)
    (p := fun k g => IsRgsw P l 0 s ((cf M1 k : ℤ) : Rg (2 ^ K)) ((2 ^ K : ℕ) * (B2 + D) * S + switchNoise (2 ^ K) l 0 * (B0 + B1))
      (B2 + D) g) (fun k hk => by
      refine Server.selectorRgsw_ok h pr hev hS (v2.trans hqs) fun j v hj => ?_
      obtain ⟨v', e1, e2⟩ := v3 j (by rw [← v2]; exact (List.getElem?_eq_some_iff.mp hj).1)
      have : v = v' := Option.some.inj (hj.symm.trans e1)
      rw [this]
      exact e2 k hk)
  obtain ⟨ct, c1, c2⟩ := c43_select h pr srv h0 his hd hlen hrow (cts := u0.take srv.firstDim) (fun k hk => by
      obtain ⟨c, x1, x2⟩ := a3 k (by omega)
      rw [hM0 k hk, hbit] at x2
      exact ⟨c, by rw [List.getElem?_take_of_lt hk, x1], x2⟩) w2 (fun d k hd' hk => by
      have hle : srv.dim * (d + 1) ≤ srv.dim * is.length := Nat.mul_le_mul_left _ hd'
      obtain ⟨g, x1, x2⟩ := w3 (d * srv.dim + k) (by rw [Nat.mul_succ, Nat.mul_comm srv.dim d] at hle; omega)
      rw [hM1 d k hd' hk, hbit] at x2
      exact ⟨g, x1, x2⟩)
  refine ⟨ct, ?_, c2⟩
  unfold Server.decodeBy
  have hml' : L.qCtx.moduli.length = l.length := by
    rw [hL.wf.ctx.core.mods, Ksk.moduli_len hL.wf.ctx, BfvP.len_level hL, hml]
    simp [levelModuli]
  rw [idx_of hL.q, res_ok_bind, rassert_ok (by rw [hml', List.length_cons, hqs]), res_ok_bind, show idx (q0 :: qs) 0 = .ok q0 from rfl, res_ok_bind,
    a1, res_ok_bind, takeR_ok (hfN.trans a2), res_ok_bind, hdim, res_ok_bind, subW_ok (by omega), res_ok_bind, Nat.add_sub_cancel,
    mulW_ok (by rw [Nat.mul_comm]; omega), res_ok_bind, Nat.mul_comm is.length, List.drop_one, List.tail_cons, v1, res_ok_bind, w1, res_ok_bind, c1]

/-- The answer with any such expansion decrypts to the addressed row. -/
theorem AnswerTail.answer (h : IsParams N t l variance P) {sk : SecretKey} (hk : IsKey P sk) (pr pd : Profile) (hv1 : 1 ≤ variance)
    (hv2 : variance ≤ 16) (hN : N ≤ 2 ^ 31) {S D : ℤ} (hS : Bdd S (keyRing N sk))
    {ev : Evaluation} (hev : IsRgsw P l 0 (keyRing N sk) (keyRing N sk) (2 * variance) (2 * variance) ev.skRgsw)
    {u : BfvCipherText → Res (List BfvCipherText)}
    -- database
    {fd dim : Nat} {db : List Plaintext} (hdb : ∀ p ∈ db, p.values.length ≤ N) (hv : ∀ p ∈ db, ∀ a ∈ p.values, a < t) {srv : Server}
    {pr2 : Profile} (hsrv : Server.new pr2 fd dim db P = .ok srv)
    -- query
    {i0 : Nat} {is : List Nat} (h0 : i0 < fd) (his : ∀ i ∈ is, i < dim) (hd : 0 < dim) (hrows : db.length = fd * dim ^ is.length)
    (hpow : dim ^ is.length < 2 ^ 64) {v : List Nat} {pr3 : Profile}
    (hv' : (Client.mk fd dim).encode pr3 (i0 :: is) db.length = .ok v) {q0 : BfvCipherText} {qs : List BfvCipherText}
    {z : Nat} (hz : v.length + z ≤ N)
    (hq : IsQuery N P l sk fd (v ++ List.replicate z 0) q0 qs) {dims : Res Nat} (hdim : dims = .ok (is.length + 1))
    -- noise
    {n : Nat} (hn1 : fd + dim * is.length ≤ n) (hn2 : n ≤ N) (hu : ∀ ct ∈ q0 :: qs, Serves P l t (keyRing N sk) D n u ct) (h2t : 2 * t ≤ l.getD 0 0)
    (hnoise : 4 * expandedNoise N t l fd dim is.length (2 * t * variance + 2 * t) (2 * variance) t S D
      (2 * variance) (2 * variance) ≤ levelQ l 0) :
    ∃ ct pt row, db[i0 + fd * address dim is]? = some row ∧ Server.decodeBy pr dims u srv (q0 :: qs) ev P = .ok [ct] ∧
      sk.decrypt pd ct = .ok pt ∧ pt.values = (List.range N).map fun k => row.values.getD k 0 := by
  obtain ⟨K, -, hNK, -⟩ := BfvP.params h
  subst hNK
  have hpos : 0 < 2 ^ K := by positivity
  -- database
  have ht64 : t < 2 ^ 64 := by
    obtain ⟨_, _, _, hw, rfl, -⟩ := BfvP.params h
    exact hw.t_lt.trans (by norm_num)
  obtain ⟨srv', s1, s2, s3, s4, s5, s6⟩ := c43_new h pr2 fd dim hdb (fun p hp a ha => (hv p hp a ha).trans ht64)
  obtain rfl := Except.ok.inj (hsrv.symm.trans s1)
  -- encoded query
  obtain ⟨v', e1, e2, e3, e4⟩ := c42_encode pr3 (Client.mk fd dim) (i0 := i0) (rest := is) h0 his hpow (by
    have : 1 * is.length ≤ dim * is.length := Nat.mul_le_mul_right _ hd
    omega) hrows
  obtain rfl := Except.ok.inj (hv'.symm.trans e1)
  obtain ⟨⟨prq, tape, rngq, t1, t2, t3⟩, hql, hqr⟩ := hq
  have hrest : ∀ d k, d < is.length → k < dim → v.getD (fd + (d * dim + k)) 0 = if k = is.getD d 0 then 1 else 0 := by
    intro d k hd' hk
    have := e4 d hd' k hk
    rw [List.getD_eq_getElem?_getD, ← Nat.add_assoc, this]
    rfl
  have hvb : ∀ a ∈ v ++ List.replicate z 0, a < 2 ^ 64 := fun a ha => by
    rcases List.mem_append.mp ha with ha | ha
    · exact Client.bits hd e2 e3 e4 a ha
    · rw [(List.mem_replicate.mp ha).2]; norm_num
  have hpad : ∀ k, (v ++ List.replicate z 0).getD k 0 = v.getD k 0 := fun k => by
    simp only [List.getD, List.getElem?_append, List.getElem?_replicate]
    split_ifs <;> simp_all
  obtain ⟨q0', f0, f1, c1, c2, c3⟩ := c30_encrypt h hk prq hv1 hv2 (pt := ⟨P, 0, .poly, v ++ List.replicate z 0⟩) rfl rfl (by simpa using hz) hvb t1 t2
  obtain rfl := Except.ok.inj (t3.symm.trans c1)
  obtain ⟨ct, d1, f0', f1', d2, d3⟩ := AnswerTail.decode h pr hS hev srv (D := D) (u := u) (i0 := i0) (is := is) (by rw [s2]; exact h0) (by rw [s3]; exact his)
    (by rw [s3]; exact hd) hn2 (by rw [s2]; omega) (by rw [s3]; omega) hdim (T := t)
    (r := fun k => msgRing (2 ^ K) ((db.map (·.values)).getD k []))
    (by rw [s5, s2, s3, hrows]) (fun k hk => by
      rw [s5] at hk
      obtain ⟨p, p1, p2⟩ := s6 k _ (List.getElem?_eq_getElem hk)
      have e : (db.map (·.values)).getD k [] = db[k].values := by simp [hk]
      refine ⟨p, p1, by rw [e]; exact p2, ?_⟩
      rw [e]
      exact BfvP.msgRing_bdd fun a ha => (hv _ (List.getElem_mem hk) a ha).le)
    ⟨f0, f1, c2, c3⟩ (fun k hk => by
      rw [s2] at hk
      unfold msgRing
      rw [cf_ofCoeffs hpos _ (by omega)]
      have := e3 k hk
      rw [Nat.zero_add] at this
      rw [hpad, List.getD_eq_getElem?_getD, this]
      split_ifs <;> rfl) (fun k hk hkN => by
      unfold msgRing
      rw [cf_ofCoeffs hpos _ hkN, hpad, List.getD_eq_default _ _ (by rw [e2]; dsimp only; omega)]
      rfl) hql (M1 := msgRing (2 ^ K) ((v ++ List.replicate z 0).drop fd)) (B2 := 2 * variance) (fun j ct hj => by
      obtain ⟨pr', g, p, tape', rng', g1, g2, g3, g4, g5⟩ := hqr j ct hj
      obtain ⟨ct', x0, x1, y1, y2, y3⟩ := c40_rlwe h hk pr' hv1 hv2 g1 g2 g3 g4
      obtain rfl := Except.ok.inj (g5.symm.trans y1)
      exact ⟨x0, x1, y2, y3⟩) (fun d k hd' hk => by
      rw [s3] at hk ⊢
      have hle : dim * (d + 1) ≤ dim * is.length := Nat.mul_le_mul_left _ hd'
      unfold msgRing
      rw [cf_ofCoeffs hpos _ (by rw [Nat.mul_succ, Nat.mul_comm dim d] at hle; omega), List.getD_eq_getElem?_getD, List.getElem?_drop,
        ← List.getD_eq_getElem?_getD, hpad, hrest d k hd' hk]
      split_ifs <;> rfl) (fun k hk hkN => by
      unfold msgRing
      rw [cf_ofCoeffs hpos _ hkN, List.getD_eq_getElem?_getD, List.getElem?_drop, ← List.getD_eq_getElem?_getD, hpad,
        List.getD_eq_default _ _ (by rw [e2]; dsimp only; omega)]
      rfl) hu
  rw [s2, s3] at d3
  obtain ⟨pt, p1, -, -, p2⟩ := c30_decrypt h hk pd (by simp) d2 h2t d3 hnoise
  have hlt : i0 + fd * address dim is < db.length := by
    have := Spec.address_lt his
    rw [hrows]
    calc i0 + fd * address dim is < fd * (address dim is + 1) := by rw [Nat.mul_succ]; omega
      _ ≤ fd * dim ^ is.length := Nat.mul_le_mul_left _ this
  refine ⟨ct, pt, _, List.getElem?_eq_getElem hlt, d1, p1, ?_⟩
  rw [p2, residues_msgRing]
  apply List.map_congr_left
  intro k _
  have e : (db.map (·.values)).getD (i0 + fd * address dim is) [] = db[i0 + fd * address dim is].values := by simp [hlt]
  rw [e]
  by_cases hk : k < (db[i0 + fd * address dim is].values).length
  · rw [List.getD_eq_getElem _ _ hk]
    exact Nat.mod_eq_of_lt (hv _ (List.getElem_mem hlt) _ (List.getElem_mem hk))
  · rw [List.getD_eq_default _ _ (by omega), Nat.zero_mod]

end OnionPIR
