import Verif.Spec.Shape
import Verif.Props.AnySize
import Verif.Props.Circuit
import Verif.Props.Decrypt
import Verif.Props.RepairPir
import Verif.Props.BfvExtra
import Verif.Props.Reject
import Verif.Proofs.RingIso
/-
C99: whatever residues the polynomials hold, the operations return a result of the same shape.
-/
namespace OnionPIR
open Rg Poly Spec

variable {N t : Nat} {l : List Nat} {variance : Nat} {P : BfvParameters}

namespace Shape

/-- Every element is small modulo `n`. -/
theorem reduce (hN : 0 < N) {n : ℤ} (hn : 0 < n) (x : Rg N) : ∃ y z : Rg N, x = y + (n : Rg N) * z ∧ Bdd n y := by
  refine ⟨ofCoeffs N fun k => cf x k % n, ofCoeffs N fun k => cf x k / n, ext_cf hN fun k hk => ?_, fun k hk => ?_⟩
  · rw [cf_add hN, cf_int_mul hN, cf_ofCoeffs hN _ hk, cf_ofCoeffs hN _ hk]
    exact (Int.emod_add_mul_ediv _ _).symm
  · rw [cf_ofCoeffs hN _ hk, abs_of_nonneg (Int.emod_nonneg _ hn.ne')]
    exact (Int.emod_lt_of_pos _ hn).le

/-- Every phase encodes every message, with enough noise. -/
theorem encodes (hN : 0 < N) {t Q : Nat} (ht : 0 < t) (hQ : 0 < Q) (m phi : Rg N) : Encodes t Q m phi (t * Q : ℕ) := by
  obtain ⟨y, z, h1, h2⟩ := reduce hN (n := (t * Q : ℕ)) (by positivity) (((t : ℤ) : Rg N) * phi - ((Q : ℤ) : Rg N) * m)
  refine ⟨y, z, h2, ?_⟩
  push_cast at h1 ⊢
  linear_combination h1

theorem polyAt (h : IsParams N t l variance P) {i : Nat} {p : Poly} (hp : Shaped P i p) : ∃ f : Rg N, PolyAt P i f p := by
  obtain ⟨K, ext, rfl, hw, rfl, rfl, -⟩ := BfvP.params h
  have hi : i < P.ciphertextModuli.length := by rw [← hw.nLevels]; exact (List.getElem?_eq_some_iff.mp hp.1).1
  obtain ⟨L, hL⟩ := hw.levels i hi
  have hc : p.context = L.qCtx := (Option.some.inj (hL.q.symm.trans hp.1)).symm
  have hv := hp.2.2
  obtain ⟨f, hf⟩ := RingIso.mk_surjective hL.wf.ctx ⟨p, hc, hp.2.1, by rw [← hc]; exact hv⟩
  exact ⟨f, (BfvP.polyAt_iff hL _ _).mpr (congrArg Subtype.val hf).symm⟩

theorem of_polyAt (h : IsParams N t l variance P) {i : Nat} {f : Rg N} {p : Poly} (hp : PolyAt P i f p) : Shaped P i p := by
  obtain ⟨c, h1, rfl, h2, h3, -⟩ := hp
  exact ⟨h1, h2, h3⟩

theorem forall₂ (h : IsParams N t l variance P) {i : Nat} : ∀ {ps : List Poly}, (∀ p ∈ ps, Shaped P i p) →
    ∃ fs : List (Rg N), List.Forall₂ (PolyAt P i) fs ps
  | [], _ => ⟨[], .nil⟩
  | p :: ps, hp => by
    obtain ⟨f, hf⟩ := polyAt h (hp p (by simp))
    obtain ⟨fs, hfs⟩ := forall₂ h (ps := ps) fun q hq => hp q (by simp [hq])
    exact ⟨f :: fs, .cons hf hfs⟩

theorem isCt (h : IsParams N t l variance P) {i n : Nat} {ct : BfvCipherText} (hct : ShapedCt P i n ct) :
    ∃ fs : List (Rg N), fs.length = n ∧ IsCt P i fs ct := by
  obtain ⟨fs, hfs⟩ := forall₂ h hct.2.2.2
  exact ⟨fs, hfs.length_eq.trans hct.2.2.1, hct.1, hct.2.1, hfs⟩

theorem isCt_two (h : IsParams N t l variance P) {i : Nat} {ct : BfvCipherText} (hct : ShapedCt P i 2 ct) :
    ∃ f0 f1 : Rg N, IsCt P i [f0, f1] ct := by
  obtain ⟨fs, h1, h2⟩ := isCt h hct
  match fs, h1, h2 with
  | [f0, f1], _, h2 => exact ⟨f0, f1, h2⟩

theorem of_isCt (h : IsParams N t l variance P) {i : Nat} {fs : List (Rg N)} {ct : BfvCipherText} (hct : IsCt P i fs ct) :
    ShapedCt P i fs.length ct := by
  obtain ⟨h1, h2, h3⟩ := hct
  refine ⟨h1, h2, h3.length_eq.symm, fun p hp => ?_⟩
  obtain ⟨j, hj, rfl⟩ := List.mem_iff_getElem.mp hp
  exact of_polyAt h (h3.get (by rw [h3.length_eq]; exact hj) hj)

/-- A key-switching key of the right shape is one from any source to any key, with errors below the ciphertext modulus. -/
theorem isKsk (h : IsParams N t l variance P) {i : Nat} {k : Ksk} (hk : ShapedKsk P i k) (s src : Rg N) :
    IsKsk P l i s src (levelQ l i) k := by
  obtain ⟨h1, h2, h3, h4, h5⟩ := hk
  obtain ⟨bs, hbs⟩ := forall₂ h fun p (hp : p ∈ k.c0) => h5 p (List.mem_append_left _ hp)
  obtain ⟨as, has⟩ := forall₂ h fun p (hp : p ∈ k.c1) => h5 p (List.mem_append_right _ hp)
  obtain ⟨K, ext, rfl, hw, rfl, rfl, -⟩ := BfvP.params h
  have hi : i < P.ciphertextModuli.length := by rw [← hw.nLevels]; exact (List.getElem?_eq_some_iff.mp h1).1
  obtain ⟨L, hL⟩ := hw.levels i hi
  have hc : k.ctContext = L.qCtx := (Option.some.inj (hL.q.symm.trans h1)).symm
  have hlen := BfvP.len_level hL
  rw [hc] at h3 h4
  refine ⟨h1, h2, bs, as, hbs, has, hbs.length_eq.trans (h3.trans hlen), has.length_eq.trans (h4.trans hlen), fun j hj => ?_⟩
  rw [BfvP.rlwe_iff hL (by omega)]
  obtain ⟨y, z, e1, e2⟩ := reduce (by positivity) (n := (L.qCtx.Q : ℤ)) (by exact_mod_cast hL.wf.ctx.Q_pos)
    (bs.getD j 0 + as.getD j 0 * s - src * ((Ksk.garnerAt L.qCtx j : ℤ) : Rg (2 ^ K)))
  refine ⟨y, by rw [← BfvP.levelQ_eq hL]; exact e2, z, ?_⟩
  linear_combination e1

theorem isRgsw (h : IsParams N t l variance P) {i : Nat} {g : RgswCt} (hg : ShapedRgsw P i g) (s m : Rg N) :
    IsRgsw P l i s m (levelQ l i) (levelQ l i) g := ⟨isKsk h hg.1 _ _, isKsk h hg.2 _ _⟩

theorem galois (h : IsParams N t l variance P) (hN : N ≤ 2 ^ 31) {i e : Nat} (he : Odd e) {g : GaliosKey} (hg : ShapedGk P i e g) (s : Rg N) :
    GaloisFor P l i s e (switchNoise N l i * levelQ l i) g := by
  obtain ⟨h1, h2, h3⟩ := hg
  have hk := isKsk h h3 s (sg e s)
  obtain ⟨K, ext, rfl, hw, rfl, rfl, -⟩ := BfvP.params h
  have hi : i < P.ciphertextModuli.length := by rw [← hw.nLevels]; exact (List.getElem?_eq_some_iff.mp h3.1).1
  obtain ⟨L, hL⟩ := hw.levels i hi
  have hc : g.gk.ctContext = L.qCtx := (Option.some.inj (hL.q.symm.trans h3.1)).symm
  have hK : K ≤ 31 := (Nat.pow_le_pow_iff_right (by norm_num)).mp hN
  obtain ⟨a, b, hh⟩ := BfvP.holds_of_isKsk hL hk
  intro pr ct f0 f1 hct
  obtain ⟨x1, x2, x3⟩ := (BfvP.isCt_iff hL _ _).mp hct
  obtain ⟨r0, r1, E, y1, y2, y3⟩ := GaliosKey.relinearize_enc hL.wf.ctx pr (x2.trans h1.symm) hK he (by rw [← hc]; exact h2) hh x3
  refine ⟨_, r0, r1, E, y1, (BfvP.isCt_iff hL _ _).mpr ⟨x1, h1, rfl⟩, ?_, ?_⟩
  · rw [BfvP.switchNoise_eq hL]; exact y2
  · unfold Cong; rw [← BfvP.levelQ_eq hL, BfvP.phase_two, BfvP.phase_two]; exact y3

theorem isEval (h : IsParams N t l variance P) (hN : N ≤ 2 ^ 31) {ev : Evaluation} (hev : ShapedEval N P ev) (s : Rg N) :
    IsEval P l s (switchNoise N l 0 * levelQ l 0) (levelQ l 0) (levelQ l 0) ev := by
  refine ⟨fun i hi => ?_, isRgsw h hev.2 _ _⟩
  obtain ⟨g, h1, h2⟩ := hev.1 i hi
  obtain ⟨K, ext, rfl, -⟩ := BfvP.params h
  have hi' : i < K := (Nat.pow_lt_pow_iff_right (by norm_num)).mp hi
  refine ⟨g, h1, galois h hN ?_ h2 s⟩
  rw [Nat.pow_div hi'.le (by norm_num)]
  exact odd_exp hi'

theorem level (h : IsParams N t l variance P) {i : Nat} {p : Poly} (hp : Shaped P i p) : i < l.length := by
  obtain ⟨K, ext, rfl, hw, rfl, rfl, -⟩ := BfvP.params h
  rw [← hw.nLevels]
  exact (List.getElem?_eq_some_iff.mp hp.1).1

/-- Every pair is an RLWE pair for every message, with errors below the ciphertext modulus. -/
theorem rlwe (h : IsParams N t l variance P) {i j : Nat} (hi : i < l.length) (hj : j < (levelModuli l i).length) (s m b a : Rg N) :
    RlweGarner l i j s m (levelQ l i) b a := by
  obtain ⟨K, ext, rfl, hw, rfl, rfl, -⟩ := BfvP.params h
  obtain ⟨L, hL⟩ := hw.levels i hi
  rw [BfvP.rlwe_iff hL (by rw [BfvP.len_level hL]; exact hj)]
  obtain ⟨y, z, e1, e2⟩ := reduce (by positivity) (n := (L.qCtx.Q : ℤ)) (by exact_mod_cast hL.wf.ctx.Q_pos)
    (b + a * s - m * ((Ksk.garnerAt L.qCtx j : ℤ) : Rg (2 ^ K)))
  refine ⟨y, by rw [← BfvP.levelQ_eq hL]; exact e2, z, ?_⟩
  linear_combination e1

theorem levelQ_pos (h : IsParams N t l variance P) {i : Nat} (hi : i < l.length) : 0 < levelQ l i := by
  obtain ⟨K, ext, rfl, hw, rfl, rfl, -⟩ := BfvP.params h
  obtain ⟨L, hL⟩ := hw.levels i hi
  rw [← BfvP.levelQ_eq hL]
  exact hL.wf.ctx.Q_pos

theorem decode (h : IsParams N t l variance P) (hN : N ≤ 2 ^ 31) (pr : Profile) {ev : Evaluation} (hev : ShapedEval N P ev) {srv : Server}
    (hf : 0 < srv.firstDim) (hfN : srv.firstDim ≤ N) (hd : 0 < srv.dim) {k : Nat} (hkN : srv.dim * k ≤ N)
    (hdim : Repair.dimensions pr srv 64 = .ok (k + 1)) {T : Nat} {rows : List (List Nat)} (hlen : srv.dbScaled.length = rows.length)
    (hv : ∀ v ∈ rows, ∀ a ∈ v, a < T) (hrow : ∀ (k : Nat) v, rows[k]? = some v → ∃ p, srv.dbScaled[k]? = some p ∧ PolyAt P 0 (msgRing N v) p)
    {q : List BfvCipherText} (hq : ∀ ct ∈ q, ShapedCt P 0 2 ct) (hl : q.length = l.length + 1) :
    ∃ out, Repair.decode pr srv q ev P = .ok out ∧
      out.length = (srv.dbScaled.length + srv.firstDim * srv.dim ^ k - 1) / (srv.firstDim * srv.dim ^ k) ∧ ∀ ct ∈ out, ShapedCt P 0 2 ct := by
  obtain ⟨K, -, hNK, -⟩ := BfvP.params h
  subst hNK
  have hN0 : 0 < 2 ^ K := Nat.two_pow_pos K
  obtain ⟨q0, qs, rfl⟩ : ∃ q0 qs, q = q0 :: qs := by
    cases q with
    | nil => simp at hl
    | cons a b => exact ⟨a, b, rfl⟩
  obtain ⟨f0, f1, hq0⟩ := isCt_two h (hq q0 (by simp))
  have hpos : 0 < l.length := by
    obtain ⟨K, ext, -, hw, rfl, rfl, -⟩ := BfvP.params h
    exact List.length_pos_iff.mpr hw.ne
  have hQ := levelQ_pos h hpos
  have ht : 0 < t := by
    obtain ⟨K, ext, -, hw, rfl, rfl, -⟩ := BfvP.params h
    exact hw.t_prime.pos
  obtain ⟨xs, hx, hu⟩ := Repair.unpack_eq h pr
  have hpad : ∀ k, rows.length ≤ k → msgRing (2 ^ K) (rows.getD k []) = 0 := by
    intro k hk
    rw [List.getD_eq_default _ _ hk]
    refine ext_cf hN0 fun k hk => ?_
    unfold msgRing
    rw [cf_ofCoeffs hN0 _ hk, cf_zero hN0]
    simp
  have hr : ∀ k, k < srv.dbScaled.length → ∃ p, srv.dbScaled[k]? = some p ∧ PolyAt P 0 (msgRing (2 ^ K) (rows.getD k [])) p ∧
      Bdd (T : ℤ) (msgRing (2 ^ K) (rows.getD k [])) := by
    intro k hk
    rw [hlen] at hk
    obtain ⟨p, p1, p2⟩ := hrow k _ (List.getElem?_eq_getElem hk)
    have e : rows.getD k [] = rows[k] := by simp [hk]
    rw [e]
    exact ⟨p, p1, p2, BfvP.msgRing_bdd (K := K) fun a ha => (hv _ (List.getElem_mem hk) a ha).le⟩
  have hM0 : ∀ k, k < srv.firstDim → cf (1 : Rg (2 ^ K)) k = if k = 0 then 1 else 0 := by
    intro k _
    have := cf_int hN0 1 k
    rw [Int.cast_one] at this
    exact this
  have hM1 : ∀ d j, d < (List.replicate k 0).length → j < srv.dim →
      cf (ofCoeffs (2 ^ K) fun j => if j % srv.dim = 0 then 1 else 0) (d * srv.dim + j) = if j = (List.replicate k 0).getD d 0 then 1 else 0 := by
    intro d j hd' hj
    rw [List.length_replicate] at hd'
    have hle : srv.dim * (d + 1) ≤ srv.dim * k := Nat.mul_le_mul_left _ hd'
    have e : (List.replicate k 0).getD d 0 = 0 := by
      rw [List.getD_eq_getElem?_getD, List.getElem?_replicate, if_pos hd', Option.getD_some]
    rw [cf_ofCoeffs hN0 _ (by rw [Nat.mul_succ, Nat.mul_comm srv.dim d] at hle; omega), e, Nat.add_comm, Nat.add_mul_mod_self_right, Nat.mod_eq_of_lt hj]
  have hqs : ∀ j ct, qs[j]? = some ct → ∃ g0 g1 : Rg (2 ^ K), IsCt P 0 [g0, g1] ct ∧
      RlweGarner l 0 j 0 (ofCoeffs (2 ^ K) fun j => if j % srv.dim = 0 then 1 else 0) (levelQ l 0) g0 g1 := by
    intro j ct hj
    obtain ⟨g0, g1, h1⟩ := isCt_two h (hq ct (by simp [List.mem_of_getElem? hj]))
    have hj' := (List.getElem?_eq_some_iff.mp hj).1
    exact ⟨g0, g1, h1, rlwe h hpos (by simp [levelModuli] at hl ⊢; omega) _ _ _ _⟩
  obtain ⟨out, d1, d2, d3⟩ := Server.decodeBy_any h pr (s := 0) (S := 0) (Bdd.zero hN0) (isEval h hN hev 0) hx srv (i0 := 0) (is := List.replicate k 0)
    hf (fun i hi => by rw [(List.mem_replicate.mp hi).2]; exact hd) hd hfN (by rw [List.length_replicate]; exact hkN)
    (dims := Repair.dimensions pr srv 64) (by rw [List.length_replicate]; exact hdim) hr (fun k hk => hpad k (by rw [← hlen]; exact hk))
    ⟨f0, f1, hq0, encodes hN0 ht hQ 1 _⟩ hM0 (by simpa using hl) hqs hM1
  rw [List.length_replicate] at d2
  refine ⟨out, ?_, d2, fun ct hct => ?_⟩
  · rw [← d1]
    unfold Repair.decode
    exact Repair.decodeBy_congr pr _ srv (fun ct hct => hu ev ct (hq ct hct).1 (hq ct hct).2.1) ev P
  · obtain ⟨j, hj, rfl⟩ := List.mem_iff_getElem.mp hct
    obtain ⟨c, c1, g0, g1, c2, -⟩ := d3 j hj
    rw [List.getElem?_eq_getElem hj] at c1
    rw [Option.some.inj c1]
    exact of_isCt h c2

end Shape

/-- C99: the polynomials of the right shape are exactly those that hold some ring element. -/
theorem c99_shape (h : IsParams N t l variance P) (i : Nat) (p : Poly) : Shaped P i p ↔ ∃ f : Rg N, PolyAt P i f p :=
  ⟨Shape.polyAt h, fun ⟨_, hf⟩ => Shape.of_polyAt h hf⟩

/-- C99: decryption, with any key of the parameters, returns a vector of the degree for whatever a server answers. -/
theorem c99_decrypt (h : IsParams N t l variance P) {sk : SecretKey} (hk : IsKey P sk) (pr : Profile) {ct : BfvCipherText} {i n : Nat} (hn : 0 < n)
    (hct : ShapedCt P i n ct) : ∃ pt, sk.decrypt pr ct = .ok pt ∧ pt.values.length = N := by
  obtain ⟨fs, h1, h2⟩ := Shape.isCt h hct
  obtain ⟨pt, h3, h4, -⟩ := c97_first_modulus h hk pr (fs := fs) (by rintro rfl; simp at h1; omega) h2 (m := 0)
    (v := ((t : ℤ) : Rg N) * phase (keyRing N sk) fs) (w := 0) (by ring)
  exact ⟨pt, h3, h4⟩

/-- C99: `measure_noise` and `decrypt_trial` return for every ciphertext of two components. -/
theorem c99_inspect (h : IsParams N t l variance P) {sk : SecretKey} (hk : IsKey P sk) (pr : Profile) {ct : BfvCipherText} {i : Nat}
    (hct : ShapedCt P i 2 ct) : ∃ noise c0 c1 p, sk.measureNoise pr ct = .ok noise ∧ 2 ^ noise ≤ levelQ l i ∧ ct.cts = [c0, c1] ∧
      sk.decryptTrial pr c0 c1 = .ok p ∧ Shaped P i p := by
  obtain ⟨f0, f1, h1⟩ := Shape.isCt_two h hct
  obtain ⟨pt, ideal, M, D, noise, -, -, -, a1, -, a2, a3⟩ := c48_measure_noise h hk pr h1
  obtain ⟨-, -, h2⟩ := h1
  match hcs : ct.cts, h2 with
  | [c0, c1], .cons x0 (.cons x1 .nil) =>
    obtain ⟨p, b1, b2⟩ := c57_decrypt_trial h hk pr x0 x1
    refine ⟨noise, c0, c1, p, a1, ?_, rfl, b1, Shape.of_polyAt h b2⟩
    rcases a3 with rfl | ⟨k, hk, h3⟩
    · rw [pow_zero]
      exact Shape.levelQ_pos h (Shape.level h (Shape.of_polyAt h x0))
    · have := (a2 k hk).1
      cases noise with
      | zero => rw [pow_zero]; exact Shape.levelQ_pos h (Shape.level h (Shape.of_polyAt h x0))
      | succ n =>
        rw [Nat.add_sub_cancel] at h3
        zify
        rw [pow_succ]
        linarith

/-- C99: circuits of operations of the library on arbitrary inputs and arbitrary evaluation keys of the right shape never fail, in either build. -/
theorem c99_circuit {E : CircuitEnv} (h : IsParams N t l variance E.params) (hN : N ≤ 2 ^ 31) (pr : Profile) {e : Nat → Nat} (he : ∀ j, Odd (e j))
    (hE : ShapedEnv e E) (c : Circuit) (hc : c.Fits N) : ∃ z, c.run pr E = .ok z ∧ ShapedCt E.params E.level 2 z := by
  obtain ⟨e1, e2, e3, e4, e5⟩ := hE
  suffices ∃ z, ∃ f0 f1 : Rg N, c.run pr E = .ok z ∧ IsCt E.params E.level [f0, f1] z by
    obtain ⟨z, f0, f1, h1, h2⟩ := this
    exact ⟨z, h1, Shape.of_isCt h h2⟩
  induction c with
  | input k =>
    obtain ⟨f0, f1, h1⟩ := Shape.isCt_two h (e1 k)
    exact ⟨_, f0, f1, rfl, h1⟩
  | add a b iha ihb =>
    obtain ⟨x, f0, f1, x1, x2⟩ := iha hc.1
    obtain ⟨y, g0, g1, y1, y2⟩ := ihb hc.2
    obtain ⟨z, z1, z2, -⟩ := c32_add h pr x2 y2 0
    exact ⟨z, _, _, by unfold Circuit.run; rw [x1, res_ok_bind, y1, res_ok_bind, z1], z2⟩
  | sub a b iha ihb =>
    obtain ⟨x, f0, f1, x1, x2⟩ := iha hc.1
    obtain ⟨y, g0, g1, y1, y2⟩ := ihb hc.2
    obtain ⟨z, z1, z2, -⟩ := c32_sub h pr x2 y2 0
    exact ⟨z, _, _, by unfold Circuit.run; rw [x1, res_ok_bind, y1, res_ok_bind, z1], z2⟩
  | mulPlain a v iha =>
    obtain ⟨x, f0, f1, x1, x2⟩ := iha hc.1
    obtain ⟨z, z1, z2, -⟩ := c34_mul_plain h pr (p := ⟨E.params, E.level, .poly, v⟩) x2 rfl hc.2.1 hc.2.2 0
    exact ⟨z, _, _, by unfold Circuit.run; rw [x1, res_ok_bind, z1], z2⟩
  | mulBig a n iha =>
    obtain ⟨x, f0, f1, x1, x2⟩ := iha hc
    obtain ⟨z, z1, z2, -⟩ := c34_mul_big h pr n x2 0
    exact ⟨z, _, _, by unfold Circuit.run; rw [x1, res_ok_bind, z1], z2⟩
  | mul a b iha ihb =>
    obtain ⟨x, f0, f1, x1, x2⟩ := iha hc.1
    obtain ⟨y, g0, g1, y1, y2⟩ := ihb hc.2
    obtain ⟨z, r0, r1, z1, z2⟩ := c50_multiply_total h pr x2 y2 e2 (Shape.isKsk h e3 0 0)
    exact ⟨z, _, _, by unfold Circuit.run; rw [x1, res_ok_bind, y1, res_ok_bind, z1], z2⟩
  | galois a j iha =>
    obtain ⟨x, f0, f1, x1, x2⟩ := iha hc
    obtain ⟨z, r0, r1, -, z1, z2, -⟩ := Shape.galois h hN (he j) (e4 j) 0 pr x f0 f1 x2
    exact ⟨z, _, _, by unfold Circuit.run; rw [x1, res_ok_bind, z1], z2⟩
  | external a j iha =>
    obtain ⟨x, f0, f1, x1, x2⟩ := iha hc
    obtain ⟨p0, p1, r0, r1, -, z1, z2, -⟩ := c39_external_product h pr (Shape.isRgsw h (e5 j) 0 0) x2
    exact ⟨_, _, _, by unfold Circuit.run; rw [x1, res_ok_bind, z1]; rfl, z2⟩

/-- C99: the corrected expansion returns as many ciphertexts as the degree, for arbitrary evaluation keys. -/
theorem c99_unpack (h : IsParams N t l variance P) (hN : N ≤ 2 ^ 31) (pr : Profile) {ev : Evaluation} (hev : ShapedEval N P ev)
    {ct : BfvCipherText} (hct : ShapedCt P 0 2 ct) :
    ∃ bits, Repair.unpack pr ev ct = .ok bits ∧ bits.length = N ∧ ∀ c ∈ bits, ShapedCt P 0 2 c := by
  obtain ⟨f0, f1, h1⟩ := Shape.isCt_two h hct
  obtain ⟨bits, b1, b2, b3⟩ := c80_unpack h pr (Shape.isEval h hN hev 0) h1
  refine ⟨bits, b1, b2, fun c hc => ?_⟩
  obtain ⟨j, hj, rfl⟩ := List.mem_iff_getElem.mp hc
  obtain ⟨c, g0, g1, -, c1, c2, -⟩ := b3 j (by omega)
  rw [List.getElem?_eq_getElem hj] at c1
  rw [Option.some.inj c1]
  exact Shape.of_isCt h c2

/-- C99: the corrected count of dimensions terminates for every database; it is the number of divisions that leave at most one block. -/
theorem c99_dimensions (pr : Profile) (s : Server) (hf : 0 < s.firstDim) (hd : 2 ≤ s.dim) (hlen : s.db.length < 2 ^ 64) :
    ∃ k, Repair.dimensions pr s 64 = .ok (k + 1) ∧ s.db.length / s.firstDim < 2 * s.dim ^ k ∧
      ∀ j, j < k → 2 * s.dim ^ j ≤ s.db.length / s.firstDim := by
  have key : ∀ (fuel len count : Nat), len < 2 ^ (fuel + 1) → count + fuel < 2 ^ 64 → ∃ k, Repair.dimensionsLoop pr s.dim fuel len count = .ok (k + count) ∧
      len < 2 * s.dim ^ k ∧ ∀ j, j < k → 2 * s.dim ^ j ≤ len := by
    intro fuel
    induction fuel with
    | zero =>
      intro len count h1 h2
      refine ⟨0, ?_, by simpa using h1, by simp⟩
      unfold Repair.dimensionsLoop
      rw [if_neg (by omega), Nat.zero_add]
    | succ fuel ih =>
      intro len count h1 h2
      unfold Repair.dimensionsLoop
      by_cases hl : len > 1
      · rw [if_pos hl, divR_ok (by omega), res_ok_bind, addW_ok (by omega), res_ok_bind]
        have h3 : len / s.dim < 2 ^ (fuel + 1) := by
          rw [Nat.div_lt_iff_lt_mul (by omega)]
          calc len < 2 ^ (fuel + 1) * 2 := by rw [← pow_succ]; exact h1
            _ ≤ _ := Nat.mul_le_mul_left _ hd
        obtain ⟨k, k1, k2, k3⟩ := ih (len / s.dim) (count + 1) h3 (by omega)
        refine ⟨k + 1, by rw [k1]; congr 1; omega, ?_, fun j hj => ?_⟩
        · rw [Nat.div_lt_iff_lt_mul (by omega)] at k2
          rw [pow_succ, ← Nat.mul_assoc]; exact k2
        · cases j with
          | zero => simp; omega
          | succ j =>
            have := k3 j (by omega)
            rw [Nat.le_div_iff_mul_le (by omega)] at this
            rw [pow_succ, ← Nat.mul_assoc]; exact this
      · rw [if_neg hl]
        exact ⟨0, by rw [Nat.zero_add], by simp; omega, by simp⟩
  have hl' : s.db.length / s.firstDim < 2 ^ (64 + 1) := lt_of_le_of_lt (Nat.div_le_self _ _) (by omega)
  obtain ⟨k, k1, k2, k3⟩ := key 64 (s.db.length / s.firstDim) 1 hl' (by norm_num)
  refine ⟨k, ?_, k2, k3⟩
  unfold Repair.dimensions
  rw [divR_ok hf.ne', res_ok_bind, k1]

/-- C99: the corrected server answers every query of the right shape, whatever its ciphertexts and the evaluation keys hold: one ciphertext for
every started block of rows. It rejects a query exactly if the number of ciphertexts is wrong. -/
theorem c99_decode (h : IsParams N t l variance P) (hN : N ≤ 2 ^ 31) (pr : Profile) {ev : Evaluation} (hev : ShapedEval N P ev)
    {fd dim : Nat} {db : List Plaintext} (hdb : ∀ p ∈ db, p.values.length ≤ N) (hv : ∀ p ∈ db, ∀ a ∈ p.values, a < 2 ^ 64) {srv : Server}
    {pr2 : Profile} (hsrv : Server.new pr2 fd dim db P = .ok srv) (hf : 0 < fd) (hfN : fd ≤ N) (hd : 0 < dim) {k : Nat}
    (hdim : Repair.dimensions pr srv 64 = .ok (k + 1)) (hkN : dim * k ≤ N) {q : List BfvCipherText} (hq : ∀ ct ∈ q, ShapedCt P 0 2 ct) :
    ((∃ out, Repair.decode pr srv q ev P = .ok out) ↔ q.length = l.length + 1) ∧
    ∀ out, Repair.decode pr srv q ev P = .ok out → out.length = (db.length + fd * dim ^ k - 1) / (fd * dim ^ k) ∧ ∀ ct ∈ out, ShapedCt P 0 2 ct := by
  have hlenq : ∀ out, Repair.decode pr srv q ev P = .ok out → q.length = l.length + 1 := by
    intro out ho
    obtain ⟨ctx, h1, h2⟩ := c67_decode ho
    obtain ⟨K, ext, rfl, hw, rfl, rfl, -⟩ := BfvP.params h
    obtain ⟨L, hL⟩ := hw.levels 0 (List.length_pos_iff.mpr hw.ne)
    obtain rfl := Option.some.inj (hL.q.symm.trans h1)
    rw [h2, hL.wf.ctx.core.mods, Ksk.moduli_len hL.wf.ctx, BfvP.len_level hL]
    simp [levelModuli]
  suffices q.length = l.length + 1 → ∃ out, Repair.decode pr srv q ev P = .ok out ∧
      out.length = (db.length + fd * dim ^ k - 1) / (fd * dim ^ k) ∧ ∀ ct ∈ out, ShapedCt P 0 2 ct by
    refine ⟨⟨fun ⟨out, ho⟩ => hlenq out ho, fun hl => ?_⟩, fun out ho => ?_⟩
    · obtain ⟨out, h1, -⟩ := this hl
      exact ⟨out, h1⟩
    · obtain ⟨out', h1, h2⟩ := this (hlenq out ho)
      obtain rfl := Except.ok.inj (ho.symm.trans h1)
      exact h2
  obtain ⟨srv', s1, s2, s3, s4, s5, s6⟩ := c43_new h pr2 fd dim hdb hv
  obtain rfl := Except.ok.inj (hsrv.symm.trans s1)
  intro hl
  obtain ⟨out, h1, h2, h3⟩ := Shape.decode h hN pr hev (srv := srv) (k := k) (by rw [s2]; exact hf) (by rw [s2]; exact hfN) (by rw [s3]; exact hd)
    (by rw [s3]; exact hkN) hdim (T := 2 ^ 64) (rows := db.map (·.values)) (by rw [List.length_map]; exact s5)
    (fun v hv' => by
      obtain ⟨p, hp, rfl⟩ := List.mem_map.mp hv'
      exact hv p hp)
    (fun k v hk => by
      rw [List.getElem?_map, Option.map_eq_some_iff] at hk
      obtain ⟨p, hp, rfl⟩ := hk
      exact s6 k p hp) hq hl
  rw [s2, s3, s5] at h2
  exact ⟨out, h1, h2, h3⟩

/-! ### Non-vacuity -/

namespace Shape

/-- A key-switching key that is the same polynomial everywhere. -/
def junkKsk (P : BfvParameters) (p : Poly) : Ksk :=
  ⟨P, List.replicate p.context.moduli64.length p, List.replicate p.context.moduli64.length p, p.context, p.context⟩

theorem junkKsk_shaped {i : Nat} {p : Poly} (hp : Shaped P i p) : ShapedKsk P i (junkKsk P p) := by
  refine ⟨hp.1, rfl, by simp [junkKsk], by simp [junkKsk], fun q hq => ?_⟩
  simp only [junkKsk, List.mem_append, List.mem_replicate, or_self] at hq
  rw [hq.2]; exact hp

theorem exists_gk (h : IsParams N t l variance P) (hN : N ≤ 2 ^ 31) {i e : Nat} {p : Poly} (hp : Shaped P i p) (he : Odd e) :
    ∃ g, ShapedGk P i e g ∧ g.gk = junkKsk P p := by
  have hi := level h hp
  obtain ⟨K, ext, rfl, hw, rfl, rfl, -⟩ := BfvP.params h
  obtain ⟨L, hL⟩ := hw.levels i hi
  have hc : p.context = L.qCtx := (Option.some.inj (hL.q.symm.trans hp.1)).symm
  have hs := Poly.substitution_new_ok hL.wf.ctx .debug ((Nat.pow_le_pow_iff_right (by norm_num)).mp hN) he
  exact ⟨⟨junkKsk P p, _, i⟩, ⟨rfl, by dsimp only [junkKsk]; rw [hc]; exact hs, junkKsk_shaped hp⟩, rfl⟩

end Shape

/-- C99: keys and inputs that repeat any polynomial of the right shape satisfy the hypothesis on circuits. -/
theorem c99_exists_env (h : IsParams N t l variance P) (hN : N ≤ 2 ^ 31) {i : Nat} {p : Poly} (hp : Shaped P i p) {e : Nat → Nat} (he : ∀ j, Odd (e j)) :
    ∃ E : CircuitEnv, E.params = P ∧ E.level = i ∧ ShapedEnv e E ∧ ∀ k, (E.inputs k).cts = [p, p] := by
  choose gk hgk _ using fun j => Shape.exists_gk h hN hp (he j)
  refine ⟨⟨P, i, fun _ => ⟨P, [p, p], i⟩, ⟨Shape.junkKsk P p, P⟩, gk, fun _ => ⟨Shape.junkKsk P p, Shape.junkKsk P p⟩⟩, rfl, rfl,
    ⟨fun _ => ⟨rfl, rfl, rfl, by simpa using hp⟩, rfl, Shape.junkKsk_shaped hp, hgk, fun _ => ⟨Shape.junkKsk_shaped hp, Shape.junkKsk_shaped hp⟩⟩, fun _ => rfl⟩

/-- C99: evaluation keys that repeat any polynomial of the right shape satisfy the hypothesis on the server. -/
theorem c99_exists_eval (h : IsParams N t l variance P) (hN : N ≤ 2 ^ 31) {p : Poly} (hp : Shaped P 0 p) : ∃ ev, ShapedEval N P ev := by
  obtain ⟨K, ext, rfl, -⟩ := BfvP.params h
  have : ∀ n, n ≤ K → ∃ m : List (Nat × GaliosKey), ∀ i, i < n → ∃ g, m.lookup (2 ^ (K - i) + 1) = some g ∧ ShapedGk P 0 (2 ^ (K - i) + 1) g := by
    intro n
    induction n with
    | zero => exact fun _ => ⟨[], by simp⟩
    | succ n ih =>
      intro hn
      obtain ⟨m, hm⟩ := ih (by omega)
      obtain ⟨g, hg, -⟩ := Shape.exists_gk h hN hp (odd_exp (K := K) (i := n) hn)
      refine ⟨(2 ^ (K - n) + 1, g) :: m, fun i hi => ?_⟩
      by_cases hin : i = n
      · rw [hin]; exact ⟨g, by simp [List.lookup], hg⟩
      · obtain ⟨g', h1, h2⟩ := hm i (by omega)
        refine ⟨g', ?_, h2⟩
        have : (2 ^ (K - i) + 1 == 2 ^ (K - n) + 1) = false := by
          rw [beq_eq_false_iff_ne]
          intro hh
          have := Nat.pow_right_injective (le_refl 2) (Nat.add_right_cancel hh)
          omega
        rw [List.lookup, this]; exact h1
  obtain ⟨m, hm⟩ := this K (le_refl _)
  refine ⟨⟨m, ⟨Shape.junkKsk P p, Shape.junkKsk P p⟩⟩, fun i hi => ?_, Shape.junkKsk_shaped hp, Shape.junkKsk_shaped hp⟩
  have hi' : i < K := (Nat.pow_lt_pow_iff_right (by norm_num)).mp hi
  rw [Nat.pow_div hi'.le (by norm_num)]
  exact hm i hi'

/-- Ciphertexts, keys and selectors that repeat one polynomial that was never encrypted: a circuit with every kind of operation, and decryption of
its result. -/
example : ∃ (E : CircuitEnv) (sk : SecretKey) (p : Poly) (z : BfvCipherText) (pt : Plaintext) (noise : Nat), IsParams 8 17 Ex.mods 10 E.params ∧ IsKey E.params sk ∧
    PolyAt E.params 0 (ofCoeffs 8 fun k => 12345678901 * (k : ℤ) ^ 7 : Rg 8) p ∧ (E.inputs 3).cts = [p, p] ∧
    (Circuit.external (.galois (.sub (.mulPlain (.mul (.input 3) (.add (.input 1) (.input 2))) [1, 2]) (.mulBig (.input 0) 1000)) 2) 0).run .release E = .ok z ∧
    sk.decrypt .debug z = .ok pt ∧ pt.values.length = 8 ∧ sk.measureNoise .debug z = .ok noise := by
  obtain ⟨P, sk, h, hk, hb⟩ := Ex.setup_key
  obtain ⟨p, hp⟩ := c33_exists_poly h (i := 0) (by decide) (ofCoeffs 8 fun k => 12345678901 * (k : ℤ) ^ 7)
  obtain ⟨E, rfl, e0, hE, hin⟩ := c99_exists_env h (by norm_num) (Shape.of_polyAt h hp) (e := fun j => 2 * j + 3) fun j => ⟨j + 1, by ring⟩
  obtain ⟨z, h1, h2⟩ := c99_circuit h (by norm_num) .release (fun j => ⟨j + 1, by ring⟩) hE
    (.external (.galois (.sub (.mulPlain (.mul (.input 3) (.add (.input 1) (.input 2))) [1, 2]) (.mulBig (.input 0) 1000)) 2) 0)
    ⟨⟨⟨trivial, trivial, trivial⟩, by norm_num, by decide⟩, trivial⟩
  obtain ⟨pt, h3, h4⟩ := c99_decrypt h hk .debug (by norm_num) h2
  obtain ⟨noise, c0, c1, p', h5, -⟩ := c99_inspect h hk .debug h2
  exact ⟨E, sk, p, z, pt, noise, h, hk, hp, hin 3, h1, h3, h4, h5⟩

/-- The corrected server on seven rows, with evaluation keys and query ciphertexts that were never encrypted: two ciphertexts, which decrypt to
something; a query with one ciphertext more is refused. -/
example : ∃ P sk ev srv q out pt, IsParams 8 17 Ex.mods4 10 P ∧ IsKey P sk ∧
    Server.new .release 2 2 (Ex.rows4 P ++ [⟨P, 0, .poly, [4]⟩, ⟨P, 0, .poly, [8]⟩, ⟨P, 0, .poly, [15, 16]⟩]) P = .ok srv ∧
    Repair.dimensions .debug srv 64 = .ok 2 ∧ Repair.decode .debug srv (List.replicate 5 q) ev P = .ok out ∧ out.length = 2 ∧
    sk.decrypt .debug (out.getD 1 q) = .ok pt ∧ pt.values.length = 8 ∧ ¬ ∃ out, Repair.decode .debug srv (List.replicate 6 q) ev P = .ok out := by
  obtain ⟨P, h⟩ := Ex.exists_params4
  obtain ⟨sk, -, hk, hb⟩ := c30_generate h .release (by norm_num) (by norm_num) Ex.wordTape
  obtain ⟨p, hp⟩ := c33_exists_poly h (i := 0) (by decide) (ofCoeffs 8 fun k => 12345678901 * (k : ℤ) ^ 7)
  have hp := Shape.of_polyAt h hp
  obtain ⟨ev, hev⟩ := c99_exists_eval h (by norm_num) hp
  have hq : ShapedCt P 0 2 ⟨P, [p, p], 0⟩ := ⟨rfl, rfl, rfl, by simpa using hp⟩
  obtain ⟨db, hdb⟩ : ∃ db, db = Ex.rows4 P ++ [⟨P, 0, .poly, [4]⟩, ⟨P, 0, .poly, [8]⟩, ⟨P, 0, .poly, [15, 16]⟩] := ⟨_, rfl⟩
  have hl7 : db.length = 7 := by rw [hdb]; rfl
  have hlen : ∀ p ∈ db, p.values.length ≤ 8 := by rw [hdb]; simp [Ex.rows4]
  have hval : ∀ p ∈ db, ∀ a ∈ p.values, a < 2 ^ 64 := by rw [hdb]; simp [Ex.rows4]
  obtain ⟨srv, s1, s2, s3, s4, -⟩ := c43_new h .release 2 2 (db := db) hlen hval
  obtain ⟨k, k1, k2, k3⟩ := c99_dimensions .debug srv (by rw [s2]; norm_num) (by rw [s3]) (by rw [s4, hl7]; norm_num)
  obtain rfl : k = 1 := by
    rw [s2, s3, s4, hl7] at k2 k3
    rcases Nat.lt_trichotomy k 1 with hk | hk | hk
    · obtain rfl : k = 0 := by omega
      norm_num at k2
    · exact hk
    · have := k3 1 hk
      norm_num at this
  have key : ∀ n, _ := fun n => c99_decode h (by norm_num) .debug hev hlen hval s1 (by norm_num) (by norm_num) (by norm_num) k1 (by norm_num)
    (q := List.replicate n ⟨P, [p, p], 0⟩) (fun ct hct => by rw [(List.mem_replicate.mp hct).2]; exact hq)
  obtain ⟨out, ho⟩ := (key 5).1.mpr (by simp [Ex.mods4])
  obtain ⟨o1, o2⟩ := (key 5).2 out ho
  rw [hl7] at o1
  obtain ⟨pt, p1, p2⟩ := c99_decrypt h hk .debug (by norm_num) (o2 (out.getD 1 ⟨P, [p, p], 0⟩) (by
    rw [List.getD_eq_getElem?_getD, List.getElem?_eq_getElem (by omega), Option.getD_some]; exact List.getElem_mem _))
  refine ⟨P, sk, ev, srv, _, out, pt, h, hk, hdb ▸ s1, k1, ho, o1, p1, p2, fun hx => ?_⟩
  have := (key 6).1.mp hx
  simp [Ex.mods4] at this

/-- Unpacking a ciphertext that was never encrypted with keys that were never generated. -/
example : ∃ P p ev bits, IsParams 8 17 Ex.mods 10 P ∧ PolyAt P 0 (msgRing 8 [4, 2] : Rg 8) p ∧ ShapedEval 8 P ev ∧
    Repair.unpack .debug ev ⟨P, [p, p], 0⟩ = .ok bits ∧ bits.length = 8 := by
  obtain ⟨P, h⟩ := Ex.exists_params
  obtain ⟨p, hp⟩ := c33_exists_poly h (i := 0) (by decide) (msgRing 8 [4, 2])
  have hs := (c99_shape h 0 p).mpr ⟨_, hp⟩
  obtain ⟨ev, hev⟩ := c99_exists_eval h (by norm_num) hs
  obtain ⟨bits, h1, h2, -⟩ := c99_unpack h (by norm_num) .debug hev (ct := ⟨P, [p, p], 0⟩) ⟨rfl, rfl, rfl, by simpa using hs⟩
  exact ⟨P, p, ev, bits, h, hp, hev, h1, h2⟩

end OnionPIR
