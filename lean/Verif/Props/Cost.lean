import Verif.Spec.Cost
import Verif.Proofs.CostServer
import Verif.Props.Robust
import Verif.Props.RepairPir
import Verif.Props.Leak
/-
C125: the work of the server: butterflies of the transforms and products of words modulo a prime, exactly.
-/
namespace OnionPIR
open Rg Poly Spec Cw

variable {N t : Nat} {l : List Nat} {variance : Nat} {P : BfvParameters}

namespace Shape

theorem ctxDim {K : Nat} {c : RqContext} (hc : c.WF K) : c.Dim K c.moduli64.length := by
  have hm : c.moduli.length = c.moduli64.length := by rw [hc.core.mods, Ksk.moduli_len hc]
  refine ⟨hc.core.deg, hm, by rw [← hm, hc.core.len], fun op hop => ?_⟩
  obtain ⟨psi, psiInv, h⟩ := hc.core.ops op hop
  exact h.size

theorem polyDim {K i : Nat} {c : RqContext} (hc : c.WF K) (hq : P.qCtxs[i]? = some c) {p : Poly} (hp : Shaped P i p) : p.Dim c .ntt := by
  obtain ⟨h1, h2, h3, h4⟩ := hp
  have e : p.context = c := Option.some.inj (h1.symm.trans hq)
  rw [e] at h3 h4
  refine ⟨e, h2, ?_⟩
  rw [(ctxDim hc).mods]
  refine List.eq_replicate_iff.mpr ⟨by rw [List.length_map, h3], fun x hx => ?_⟩
  obtain ⟨row, hr, rfl⟩ := List.mem_map.mp hx
  obtain ⟨j, hj, rfl⟩ := List.mem_iff_getElem.mp hr
  have := (h4 j (by omega)).1
  rwa [List.getD_eq_getElem _ _ hj] at this

theorem ctDim {K i m : Nat} {c : RqContext} (hc : c.WF K) (hq : P.qCtxs[i]? = some c) {ct : BfvCipherText} (h : ShapedCt P i m ct) : ct.Dim c :=
  fun p hp => polyDim hc hq (h.2.2.2 p hp)

theorem kskDim {K i : Nat} {c : RqContext} (hc : c.WF K) (hq : P.qCtxs[i]? = some c) {k : Ksk} (h : ShapedKsk P i k) : k.Dim c := by
  obtain ⟨h1, h2, h3, h4, h5⟩ := h
  have e : k.ctContext = c := Option.some.inj (h1.symm.trans hq)
  rw [e] at h2 h3 h4
  have hm := (ctxDim hc).mods
  exact ⟨e, h2, by rw [h3, hm], by rw [h4, hm], fun p hp => polyDim hc hq (h5 p (by simp [hp])), fun p hp => polyDim hc hq (h5 p (by simp [hp]))⟩

/-- The first level, its context and the number of its moduli. -/
theorem first (h : IsParams N t l variance P) : ∃ K c, N = 2 ^ K ∧ 3 ≤ K ∧ K < 64 ∧ P.degree = 2 ^ K ∧ P.qCtxs[0]? = some c ∧ c.WF K ∧ c.Dim K l.length := by
  obtain ⟨K, ext, rfl, hw, rfl, rfl, -⟩ := BfvP.params h
  obtain ⟨L, hL⟩ := hw.levels 0 (List.length_pos_iff.mpr hw.ne)
  have hd := ctxDim hL.wf.ctx
  rw [BfvP.len_level hL] at hd
  simp only [levelModuli, Nat.sub_zero, List.take_length] at hd
  have hops : 0 < L.qCtx.nttOps.length := by rw [hd.ops]; exact List.length_pos_iff.mpr hw.ne
  obtain ⟨psi, psiInv, hop⟩ := hL.wf.ctx.core.ops _ (List.getElem_mem hops)
  exact ⟨K, L.qCtx, rfl, hop.three_le, by have := hop.K_le; omega, hw.deg, hL.q, hL.wf.ctx, hd⟩

theorem halves {K : Nat} (hK : 3 ≤ K) : 2 ^ K / 2 * Nat.log2 (2 ^ K) = K * 2 ^ (K - 1) := by
  obtain ⟨m, rfl⟩ : ∃ m, K = m + 1 := ⟨K - 1, by omega⟩
  rw [Nat.log2_two_pow, Nat.add_sub_cancel, pow_succ, Nat.mul_div_cancel _ (by norm_num), Nat.mul_comm]

end Shape

/-- C125: the counting copies compute what the functions of the model compute: for all arguments, in both builds. -/
theorem c125_values (pr : Profile) :
    (∀ (op : NttOperator) a, (op.forwardC pr a).val = op.forward pr a ∧ (op.backwardC pr a).val = op.backward pr a) ∧
    (∀ (g : GaliosKey) ct, (g.relinearizeC pr ct).val = g.relinearize pr ct) ∧ (∀ (g : RgswCt) ct, (g.externalProductC pr ct).val = g.externalProduct pr ct) ∧
    (∀ ev ct, (Repair.unpackC pr ev ct).val = Repair.unpack pr ev ct) ∧ (∀ fd dim db P, (Server.newC pr fd dim db P).val = Server.new pr fd dim db P) ∧
    ∀ srv q ev P, (Repair.decodeC pr srv q ev P).val = Repair.decode pr srv q ev P :=
  ⟨fun op a => ⟨NttOperator.forwardC_val pr op a, NttOperator.backwardC_val pr op a⟩, GaliosKey.relinearizeC_val pr, RgswCt.externalProductC_val pr, Repair.unpackC_val pr,
    Server.newC_val pr, Repair.decodeC_val pr⟩

/-- C125: an operator made by `NttOperator::new` transforms `n` words with `n/2 · log n` butterflies, in both directions; the inverse multiplies every word once more. -/
theorem c125_transform {q : Nat} {p : Modulus} (hp : Modulus.new q = .ok p) (pr pr' : Profile) {n : Nat} (hn : n < 2 ^ 64)
    {sample : Nat → Nat} (hs : ∀ i, sample i < q) {op : NttOperator} (hop : NttOperator.new pr' sample p n = .ok op) {a : List Nat} (ha : Spec.IsVec q n a) :
    (∃ b, (op.forwardC pr a).val = .ok b ∧ (op.forwardC pr a).work = workOf n 1 0) ∧
    ∃ b, (op.backwardC pr a).val = .ok b ∧ (op.backwardC pr a).work = workOf n 1 1 := by
  obtain ⟨b, f1, -⟩ := c16_backward_forward hp pr pr' hn hs hop ha
  obtain ⟨b', f2, -⟩ := c16_forward_backward hp pr pr' hn hs hop ha
  rw [← NttOperator.forwardC_val] at f1
  rw [← NttOperator.backwardC_val] at f2
  obtain ⟨h2, hlt, rfl, hw⟩ := Modulus.new_inv hp
  obtain ⟨K, psi, psiInv, h, rfl, rfl⟩ := NttOperator.new_wf hw pr' hn sample hs hop
  refine ⟨⟨b, f1, ?_⟩, b', f2, ?_⟩ <;> unfold workOf
  · rw [h.size, Shape.halves h.three_le, Nat.one_mul, Nat.zero_mul]
    exact (NttOperator.forwardC_costs pr h.size a b f1).1
  · rw [h.size, Shape.halves h.three_le, Nat.one_mul, Nat.one_mul]
    exact (NttOperator.backwardC_costs pr h.size a b' f2).1

/-- C125: an application of a Galois key transforms `n² + n` rows, an external product twice as many. -/
theorem c125_switch (h : IsParams N t l variance P) (hN : N ≤ 2 ^ 31) (pr : Profile) {e : Nat} (he : Odd e) {g : GaliosKey} (hg : ShapedGk P 0 e g)
    {r : RgswCt} (hr : ShapedRgsw P 0 r) {ct : BfvCipherText} (hct : ShapedCt P 0 2 ct) :
    (∃ out, (g.relinearizeC pr ct).val = .ok out ∧ (g.relinearizeC pr ct).work = workOf N (l.length ^ 2 + l.length) (2 * l.length ^ 2 + l.length)) ∧
    ∃ out, (r.externalProductC pr ct).val = .ok out ∧ (r.externalProductC pr ct).work =
      workOf N (2 * (l.length ^ 2 + l.length)) (2 * (2 * l.length ^ 2 + l.length)) := by
  obtain ⟨f0, f1, x⟩ := Shape.isCt_two h hct
  obtain ⟨z, -, -, -, z1, -⟩ := Shape.galois h hN he hg 0 pr ct f0 f1 x
  obtain ⟨p0, p1, -, -, -, y1, -⟩ := c39_external_product h pr (Shape.isRgsw h hr 0 0) x
  rw [← GaliosKey.relinearizeC_val] at z1
  rw [← RgswCt.externalProductC_val] at y1
  obtain ⟨K, c, rfl, hK, -, -, hq, hc, hd⟩ := Shape.first h
  have hcd := Shape.ctDim hc hq hct
  refine ⟨⟨_, z1, ?_⟩, _, y1, ?_⟩
  · rw [(GaliosKey.relinearizeC_costs pr hd (Shape.kskDim hc hq hg.2.2) hcd _ z1).1]
    unfold workOf Work.galois
    rw [Shape.halves hK]
  · rw [(RgswCt.externalProductC_costs pr hd ⟨Shape.kskDim hc hq hr.1, Shape.kskDim hc hq hr.2⟩ hcd _ y1).1]
    unfold workOf Work.external
    rw [Shape.halves hK]

/-- C125: an expansion transforms `2 n + (N - 1)(n² + 2 n)` rows, whatever the ciphertext and the keys contain. -/
theorem c125_expand (h : IsParams N t l variance P) (hN : N ≤ 2 ^ 31) (pr : Profile) {ev : Evaluation} (hev : ShapedEval N P ev)
    {ct : BfvCipherText} (hct : ShapedCt P 0 2 ct) :
    ∃ bits, (Repair.unpackC pr ev ct).val = .ok bits ∧ (Repair.unpackC pr ev ct).work = workOf N (expandRows N l.length) (expandWords N l.length) := by
  obtain ⟨bits, b1, -⟩ := c99_unpack h hN pr hev hct
  obtain ⟨K, c, rfl, hK, hK', hdeg, hq, hc, hd⟩ := Shape.first h
  have b1' : (Repair.unpackC pr ev ct).val = .ok bits := by rw [Repair.unpackC_val]; exact b1
  refine ⟨bits, b1', ?_⟩
  obtain ⟨rfl, h2, h3, h4⟩ := id hct
  rw [(Repair.unpackC_costs pr hd hK' (by rw [h2]; exact hq) hdeg (fun i hi g hg => ?_) h3 (Shape.ctDim hc hq hct) _ b1').1]
  · unfold workOf expandRows expandWords Work.expansion Work.step
    rw [Shape.halves hK]
    work
  · obtain ⟨g', g1, g2⟩ := hev.1 i (Nat.pow_lt_pow_right (by norm_num) hi)
    obtain rfl := Option.some.inj (hg.symm.trans g1)
    exact Shape.kskDim hc hq g2.2.2

/-- C125: the code transforms the monomials again in every iteration of the inner loop. Transforming each once gives the same ciphertexts and does with
`(N - 1 - log N) n` transforms of rows fewer. -/
theorem c125_once (h : IsParams N t l variance P) (hN : N ≤ 2 ^ 31) (pr : Profile) {ev : Evaluation} (hev : ShapedEval N P ev)
    {ct : BfvCipherText} (hct : ShapedCt P 0 2 ct) :
    ∃ bits, (Repair.unpackC pr ev ct).val = .ok bits ∧ (Repair.unpackOnceC pr ev ct).val = .ok bits ∧
      (Repair.unpackC pr ev ct).work = (Repair.unpackOnceC pr ev ct).work + workOf N ((N - 1 - Nat.log2 N) * l.length) 0 := by
  obtain ⟨bits, b1, b2⟩ := c125_expand h hN pr hev hct
  have hNK := BfvP.params h
  obtain ⟨K, -, rfl, -⟩ := hNK
  obtain ⟨ext, L, hw, hL, -, -, -⟩ := Evaluation.level_zero h
  obtain ⟨rfl, h2, h3, h4⟩ := id hct
  obtain ⟨xs, x1, x2, x3⟩ := Repair.genXPows_ok hL pr
  have hidx : idx ct.params.qCtxs ct.level = .ok L.qCtx := by rw [h2]; exact idx_of hL.q
  have hys : ∃ ys, mapR (fun x : Poly => x.changeRepresentation pr .ntt) xs = .ok ys := by
    refine ⟨_, mapR_ok (g := fun x => match x.changeRepresentation pr .ntt with | .ok y => y | .error _ => x) fun x hx => ?_⟩
    obtain ⟨i, hi, rfl⟩ := List.mem_iff_getElem.mp hx
    obtain ⟨p, p1, p2⟩ := x3 i (Nat.pow_lt_pow_right (by norm_num) (by omega))
    rw [List.getElem?_eq_getElem hi] at p1
    rw [Option.some.inj p1, (BfvP.powerAt_iff hL _ _).mp p2, Poly.toNtt_enc hL.wf.ctx]
  obtain ⟨ys, hys⟩ := hys
  have ho : (Repair.unpackOnceC pr ev ct).val = .ok bits := by
    rw [Repair.unpackOnceC_val pr ev hidx (by rw [hw.deg]; exact x1) hys, ← Repair.unpackC_val]
    exact b1
  refine ⟨bits, b1, ho, ?_⟩
  obtain ⟨K', c, hKK, hK, hK', hdeg, hq, hc, hd⟩ := Shape.first h
  obtain rfl := Nat.pow_right_injective le_rfl hKK
  rw [b2, (Repair.unpackOnceC_costs pr hd hK' (by rw [h2]; exact hq) hdeg (fun i hi g hg => ?_) h3 (Shape.ctDim hc hq hct) _ ho).1]
  · have hlt : K + 1 ≤ 2 ^ K := Nat.lt_two_pow_self
    unfold workOf expandRows expandWords Work.expansion Work.step
    rw [Shape.halves hK, Nat.log2_two_pow]
    obtain ⟨m, hm⟩ : ∃ m, 2 ^ K - 1 = m + K := ⟨2 ^ K - 1 - K, by omega⟩
    rw [hm, Nat.add_sub_cancel]
    work
  · obtain ⟨g', g1, g2⟩ := hev.1 i (Nat.pow_lt_pow_right (by norm_num) hi)
    obtain rfl := Option.some.inj (hg.symm.trans g1)
    exact Shape.kskDim hc hq g2.2.2

/-- C125: the preparation of a database. -/
theorem c125_new (h : IsParams N t l variance P) (pr : Profile) (fd dim : Nat) {db : List Plaintext} (hdb : ∀ p ∈ db, p.values.length ≤ N)
    (hv : ∀ p ∈ db, ∀ a ∈ p.values, a < 2 ^ 64) :
    ∃ srv, (Server.newC pr fd dim db P).val = .ok srv ∧ (Server.newC pr fd dim db P).work = workOf N (db.length * l.length) 0 := by
  obtain ⟨srv, s1, -⟩ := c43_new h pr fd dim hdb hv
  obtain ⟨K, c, rfl, hK, hK', hdeg, hq, hc, hd⟩ := Shape.first h
  have s1' : (Server.newC pr fd dim db P).val = .ok srv := by rw [Server.newC_val]; exact s1
  refine ⟨srv, s1', ?_⟩
  rw [(Server.newC_costs pr hd hq fd dim db _ s1').1]
  unfold workOf
  rw [Shape.halves hK, Nat.zero_mul, Nat.mul_assoc]

/-- C125: the work of an answer is a function of the degree, the number of moduli, the number of rows and the dimensions: for all contents of the database,
of the query and of the keys, in both builds. -/
theorem c125_answer (h : IsParams N t l variance P) (hN : N ≤ 2 ^ 31) (pr : Profile) {ev : Evaluation} (hev : ShapedEval N P ev)
    {fd dim : Nat} {db : List Plaintext} (hdb : ∀ p ∈ db, p.values.length ≤ N) (hv : ∀ p ∈ db, ∀ a ∈ p.values, a < 2 ^ 64) {srv : Server}
    {pr2 : Profile} (hsrv : Server.new pr2 fd dim db P = .ok srv) (hf : 0 < fd) (hfN : fd ≤ N) (hd : 0 < dim) {k : Nat}
    (hdim : Repair.dimensions pr srv 64 = .ok (k + 1)) (hkN : dim * k ≤ N) {q : List BfvCipherText} (hql : q.length = l.length + 1)
    (hq : ∀ ct ∈ q, ShapedCt P 0 2 ct) :
    ∃ out, (Repair.decodeC pr srv q ev P).val = .ok out ∧
      (Repair.decodeC pr srv q ev P).work = workOf N (answerRows N l.length db.length fd dim k) (answerWords N l.length db.length fd dim k) := by
  obtain ⟨out, ho⟩ := (c99_decode h hN pr hev hdb hv hsrv hf hfN hd hdim hkN hq).1.mpr hql
  have ho' : (Repair.decodeC pr srv q ev P).val = .ok out := by rw [Repair.decodeC_val]; exact ho
  refine ⟨out, ho', ?_⟩
  obtain ⟨srv', s1, s2, s3, -, s5, -⟩ := c43_new h pr2 fd dim hdb hv
  obtain rfl := Except.ok.inj (hsrv.symm.trans s1)
  obtain ⟨K, c, hNK, hK, hK', hdeg, hqc, hc, hcd⟩ := Shape.first h
  have hrows : ∀ p ∈ srv.dbScaled, p.Dim c .ntt := by
    have := (Server.newC_costs pr2 hcd hqc fd dim db srv (by rw [Server.newC_val]; exact s1)).2
    exact this.2.2.2
  have hkN' : k ≤ 2 ^ 31 := (Nat.le_mul_of_pos_left k hd).trans (hkN.trans hN)
  have hcosts := Server.decodeByC_costs pr hcd hqc hdim (unpack := Repair.unpackC pr ev) (s := srv) (q := q) (W := workOf N (expandRows N l.length) (expandWords N l.length))
    (fun ct hct v hv => ?_) (ev := ev) ⟨Shape.kskDim hc hqc hev.2.1, Shape.kskDim hc hqc hev.2.2⟩ (by rw [s3]; exact hd)
    (by rw [s3]; exact (hkN.trans hN).trans_lt (by norm_num)) (hkN'.trans_lt (by norm_num)) hrows
  · have hw : (Repair.decodeC pr srv q ev P).work = _ := (hcosts out ho').1
    rw [hw, s2, s3, s5, hNK]
    unfold workOf answerRows answerWords answerProducts Work.external Server.externals blocks
    rw [Shape.halves hK]
    work
  · obtain ⟨bits, b1, b2⟩ := c125_expand h hN pr hev (hq ct hct)
    obtain ⟨rfl, h2, h3, h4⟩ := id (hq ct hct)
    refine ⟨b2, ?_⟩
    refine (Repair.unpackC_costs pr hcd hK' (by rw [h2]; exact hqc) hdeg (fun i hi g hg => ?_) h3 (Shape.ctDim hc hqc (hq ct hct)) v hv).2
    obtain ⟨g', g1, g2⟩ := hev.1 i (by rw [hNK]; exact Nat.pow_lt_pow_right (by norm_num) hi)
    rw [hNK] at g1
    obtain rfl := Option.some.inj (hg.symm.trans g1)
    exact Shape.kskDim hc hqc g2.2.2

/-! ### Non-vacuity -/

/-- Seven rows in blocks of two with one further dimension of two, degree 8 and four moduli: 1360 transforms and 2500 products of rows for an answer. -/
example : ∃ P p ev srv out, IsParams 8 17 Ex.mods4 10 P ∧ PolyAt P 0 (msgRing 8 [4, 2] : Rg 8) p ∧
    Server.new .release 2 2 (List.replicate 7 ⟨P, 0, .poly, [4]⟩) P = .ok srv ∧
    (Repair.decodeC .release srv (List.replicate 5 ⟨P, [p, p], 0⟩) ev P).val = .ok out ∧
    (Repair.decodeC .release srv (List.replicate 5 ⟨P, [p, p], 0⟩) ev P).work = ⟨1360 * 12, 2500 * 8⟩ := by
  obtain ⟨P, h⟩ := Ex.exists_params4
  obtain ⟨p, hp⟩ := c33_exists_poly h (i := 0) (by decide) (msgRing 8 [4, 2])
  have hs := Shape.of_polyAt h hp
  obtain ⟨ev, hev⟩ := c99_exists_eval h (by norm_num) hs
  have hdb : ∀ p ∈ List.replicate 7 (⟨P, 0, .poly, [4]⟩ : Plaintext), p.values.length ≤ 8 := fun p hp => by rw [(List.mem_replicate.mp hp).2]; simp
  have hv : ∀ p ∈ List.replicate 7 (⟨P, 0, .poly, [4]⟩ : Plaintext), ∀ a ∈ p.values, a < 2 ^ 64 := fun p hp => by rw [(List.mem_replicate.mp hp).2]; simp
  obtain ⟨srv, s1, s2, s3, s4, -⟩ := c43_new h .release 2 2 hdb hv
  have hdim : Repair.dimensions .release srv 64 = .ok (1 + 1) := by
    unfold Repair.dimensions
    rw [s2, s3, s4, List.length_replicate]
    rfl
  obtain ⟨out, o1, o2⟩ := c125_answer h (by norm_num) .release hev hdb hv s1 (by norm_num) (by norm_num) (by norm_num) hdim (by norm_num)
    (q := List.replicate 5 ⟨P, [p, p], 0⟩) (by simp [Ex.mods4]) fun ct hct => by rw [(List.mem_replicate.mp hct).2]; exact ⟨rfl, rfl, rfl, by simpa using hs⟩
  refine ⟨P, p, ev, srv, out, h, hp, s1, o1, o2.trans ?_⟩
  rw [List.length_replicate]
  decide +kernel

/-- One expansion of degree 8 with four moduli, and the four transforms of rows that a monomial needs, saved `7 - 3` times. -/
example : ∃ P p ev bits, IsParams 8 17 Ex.mods4 10 P ∧ (Repair.unpackC .debug ev ⟨P, [p, p], 0⟩).val = .ok bits ∧
    (Repair.unpackOnceC .debug ev ⟨P, [p, p], 0⟩).val = .ok bits ∧ (Repair.unpackC .debug ev ⟨P, [p, p], 0⟩).work = ⟨176 * 12, 316 * 8⟩ ∧
    (Repair.unpackOnceC .debug ev ⟨P, [p, p], 0⟩).work = ⟨160 * 12, 316 * 8⟩ := by
  obtain ⟨P, h⟩ := Ex.exists_params4
  obtain ⟨p, hp⟩ := c33_exists_poly h (i := 0) (by decide) (msgRing 8 [4, 2])
  have hs := Shape.of_polyAt h hp
  obtain ⟨ev, hev⟩ := c99_exists_eval h (by norm_num) hs
  have hct : ShapedCt P 0 2 ⟨P, [p, p], 0⟩ := ⟨rfl, rfl, rfl, by simpa using hs⟩
  obtain ⟨bits, b1, b2, b3⟩ := c125_once h (by norm_num) .debug hev hct
  obtain ⟨-, -, b4⟩ := c125_expand h (by norm_num) .debug hev hct
  have e : (Repair.unpackC .debug ev ⟨P, [p, p], 0⟩).work = ⟨176 * 12, 316 * 8⟩ := b4.trans (by decide +kernel)
  refine ⟨P, p, ev, bits, h, b1, b2, e, ?_⟩
  rw [e] at b3
  have e2 : workOf 8 ((8 - 1 - Nat.log2 8) * Ex.mods4.length) 0 = ⟨16 * 12, 0⟩ := by decide +kernel
  rw [e2] at b3
  have c1 := congrArg Work.butterflies b3
  have c2 := congrArg Work.products b3
  simp only [Work.add_butterflies, Work.add_products] at c1 c2
  exact Work.ext' (by show _ = 160 * 12; omega) (by show _ = 316 * 8; omega)

/-- One key switch and one external product with two moduli. -/
example : ∃ P p g r out out', IsParams 8 17 Ex.mods 10 P ∧ (GaliosKey.relinearizeC .debug g ⟨P, [p, p], 0⟩).val = .ok out ∧
    (GaliosKey.relinearizeC .debug g ⟨P, [p, p], 0⟩).work = workOf 8 (Ex.mods.length ^ 2 + Ex.mods.length) (2 * Ex.mods.length ^ 2 + Ex.mods.length) ∧
    (RgswCt.externalProductC .debug r ⟨P, [p, p], 0⟩).val = .ok out' := by
  obtain ⟨P, h⟩ := Ex.exists_params
  obtain ⟨p, hp⟩ := c33_exists_poly h (i := 0) (by decide) (msgRing 8 [4, 2])
  have hs := Shape.of_polyAt h hp
  obtain ⟨g, hg, -⟩ := Shape.exists_gk h (by norm_num) hs (e := 5) (by decide)
  obtain ⟨⟨out, a1, a2⟩, out', b1, -⟩ := c125_switch h (by norm_num) .debug (e := 5) (by decide) hg (r := ⟨Shape.junkKsk P p, Shape.junkKsk P p⟩)
    ⟨Shape.junkKsk_shaped hs, Shape.junkKsk_shaped hs⟩ (ct := ⟨P, [p, p], 0⟩) ⟨rfl, rfl, rfl, by simpa using hs⟩
  exact ⟨P, p, g, _, out, out', h, a1, a2, b1⟩

/-- Two transforms of eight words: 12 butterflies each, and 8 products behind the inverse. -/
example : ∃ p op b b', Modulus.new 17 = .ok p ∧ NttOperator.new .debug (fun _ => 3) p 8 = .ok op ∧ (op.forwardC .debug [1, 2, 3, 4, 5, 6, 7, 8]).val = .ok b ∧
    (op.forwardC .debug [1, 2, 3, 4, 5, 6, 7, 8]).work = ⟨12, 0⟩ ∧ (op.backwardC .release [1, 2, 3, 4, 5, 6, 7, 8]).val = .ok b' ∧
    (op.backwardC .release [1, 2, 3, 4, 5, 6, 7, 8]).work = ⟨12, 8⟩ := by
  obtain ⟨p, op, hp, hop⟩ := Ex.ntt17
  have ha : Spec.IsVec 17 8 [1, 2, 3, 4, 5, 6, 7, 8] := by unfold Spec.IsVec; decide
  obtain ⟨⟨b, b1, b2⟩, -⟩ := c125_transform hp .debug .debug (by norm_num) (fun _ => by norm_num) hop ha
  obtain ⟨-, b', b3, b4⟩ := c125_transform hp .release .debug (by norm_num) (fun _ => by norm_num) hop ha
  exact ⟨p, op, b, b', hp, hop, b1, b2.trans (by decide +kernel), b3, b4.trans (by decide +kernel)⟩

/-- A preparation of three rows with two moduli. -/
example : ∃ P srv, IsParams 8 17 Ex.mods 10 P ∧ (Server.newC .debug 2 2 (List.replicate 3 ⟨P, 0, .poly, [4]⟩) P).val = .ok srv ∧
    (Server.newC .debug 2 2 (List.replicate 3 ⟨P, 0, .poly, [4]⟩) P).work = workOf 8 (3 * Ex.mods.length) 0 := by
  obtain ⟨P, h⟩ := Ex.exists_params
  obtain ⟨srv, s1, s2⟩ := c125_new h .debug 2 2 (db := List.replicate 3 ⟨P, 0, .poly, [4]⟩) (fun p hp => by rw [(List.mem_replicate.mp hp).2]; simp)
    (fun p hp => by rw [(List.mem_replicate.mp hp).2]; simp)
  exact ⟨P, srv, h, s1, by rw [s2, List.length_replicate]⟩

end OnionPIR
