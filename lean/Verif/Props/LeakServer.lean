import Verif.Proofs.LeakServer
import Verif.Props.Leak
import Verif.Props.Robust
/-
C121: the branches, accesses and divisions of the server depend on sizes only.
-/
namespace OnionPIR
open Rg Poly Spec Lk

variable {N t : Nat} {l : List Nat} {variance : Nat} {P : BfvParameters}

namespace Shape

theorem like (h : IsParams N t l variance P) {i : Nat} {p q : Poly} (hp : Shaped P i p) (hq : Shaped P i q) : p.Like q := by
  obtain ⟨f, hf⟩ := polyAt h hp
  obtain ⟨g, hg⟩ := polyAt h hq
  exact like_polyAt h hf hg

theorem like_list (h : IsParams N t l variance P) {i : Nat} {a b : List Poly} (hn : a.length = b.length) (ha : ∀ p ∈ a, Shaped P i p)
    (hb : ∀ p ∈ b, Shaped P i p) : List.Forall₂ Poly.Like a b :=
  List.forall₂_iff_get.mpr ⟨hn, fun _ _ _ => like h (ha _ (List.get_mem _ _)) (hb _ (List.get_mem _ _))⟩

theorem like_ct (h : IsParams N t l variance P) {i n : Nat} {c d : BfvCipherText} (hc : ShapedCt P i n c) (hd : ShapedCt P i n d) : c.Like d :=
  ⟨hc.1.trans hd.1.symm, hc.2.1.trans hd.2.1.symm, like_list h (hc.2.2.1.trans hd.2.2.1.symm) hc.2.2.2 hd.2.2.2⟩

theorem like_ksk (h : IsParams N t l variance P) {i : Nat} {k k' : Ksk} (hk : ShapedKsk P i k) (hk' : ShapedKsk P i k') : k.Like k' := by
  obtain ⟨a1, a2, a3, a4, a5⟩ := hk
  obtain ⟨b1, b2, b3, b4, b5⟩ := hk'
  have hc : k.ctContext = k'.ctContext := Option.some.inj (a1.symm.trans b1)
  refine ⟨hc, by rw [a2, b2, hc], like_list h (by rw [a3, b3, hc]) (fun p hp => a5 p ?_) (fun p hp => b5 p ?_),
    like_list h (by rw [a4, b4, hc]) (fun p hp => a5 p ?_) (fun p hp => b5 p ?_)⟩ <;> simp [hp]

theorem like_gk (h : IsParams N t l variance P) {i e : Nat} {g g' : GaliosKey} (hg : ShapedGk P i e g) (hg' : ShapedGk P i e g') : g.Like g' := by
  have hk := like_ksk h hg.2.2 hg'.2.2
  refine ⟨hg.1.trans hg'.1.symm, ?_, hk⟩
  have := hg.2.1
  rw [hk.1, hg'.2.1] at this
  exact (Except.ok.inj this).symm

theorem like_eval (h : IsParams N t l variance P) {ev ev' : Evaluation} (he : ShapedEval N P ev) (he' : ShapedEval N P ev') : ev.Like N ev' := by
  refine ⟨fun i hi g g' hg hg' => ?_, like_ksk h he.2.1 he'.2.1, like_ksk h he.2.2 he'.2.2⟩
  obtain ⟨x, x1, x2⟩ := he.1 i hi
  obtain ⟨y, y1, y2⟩ := he'.1 i hi
  obtain rfl := Option.some.inj (x1.symm.trans hg)
  obtain rfl := Option.some.inj (y1.symm.trans hg')
  exact like_gk h x2 y2

end Shape

theorem new_same {fd dim : Nat} {db db' : List Plaintext} (hdb : List.Forall₂ (fun p p' => p.values.length = p'.values.length) db db') {srv srv' : Server}
    (hs : Server.new .release fd dim db P = .ok srv) (hs' : Server.new .release fd dim db' P = .ok srv') :
    srv.firstDim = fd ∧ srv.dim = dim ∧ srv.db = db ∧ srv'.firstDim = fd ∧ srv'.dim = dim ∧ srv'.db = db' ∧
      List.Forall₂ Poly.Like srv.dbScaled srv'.dbScaled := by
  have := (Server.newL_sim fd dim P hdb srv srv' (by rw [Server.newL_val]; exact hs) (by rw [Server.newL_val]; exact hs')).2
  unfold Server.new at hs hs'
  obtain ⟨_, -, hs⟩ := bind_eq_ok.mp hs
  obtain ⟨_, -, hs'⟩ := bind_eq_ok.mp hs'
  obtain rfl := Except.ok.inj hs
  obtain rfl := Except.ok.inj hs'
  exact ⟨rfl, rfl, rfl, rfl, rfl, rfl, this⟩

/-- C121: the functions with traces compute what the functions of the model compute. -/
theorem c121_values (pr : Profile) (fd dim : Nat) (db : List Plaintext) (srv : Server) (q : List BfvCipherText) (ct : BfvCipherText) (p : Poly) (k : Ksk)
    (g : GaliosKey) (r : RgswCt) (ev : Evaluation) :
    (Server.newL pr fd dim db P).val = Server.new pr fd dim db P ∧ (k.keySwitchL pr p).val = k.keySwitch pr p ∧
    (g.relinearizeL pr ct).val = g.relinearize pr ct ∧ (r.externalProductL pr ct).val = r.externalProduct pr ct ∧
    (Evaluation.unpackL pr ev ct).val = Evaluation.unpack pr ev ct ∧ (Repair.unpackL pr ev ct).val = Repair.unpack pr ev ct ∧
    (Server.decodeL pr srv q ev P).val = Server.decode pr srv q ev P ∧ (Repair.decodeL pr srv q ev P).val = Repair.decode pr srv q ev P :=
  ⟨Server.newL_val .., Ksk.keySwitchL_val .., GaliosKey.relinearizeL_val .., RgswCt.externalProductL_val .., Evaluation.unpackL_val ..,
    Repair.unpackL_val .., Server.decodeL_val .., Repair.decodeL_val ..⟩

/-- C121: what `Server::new` does with a database depends on the lengths of its rows only. -/
theorem c121_new (fd dim : Nat) {db db' : List Plaintext} (hdb : List.Forall₂ (fun p p' => p.values.length = p'.values.length) db db') {srv srv' : Server}
    (hs : Server.new .release fd dim db P = .ok srv) (hs' : Server.new .release fd dim db' P = .ok srv') :
    (Server.newL .release fd dim db P).trace = (Server.newL .release fd dim db' P).trace :=
  (Server.newL_sim fd dim P hdb srv srv' (by rw [Server.newL_val]; exact hs) (by rw [Server.newL_val]; exact hs')).1

/-- C121: key switching, relinearization with a Galois key and the external product do the same for all ciphertexts and keys of a level. -/
theorem c121_switch (h : IsParams N t l variance P) (hN : N ≤ 2 ^ 31) {i : Nat} {ct ct' : BfvCipherText} (hct : ShapedCt P i 2 ct) (hct' : ShapedCt P i 2 ct')
    {e : Nat} (he : Odd e) {g g' : GaliosKey} (hg : ShapedGk P i e g) (hg' : ShapedGk P i e g') {r r' : RgswCt} (hr : ShapedRgsw P i r)
    (hr' : ShapedRgsw P i r') :
    (g.relinearizeL .release ct).trace = (g'.relinearizeL .release ct').trace ∧
    (r.externalProductL .release ct).trace = (r'.externalProductL .release ct').trace := by
  have key : ∀ {ct : BfvCipherText} {g : GaliosKey} {r : RgswCt}, ShapedCt P i 2 ct → ShapedGk P i e g → ShapedRgsw P i r →
      (∃ z, g.relinearize .release ct = .ok z) ∧ ∃ z, r.externalProduct .release ct = .ok z := by
    intro ct g r hct hg hr
    obtain ⟨f0, f1, h1⟩ := Shape.isCt_two h hct
    obtain ⟨z, r0, r1, -, z1, -⟩ := Shape.galois h hN he hg 0 .release ct f0 f1 h1
    obtain ⟨p0, p1, r0, r1, -, y1, -⟩ := c39_external_product h .release (Shape.isRgsw h hr 0 0) h1
    exact ⟨⟨_, z1⟩, _, y1⟩
  obtain ⟨⟨z, hz⟩, y, hy⟩ := key hct hg hr
  obtain ⟨⟨z', hz'⟩, y', hy'⟩ := key hct' hg' hr'
  have hc := Shape.like_ct h hct hct'
  exact ⟨(GaliosKey.relinearizeL_sim (Shape.like_gk h hg hg') hc z z' (by rw [GaliosKey.relinearizeL_val]; exact hz)
      (by rw [GaliosKey.relinearizeL_val]; exact hz')).1,
    (RgswCt.externalProductL_sim ⟨Shape.like_ksk h hr.1 hr'.1, Shape.like_ksk h hr.2 hr'.2⟩ hc y y' (by rw [RgswCt.externalProductL_val]; exact hy)
      (by rw [RgswCt.externalProductL_val]; exact hy')).1⟩

/-- C121: the expansion of a ciphertext does the same for all ciphertexts and evaluation keys, whatever polynomials they are made of: the corrected copy, and the
code after the point where it asks for the monomials (where it fails, C41), with the monomials given. -/
theorem c121_unpack (h : IsParams N t l variance P) (hN : N ≤ 2 ^ 31) {ev ev' : Evaluation} (he : ShapedEval N P ev) (he' : ShapedEval N P ev')
    {ct ct' : BfvCipherText} (hct : ShapedCt P 0 2 ct) (hct' : ShapedCt P 0 2 ct') :
    (Repair.unpackL .release ev ct).trace = (Repair.unpackL .release ev' ct').trace ∧
    ∀ xPows, IsMonomials N P xPows → (Evaluation.unpackWithL .release ev xPows ct).trace = (Evaluation.unpackWithL .release ev' xPows ct').trace := by
  have hdeg : P.degree = N := by obtain ⟨K, ext, rfl, hw, -⟩ := BfvP.params h; exact hw.deg
  have hpos : 1 ≤ N := by obtain ⟨K, ext, rfl, hw, -⟩ := BfvP.params h; exact Nat.one_le_two_pow
  have hl := Shape.like_eval h he he'
  have hc := Shape.like_ct h hct hct'
  have hd : ct.params.degree = N := by rw [hct.1, hdeg]
  refine ⟨?_, fun xPows hx => ?_⟩
  · obtain ⟨b, hb, -⟩ := c99_unpack h hN .release he hct
    obtain ⟨b', hb', -⟩ := c99_unpack h hN .release he' hct'
    exact (Repair.unpackL_sim hc (by omega) (by omega) (by rw [hd]; exact hl) b b' (by rw [Repair.unpackL_val]; exact hb)
      (by rw [Repair.unpackL_val]; exact hb')).1
  · obtain ⟨f0, f1, h1⟩ := Shape.isCt_two h hct
    obtain ⟨f0', f1', h1'⟩ := Shape.isCt_two h hct'
    obtain ⟨b, hb, -⟩ := c41_unpack_partial h .release (Shape.isEval h hN he 0) hx h1
    obtain ⟨b', hb', -⟩ := c41_unpack_partial h .release (Shape.isEval h hN he' 0) hx h1'
    exact (Evaluation.unpackWithL_sim xPows hc (by omega) (by omega) (by rw [hd]; exact hl) b b' (by rw [Evaluation.unpackWithL_val]; exact hb)
      (by rw [Evaluation.unpackWithL_val]; exact hb')).1

/-- C121: `decode` as it is stops in the first expansion, and what it did until then is the same for all databases, keys and queries of one length. -/
theorem c121_as_is (h : IsParams N t l variance P) (hN : N ≤ 2 ^ 31) (pr : Profile) (srv : Server) (ev : Evaluation) {q : List BfvCipherText}
    (hq : ∀ ct ∈ q, ct.params = P ∧ ct.level = 0) :
    (Server.decodeL pr srv q ev P).val = .error .assert ∧
    (Server.decodeL pr srv q ev P).trace =
      if q.length = l.length + 1 then [.access 0, .branch true, .access 0, .access 0] else [.access 0, .branch false] := by
  obtain ⟨K, ext, rfl, hw, rfl, rfl, rfl⟩ := BfvP.params h
  have hpos : 0 < P.ciphertextModuli.length := List.length_pos_iff.mpr hw.ne
  refine ⟨by rw [Server.decodeL_val, c44_decode_panics h hN pr srv ev fun ct hc => ⟨(hq ct hc).1, by rw [(hq ct hc).2]; exact hpos⟩], ?_⟩
  have hK : K ≤ 31 := (Nat.pow_le_pow_iff_right (by norm_num)).mp hN
  obtain ⟨L, hL⟩ := hw.levels 0 hpos
  have hm : L.qCtx.moduli.length = P.ciphertextModuli.length := by
    rw [hL.wf.ctx.core.mods, Ksk.moduli_len hL.wf.ctx, BfvP.len_level hL]
    simp [levelModuli]
  have okB : ∀ {α β : Type} {x : Lk α} {f : α → Lk β} {a : α}, x.val = .ok a → (x >>= f).trace = x.trace ++ (f a).trace := by
    intro α β x f a hx
    show (match x.val with
      | .ok a => (⟨(f a).val, x.trace ++ (f a).trace⟩ : Lk β)
      | .error e => ⟨.error e, x.trace⟩).trace = _
    rw [hx]
  have errB : ∀ {α β : Type} {x : Lk α} {f : α → Lk β} {e : Panic}, x.val = .error e → (x >>= f).trace = x.trace := by
    intro α β x f e hx
    show (match x.val with
      | .ok a => (⟨(f a).val, x.trace ++ (f a).trace⟩ : Lk β)
      | .error e => ⟨.error e, x.trace⟩).trace = _
    rw [hx]
  unfold Server.decodeL Server.decodeByL
  rw [okB (show (Lk.idx P.qCtxs 0).val = .ok L.qCtx from idx_of hL.q)]
  by_cases hlen : q.length = P.ciphertextModuli.length + 1
  · rw [if_pos hlen]
    have hl' : L.qCtx.moduli.length + 1 = q.length := by omega
    rw [okB (show (Lk.rassert (L.qCtx.moduli.length + 1 = q.length)).val = .ok () from rassert_ok hl')]
    cases q with
    | nil => simp at hlen
    | cons q0 qs =>
      obtain ⟨h1, h2⟩ := hq q0 (by simp)
      rw [okB (show (Lk.idx (q0 :: qs) 0).val = .ok q0 from rfl), errB (show (Evaluation.unpackL pr ev q0).val = .error .assert by
        rw [Evaluation.unpackL_val]
        exact c41_unpack_panics h hN pr ev h1 (by rw [h2]; exact hpos))]
      unfold Evaluation.unpackL
      rw [h1, h2, okB (show (Lk.idx P.qCtxs 0).val = .ok L.qCtx from idx_of hL.q),
        errB (show (Lk.lift (Evaluation.genXPows pr P.degree L.qCtx)).val = .error .assert by rw [hw.deg]; exact Evaluation.genXPows_panics hL.wf.ctx pr hK)]
      simp [Lk.idx, Lk.rassert, Lk.lift, hl']
  · rw [if_neg hlen]
    have hl' : ¬ L.qCtx.moduli.length + 1 = q.length := by omega
    rw [errB (show (Lk.rassert (L.qCtx.moduli.length + 1 = q.length)).val = .error .assert from rassert_fail hl')]
    simp [Lk.idx, Lk.rassert, hl']

/-- C121: answering a query (in the corrected copy of `decode`; as it is, it stops before anything interesting happens). The trace is the same for all queries of
well-formed ciphertexts, all well-formed evaluation keys and all databases whose rows have the same lengths: it shows neither the selected row nor the database. -/
theorem c121_decode (h : IsParams N t l variance P) (hN : N ≤ 2 ^ 31) {ev ev' : Evaluation} (he : ShapedEval N P ev) (he' : ShapedEval N P ev')
    {fd dim : Nat} {db db' : List Plaintext} (hdb : List.Forall₂ (fun p p' => p.values.length = p'.values.length) db db') {srv srv' : Server}
    (hs : Server.new .release fd dim db P = .ok srv) (hs' : Server.new .release fd dim db' P = .ok srv') {q q' : List BfvCipherText}
    (hlen : q.length = q'.length) (hq : ∀ ct ∈ q, ShapedCt P 0 2 ct) (hq' : ∀ ct ∈ q', ShapedCt P 0 2 ct) {out out' : List BfvCipherText}
    (ho : Repair.decode .release srv q ev P = .ok out) (ho' : Repair.decode .release srv' q' ev' P = .ok out') :
    (Repair.decodeL .release srv q ev P).trace = (Repair.decodeL .release srv' q' ev' P).trace := by
  have hdeg : P.degree = N := by obtain ⟨K, ext, rfl, hw, -⟩ := BfvP.params h; exact hw.deg
  have hpos : 1 ≤ N := by obtain ⟨K, ext, rfl, hw, -⟩ := BfvP.params h; exact Nat.one_le_two_pow
  have hl := Shape.like_eval h he he'
  obtain ⟨s1, s2, s3, s1', s2', s3', s4⟩ := new_same hdb hs hs'
  have hlen' : srv.db.length = srv'.db.length := by rw [s3, s3', hdb.length_eq]
  have hd : Repair.dimensions .release srv' 64 = Repair.dimensions .release srv 64 := by
    unfold Repair.dimensions
    rw [s1', s2', s1, s2, hlen']
  refine (Server.decodeByL_sim P (Repair.dimensions .release srv 64) (u := Repair.unpackL .release ev) (u' := Repair.unpackL .release ev') (s1.trans s1'.symm)
    (s2.trans s2'.symm) s4 (q := q) (q' := q') (List.forall₂_iff_get.mpr ⟨hlen, fun i h1 h2 => ?_⟩) hl.2 out out' ?_ ?_).1.trans ?_
  · have := hq _ (List.get_mem q ⟨i, h1⟩)
    have hc := Shape.like_ct h this (hq' _ (List.get_mem q' ⟨i, h2⟩))
    have hd : (q.get ⟨i, h1⟩).params.degree = N := by rw [this.1, hdeg]
    exact ⟨hc, Repair.unpackL_sim hc (by omega) (by omega) (by rw [hd]; exact hl)⟩
  · rw [Server.decodeByL_val _ _ (Repair.unpackL_val .release ev)]; exact ho
  · rw [Server.decodeByL_val _ _ (Repair.unpackL_val .release ev'), ← hd]; exact ho'
  · unfold Repair.decodeL
    rw [hd]

/-- C121: with a database that the degree can hold and a query of the right length, the corrected copy answers, and the trace depends on neither the query nor
the keys nor the database. -/
theorem c121_answer (h : IsParams N t l variance P) (hN : N ≤ 2 ^ 31) {fd dim : Nat} (hf : 0 < fd) (hfN : fd ≤ N) (hd : 2 ≤ dim) {n : Nat} (hn : n < 2 ^ 64)
    {len : Nat → Nat} (hlen : ∀ i, len i ≤ N) {k : Nat} (hk : n / fd < 2 * dim ^ k) (hkN : dim * k ≤ N) :
    ∃ tr : List Event, ∀ (ev : Evaluation) (db : List Plaintext) (q : List BfvCipherText) (srv : Server), ShapedEval N P ev → db.length = n →
      (∀ i p, db[i]? = some p → p.values.length = len i ∧ ∀ a ∈ p.values, a < 2 ^ 64) → Server.new .release fd dim db P = .ok srv →
      q.length = l.length + 1 → (∀ ct ∈ q, ShapedCt P 0 2 ct) →
      ∃ out, (Repair.decodeL .release srv q ev P).val = .ok out ∧ (Repair.decodeL .release srv q ev P).trace = tr := by
  have total : ∀ (ev : Evaluation) (db : List Plaintext) (q : List BfvCipherText) (srv : Server), ShapedEval N P ev → db.length = n →
      (∀ i p, db[i]? = some p → p.values.length = len i ∧ ∀ a ∈ p.values, a < 2 ^ 64) → Server.new .release fd dim db P = .ok srv →
      q.length = l.length + 1 → (∀ ct ∈ q, ShapedCt P 0 2 ct) → ∃ out, Repair.decode .release srv q ev P = .ok out := by
    intro ev db q srv hev hdn hdb hs hql hq
    have hs3 := new_same (List.forall₂_same.mpr fun _ _ => rfl) hs hs
    obtain ⟨k', k1, k2, k3⟩ := c99_dimensions .release srv (by rw [hs3.1]; exact hf) (by rw [hs3.2.1]; exact hd) (by rw [hs3.2.2.1, hdn]; exact hn)
    have hk' : k' ≤ k := by
      by_contra hc
      have := k3 k (by omega)
      rw [hs3.1, hs3.2.1, hs3.2.2.1, hdn] at this
      omega
    have mem : ∀ p ∈ db, ∃ i, db[i]? = some p := fun p hp => List.mem_iff_getElem?.mp hp
    exact (c99_decode h hN .release hev (fun p hp => by
      obtain ⟨i, hi⟩ := mem p hp
      rw [(hdb i p hi).1]; exact hlen i) (fun p hp => by
      obtain ⟨i, hi⟩ := mem p hp
      exact (hdb i p hi).2) hs hf hfN (by omega) k1 (le_trans (Nat.mul_le_mul_left _ hk') hkN) hq).1.mpr hql
  by_cases hex : ∃ (ev : Evaluation) (db : List Plaintext) (q : List BfvCipherText) (srv : Server), ShapedEval N P ev ∧ db.length = n ∧
      (∀ i p, db[i]? = some p → p.values.length = len i ∧ ∀ a ∈ p.values, a < 2 ^ 64) ∧ Server.new .release fd dim db P = .ok srv ∧
      q.length = l.length + 1 ∧ (∀ ct ∈ q, ShapedCt P 0 2 ct)
  · obtain ⟨ev, db, q, srv, h1, h2, h3, h4, h5, h6⟩ := hex
    refine ⟨(Repair.decodeL .release srv q ev P).trace, fun ev' db' q' srv' h1' h2' h3' h4' h5' h6' => ?_⟩
    obtain ⟨out, ho⟩ := total ev db q srv h1 h2 h3 h4 h5 h6
    obtain ⟨out', ho'⟩ := total ev' db' q' srv' h1' h2' h3' h4' h5' h6'
    refine ⟨out', by rw [Repair.decodeL_val]; exact ho', (c121_decode h hN h1' h1 ?_ h4' h4 (by rw [h5, h5']) h6' h6 ho' ho)⟩
    refine List.forall₂_iff_get.mpr ⟨by rw [h2, h2'], fun i a b => ?_⟩
    exact (h3' i _ (List.getElem?_eq_getElem a)).1.trans (h3 i _ (List.getElem?_eq_getElem b)).1.symm
  · exact ⟨[], fun ev db q srv h1 h2 h3 h4 h5 h6 => absurd ⟨ev, db, q, srv, h1, h2, h3, h4, h5, h6⟩ hex⟩

/-- Two databases of seven rows, two queries made of different polynomials: both are answered, with one trace. -/
example : ∃ P p p' ev ev' srv srv' out out', IsParams 8 17 Ex.mods4 10 P ∧
    PolyAt P 0 (msgRing 8 [4, 2] : Rg 8) p ∧ PolyAt P 0 (ofCoeffs 8 fun k => 12345678901 * (k : ℤ) ^ 7 : Rg 8) p' ∧
    Server.new .release 2 2 (List.replicate 7 ⟨P, 0, .poly, [4]⟩) P = .ok srv ∧
    Server.new .release 2 2 (List.replicate 7 ⟨P, 0, .poly, [9]⟩) P = .ok srv' ∧
    (Repair.decodeL .release srv (List.replicate 5 ⟨P, [p, p], 0⟩) ev P).val = .ok out ∧
    (Repair.decodeL .release srv' (List.replicate 5 ⟨P, [p', p], 0⟩) ev' P).val = .ok out' ∧
    (Repair.decodeL .release srv (List.replicate 5 ⟨P, [p, p], 0⟩) ev P).trace =
      (Repair.decodeL .release srv' (List.replicate 5 ⟨P, [p', p], 0⟩) ev' P).trace := by
  obtain ⟨P, h⟩ := Ex.exists_params4
  obtain ⟨p, hp⟩ := c33_exists_poly h (i := 0) (by decide) (msgRing 8 [4, 2])
  obtain ⟨p', hp'⟩ := c33_exists_poly h (i := 0) (by decide) (ofCoeffs 8 fun k => 12345678901 * (k : ℤ) ^ 7)
  have hs := Shape.of_polyAt h hp
  have hs' := Shape.of_polyAt h hp'
  obtain ⟨ev, hev⟩ := c99_exists_eval h (by norm_num) hs
  obtain ⟨ev', hev'⟩ := c99_exists_eval h (by norm_num) hs'
  obtain ⟨tr, htr⟩ := c121_answer h (by norm_num) (fd := 2) (by norm_num) (by norm_num) (dim := 2) (by norm_num) (n := 7) (by norm_num) (len := fun _ => 1)
    (by norm_num) (k := 1) (by norm_num) (by norm_num)
  have new : ∀ x, x < 2 ^ 64 → ∃ srv, Server.new .release 2 2 (List.replicate 7 ⟨P, 0, .poly, [x]⟩) P = .ok srv := fun x hx => by
    obtain ⟨srv, s1, -⟩ := c43_new h .release 2 2 (db := List.replicate 7 ⟨P, 0, .poly, [x]⟩)
      (fun p hp => by rw [(List.mem_replicate.mp hp).2]; simp) (fun p hp => by rw [(List.mem_replicate.mp hp).2]; simpa using hx)
    exact ⟨srv, s1⟩
  have rows : ∀ x, x < 2 ^ 64 → ∀ i (p : Plaintext), (List.replicate 7 (⟨P, 0, .poly, [x]⟩ : Plaintext))[i]? = some p → p.values.length = 1 ∧ ∀ a ∈ p.values, a < 2 ^ 64 :=
    fun x hx i p hp => by
      rw [(List.mem_replicate.mp (List.mem_of_getElem? hp)).2]
      simpa using hx
  obtain ⟨srv, n1⟩ := new 4 (by norm_num)
  obtain ⟨srv', n2⟩ := new 9 (by norm_num)
  obtain ⟨out, o1, o2⟩ := htr ev _ (List.replicate 5 ⟨P, [p, p], 0⟩) srv hev (by simp) (rows 4 (by norm_num)) n1 (by simp [Ex.mods4]) fun ct hct => by
    rw [(List.mem_replicate.mp hct).2]; exact ⟨rfl, rfl, rfl, by simpa using hs⟩
  obtain ⟨out', o1', o2'⟩ := htr ev' _ (List.replicate 5 ⟨P, [p', p], 0⟩) srv' hev' (by simp) (rows 9 (by norm_num)) n2 (by simp [Ex.mods4]) fun ct hct => by
    rw [(List.mem_replicate.mp hct).2]; exact ⟨rfl, rfl, rfl, by simpa using ⟨hs', hs⟩⟩
  exact ⟨P, p, p', ev, ev', srv, srv', out, out', h, hp, hp', n1, n2, o1, o1', o2.trans o2'.symm⟩

/-- Key switching with two different keys and ciphertexts. -/
example : ∃ P p p' g g', IsParams 8 17 Ex.mods 10 P ∧ PolyAt P 0 (msgRing 8 [4, 2] : Rg 8) p ∧ PolyAt P 0 (ofCoeffs 8 fun k => 12345678901 * (k : ℤ) ^ 7 : Rg 8) p' ∧
    ShapedGk P 0 5 g ∧ ShapedGk P 0 5 g' ∧
    (g.relinearizeL .release ⟨P, [p, p'], 0⟩).trace = (g'.relinearizeL .release ⟨P, [p', p], 0⟩).trace := by
  obtain ⟨P, h⟩ := Ex.exists_params
  obtain ⟨p, hp⟩ := c33_exists_poly h (i := 0) (by decide) (msgRing 8 [4, 2])
  obtain ⟨p', hp'⟩ := c33_exists_poly h (i := 0) (by decide) (ofCoeffs 8 fun k => 12345678901 * (k : ℤ) ^ 7)
  have hs := Shape.of_polyAt h hp
  have hs' := Shape.of_polyAt h hp'
  obtain ⟨g, hg, -⟩ := Shape.exists_gk h (by norm_num) hs (e := 5) (by decide)
  obtain ⟨g', hg', -⟩ := Shape.exists_gk h (by norm_num) hs' (e := 5) (by decide)
  have hr : ShapedRgsw P 0 ⟨Shape.junkKsk P p, Shape.junkKsk P p⟩ := ⟨Shape.junkKsk_shaped hs, Shape.junkKsk_shaped hs⟩
  exact ⟨P, p, p', g, g', h, hp, hp', hg, hg', (c121_switch h (by norm_num) (ct := ⟨P, [p, p'], 0⟩) (ct' := ⟨P, [p', p], 0⟩)
    ⟨rfl, rfl, rfl, by simpa using ⟨hs, hs'⟩⟩ ⟨rfl, rfl, rfl, by simpa using ⟨hs', hs⟩⟩ (by decide) hg hg' hr hr).1⟩

end OnionPIR
