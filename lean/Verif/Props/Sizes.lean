import Verif.Spec.Sizes
import Verif.Props.Robust
/- Property C104: sizes of keys, queries, answers and databases. -/
namespace OnionPIR
open Rg Poly Spec Evaluation

variable {N t : Nat} {l : List Nat} {variance : Nat} {P : BfvParameters}

/-- C104: a polynomial of level `i` has `N` words for every modulus in use. -/
theorem c104_poly (h : IsParams N t l variance P) {i : Nat} {p : Poly} (hp : Shaped P i p) : polyWords p = (l.length - i) * N := by
  obtain ⟨K, ext, rfl, hw, rfl, rfl, -⟩ := BfvP.params h
  obtain ⟨L, hL⟩ := hw.levels i (Shape.level h hp)
  have hc : p.context = L.qCtx := (Option.some.inj (hL.q.symm.trans hp.1)).symm
  obtain ⟨h1, h2⟩ := hp.2.2
  rw [hc] at h1 h2
  have hlen := BfvP.len_level hL
  have e : p.coefficients.map List.length = List.replicate (P.ciphertextModuli.length - i) (2 ^ K) := by
    rw [List.eq_replicate_iff]
    refine ⟨by rw [List.length_map, h1, hlen]; simp [levelModuli], fun b hb => ?_⟩
    obtain ⟨row, hr, rfl⟩ := List.mem_map.mp hb
    obtain ⟨j, hj, rfl⟩ := List.mem_iff_getElem.mp hr
    have := (h2 j (by omega)).1
    rw [List.getD_eq_getElem _ _ hj, hL.wf.ctx.core.deg] at this
    exact this
  unfold polyWords
  rw [e, List.sum_replicate, smul_eq_mul]

theorem Sizes.sum_words (h : IsParams N t l variance P) {i : Nat} {ps : List Poly} (hp : ∀ p ∈ ps, Shaped P i p) :
    (ps.map polyWords).sum = ps.length * ((l.length - i) * N) := by
  have e : ps.map polyWords = List.replicate ps.length ((l.length - i) * N) := by
    rw [List.eq_replicate_iff]
    refine ⟨by simp, fun b hb => ?_⟩
    obtain ⟨p, h1, rfl⟩ := List.mem_map.mp hb
    exact c104_poly h (hp p h1)
  rw [e, List.sum_replicate, smul_eq_mul]

/-- C104: a ciphertext. -/
theorem c104_ciphertext (h : IsParams N t l variance P) {i n : Nat} {ct : BfvCipherText} (hct : ShapedCt P i n ct) :
    ctWords ct = n * ((l.length - i) * N) := by
  unfold ctWords
  rw [Sizes.sum_words h hct.2.2.2, hct.2.2.1]

theorem Sizes.sum_cts (h : IsParams N t l variance P) {i n : Nat} {cs : List BfvCipherText} (hc : ∀ c ∈ cs, ShapedCt P i n c) :
    (cs.map ctWords).sum = cs.length * (n * ((l.length - i) * N)) := by
  have e : cs.map ctWords = List.replicate cs.length (n * ((l.length - i) * N)) := by
    rw [List.eq_replicate_iff]
    refine ⟨by simp, fun b hb => ?_⟩
    obtain ⟨p, h1, rfl⟩ := List.mem_map.mp hb
    exact c104_ciphertext h (hc p h1)
  rw [e, List.sum_replicate, smul_eq_mul]

/-- C104: a key-switching key grows with the square of the number of moduli. -/
theorem c104_ksk (h : IsParams N t l variance P) {i : Nat} {k : Ksk} (hk : ShapedKsk P i k) :
    kskWords k = 2 * (l.length - i) ^ 2 * N := by
  obtain ⟨h1, h2, h3, h4, h5⟩ := hk
  unfold kskWords
  rw [Sizes.sum_words h h5, List.length_append, h3, h4]
  obtain ⟨K, ext, rfl, hw, rfl, rfl, -⟩ := BfvP.params h
  have hi : i < P.ciphertextModuli.length := by rw [← hw.nLevels]; exact (List.getElem?_eq_some_iff.mp h1).1
  obtain ⟨L, hL⟩ := hw.levels i hi
  have hc : k.ctContext = L.qCtx := (Option.some.inj (hL.q.symm.trans h1)).symm
  rw [hc, BfvP.len_level hL]
  simp only [levelModuli, List.length_take]
  rw [min_eq_left (by omega)]
  ring

/-- C104: an RGSW ciphertext. -/
theorem c104_rgsw (h : IsParams N t l variance P) {i : Nat} {g : RgswCt} (hg : ShapedRgsw P i g) :
    rgswWords g = 4 * (l.length - i) ^ 2 * N := by
  unfold rgswWords
  rw [c104_ksk h hg.1, c104_ksk h hg.2]
  ring

theorem Shape.of_isKsk (h : IsParams N t l variance P) {i : Nat} {s src : Rg N} {B : ℤ} {k : Ksk} (hk : IsKsk P l i s src B k) : ShapedKsk P i k := by
  obtain ⟨h1, h2, bs, as, h3, h4, h5, h6, -⟩ := hk
  have hf : ∀ {fs : List (Rg N)} {ps : List Poly}, List.Forall₂ (PolyAt P i) fs ps → ∀ p ∈ ps, Shaped P i p := by
    intro fs ps hf p hp
    obtain ⟨j, hj, rfl⟩ := List.mem_iff_getElem.mp hp
    exact of_polyAt h (hf.get (by rw [hf.length_eq]; exact hj) hj)
  have hlen : k.ctContext.moduli64.length = (levelModuli l i).length := by
    obtain ⟨K, ext, rfl, hw, rfl, rfl, -⟩ := BfvP.params h
    have hi : i < P.ciphertextModuli.length := by rw [← hw.nLevels]; exact (List.getElem?_eq_some_iff.mp h1).1
    obtain ⟨L, hL⟩ := hw.levels i hi
    rw [show k.ctContext = L.qCtx from (Option.some.inj (hL.q.symm.trans h1)).symm, BfvP.len_level hL]
  refine ⟨h1, h2, by rw [← h3.length_eq, h5, hlen], by rw [← h4.length_eq, h6, hlen], fun p hp => ?_⟩
  rcases List.mem_append.mp hp with hp | hp
  · exact hf h3 p hp
  · exact hf h4 p hp

/-- C104: the evaluation keys that `build` returns have the shape that C99 assumes, there are `log2 N` Galois keys, and together with the RGSW
ciphertext of the secret key they have `(2 log2 N + 4) · L² · N` words. -/
theorem c104_build (h : IsParams N t l variance P) {sk : SecretKey} (hk : IsKey P sk) (pr : Profile) (hv1 : 1 ≤ variance) (hv2 : variance ≤ 16)
    (hl : l.length ≠ 1) (hN : N ≤ 2 ^ 31) {aTape : Nat → Nat → Nat → Nat → Nat} (ha : ∀ k j, TapeAt l 0 (aTape k j))
    {rng : Nat → Nat → Nat → Nat} (hr : ∀ k j i, rng k j i < 2 ^ 64) {a0 a1 : Nat → Nat → Nat → Nat} (ha0 : ∀ j, TapeAt l 0 (a0 j))
    (ha1 : ∀ j, TapeAt l 0 (a1 j)) {r0 r1 : Nat → Nat → Nat} (hr0 : ∀ j i, r0 j i < 2 ^ 64) (hr1 : ∀ j i, r1 j i < 2 ^ 64) :
    ∃ ev, Evaluation.build pr sk P aTape rng a0 a1 r0 r1 = .ok ev ∧ ShapedEval N P ev ∧ ev.gk.length = Nat.log 2 N ∧
      evalWords ev = (2 * Nat.log 2 N + 4) * l.length ^ 2 * N := by
  obtain ⟨K, -, hNK, -⟩ := BfvP.params h
  subst hNK
  obtain ⟨ext, L, hw, hL, -, hml, -⟩ := level_zero h
  have hK : K ≤ 31 := (Nat.pow_le_pow_iff_right (by norm_num)).mp hN
  have hskw := BfvP.key hw hk
  have hgal : ∀ k e, Odd e → ∃ sub g, Substitution.new pr L.qCtx e = .ok sub ∧ GaliosKey.new pr sk sub 0 (aTape k) (rng k) = .ok g ∧
      ShapedGk P 0 e g := by
    intro k e he
    have hs := Poly.substitution_new_ok hL.wf.ctx pr hK he
    have hs' := Poly.substitution_new_ok hL.wf.ctx .debug hK he
    have hP := hk.1
    subst hP
    obtain ⟨_, _, _, _, e1, _, e2⟩ := BfvP.params h
    obtain ⟨g, a, b, h1, h2, h3, h4⟩ := GaliosKey.new_enc hskw pr hL (by rw [e2]; exact hv1) (by rw [e2]; exact hv2) (by rw [hml]; exact hl) hK he hs
      (fun j => BfvP.tape hL (by rw [hml]; exact ha k j)) (hr k)
    have h5 := BfvP.isKsk_of_holds hL h4
    rw [hml] at h5
    refine ⟨_, g, hs, h1, h3, ?_, Shape.of_isKsk h h5⟩
    rw [h2, (Option.some.inj (hL.q.symm.trans h5.1)).symm]
    exact hs'
  have hpoly : PolyAt P 0 (keyRing (2 ^ K) sk) (enc L.qCtx .ntt (sk.ring K)) := by
    rw [BfvP.polyAt_iff hL, BfvP.keyRing_eq]
  obtain ⟨g, hg, hg'⟩ := c39_encrypt_poly h hk pr hv1 hv2 hpoly ha0 ha1 hr0 hr1
  have hgs : ShapedRgsw P 0 g := ⟨Shape.of_isKsk h hg'.1, Shape.of_isKsk h hg'.2⟩
  obtain ⟨gk, hfold, hgk, hlen, hall⟩ := foldR_range_ok (f := buildStep pr sk P aTape rng) (s := []) (n := K)
    (Inv := fun n (m : List (Nat × GaliosKey)) => (∀ i, i < n → ∃ g, m.lookup (2 ^ (K - i) + 1) = some g ∧ ShapedGk P 0 (2 ^ (K - i) + 1) g) ∧
      m.length = n ∧ ∀ x ∈ m, ShapedKsk P 0 x.2.gk)
    ⟨fun i hi => absurd hi (Nat.not_lt_zero _), rfl, by simp⟩ (by
      rintro n m hn ⟨hm, hm2, hm3⟩
      obtain ⟨sub, gg, h1, h2, h3⟩ := hgal n (2 ^ (K - n) + 1) (odd_exp hn)
      refine ⟨(2 ^ (K - n) + 1, gg) :: m, ?_, fun i hi => ?_, by rw [List.length_cons, hm2], fun x hx => ?_⟩
      · unfold buildStep powW
        have e1 : n % 2 ^ 32 = n := Nat.mod_eq_of_lt (by omega)
        have e2 : 2 ^ n < 2 ^ 64 := Nat.pow_lt_pow_right (by norm_num) (by omega)
        have e3 : 2 ^ (K - n) ≤ 2 ^ 31 := Nat.pow_le_pow_right (by norm_num) (by omega)
        rw [e1, fit_ok e2, res_ok_bind, divR_ok (by positivity), res_ok_bind, hw.deg, Nat.pow_div hn.le (by norm_num), addW_ok (by omega),
          res_ok_bind, idx_of hL.q, res_ok_bind, h1, res_ok_bind, h2, res_ok_bind]
      · by_cases hin : i = n
        · subst hin
          exact ⟨gg, by rw [List.lookup_cons_self], h3⟩
        · have hlt : 2 ^ (K - n) < 2 ^ (K - i) := Nat.pow_lt_pow_right (by norm_num) (by omega)
          obtain ⟨g', q1, q2⟩ := hm i (by omega)
          refine ⟨g', ?_, q2⟩
          rw [List.lookup_cons, show (2 ^ (K - i) + 1 == 2 ^ (K - n) + 1) = false from beq_eq_false_iff_ne.mpr (by omega)]
          exact q1
      · rcases List.mem_cons.mp hx with rfl | hx
        · exact h3.2.2
        · exact hm3 x hx)
  refine ⟨⟨gk, g⟩, ?_, ⟨fun i hi => ?_, hgs⟩, by rw [Nat.log_pow (by norm_num)]; exact hlen, ?_⟩
  · unfold Evaluation.build
    rw [hw.deg, RnsScaler.ilog2_two_pow pr (by omega), res_ok_bind, hfold, res_ok_bind, idx_of hL.q, res_ok_bind]
    have hP := hk.1
    subst hP
    rw [SecretKey.polyNtt_enc hskw pr hL.wf.ctx, res_ok_bind, hg, res_ok_bind]
  · have hi' : i < K := (Nat.pow_lt_pow_iff_right (by norm_num)).mp hi
    rw [Nat.pow_div hi'.le (by norm_num)]
    exact hgk i hi'
  · have e : gk.map (fun x => kskWords x.2.gk) = List.replicate K (2 * l.length ^ 2 * 2 ^ K) := by
      rw [List.eq_replicate_iff]
      refine ⟨by simp [hlen], fun b hb => ?_⟩
      obtain ⟨x, hx, rfl⟩ := List.mem_map.mp hb
      exact c104_ksk h (hall x hx)
    unfold evalWords
    rw [show (⟨gk, g⟩ : Evaluation).gk = gk from rfl, e, List.sum_replicate, c104_rgsw h hgs, Nat.log_pow (by norm_num), smul_eq_mul, Nat.sub_zero]
    ring

/-- C104: a query has one packed ciphertext and one for every modulus. -/
theorem c104_query (h : IsParams N t l variance P) {sk : SecretKey} (hk : IsKey P sk) (hv1 : 1 ≤ variance) (hv2 : variance ≤ 16) {fd : Nat} {v : List Nat}
    {q0 : BfvCipherText} {qs : List BfvCipherText} (hlen : v.length ≤ N) (hv : ∀ a ∈ v, a < 2 ^ 64) (hq : IsQuery N P l sk fd v q0 qs) :
    (∀ ct ∈ q0 :: qs, ShapedCt P 0 2 ct) ∧ ((q0 :: qs).map ctWords).sum = (l.length + 1) * (2 * (l.length * N)) := by
  have hall : ∀ ct ∈ q0 :: qs, ShapedCt P 0 2 ct := by
    intro ct hct
    rcases List.mem_cons.mp hct with rfl | hct
    · obtain ⟨pr, tape, rng, h1, h2, h3⟩ := hq.first
      obtain ⟨ct', f0, f1, e1, e2, -⟩ := c30_encrypt h hk pr hv1 hv2 (pt := ⟨P, 0, .poly, v⟩) rfl rfl hlen hv h1 h2
      rw [Except.ok.inj (h3.symm.trans e1)]
      exact Shape.of_isCt h e2
    · obtain ⟨j, hj, rfl⟩ := List.mem_iff_getElem.mp hct
      obtain ⟨pr, g, p, tape, rng, -, h1, h2, h3, h4⟩ := hq.rest j _ (List.getElem?_eq_getElem hj)
      obtain ⟨ct', f0, f1, e, e1, e2, -⟩ := c30_encrypt_poly h hk pr hv1 hv2 h1 h2 h3
      rw [Except.ok.inj (h4.symm.trans e1)]
      exact Shape.of_isCt h e2
  refine ⟨hall, ?_⟩
  rw [Sizes.sum_cts h hall, List.length_cons, hq.length, Nat.sub_zero]

/-- C104: an answer has one ciphertext for every block of rows that the last dimension leaves: its size does not depend on the contents of the
database, the keys or the query, only on the number of rows. -/
theorem c104_answer (h : IsParams N t l variance P) (hN : N ≤ 2 ^ 31) (pr : Profile) {ev : Evaluation} (hev : ShapedEval N P ev)
    {fd dim : Nat} {db : List Plaintext} (hdb : ∀ p ∈ db, p.values.length ≤ N) (hv : ∀ p ∈ db, ∀ a ∈ p.values, a < 2 ^ 64) {srv : Server}
    {pr2 : Profile} (hsrv : Server.new pr2 fd dim db P = .ok srv) (hf : 0 < fd) (hfN : fd ≤ N) (hd : 0 < dim) {k : Nat}
    (hdim : Repair.dimensions pr srv 64 = .ok (k + 1)) (hkN : dim * k ≤ N) {q : List BfvCipherText} (hq : ∀ ct ∈ q, ShapedCt P 0 2 ct)
    {out : List BfvCipherText} (ho : Repair.decode pr srv q ev P = .ok out) :
    (out.map ctWords).sum = (db.length + fd * dim ^ k - 1) / (fd * dim ^ k) * (2 * (l.length * N)) := by
  obtain ⟨h1, h2⟩ := (c99_decode h hN pr hev hdb hv hsrv hf hfN hd hdim hkN hq).2 out ho
  rw [← h1]
  exact Sizes.sum_cts h h2

/-- C104: the stored form of a database. -/
theorem c104_database (h : IsParams N t l variance P) (pr : Profile) (fd dim : Nat) {db : List Plaintext} (hdb : ∀ p ∈ db, p.values.length ≤ N)
    (hv : ∀ p ∈ db, ∀ a ∈ p.values, a < 2 ^ 64) :
    ∃ srv, Server.new pr fd dim db P = .ok srv ∧ (srv.dbScaled.map polyWords).sum = db.length * (l.length * N) := by
  obtain ⟨srv, s1, -, -, -, s5, s6⟩ := c43_new h pr fd dim hdb hv
  refine ⟨srv, s1, ?_⟩
  rw [← s5]
  refine Sizes.sum_words h (i := 0) fun p hp => ?_
  obtain ⟨j, hj, rfl⟩ := List.mem_iff_getElem.mp hp
  obtain ⟨p, q1, q2⟩ := s6 j db[j] (List.getElem?_eq_getElem (by omega))
  rw [List.getElem?_eq_getElem hj] at q1
  rw [Option.some.inj q1]
  exact Shape.of_polyAt h q2

/-- Degree 8, four moduli, seven rows in blocks of two by two: the keys have 1280 words, the query 320, the database 224 and the answer 128. -/
example : ∃ P sk ev srv q0 qs out, IsParams 8 17 Ex.mods4 10 P ∧ IsKey P sk ∧ evalWords ev = 1280 ∧
    Server.new .release 2 2 (Ex.rows4 P ++ [⟨P, 0, .poly, [4]⟩, ⟨P, 0, .poly, [8]⟩, ⟨P, 0, .poly, [15, 16]⟩]) P = .ok srv ∧
    (srv.dbScaled.map polyWords).sum = 224 ∧ IsQuery 8 P Ex.mods4 sk 2 [1, 0, 0, 1] q0 qs ∧ ((q0 :: qs).map ctWords).sum = 320 ∧
    Repair.decode .debug srv (q0 :: qs) ev P = .ok out ∧ (out.map ctWords).sum = 128 := by
  obtain ⟨P, h⟩ := Ex.exists_params4
  obtain ⟨sk, -, hk, hb⟩ := c30_generate h .release (by norm_num) (by norm_num) Ex.wordTape
  have ht : TapeAt Ex.mods4 0 fun _ _ => 0 := Ex.tape0 Ex.mods4_gt
  obtain ⟨ev, -, hev, -, hw⟩ := c104_build h hk .release (by norm_num) (by norm_num) (by decide) (by norm_num) (aTape := fun _ _ _ _ => 0)
    (fun _ _ => ht) (rng := fun _ _ i => i % 1000) (fun _ _ => Ex.wordTape) (a0 := fun _ _ _ => 0)
    (fun _ => ht) (a1 := fun _ _ _ => 0) (fun _ => ht) (r0 := fun _ i => i % 1000) (fun _ => Ex.wordTape)
    (r1 := fun _ i => i % 1000) (fun _ => Ex.wordTape)
  obtain ⟨db, hdb⟩ : ∃ db, db = Ex.rows4 P ++ [⟨P, 0, .poly, [4]⟩, ⟨P, 0, .poly, [8]⟩, ⟨P, 0, .poly, [15, 16]⟩] := ⟨_, rfl⟩
  have hl7 : db.length = 7 := by rw [hdb]; rfl
  have hlen : ∀ p ∈ db, p.values.length ≤ 8 := by rw [hdb]; simp [Ex.rows4]
  have hval : ∀ p ∈ db, ∀ a ∈ p.values, a < 2 ^ 64 := by rw [hdb]; simp [Ex.rows4]
  obtain ⟨srv, s1, s2, s3, s4, -⟩ := c43_new h .release 2 2 (db := db) hlen hval
  obtain ⟨srv', s1', hsw⟩ := c104_database h .release 2 2 (db := db) hlen hval
  obtain rfl := Except.ok.inj (s1.symm.trans s1')
  obtain ⟨k, k1, k2, k3⟩ := c99_dimensions .debug srv (by rw [s2]; norm_num) (by rw [s3]) (by rw [s4, hl7]; norm_num)
  obtain rfl : k = 1 := by
    rw [s2, s3, s4, hl7] at k2 k3
    rcases Nat.lt_trichotomy k 1 with hk | hk | hk
    · obtain rfl : k = 0 := by omega
      norm_num at k2
    · exact hk
    · have := k3 1 hk
      norm_num at this
  obtain ⟨q0, qs, hq⟩ := c44_query h hk (by norm_num) (by norm_num) (v := [1, 0, 0, 1]) (by norm_num) (by simp) 2
  obtain ⟨hqs, hqw⟩ := c104_query h hk (by norm_num) (by norm_num) (by norm_num) (by simp) hq
  obtain ⟨out, ho⟩ := (c99_decode h (by norm_num) .debug hev hlen hval s1 (by norm_num) (by norm_num) (by norm_num) k1 (by norm_num) hqs).1.mpr
    (by rw [List.length_cons, hq.length])
  have how := c104_answer h (by norm_num) .debug hev hlen hval s1 (by norm_num) (by norm_num) (by norm_num) k1 (by norm_num) hqs ho
  refine ⟨P, sk, ev, srv, q0, qs, out, h, hk, ?_, hdb ▸ s1, ?_, hq, ?_, ho, ?_⟩
  · rw [hw, show (8 : Nat) = 2 ^ 3 by norm_num, Nat.log_pow (by norm_num)]; rfl
  · rw [hsw, hl7]; rfl
  · rw [hqw]; rfl
  · rw [how, hl7]; rfl

/-- One polynomial of level 1 repeated: a ciphertext of three polynomials, a key-switching key and an RGSW ciphertext. -/
example : ∃ P p, ∃ k : Ksk, IsParams 8 17 Ex.mods4 10 P ∧ PolyAt P 1 (msgRing 8 [4, 2] : Rg 8) p ∧ polyWords p = 24 ∧
    ctWords ⟨P, [p, p, p], 1⟩ = 72 ∧ kskWords k = 256 ∧ rgswWords ⟨k, k⟩ = 512 := by
  obtain ⟨P, h⟩ := Ex.exists_params4
  obtain ⟨p, hp⟩ := c33_exists_poly h (i := 1) (by decide) (msgRing 8 [4, 2])
  obtain ⟨p0, hp0⟩ := c33_exists_poly h (i := 0) (by decide) (msgRing 8 [4, 2])
  have hs := Shape.of_polyAt h hp
  have hk := Shape.junkKsk_shaped (Shape.of_polyAt h hp0)
  exact ⟨P, p, Shape.junkKsk P p0, h, hp, c104_poly h hs, c104_ciphertext h (n := 3) ⟨rfl, rfl, rfl, by simpa using hs⟩, c104_ksk h hk, c104_rgsw h (i := 0) (g := ⟨_, _⟩) ⟨hk, hk⟩⟩

end OnionPIR
