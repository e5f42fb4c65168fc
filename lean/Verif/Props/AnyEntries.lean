import Verif.Props.AnySize
import Verif.Props.RepairPir

/-! C105: rows of the database with entries that are not below the plaintext modulus. `Server::new` (evaluations.rs:73-93) reduces the entries of a
row modulo the ciphertext moduli only, never modulo `t`. -/

namespace OnionPIR

open Rg Poly Spec

variable {N t variance : Nat} {l : List Nat} {P : BfvParameters}

/-- C105, partial, the general form: the server reads the entries of the rows modulo the ciphertext modulus `Q`. If `b` are any integers
congruent to the entries modulo `Q` and at most `T` in absolute value, and the noise of the answer for `T` is below `Q / 4`, then the answer
decrypts to `b` modulo `t`. As in `c87_answer_partial`, the monomials are given in place of the result of `gen_x_pows`. -/
theorem c105_balanced_partial (h : IsParams N t l variance P) {sk : SecretKey} (hk : IsKey P sk) (pr pd : Profile) (hv1 : 1 ≤ variance)
    (hv2 : variance ≤ 16) (hl : l.length ≠ 1) (hN : N ≤ 2 ^ 31) {S : ℤ} (hS : Bdd S (keyRing N sk))
    -- evaluation keys
    {aTape : Nat → Nat → Nat → Nat → Nat} (ha : ∀ k j, TapeAt l 0 (aTape k j))
    {rng : Nat → Nat → Nat → Nat} (hr : ∀ k j i, rng k j i < 2 ^ 64) {a0 a1 : Nat → Nat → Nat → Nat} (ha0 : ∀ j, TapeAt l 0 (a0 j))
    (ha1 : ∀ j, TapeAt l 0 (a1 j)) {r0 r1 : Nat → Nat → Nat} (hr0 : ∀ j i, r0 j i < 2 ^ 64) (hr1 : ∀ j i, r1 j i < 2 ^ 64)
    {ev : Evaluation} {pr1 : Profile} (hev : Evaluation.build pr1 sk P aTape rng a0 a1 r0 r1 = .ok ev)
    {xPows : List Poly} (hx : IsMonomials N P xPows)
    -- database
    {fd dim : Nat} {db : List Plaintext} (hdb : ∀ p ∈ db, p.values.length ≤ N) (hv : ∀ p ∈ db, ∀ a ∈ p.values, a < 2 ^ 64)
    {b : Nat → Nat → ℤ} {T : ℤ} (hb : ∀ k j, k < db.length → j < N → b k j ≡ ((((db.map (·.values)).getD k []).getD j 0 : Nat) : ℤ) [ZMOD levelQ l 0])
    (hbT : ∀ k j, |b k j| ≤ T) (hb0 : ∀ k j, db.length ≤ k → b k j = 0) {srv : Server} {pr2 : Profile} (hsrv : Server.new pr2 fd dim db P = .ok srv)
    -- query
    {i0 : Nat} {is : List Nat} (hd : 0 < dim) (hfit : fd + dim * is.length ≤ N) (hpow : dim ^ is.length < 2 ^ 64) {v : List Nat} {pr3 : Profile}
    (hv' : (Client.mk fd dim).encode pr3 (i0 :: is) db.length = .ok v) {q0 : BfvCipherText} {qs : List BfvCipherText}
    (hq : IsQuery N P l sk fd v q0 qs) (hdim : srv.dimensions pr = .ok (is.length + 1))
    -- noise
    (h2t : 2 * t ≤ l.getD 0 0)
    (hnoise : 4 * answerNoise N t l fd dim is.length (2 * t * variance + 2 * t) (2 * variance) T S (switchNoise N l 0 * (2 * variance))
      (2 * variance) (2 * variance) ≤ levelQ l 0) :
    i0 + fd * address dim is < db.length ∧
    ∃ cts, srv.decodeWith pr xPows (q0 :: qs) ev P = .ok cts ∧ cts.length = (if db.length = fd * dim ^ is.length then 1 else 2) ∧
      ∀ j ct, cts[j]? = some ct → ∃ pt, sk.decrypt pd ct = .ok pt ∧
        pt.values = (List.range N).map fun k => (b (i0 + fd * address dim is + fd * dim ^ is.length * j) k % (t : ℤ)).toNat :=
  Server.answer_any h hk pr pd hv1 hv2 hl hN hS ha hr ha0 ha1 hr0 hr1 hev hx hdb hv hb hbT hb0 hsrv hd hfit hpow hv' hq hdim h2t hnoise

/-- The statement of `c105_answer_partial` for a given count of dimensions. -/
theorem Server.answer_entries (h : IsParams N t l variance P) {sk : SecretKey} (hk : IsKey P sk) (pr pd : Profile) (hv1 : 1 ≤ variance)
    (hv2 : variance ≤ 16) (hl : l.length ≠ 1) (hN : N ≤ 2 ^ 31) {S : ℤ} (hS : Bdd S (keyRing N sk))
    -- evaluation keys
    {aTape : Nat → Nat → Nat → Nat → Nat} (ha : ∀ k j, TapeAt l 0 (aTape k j))
    {rng : Nat → Nat → Nat → Nat} (hr : ∀ k j i, rng k j i < 2 ^ 64) {a0 a1 : Nat → Nat → Nat → Nat} (ha0 : ∀ j, TapeAt l 0 (a0 j))
    (ha1 : ∀ j, TapeAt l 0 (a1 j)) {r0 r1 : Nat → Nat → Nat} (hr0 : ∀ j i, r0 j i < 2 ^ 64) (hr1 : ∀ j i, r1 j i < 2 ^ 64)
    {ev : Evaluation} {pr1 : Profile} (hev : Evaluation.build pr1 sk P aTape rng a0 a1 r0 r1 = .ok ev)
    {xPows : List Poly} (hx : IsMonomials N P xPows)
    -- database
    {fd dim : Nat} {db : List Plaintext} (hdb : ∀ p ∈ db, p.values.length ≤ N) {T : Nat} (hT : T < 2 ^ 64)
    (hv : ∀ p ∈ db, ∀ a ∈ p.values, a ≤ T) {srv : Server}
    {pr2 : Profile} (hsrv : Server.new pr2 fd dim db P = .ok srv)
    -- query
    {i0 : Nat} {is : List Nat} (hd : 0 < dim) (hfit : fd + dim * is.length ≤ N) (hpow : dim ^ is.length < 2 ^ 64) {v : List Nat} {pr3 : Profile}
    (hv' : (Client.mk fd dim).encode pr3 (i0 :: is) db.length = .ok v) {q0 : BfvCipherText} {qs : List BfvCipherText}
    (hq : IsQuery N P l sk fd v q0 qs) {dims : Res Nat} (hdim : dims = .ok (is.length + 1))
    -- noise
    (h2t : 2 * t ≤ l.getD 0 0)
    (hnoise : 4 * answerNoise N t l fd dim is.length (2 * t * variance + 2 * t) (2 * variance) T S (switchNoise N l 0 * (2 * variance))
      (2 * variance) (2 * variance) ≤ levelQ l 0) :
    i0 + fd * address dim is < db.length ∧
    ∃ cts, Server.decodeBy pr dims (ev.unpackWith pr xPows) srv (q0 :: qs) ev P = .ok cts ∧ cts.length = (if db.length = fd * dim ^ is.length then 1 else 2) ∧
      ∀ j ct, cts[j]? = some ct → ∃ pt, sk.decrypt pd ct = .ok pt ∧
        pt.values = (List.range N).map fun k => ((db.map (·.values)).getD (i0 + fd * address dim is + fd * dim ^ is.length * j) []).getD k 0 % t := by
  have hmem : ∀ k j, ((db.map (·.values)).getD k []).getD j 0 ≤ T := by
    intro k j
    by_cases hlt : k < db.length
    · have e : (db.map (·.values)).getD k [] = db[k].values := by simp [hlt]
      rw [e]
      by_cases hj : j < db[k].values.length
      · rw [List.getD_eq_getElem _ _ hj]
        exact hv _ (List.getElem_mem hlt) _ (List.getElem_mem hj)
      · rw [List.getD_eq_default _ _ (by omega)]; exact Nat.zero_le _
    · rw [List.getD_eq_default (l := db.map _) _ (by rw [List.length_map]; omega)]
      simp
  obtain ⟨x1, cts, x2, x3, x4⟩ := Server.answer_any h hk pr pd hv1 hv2 hl hN hS ha hr ha0 ha1 hr0 hr1 hev hx hdb
    (fun p hp a ha => (hv p hp a ha).trans_lt hT) (b := fun k j => ((((db.map (·.values)).getD k []).getD j 0 : Nat) : ℤ)) (T := T)
    (fun _ _ _ _ => Int.ModEq.refl _)
    (fun k j => by
      rw [abs_of_nonneg (by positivity)]
      have := hmem k j
      omega)
    (fun k j hk => by
      rw [List.getD_eq_default (l := db.map _) _ (by rw [List.length_map]; exact hk)]
      simp) hsrv hd hfit hpow hv' hq hdim h2t hnoise
  refine ⟨x1, cts, x2, x3, fun j ct hj => ?_⟩
  obtain ⟨pt, p1, p2⟩ := x4 j ct hj
  refine ⟨pt, p1, ?_⟩
  rw [p2]
  refine List.map_congr_left fun k _ => ?_
  rw [← Int.natCast_mod, Int.toNat_natCast]

/-- C105, partial: rows with entries up to `T`, above the plaintext modulus or not. If the noise of the answer for `T` is below `Q / 4`, the
answer decrypts to the row modulo `t`. -/
theorem c105_answer_partial (h : IsParams N t l variance P) {sk : SecretKey} (hk : IsKey P sk) (pr pd : Profile) (hv1 : 1 ≤ variance)
    (hv2 : variance ≤ 16) (hl : l.length ≠ 1) (hN : N ≤ 2 ^ 31) {S : ℤ} (hS : Bdd S (keyRing N sk))
    -- evaluation keys
    {aTape : Nat → Nat → Nat → Nat → Nat} (ha : ∀ k j, TapeAt l 0 (aTape k j))
    {rng : Nat → Nat → Nat → Nat} (hr : ∀ k j i, rng k j i < 2 ^ 64) {a0 a1 : Nat → Nat → Nat → Nat} (ha0 : ∀ j, TapeAt l 0 (a0 j))
    (ha1 : ∀ j, TapeAt l 0 (a1 j)) {r0 r1 : Nat → Nat → Nat} (hr0 : ∀ j i, r0 j i < 2 ^ 64) (hr1 : ∀ j i, r1 j i < 2 ^ 64)
    {ev : Evaluation} {pr1 : Profile} (hev : Evaluation.build pr1 sk P aTape rng a0 a1 r0 r1 = .ok ev)
    {xPows : List Poly} (hx : IsMonomials N P xPows)
    -- database
    {fd dim : Nat} {db : List Plaintext} (hdb : ∀ p ∈ db, p.values.length ≤ N) {T : Nat} (hT : T < 2 ^ 64)
    (hv : ∀ p ∈ db, ∀ a ∈ p.values, a ≤ T) {srv : Server}
    {pr2 : Profile} (hsrv : Server.new pr2 fd dim db P = .ok srv)
    -- query
    {i0 : Nat} {is : List Nat} (hd : 0 < dim) (hfit : fd + dim * is.length ≤ N) (hpow : dim ^ is.length < 2 ^ 64) {v : List Nat} {pr3 : Profile}
    (hv' : (Client.mk fd dim).encode pr3 (i0 :: is) db.length = .ok v) {q0 : BfvCipherText} {qs : List BfvCipherText}
    (hq : IsQuery N P l sk fd v q0 qs) (hdim : srv.dimensions pr = .ok (is.length + 1))
    -- noise
    (h2t : 2 * t ≤ l.getD 0 0)
    (hnoise : 4 * answerNoise N t l fd dim is.length (2 * t * variance + 2 * t) (2 * variance) T S (switchNoise N l 0 * (2 * variance))
      (2 * variance) (2 * variance) ≤ levelQ l 0) :
    i0 + fd * address dim is < db.length ∧
    ∃ cts, srv.decodeWith pr xPows (q0 :: qs) ev P = .ok cts ∧ cts.length = (if db.length = fd * dim ^ is.length then 1 else 2) ∧
      ∀ j ct, cts[j]? = some ct → ∃ pt, sk.decrypt pd ct = .ok pt ∧
        pt.values = (List.range N).map fun k => ((db.map (·.values)).getD (i0 + fd * address dim is + fd * dim ^ is.length * j) []).getD k 0 % t :=
  Server.answer_entries h hk pr pd hv1 hv2 hl hN hS ha hr ha0 ha1 hr0 hr1 hev hx hdb hT hv hsrv hd hfit hpow hv' hq hdim h2t hnoise

/-- C105: with the corrected `decode` of C80 and a database of exactly `first_dim · dim^k` rows nothing is assumed about the monomials and the
count of dimensions. -/
theorem c105_answer (h : IsParams N t l variance P) {sk : SecretKey} (hk : IsKey P sk) (pr pd : Profile) (hv1 : 1 ≤ variance)
    (hv2 : variance ≤ 16) (hl : l.length ≠ 1) (hN : N ≤ 2 ^ 31) {S : ℤ} (hS : Bdd S (keyRing N sk))
    -- evaluation keys
    {aTape : Nat → Nat → Nat → Nat → Nat} (ha : ∀ k j, TapeAt l 0 (aTape k j))
    {rng : Nat → Nat → Nat → Nat} (hr : ∀ k j i, rng k j i < 2 ^ 64) {a0 a1 : Nat → Nat → Nat → Nat} (ha0 : ∀ j, TapeAt l 0 (a0 j))
    (ha1 : ∀ j, TapeAt l 0 (a1 j)) {r0 r1 : Nat → Nat → Nat} (hr0 : ∀ j i, r0 j i < 2 ^ 64) (hr1 : ∀ j i, r1 j i < 2 ^ 64)
    {ev : Evaluation} {pr1 : Profile} (hev : Evaluation.build pr1 sk P aTape rng a0 a1 r0 r1 = .ok ev)
    -- database
    {fd dim : Nat} {db : List Plaintext} (hdb : ∀ p ∈ db, p.values.length ≤ N) {T : Nat} (hT : T < 2 ^ 64)
    (hv : ∀ p ∈ db, ∀ a ∈ p.values, a ≤ T) {srv : Server}
    {pr2 : Profile} (hsrv : Server.new pr2 fd dim db P = .ok srv)
    -- query
    {i0 : Nat} {is : List Nat} (hd : 2 ≤ dim) (hrows : db.length = fd * dim ^ is.length) (hfit : fd + dim * is.length ≤ N) (hmem : db.length < 2 ^ 64) {v : List Nat} {pr3 : Profile}
    (hv' : (Client.mk fd dim).encode pr3 (i0 :: is) db.length = .ok v) {q0 : BfvCipherText} {qs : List BfvCipherText}
    (hq : IsQuery N P l sk fd v q0 qs)
    -- noise
    (h2t : 2 * t ≤ l.getD 0 0)
    (hnoise : 4 * answerNoise N t l fd dim is.length (2 * t * variance + 2 * t) (2 * variance) T S (switchNoise N l 0 * (2 * variance))
      (2 * variance) (2 * variance) ≤ levelQ l 0) :
    ∃ ct pt row, db[i0 + fd * address dim is]? = some row ∧ Repair.decode pr srv (q0 :: qs) ev P = .ok [ct] ∧
      sk.decrypt pd ct = .ok pt ∧ pt.values = (List.range N).map fun k => row.values.getD k 0 % t := by
  have hfd : 0 < fd := by
    rcases Nat.eq_zero_or_pos fd with rfl | hf
    · unfold Client.encode at hv'
      obtain ⟨a, e1, hv'⟩ := bind_eq_ok.mp hv'
      obtain ⟨u, e2, -⟩ := bind_eq_ok.mp hv'
      obtain rfl := Except.ok.inj e1
      rw [rassert_fail (by simp)] at e2
      cases e2
    · exact hf
  have hpow : dim ^ is.length < 2 ^ 64 := by
    refine lt_of_le_of_lt ?_ hmem
    rw [hrows]
    exact Nat.le_mul_of_pos_left _ hfd
  obtain ⟨srv', s1, s2, s3, s4, -⟩ := c43_new h pr2 fd dim hdb (fun p hp x hx => (hv p hp x hx).trans_lt hT)
  obtain rfl := Except.ok.inj (hsrv.symm.trans s1)
  have hlen : is.length < 2 ^ 32 := by
    have : is.length ≤ dim * is.length := Nat.le_mul_of_pos_left _ (by omega)
    omega
  obtain ⟨h0, his, -, -⟩ := (c42_accepts_partial pr3 (Client.mk fd dim) hpow hlen db.length).mp ⟨v, hv'⟩
  dsimp only at h0 his
  obtain ⟨v', v1, v2, v3, v4⟩ := c42_encode pr3 (Client.mk fd dim) h0 his hpow hlen hrows
  obtain rfl := Except.ok.inj (hv'.symm.trans v1)
  have hvb := Client.bits (by dsimp only; omega) v2 v3 v4
  obtain ⟨xs, hx, hu⟩ := Repair.unpack_eq h pr
  have hdim := c80_dimensions pr srv (by rw [s2]; exact hfd) (by rw [s3]; exact hd) (k := is.length) (by rw [s2, s3, s4, hrows]) (by rw [s4]; exact hmem)
  have hlev := hq.level h hk hv1 hv2 (by dsimp only at v2; omega) hvb
  unfold Repair.decode
  rw [Repair.decodeBy_congr pr _ srv (fun ct hct => hu ev ct (hlev ct hct).1 (hlev ct hct).2) ev P]
  obtain ⟨x1, cts, x2, x3, x4⟩ := Server.answer_entries h hk pr pd hv1 hv2 hl hN hS ha hr ha0 ha1 hr0 hr1 hev hx hdb hT hv hsrv (by omega) hfit hpow
    hv' hq hdim h2t hnoise
  rw [if_pos hrows] at x3
  match cts, x3, x2, x4 with
  | [ct], _, x2, x4 =>
    obtain ⟨pt, p1, p2⟩ := x4 0 ct rfl
    refine ⟨ct, pt, db[i0 + fd * address dim is], List.getElem?_eq_getElem x1, x2, p1, ?_⟩
    rw [p2]
    refine List.map_congr_left fun k _ => ?_
    rw [Nat.mul_zero, Nat.add_zero, List.getD_eq_getElem (l := db.map _) _ (by rw [List.length_map]; exact x1), List.getElem_map]

/-- C105: the server keeps of a database exactly its entries modulo the ciphertext modulus: two databases of the same size give the same
stored polynomials just if their entries are congruent modulo `Q`. -/
theorem c105_stored (h : IsParams N t l variance P) (pr : Profile) (fd dim : Nat) {db db' : List Plaintext} (hlen : db.length = db'.length)
    (hdb : ∀ p ∈ db, p.values.length ≤ N) (hdb' : ∀ p ∈ db', p.values.length ≤ N) (hv : ∀ p ∈ db, ∀ a ∈ p.values, a < 2 ^ 64)
    (hv' : ∀ p ∈ db', ∀ a ∈ p.values, a < 2 ^ 64) :
    ∃ srv srv', Server.new pr fd dim db P = .ok srv ∧ Server.new pr fd dim db' P = .ok srv' ∧
      (srv.dbScaled = srv'.dbScaled ↔ ∀ (k : Nat) (row row' : Plaintext), db[k]? = some row → db'[k]? = some row' →
        ∀ j, row.values.getD j 0 ≡ row'.values.getD j 0 [MOD levelQ l 0]) := by
  obtain ⟨K, -, hNK, -⟩ := BfvP.params h
  subst hNK
  have hpos : 0 < 2 ^ K := by positivity
  obtain ⟨ext, L, hw, hL, -, hml, -⟩ := Evaluation.level_zero h
  obtain ⟨srv, s1, -, -, -, s5, s6⟩ := c43_new h pr fd dim hdb hv
  obtain ⟨srv', t1, -, -, -, t5, t6⟩ := c43_new h pr fd dim hdb' hv'
  refine ⟨srv, srv', s1, t1, ?_⟩
  have key : ∀ (k : Nat) (row row' : Plaintext), db[k]? = some row → db'[k]? = some row' →
      (srv.dbScaled[k]? = srv'.dbScaled[k]? ↔ ∀ j, row.values.getD j 0 ≡ row'.values.getD j 0 [MOD levelQ l 0]) := by
    intro k row row' h1 h2
    obtain ⟨p, p1, p2⟩ := s6 k row h1
    obtain ⟨q, q1, q2⟩ := t6 k row' h2
    rw [BfvP.polyAt_iff hL] at p2 q2
    rw [p1, q1, Option.some_inj, p2, q2, enc_eq_iff hL.wf.ctx, dvd_iff hpos, BfvP.levelQ_eq hL, hml]
    constructor
    · intro hd j
      by_cases hj : j < 2 ^ K
      · have := hd j hj
        rw [cf_sub hpos, BfvP.cf_msgRing _ hj, BfvP.cf_msgRing _ hj] at this
        exact ((Int.natCast_modEq_iff.mp (Int.modEq_iff_dvd.mpr this))).symm
      · rw [List.getD_eq_default _ _ (by have := hdb row (List.mem_of_getElem? h1); omega),
          List.getD_eq_default _ _ (by have := hdb' row' (List.mem_of_getElem? h2); omega)]
    · intro hm j hj
      rw [cf_sub hpos, BfvP.cf_msgRing _ hj, BfvP.cf_msgRing _ hj]
      exact Int.modEq_iff_dvd.mp (Int.natCast_modEq_iff.mpr (hm j).symm)
  constructor
  · intro he k row row' h1 h2
    exact (key k row row' h1 h2).mp (by rw [he])
  · intro hm
    refine List.ext_getElem? fun k => ?_
    by_cases hk : k < db.length
    · exact (key k _ _ (List.getElem?_eq_getElem hk) (List.getElem?_eq_getElem (hlen ▸ hk))).mpr
        (hm k _ _ (List.getElem?_eq_getElem hk) (List.getElem?_eq_getElem (hlen ▸ hk)))
    · rw [List.getElem?_eq_none (by omega), List.getElem?_eq_none (by omega)]

/-- C105: reading an entry modulo `Q` is not reading it modulo `t`. Here `Q - 1 < 2^64` is 13 modulo 17, but as the factor of an encryption it
counts as `-1`, and the product with an encryption of 3 decrypts to `-3`, which is 14, not to `3 · 13 = 5`. -/
theorem c105_not_mod_t : ∃ P sk ct z pt, ∃ f0 f1 : Rg 8, ∃ p, IsParams 8 17 Ex.mods 10 P ∧ IsKey P sk ∧ IsCt P 0 [f0, f1] ct ∧
    Encodes 17 (levelQ Ex.mods 0) (msgRing 8 [3]) (phase (keyRing 8 sk) [f0, f1]) (2 * (17 : Nat) * (10 : Nat) + 2 * (17 : Nat)) ∧
    Server.scaledRow .debug P ⟨P, 0, .poly, [1153470225841614832]⟩ = .ok p ∧ 1153470225841614832 % 17 = 13 ∧
    ct.mulPoly .debug p = .ok z ∧ sk.decrypt .debug z = .ok pt ∧ pt.values = [14, 0, 0, 0, 0, 0, 0, 0] ∧ 3 * 13 % 17 = 5 := by
  obtain ⟨P, h⟩ := Ex.exists_params
  obtain ⟨sk, -, hk, hb⟩ := c30_generate h .release (by norm_num) (by norm_num) Ex.wordTape
  obtain ⟨ct, f0, f1, -, h1, h2⟩ := c30_encrypt h hk .release (by norm_num) (by norm_num) (pt := ⟨P, 0, .poly, [3]⟩)
    rfl rfl (by norm_num) (by simp) (Ex.tape0 Ex.mods_gt) Ex.wordTape
  obtain ⟨srv, s1, -, -, -, -, s6⟩ := c43_new h .debug 1 1 (db := [⟨P, 0, .poly, [1153470225841614832]⟩]) (by simp) (by simp)
  obtain ⟨p, p1, p2⟩ := s6 0 ⟨P, 0, .poly, [1153470225841614832]⟩ rfl
  have hp : Server.scaledRow .debug P ⟨P, 0, .poly, [1153470225841614832]⟩ = .ok p := by
    unfold Server.new at s1
    obtain ⟨ps, e1, e2⟩ := bind_eq_ok.mp s1
    obtain ⟨x, e3, e4⟩ := bind_eq_ok.mp e1
    obtain rfl := Except.ok.inj e2
    obtain rfl := Except.ok.inj e4
    obtain rfl := Option.some.inj p1
    exact e3
  have hneg : PolyAt P 0 ((-1 : ℤ) : Rg 8) p := by
    obtain ⟨ext, L, hw, hL, -, hml, -⟩ := Evaluation.level_zero (K := 3) h
    have p2' := (BfvP.polyAt_iff (K := 3) hL _ _).mp p2
    refine (BfvP.polyAt_iff (K := 3) hL _ _).mpr ?_
    rw [p2', enc_eq_iff hL.wf.ctx, dvd_iff (by norm_num), BfvP.levelQ_eq hL, hml, Ex.levelQ_mods0]
    intro j hj
    rw [cf_sub (by norm_num), show cf (msgRing 8 [1153470225841614832]) j = _ from cf_ofCoeffs (by norm_num) _ hj, cf_int (by norm_num)]
    rcases Nat.eq_zero_or_pos j with rfl | hj0
    · norm_num
    · rw [if_neg (by omega), List.getD_eq_default _ _ hj0]; simp
  obtain ⟨z, z1, z2, -, z3⟩ := c34_mul_poly h .debug h1 hneg (keyRing 8 sk)
  have hB : Bdd 1 ((-1 : ℤ) : Rg 8) := by
    intro j hj
    rw [cf_int (by norm_num)]
    split_ifs <;> norm_num
  obtain ⟨pt, d1, -, -, d2⟩ := c30_decrypt h hk .debug (by simp) z2 (by decide) (z3 _ _ 1 h2 hB) (by rw [Ex.levelQ_mods0]; norm_num)
  refine ⟨P, sk, ct, z, pt, f0, f1, p, h, hk, h1, h2, hp, by norm_num, z1, d1, ?_, by norm_num⟩
  rw [d2]
  unfold residues
  have e : ∀ k, k < 8 → cf (msgRing 8 [3] * ((-1 : ℤ) : Rg 8)) k = -([3].getD k 0 : ℕ) := by
    intro k hk
    rw [mul_comm, cf_int_mul (by norm_num), show cf (msgRing 8 [3]) k = _ from cf_ofCoeffs (by norm_num) _ hk]; ring
  rw [show List.range 8 = [0, 1, 2, 3, 4, 5, 6, 7] from rfl]
  simp only [List.map_cons, List.map_nil]
  rw [e 0 (by norm_num), e 1 (by norm_num), e 2 (by norm_num), e 3 (by norm_num), e 4 (by norm_num), e 5 (by norm_num), e 6 (by norm_num),
    e 7 (by norm_num)]
  rfl

/-- Four rows, one with an entry of 41 bits: the answer for it decrypts to the row modulo 17. -/
example : ∃ P sk ev xs srv v q0 qs ct pt, IsParams 8 17 Ex.mods4 10 P ∧ IsKey P sk ∧
    Server.new .release 2 2 ([⟨P, 0, .poly, [1, 2]⟩, ⟨P, 0, .poly, [3]⟩, ⟨P, 0, .poly, [1099511627781, 17]⟩, ⟨P, 0, .poly, [9, 16]⟩]) P = .ok srv ∧
    (Client.mk 2 2).encode .release [0, 1] 4 = .ok v ∧ IsQuery 8 P Ex.mods4 sk 2 v q0 qs ∧
    srv.decodeWith .debug xs (q0 :: qs) ev P = .ok [ct] ∧ sk.decrypt .debug ct = .ok pt ∧ pt.values = [6, 0, 0, 0, 0, 0, 0, 0] := by
  obtain ⟨P, h⟩ := Ex.exists_params4
  obtain ⟨sk, -, hk, hb⟩ := c30_generate h .release (by norm_num) (by norm_num) Ex.wordTape
  have ht : TapeAt Ex.mods4 0 fun _ _ => 0 := Ex.tape0 Ex.mods4_gt
  obtain ⟨ev, h1, h2⟩ := c41_build h hk .release (by norm_num) (by norm_num) (by decide) (by norm_num) (aTape := fun _ _ _ _ => 0)
    (fun _ _ => ht) (rng := fun _ _ i => i % 1000) (fun _ _ => Ex.wordTape) (a0 := fun _ _ _ => 0)
    (fun _ => ht) (a1 := fun _ _ _ => 0) (fun _ => ht) (r0 := fun _ i => i % 1000) (fun _ => Ex.wordTape)
    (r1 := fun _ i => i % 1000) (fun _ => Ex.wordTape)
  obtain ⟨xs, hx⟩ := Ex.monomials h (by decide)
  obtain ⟨db, hdb⟩ : ∃ db : List Plaintext, db = [⟨P, 0, .poly, [1, 2]⟩, ⟨P, 0, .poly, [3]⟩, ⟨P, 0, .poly, [1099511627781, 17]⟩,
    ⟨P, 0, .poly, [9, 16]⟩] := ⟨_, rfl⟩
  have hl4 : db.length = 4 := by rw [hdb]; rfl
  have hlen : ∀ p ∈ db, p.values.length ≤ 8 := by rw [hdb]; simp
  have hval : ∀ p ∈ db, ∀ a ∈ p.values, a ≤ 2 ^ 40 + 5 := by rw [hdb]; simp
  obtain ⟨srv, s1, s2, s3, s4, -⟩ := c43_new h .release 2 2 (db := db) hlen (fun p hp a ha => (hval p hp a ha).trans_lt (by norm_num))
  have hv : (Client.mk 2 2).encode .release [0, 1] 4 = .ok [1, 0, 0, 1] := by decide +kernel
  obtain ⟨q0, qs, hq⟩ := c44_query h hk (by norm_num) (by norm_num) (v := [1, 0, 0, 1]) (by norm_num) (by simp) 2
  have hdim : srv.dimensions .debug = .ok 2 :=
    c87_dimensions .debug srv (by rw [s2]; norm_num) (a := 1) (k := 1) (by norm_num) (by rw [s3]; rfl) (by rw [s2, s3, s4, hl4]; norm_num)
      (by rw [s2, s3, s4, hl4]; norm_num) (by rw [s4, hl4]; norm_num) (by norm_num)
  obtain ⟨-, cts, r2, r3, r4⟩ := c105_answer_partial h hk .debug .debug (by norm_num) (by norm_num) (by decide) (by norm_num) hb (fun _ _ => ht)
    (fun _ _ => Ex.wordTape) (fun _ => ht) (fun _ => ht) (fun _ => Ex.wordTape) (fun _ => Ex.wordTape) h1 hx hlen (T := 2 ^ 40 + 5) (by norm_num)
    hval s1 (i0 := 0) (is := [1])
    (by norm_num) (by norm_num) (by norm_num) (by rw [hl4]; exact hv) hq hdim (by decide) (by
      unfold answerNoise
      rw [show switchNoise 8 Ex.mods4 0 = 8 * (16777441 + 16777601 + 16777633 + 16777681) by decide +kernel,
        show levelQ Ex.mods4 0 = 16777441 * 16777601 * 16777633 * 16777681 by decide +kernel]
      norm_num)
  rw [hl4] at r3
  match cts, r3, r2, r4 with
  | [ct], _, r2, r4 =>
    obtain ⟨pt, p1, p2⟩ := r4 0 ct rfl
    refine ⟨P, sk, ev, xs, srv, _, q0, qs, ct, pt, h, hk, hdb ▸ s1, hv, hq, r2, p1, ?_⟩
    rw [p2, hdb]
    show [1099511627781 % 17, 17 % 17, 0 % 17, 0 % 17, 0 % 17, 0 % 17, 0 % 17, 0 % 17] = _
    norm_num

/-- Entries that differ by `Q` are stored alike. -/
example : ∃ P srv srv', IsParams 8 17 Ex.mods 10 P ∧ Server.new .debug 1 1 [⟨P, 0, .poly, [5]⟩] P = .ok srv ∧
    Server.new .debug 1 1 [⟨P, 0, .poly, [1153470225841614838]⟩] P = .ok srv' ∧ srv.dbScaled = srv'.dbScaled := by
  obtain ⟨P, h⟩ := Ex.exists_params
  obtain ⟨srv, srv', h1, h2, h3⟩ := c105_stored h .debug 1 1 (db := [⟨P, 0, .poly, [5]⟩]) (db' := [⟨P, 0, .poly, [1153470225841614838]⟩]) rfl
    (by simp) (by simp) (by simp) (by simp)
  refine ⟨P, srv, srv', h, h1, h2, h3.mpr fun k row row' e1 e2 j => ?_⟩
  match k, e1, e2 with
  | 0, e1, e2 =>
    obtain rfl := Option.some.inj e1
    obtain rfl := Option.some.inj e2
    match j with
    | 0 => rw [Ex.levelQ_mods0]; show 5 % _ = 1153470225841614838 % _; norm_num
    | j + 1 => rfl
  | k + 1, e1, _ => simp at e1

/-- The same database, query and answer with the corrected server. -/
example : ∃ P sk ev srv v q0 qs ct pt, IsParams 8 17 Ex.mods4 10 P ∧ IsKey P sk ∧
    Server.new .release 2 2 ([⟨P, 0, .poly, [1, 2]⟩, ⟨P, 0, .poly, [3]⟩, ⟨P, 0, .poly, [1099511627781, 17]⟩, ⟨P, 0, .poly, [9, 16]⟩]) P = .ok srv ∧
    (Client.mk 2 2).encode .release [0, 1] 4 = .ok v ∧ IsQuery 8 P Ex.mods4 sk 2 v q0 qs ∧
    Repair.decode .debug srv (q0 :: qs) ev P = .ok [ct] ∧ sk.decrypt .debug ct = .ok pt ∧ pt.values = [6, 0, 0, 0, 0, 0, 0, 0] := by
  obtain ⟨P, h⟩ := Ex.exists_params4
  obtain ⟨sk, -, hk, hb⟩ := c30_generate h .release (by norm_num) (by norm_num) Ex.wordTape
  have ht : TapeAt Ex.mods4 0 fun _ _ => 0 := Ex.tape0 Ex.mods4_gt
  obtain ⟨ev, h1, h2⟩ := c41_build h hk .release (by norm_num) (by norm_num) (by decide) (by norm_num) (aTape := fun _ _ _ _ => 0)
    (fun _ _ => ht) (rng := fun _ _ i => i % 1000) (fun _ _ => Ex.wordTape) (a0 := fun _ _ _ => 0)
    (fun _ => ht) (a1 := fun _ _ _ => 0) (fun _ => ht) (r0 := fun _ i => i % 1000) (fun _ => Ex.wordTape)
    (r1 := fun _ i => i % 1000) (fun _ => Ex.wordTape)
  obtain ⟨db, hdb⟩ : ∃ db : List Plaintext, db = [⟨P, 0, .poly, [1, 2]⟩, ⟨P, 0, .poly, [3]⟩, ⟨P, 0, .poly, [1099511627781, 17]⟩,
    ⟨P, 0, .poly, [9, 16]⟩] := ⟨_, rfl⟩
  have hl4 : db.length = 4 := by rw [hdb]; rfl
  have hlen : ∀ p ∈ db, p.values.length ≤ 8 := by rw [hdb]; simp
  have hval : ∀ p ∈ db, ∀ a ∈ p.values, a ≤ 2 ^ 40 + 5 := by rw [hdb]; simp
  obtain ⟨srv, s1, -⟩ := c43_new h .release 2 2 (db := db) hlen (fun p hp a ha => (hval p hp a ha).trans_lt (by norm_num))
  have hv : (Client.mk 2 2).encode .release [0, 1] 4 = .ok [1, 0, 0, 1] := by decide +kernel
  obtain ⟨q0, qs, hq⟩ := c44_query h hk (by norm_num) (by norm_num) (v := [1, 0, 0, 1]) (by norm_num) (by simp) 2
  obtain ⟨ct, pt, row, r1, r2, r3, r4⟩ := c105_answer h hk .debug .debug (by norm_num) (by norm_num) (by decide) (by norm_num) hb (fun _ _ => ht)
    (fun _ _ => Ex.wordTape) (fun _ => ht) (fun _ => ht) (fun _ => Ex.wordTape) (fun _ => Ex.wordTape) h1 hlen (T := 2 ^ 40 + 5) (by norm_num)
    hval s1 (i0 := 0) (is := [1]) (by norm_num) (by rw [hl4]; rfl) (by norm_num) (by rw [hl4]; norm_num) (by rw [hl4]; exact hv) hq (by decide) (by
      unfold answerNoise
      rw [show switchNoise 8 Ex.mods4 0 = 8 * (16777441 + 16777601 + 16777633 + 16777681) by decide +kernel,
        show levelQ Ex.mods4 0 = 16777441 * 16777601 * 16777633 * 16777681 by decide +kernel]
      norm_num)
  refine ⟨P, sk, ev, srv, _, q0, qs, ct, pt, h, hk, hdb ▸ s1, hv, hq, r2, r3, ?_⟩
  rw [hdb] at r1
  obtain rfl : ⟨P, 0, .poly, [1099511627781, 17]⟩ = row := Option.some.inj r1
  rw [r4]
  show [1099511627781 % 17, 17 % 17, 0 % 17, 0 % 17, 0 % 17, 0 % 17, 0 % 17, 0 % 17] = _
  norm_num

end OnionPIR
