import Verif.Proofs.Stop
import Verif.Props.AnswerTail
import Verif.Props.Sizes
import Verif.Props.Cost
/-
Property C126: the expansion may stop after `e` stages if the message has no coefficient at position `2^e` or above; the answer of the server
then needs less work and has less noise.
-/
namespace OnionPIR
open Rg Poly Spec

variable {N t : Nat} {l : List Nat} {variance : Nat} {P : BfvParameters}

theorem Spec.Encodes.comb (hN : 0 < N) {Q : Nat} {m phi : Rg N} {V : ℤ} (h : Encodes t Q m phi V) (M j : Nat) :
    Encodes t Q (comb M j m) (comb M j phi) V := by
  obtain ⟨v, w, hv, e⟩ := h
  refine ⟨Spec.comb M j v, Spec.comb M j w, Stop.comb_bdd hN _ _ hv, ?_⟩
  have := congrArg (Spec.comb M j) e
  rwa [Stop.comb_add hN, Stop.comb_add hN, Stop.comb_int_mul hN, Stop.comb_int_mul hN, Stop.comb_int_mul hN, Stop.comb_int_mul hN] at this

/-- C126: the stopped expansion returns `2^e` ciphertexts, for every ciphertext and every `2^e ≤ N`. The phase of the `j`-th holds the coefficients
`j, j + 2^e, …` of the phase of the argument, up to `(2^e - 1)·B`; so it encodes the constant `m_j` if the message `m` ends below `2^e`, and
otherwise the coefficients `m_j, m_(j + 2^e), …`. -/
theorem c126_unpack (h : IsParams N t l variance P) (pr : Profile) {s : Rg N} {B B0 B1 : ℤ} {ev : Evaluation} (hev : IsEval P l s B B0 B1 ev)
    {e : Nat} (he : 2 ^ e ≤ N) {ct : BfvCipherText} {f0 f1 : Rg N} (hct : IsCt P 0 [f0, f1] ct) :
    ∃ bits, Repair.unpackTo pr e ev ct = .ok bits ∧ bits.length = 2 ^ e ∧
      ∀ j, j < 2 ^ e → ∃ c, ∃ g0 g1 E : Rg N, bits[j]? = some c ∧ IsCt P 0 [g0, g1] c ∧ Bdd ((2 ^ e - 1) * B) E ∧
        Cong (levelQ l 0) (phase s [g0, g1]) (comb (2 ^ e) j (phase s [f0, f1]) + E) ∧
        (∀ m V, Encodes t (levelQ l 0) m (phase s [f0, f1]) V →
          Encodes t (levelQ l 0) (comb (2 ^ e) j m) (phase s [g0, g1]) (V + t * ((2 ^ e - 1) * B))) ∧
        ∀ m V, Encodes t (levelQ l 0) m (phase s [f0, f1]) V → Below (2 ^ e) m →
          Encodes t (levelQ l 0) ((cf m j : ℤ) : Rg N) (phase s [g0, g1]) (V + t * ((2 ^ e - 1) * B)) := by
  obtain ⟨xs, hx, hu⟩ := Repair.unpackTo_eq h pr
  obtain ⟨K, -, hNK, -⟩ := BfvP.params h
  subst hNK
  have hpos : 0 < 2 ^ K := by positivity
  obtain ⟨bits, b1, b2, b3⟩ := Stop.unpackWithTo_ok h pr hev hx ((Nat.pow_le_pow_iff_right (by norm_num)).mp he) hct
  refine ⟨bits, by rw [hu e ev ct hct.1 hct.2.1, b1], b2, fun j hj => ?_⟩
  obtain ⟨c, g0, g1, E, e1, e2, e3, e4⟩ := b3 j hj
  exact ⟨c, g0, g1, E, e1, e2, e3, e4, fun m V hm => BfvP.Encodes.congr (BfvP.Encodes.addError hpos (hm.comb hpos _ _) e3) e4,
    fun m V hm hb => BfvP.Encodes.congr (BfvP.Encodes.addError hpos (Stop.encodes_comb hpos hm hb) e3) e4⟩

/-- C126: with all stages it is the corrected `unpack`. -/
theorem c126_full (h : IsParams N t l variance P) (pr : Profile) (ev : Evaluation) {e : Nat} (he : 2 ^ e = N) {ct : BfvCipherText} (hct : ct.params = P) :
    Repair.unpackTo pr e ev ct = Repair.unpack pr ev ct := by
  obtain ⟨K, ext, rfl, hw, -⟩ := BfvP.params h
  obtain rfl := Nat.pow_right_injective le_rfl he
  obtain ⟨_, L, -, hL, -⟩ := Evaluation.level_zero h
  have hK : e ≤ 62 := hL.wf.ctx.core.K_le
  unfold Repair.unpackTo Repair.unpack Repair.unpackWithTo Evaluation.unpackWith
  rw [hct, hw.deg, RnsScaler.ilog2_two_pow pr (by omega)]
  rfl

/-- C126: the stopped expansion transforms `2 n + (2^e - 1)(n² + 2 n)` rows: the formula of C125 with `2^e` for the degree. -/
theorem c126_work (h : IsParams N t l variance P) (hN : N ≤ 2 ^ 31) (pr : Profile) {ev : Evaluation} (hev : ShapedEval N P ev)
    {e : Nat} (he : 2 ^ e ≤ N) {ct : BfvCipherText} (hct : ShapedCt P 0 2 ct) :
    ∃ bits, (Repair.unpackToC pr e ev ct).val = .ok bits ∧
      (Repair.unpackToC pr e ev ct).work = workOf N (expandRows (2 ^ e) l.length) (expandWords (2 ^ e) l.length) := by
  obtain ⟨f0, f1, h1⟩ := Shape.isCt_two h hct
  obtain ⟨bits, b1, -⟩ := c126_unpack h pr (Shape.isEval h hN hev 0) he h1
  obtain ⟨K, c, rfl, hK, hK', hdeg, hq, hc, hd⟩ := Shape.first h
  have b1' : (Repair.unpackToC pr e ev ct).val = .ok bits := by rw [Repair.unpackToC_val]; exact b1
  refine ⟨bits, b1', ?_⟩
  obtain ⟨rfl, h2, h3, h4⟩ := id hct
  rw [(Repair.unpackToC_costs pr hd hK' (by rw [h2]; exact hq) hdeg (fun i hi g hg => ?_) ((Nat.pow_le_pow_iff_right (by norm_num)).mp he) h3
    (Shape.ctDim hc hq hct) _ b1').1]
  · unfold workOf expandRows expandWords Work.step
    rw [Shape.halves hK]
    work
  · obtain ⟨g', g1, g2⟩ := hev.1 i (Nat.pow_lt_pow_right (by norm_num) hi)
    obtain rfl := Option.some.inj (hg.symm.trans g1)
    exact Shape.kskDim hc hq g2.2.2

/-- C126: with expansions of `e` stages, `fd + dim k ≤ 2^e ≤ N`, the corrected server answers with the addressed row. The errors of the expansion
enter the noise with the factor `2^e - 1` in place of `N - 1`, and the work with `2^e` in place of the degree. -/
theorem c126_answer (h : IsParams N t l variance P) {sk : SecretKey} (hk : IsKey P sk) (pr pd : Profile) (hv1 : 1 ≤ variance)
    (hv2 : variance ≤ 16) (hl : l.length ≠ 1) (hN : N ≤ 2 ^ 31) {S : ℤ} (hS : Bdd S (keyRing N sk))
    -- evaluation keys
    {aTape : Nat → Nat → Nat → Nat → Nat} (ha : ∀ k j, TapeAt l 0 (aTape k j))
    {rng : Nat → Nat → Nat → Nat} (hr : ∀ k j i, rng k j i < 2 ^ 64) {a0 a1 : Nat → Nat → Nat → Nat} (ha0 : ∀ j, TapeAt l 0 (a0 j))
    (ha1 : ∀ j, TapeAt l 0 (a1 j)) {r0 r1 : Nat → Nat → Nat} (hr0 : ∀ j i, r0 j i < 2 ^ 64) (hr1 : ∀ j i, r1 j i < 2 ^ 64)
    {ev : Evaluation} {pr1 : Profile} (hev : Evaluation.build pr1 sk P aTape rng a0 a1 r0 r1 = .ok ev)
    -- database
    {fd dim : Nat} {db : List Plaintext} (hdb : ∀ p ∈ db, p.values.length ≤ N) (hv : ∀ p ∈ db, ∀ a ∈ p.values, a < t) {srv : Server}
    {pr2 : Profile} (hsrv : Server.new pr2 fd dim db P = .ok srv)
    -- query
    {i0 : Nat} {is : List Nat} (h0 : i0 < fd) (his : ∀ i ∈ is, i < dim) (hd : 2 ≤ dim) (hrows : db.length = fd * dim ^ is.length)
    {e : Nat} (hfit : fd + dim * is.length ≤ 2 ^ e) (he : 2 ^ e ≤ N) (hmem : db.length < 2 ^ 64) {v : List Nat} {pr3 : Profile}
    (hv' : (Client.mk fd dim).encode pr3 (i0 :: is) db.length = .ok v) {q0 : BfvCipherText} {qs : List BfvCipherText}
    {z : Nat} (hz : v.length + z ≤ N) (hq : IsQuery N P l sk fd (v ++ List.replicate z 0) q0 qs) (h2t : 2 * t ≤ l.getD 0 0)
    -- noise
    (hnoise : 4 * expandedNoise N t l fd dim is.length (2 * t * variance + 2 * t) (2 * variance) t S
      ((2 ^ e - 1) * (switchNoise N l 0 * (2 * variance))) (2 * variance) (2 * variance) ≤ levelQ l 0) :
    ∃ ct pt row, db[i0 + fd * address dim is]? = some row ∧ Repair.decodeTo pr e srv (q0 :: qs) ev P = .ok [ct] ∧
      sk.decrypt pd ct = .ok pt ∧ pt.values = (List.range N).map (fun k => row.values.getD k 0) ∧
      (Repair.decodeToC pr e srv (q0 :: qs) ev P).val = .ok [ct] ∧ (Repair.decodeToC pr e srv (q0 :: qs) ev P).work =
        workOf N (stoppedRows e l.length db.length fd dim is.length) (stoppedWords e l.length db.length fd dim is.length) := by
  have hfd : 0 < fd := by omega
  have hpow : dim ^ is.length < 2 ^ 64 := by
    refine lt_of_le_of_lt ?_ hmem
    rw [hrows]
    exact Nat.le_mul_of_pos_left _ hfd
  have ht64 : t < 2 ^ 64 := by
    obtain ⟨_, _, _, hw, rfl, -⟩ := BfvP.params h
    exact hw.t_lt.trans (by norm_num)
  have hv64 : ∀ p ∈ db, ∀ a ∈ p.values, a < 2 ^ 64 := fun p hp x hx => (hv p hp x hx).trans ht64
  obtain ⟨srv', s1, s2, s3, s4, s5, -⟩ := c43_new h pr2 fd dim hdb hv64
  obtain rfl := Except.ok.inj (hsrv.symm.trans s1)
  have hlen : is.length < 2 ^ 32 := by
    have : is.length ≤ dim * is.length := Nat.le_mul_of_pos_left _ (by omega)
    omega
  obtain ⟨v', v1, v2, v3, v4⟩ := c42_encode pr3 (Client.mk fd dim) h0 his hpow hlen hrows
  obtain rfl := Except.ok.inj (hv'.symm.trans v1)
  have hvb := Client.bits (by dsimp only; omega) v2 v3 v4
  have hvz : ∀ x ∈ v ++ List.replicate z 0, x < 2 ^ 64 := fun x hx => by
    rcases List.mem_append.mp hx with hx | hx
    · exact hvb x hx
    · rw [(List.mem_replicate.mp hx).2]; norm_num
  have hcts := hq.isCt h hk hv1 hv2 (by simp; omega) hvz
  have hdim := c80_dimensions pr srv (by rw [s2]; exact hfd) (by rw [s3]; exact hd) (k := is.length) (by rw [s2, s3, s4, hrows]) (by rw [s4]; exact hmem)
  obtain ⟨ev', b1, b2⟩ := c41_build h hk pr1 hv1 hv2 hl hN ha hr ha0 ha1 hr0 hr1
  obtain rfl := Except.ok.inj (hev.symm.trans b1)
  obtain ⟨ev', b3, hsh, -⟩ := c104_build h hk pr1 hv1 hv2 hl hN ha hr ha0 ha1 hr0 hr1
  obtain rfl := Except.ok.inj (hev.symm.trans b3)
  have hserves : ∀ ct ∈ q0 :: qs, Serves P l t (keyRing N sk) ((2 ^ e - 1) * (switchNoise N l 0 * (2 * variance))) (2 ^ e)
      (Repair.unpackTo pr e ev) ct := fun ct hct => by
    constructor
    · rintro M V ⟨f0, f1, c1, c2⟩ hM
      obtain ⟨bits, d1, d2, d3⟩ := c126_unpack h pr b2 he c1
      refine ⟨bits, d1, d2.ge, fun k hk => ?_⟩
      obtain ⟨c, g0, g1, E, e1, e2, -, -, -, e5⟩ := d3 k hk
      exact ⟨c, e1, g0, g1, e2, e5 M V c2 hM⟩
    · intro j M B f0 f1 c1 c2 hM
      obtain ⟨bits, d1, d2, d3⟩ := c126_unpack h pr b2 he c1
      refine ⟨bits, d1, d2.ge, fun k hk => ?_⟩
      obtain ⟨c, g0, g1, E, e1, e2, e3, e4, -⟩ := d3 k hk
      exact ⟨c, g0, g1, e1, e2, Stop.rlwe_comb (by omega) c2 hM e3 e4⟩
  obtain ⟨ct, pt, row, d1, d2, d3, d4⟩ := AnswerTail.answer h hk pr pd hv1 hv2 hN hS b2.rgsw hdb hv hsrv h0 his (by omega) hrows hpow hv' hz hq
    hdim hfit he hserves h2t hnoise
  have d2' : (Repair.decodeToC pr e srv (q0 :: qs) ev P).val = .ok [ct] := by rw [Repair.decodeToC_val]; exact d2
  refine ⟨ct, pt, row, d1, d2, d3, d4, d2', ?_⟩
  obtain ⟨K, c, hNK, hK, hK', hdeg, hqc, hc, hcd⟩ := Shape.first h
  have hrows' : ∀ p ∈ srv.dbScaled, p.Dim c .ntt := by
    have := (Server.newC_costs pr2 hcd hqc fd dim db srv (by rw [Server.newC_val]; exact s1)).2
    exact this.2.2.2
  have hshape : ∀ ct ∈ q0 :: qs, ShapedCt P 0 2 ct := fun ct hct => by
    obtain ⟨f0, f1, hc⟩ := hcts ct hct
    exact Shape.of_isCt h hc
  have hcosts := Server.decodeByC_costs pr hcd hqc hdim (unpack := Repair.unpackToC pr e ev) (s := srv) (q := q0 :: qs)
    (W := workOf N (expandRows (2 ^ e) l.length) (expandWords (2 ^ e) l.length)) (fun ct hct v hv => ?_) (ev := ev)
    ⟨Shape.kskDim hc hqc hsh.2.1, Shape.kskDim hc hqc hsh.2.2⟩ (by rw [s3]; omega)
    (by rw [s3]; omega) (by omega) hrows'
  · have hw : (Repair.decodeToC pr e srv (q0 :: qs) ev P).work = _ := (hcosts _ d2').1
    rw [hw, s2, s3, s5, hNK]
    unfold workOf stoppedRows stoppedWords answerProducts Work.external Server.externals blocks
    rw [Shape.halves hK]
    work
  · obtain ⟨-, -, w2⟩ := c126_work h hN pr hsh he (hshape ct hct)
    obtain ⟨rfl, h2, h3, h4⟩ := id (hshape ct hct)
    refine ⟨w2, ?_⟩
    refine (Repair.unpackToC_costs pr hcd hK' (by rw [h2]; exact hqc) hdeg (fun i hi g hg => ?_) (by
      rw [hNK] at he; exact (Nat.pow_le_pow_iff_right (by norm_num)).mp he) h3 (Shape.ctDim hc hqc (hshape ct hct)) v hv).2
    obtain ⟨g', g1, g2⟩ := hsh.1 i (by rw [hNK]; exact Nat.pow_lt_pow_right (by norm_num) hi)
    rw [hNK] at g1
    obtain rfl := Option.some.inj (hg.symm.trans g1)
    exact Shape.kskDim hc hqc g2.2.2

/-- C126: if the query leaves at least half of the coefficients unused, at least `N/2` of the `N - 1` steps of each of the `n + 1` expansions are saved. -/
theorem c126_saves (n len fd dim k : Nat) {e : Nat} (he : 2 * 2 ^ e ≤ N) :
    stoppedRows e n len fd dim k + (n + 1) * (N / 2 * (n ^ 2 + 2 * n)) ≤ answerRows N n len fd dim k ∧
    stoppedWords e n len fd dim k + (n + 1) * (N / 2 * (2 * n ^ 2 + 3 * n)) ≤ answerWords N n len fd dim k := by
  have hpos : 0 < 2 ^ e := by positivity
  have hle : 2 ^ e - 1 + N / 2 ≤ N - 1 := by omega
  have h1 := Nat.mul_le_mul_left (n + 1) (Nat.mul_le_mul_right (n ^ 2 + 2 * n) hle)
  have h2 := Nat.mul_le_mul_left (n + 1) (Nat.mul_le_mul_right (2 * n ^ 2 + 3 * n) hle)
  unfold stoppedRows stoppedWords answerRows answerWords expandRows expandWords
  constructor
  · nlinarith [h1]
  · nlinarith [h2]

/-! ### Non-vacuity -/

/-- The query for the coordinates `(0, 1)` in a database of `2 × 2` rows at degree 8: two stages of the three suffice, and the answer decrypts to
the row with 800 transforms of rows in place of 1280. -/
example : ∃ P sk ev srv v q0 qs ct pt, IsParams 8 17 Ex.mods4 10 P ∧ IsKey P sk ∧ Server.new .release 2 2 (Ex.rows4 P) P = .ok srv ∧
    (Client.mk 2 2).encode .release [0, 1] 4 = .ok v ∧ IsQuery 8 P Ex.mods4 sk 2 v q0 qs ∧
    Evaluation.build .debug sk P (fun _ _ _ _ => 0) (fun _ _ i => i % 1000) (fun _ _ _ => 0) (fun _ _ _ => 0)
      (fun _ i => i % 1000) (fun _ i => i % 1000) = .ok ev ∧
    Repair.decodeTo .release 2 srv (q0 :: qs) ev P = .ok [ct] ∧ sk.decrypt .debug ct = .ok pt ∧ pt.values = [5, 6, 7, 0, 0, 0, 0, 0] ∧
    (Repair.decodeToC .release 2 srv (q0 :: qs) ev P).work = workOf 8 (stoppedRows 2 4 4 2 2 1) (stoppedWords 2 4 4 2 2 1) ∧
    stoppedRows 2 4 4 2 2 1 = 800 ∧ answerRows 8 4 4 2 2 1 = 1280 := by
  obtain ⟨P, h⟩ := Ex.exists_params4
  obtain ⟨sk, -, hk, hb⟩ := c30_generate h .release (by norm_num) (by norm_num) Ex.wordTape
  have ht : TapeAt Ex.mods4 0 fun _ _ => 0 := Ex.tape0 Ex.mods4_gt
  have hlen : ∀ p ∈ Ex.rows4 P, p.values.length ≤ 8 := by simp [Ex.rows4]
  have hval : ∀ p ∈ Ex.rows4 P, ∀ a ∈ p.values, a < 17 := by simp [Ex.rows4]
  obtain ⟨srv, s1, -⟩ := c43_new h .release 2 2 (db := Ex.rows4 P) hlen (fun p hp a ha => (hval p hp a ha).trans (by norm_num))
  have hv : (Client.mk 2 2).encode .release [0, 1] 4 = .ok [1, 0, 0, 1] := by decide +kernel
  obtain ⟨q0, qs, hq⟩ := c44_query h hk (by norm_num) (by norm_num) (v := [1, 0, 0, 1]) (by norm_num) (by simp) 2
  obtain ⟨ev, b1, -⟩ := c41_build h hk .debug (by norm_num) (by norm_num) (by decide) (by norm_num) (aTape := fun _ _ _ _ => 0) (fun _ _ => ht)
    (rng := fun _ _ i => i % 1000) (fun _ _ => Ex.wordTape) (a0 := fun _ _ _ => 0) (fun _ => ht) (a1 := fun _ _ _ => 0) (fun _ => ht)
    (r0 := fun _ i => i % 1000) (fun _ => Ex.wordTape) (r1 := fun _ i => i % 1000) (fun _ => Ex.wordTape)
  obtain ⟨ct, pt, row, d1, d2, d3, d4, -, d6⟩ := c126_answer h hk .release .debug (by norm_num) (by norm_num) (by decide) (by norm_num) hb
    (aTape := fun _ _ _ _ => 0) (fun _ _ => ht) (rng := fun _ _ i => i % 1000) (fun _ _ => Ex.wordTape) (fun _ => ht) (fun _ => ht)
    (r0 := fun _ i => i % 1000) (fun _ => Ex.wordTape) (r1 := fun _ i => i % 1000) (fun _ => Ex.wordTape) b1 hlen hval s1 (i0 := 0) (is := [1])
    (by norm_num) (by simp) (by norm_num) rfl (e := 2) (by norm_num) (by norm_num) (by simp [Ex.rows4]) hv (z := 0) (by norm_num) (by simpa using hq)
    (by decide) (by
      unfold expandedNoise
      rw [show switchNoise 8 Ex.mods4 0 = 8 * (16777441 + 16777601 + 16777633 + 16777681) by decide +kernel,
        show levelQ Ex.mods4 0 = 16777441 * 16777601 * 16777633 * 16777681 by decide +kernel]
      norm_num)
  obtain rfl : row = ⟨P, 0, .poly, [5, 6, 7]⟩ := (Option.some.inj d1).symm
  exact ⟨P, sk, ev, srv, _, q0, qs, ct, pt, h, hk, s1, hv, hq, b1, d2, d3, d4.trans rfl, d6, by decide +kernel, by decide +kernel⟩

end OnionPIR
