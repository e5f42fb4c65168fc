import Verif.Props.Server
import Verif.Props.Default

/-! C64: the private information retrieval protocol, from key generation to the decrypted row, for parameters of the size used in the
tests of the repository. No noise hypothesis is left. -/

namespace OnionPIR
open Rg Spec

variable {N t : Nat} {l : List Nat} {variance : Nat} {P : BfvParameters}

theorem two_pow_sum {l : List Nat} (h : ∀ q ∈ l, q < 2 ^ 62) : l.sum ≤ l.length * 2 ^ 62 := by
  induction l with
  | nil => simp
  | cons a l ih =>
    have h1 := h a (by simp)
    have h2 := ih fun q hq => h q (List.mem_cons_of_mem _ hq)
    rw [List.sum_cons, List.length_cons, Nat.add_mul]
    omega

theorem two_pow_prod {l : List Nat} (h : ∀ q ∈ l, 2 ^ 61 ≤ q) : 2 ^ (61 * l.length) ≤ l.prod := by
  induction l with
  | nil => simp
  | cons a l ih =>
    have h1 := h a (by simp)
    have h2 := ih fun q hq => h q (List.mem_cons_of_mem _ hq)
    rw [List.prod_cons, List.length_cons, Nat.mul_add, mul_one, Nat.add_comm, pow_add]
    exact Nat.mul_le_mul h1 h2

theorem answerNoise_le (hN : 1 ≤ N) (hN2 : N ≤ 2 ^ 12) (ht : t ≤ 2 ^ 21) (hl : 4 ≤ l.length) (hq : ∀ q ∈ l, q < 2 ^ 62)
    (hv : variance ≤ 16) {fd dim d : Nat} (hfit : fd + dim * d ≤ N) {S : ℤ} (hS0 : 0 ≤ S) (hS : S ≤ 32) :
    answerNoise N t l fd dim d (2 * t * variance + 2 * t) (2 * variance) t S (switchNoise N l 0 * (2 * variance))
      (2 * variance) (2 * variance) ≤ 2 ^ 158 * l.length + 2 ^ 217 * l.length ^ 2 := by
  set L := l.length with hL
  have hlev : levelModuli l 0 = l := by simp [levelModuli]
  have hsum := two_pow_sum hq
  set W := switchNoise N l 0 with hW
  have hW0 : 0 ≤ W := by rw [hW]; unfold switchNoise; positivity
  have hW1 : W ≤ 2 ^ 74 * L := by
    rw [hW]; unfold switchNoise; rw [hlev]
    calc ((N : ℤ) * (l.sum : Nat)) ≤ 2 ^ 12 * ((L * 2 ^ 62 : Nat) : ℤ) := by
          apply mul_le_mul (by exact_mod_cast hN2) (by exact_mod_cast hsum) (by positivity) (by positivity)
      _ = 2 ^ 74 * L := by push_cast; ring
  have hvz : (variance : ℤ) ≤ 16 := by exact_mod_cast hv
  have htz : (t : ℤ) ≤ 2 ^ 21 := by exact_mod_cast ht
  have hNz : (N : ℤ) ≤ 2 ^ 12 := by exact_mod_cast hN2
  have hN1 : (1 : ℤ) ≤ N := by exact_mod_cast hN
  have hLz : (4 : ℤ) ≤ L := by exact_mod_cast hl
  have hfd : (fd : ℤ) ≤ 2 ^ 12 := by
    have : fd ≤ 2 ^ 12 := by omega
    exact_mod_cast this
  have hdd : (d : ℤ) * dim ≤ 2 ^ 12 := by
    have : d * dim ≤ 2 ^ 12 := by rw [Nat.mul_comm]; omega
    exact_mod_cast this
  have hv0 : (0 : ℤ) ≤ variance := by positivity
  have ht0 : (0 : ℤ) ≤ t := by positivity
  -- the error of unpacking
  set B := W * (2 * variance) with hB
  have hB0 : 0 ≤ B := by positivity
  have hB1 : B ≤ 2 ^ 79 * L := by
    calc B ≤ (2 ^ 74 * L) * (2 * 16) := mul_le_mul hW1 (by linarith) (by positivity) (by positivity)
      _ = 2 ^ 79 * L := by ring
  have hU : ((N : ℤ) - 1) * B ≤ 2 ^ 91 * L := by
    calc ((N : ℤ) - 1) * B ≤ 2 ^ 12 * (2 ^ 79 * L) := mul_le_mul (by linarith) hB1 hB0 (by positivity)
      _ = 2 ^ 91 * L := by ring
  have hU0 : 0 ≤ ((N : ℤ) - 1) * B := mul_nonneg (by linarith) hB0
  set U := ((N : ℤ) - 1) * B with hUdef
  -- first dimension
  have h1 : (fd : ℤ) * (N * ((2 * t * variance + 2 * t) + t * U) * t) ≤ 2 ^ 158 * L := by
    have e1 : (t : ℤ) * U ≤ 2 ^ 21 * (2 ^ 91 * L) := mul_le_mul htz hU hU0 (by positivity)
    have e2 : (t : ℤ) * variance ≤ 2 ^ 21 * 16 := mul_le_mul htz hvz hv0 (by positivity)
    have e3 : (2 * (t : ℤ) * variance + 2 * t) + t * U ≤ 2 ^ 113 * L := by nlinarith
    have e0 : 0 ≤ (2 * (t : ℤ) * variance + 2 * t) + t * U := by positivity
    have e4 : (N : ℤ) * ((2 * t * variance + 2 * t) + t * U) ≤ 2 ^ 12 * (2 ^ 113 * L) := mul_le_mul hNz e3 e0 (by positivity)
    have e5 : (N : ℤ) * ((2 * t * variance + 2 * t) + t * U) * t ≤ (2 ^ 12 * (2 ^ 113 * L)) * 2 ^ 21 :=
      mul_le_mul e4 htz ht0 (by positivity)
    calc (fd : ℤ) * (N * ((2 * t * variance + 2 * t) + t * U) * t) ≤ 2 ^ 12 * ((2 ^ 12 * (2 ^ 113 * L)) * 2 ^ 21) :=
          mul_le_mul hfd e5 (by positivity) (by positivity)
      _ = 2 ^ 158 * L := by ring
  -- further dimensions
  have h2 : (d : ℤ) * (t * (dim * (W * (N * (2 * variance + U) * S + W * (2 * variance + 2 * variance) + (2 * variance + U))))) ≤
      2 ^ 217 * L ^ 2 := by
    have e1 : 2 * (variance : ℤ) + U ≤ 2 ^ 92 * L := by nlinarith
    have e0 : 0 ≤ 2 * (variance : ℤ) + U := by positivity
    have e2 : (N : ℤ) * (2 * variance + U) ≤ 2 ^ 12 * (2 ^ 92 * L) := mul_le_mul hNz e1 e0 (by positivity)
    have e3 : (N : ℤ) * (2 * variance + U) * S ≤ (2 ^ 12 * (2 ^ 92 * L)) * 32 := mul_le_mul e2 hS hS0 (by positivity)
    have e4 : W * (2 * variance + 2 * variance) ≤ (2 ^ 74 * L) * 64 := mul_le_mul hW1 (by linarith) (by positivity) (by positivity)
    have e5 : (N : ℤ) * (2 * variance + U) * S + W * (2 * variance + 2 * variance) + (2 * variance + U) ≤ 2 ^ 110 * L := by nlinarith
    have e6 : 0 ≤ (N : ℤ) * (2 * variance + U) * S + W * (2 * variance + 2 * variance) + (2 * variance + U) := by positivity
    set X := (N : ℤ) * (2 * variance + U) * S + W * (2 * variance + 2 * variance) + (2 * variance + U)
    have e7 : W * X ≤ (2 ^ 74 * L) * (2 ^ 110 * L) := mul_le_mul hW1 e5 e6 (by positivity)
    have e8 : ((d : ℤ) * dim) * (t * (W * X)) ≤ 2 ^ 12 * (2 ^ 21 * ((2 ^ 74 * L) * (2 ^ 110 * L))) :=
      mul_le_mul hdd (mul_le_mul htz e7 (by positivity) (by positivity)) (by positivity) (by positivity)
    calc (d : ℤ) * (t * (dim * (W * X))) = ((d : ℤ) * dim) * (t * (W * X)) := by ring
      _ ≤ _ := e8
      _ = 2 ^ 217 * L ^ 2 := by ring
  unfold answerNoise
  rw [← hUdef]
  exact add_le_add h1 h2

theorem budget {L Q : Nat} (hL : 4 ≤ L) (hQ : 2 ^ (61 * L) ≤ Q) : 4 * (2 ^ 158 * L + 2 ^ 217 * L ^ 2) ≤ Q := by
  have h3 : L ^ 2 ≤ (2 ^ L) ^ 2 := Nat.pow_le_pow_left (Nat.lt_two_pow_self (n := L)).le 2
  have h4 : L ≤ L ^ 2 := Nat.le_self_pow (by norm_num) L
  have h5 : 2 ^ 220 * L ^ 2 ≤ 2 ^ (61 * L) := by
    calc 2 ^ 220 * L ^ 2 ≤ 2 ^ 220 * (2 ^ L) ^ 2 := Nat.mul_le_mul_left _ h3
      _ = 2 ^ (220 + L * 2) := by rw [← pow_mul, ← pow_add]
      _ ≤ 2 ^ (61 * L) := Nat.pow_le_pow_right (by norm_num) (by omega)
  refine le_trans ?_ (h5.trans hQ)
  generalize L ^ 2 = M at *
  omega

/-- C64: with at least four moduli of 62 bits, degree at most 4096, plaintext modulus at most `2^21`, and dimensions that fit the degree,
the noise of an answer is below the bound of decryption. -/
theorem c64_noise_fits (hN : 1 ≤ N) (hN2 : N ≤ 2 ^ 12) (ht : t ≤ 2 ^ 21) (hl : 4 ≤ l.length) (hq : ∀ q ∈ l, 2 ^ 61 ≤ q ∧ q < 2 ^ 62)
    (hv : variance ≤ 16) {fd dim d : Nat} (hfit : fd + dim * d ≤ N) {S : ℤ} (hS0 : 0 ≤ S) (hS : S ≤ 32) :
    4 * answerNoise N t l fd dim d (2 * t * variance + 2 * t) (2 * variance) t S (switchNoise N l 0 * (2 * variance))
      (2 * variance) (2 * variance) ≤ levelQ l 0 := by
  have h1 := answerNoise_le (variance := variance) hN hN2 ht hl (fun q h => (hq q h).2) hv hfit hS0 hS
  have h2 := budget hl (two_pow_prod fun q h => (hq q h).1)
  have h3 : levelQ l 0 = l.prod := by simp [levelQ, levelModuli]
  have h4 : 4 * ((2 : ℤ) ^ 158 * l.length + 2 ^ 217 * l.length ^ 2) ≤ l.prod := by
    have := Int.ofNat_le.mpr h2
    push_cast at this
    rwa [Nat.cast_list_prod] 
  rw [h3]
  exact le_trans (mul_le_mul_of_nonneg_left h1 (by norm_num)) h4

/-- C64, partial: the whole protocol. For every database, coordinates and randomness, key generation, the evaluation keys, the server and the
encoding of the coordinates succeed, and for every query made from that encoding the answer decrypts to the addressed row. As in
`c44_answer_partial`, the monomials `X^(-2^i)` are given in place of the result of `gen_x_pows`; with that function, `decode` always panics
(`c44_decode_panics`). The hypothesis `hcount` says that `decode` counts the dimensions right (`c53_dimensions_iff`); it holds for powers of two and for at most two dimensions. -/
theorem c64_protocol_partial (h : IsParams N t l variance P) (hv1 : 1 ≤ variance) (hv2 : variance ≤ 16)
    (hN2 : N ≤ 2 ^ 12) (ht : t ≤ 2 ^ 21) (hl : 4 ≤ l.length) (hq : ∀ q ∈ l, 2 ^ 61 ≤ q ∧ q < 2 ^ 62)
    -- profiles of client and server
    (pc ps : Profile)
    -- randomness of the keys
    {krng : Nat → Nat} (hkr : ∀ i, krng i < 2 ^ 64)
    {aTape : Nat → Nat → Nat → Nat → Nat} (ha : ∀ k j, TapeAt l 0 (aTape k j))
    {rng : Nat → Nat → Nat → Nat} (hr : ∀ k j i, rng k j i < 2 ^ 64) {a0 a1 : Nat → Nat → Nat → Nat} (ha0 : ∀ j, TapeAt l 0 (a0 j))
    (ha1 : ∀ j, TapeAt l 0 (a1 j)) {r0 r1 : Nat → Nat → Nat} (hr0 : ∀ j i, r0 j i < 2 ^ 64) (hr1 : ∀ j i, r1 j i < 2 ^ 64)
    {xPows : List Poly} (hx : IsMonomials N P xPows)
    -- database and coordinates
    {fd dim : Nat} (hd2 : 2 ≤ dim) {db : List Plaintext} (hdb : ∀ p ∈ db, p.values.length ≤ N) (hv : ∀ p ∈ db, ∀ x ∈ p.values, x < t)
    {i0 : Nat} {is : List Nat} (h0 : i0 < fd) (his : ∀ i ∈ is, i < dim) (hrows : db.length = fd * dim ^ is.length)
    (hcount : dim ^ is.length < 2 ^ ((is.length + 1) * Nat.log 2 dim)) (hd64 : dim < 2 ^ 64) (hfit : fd + dim * is.length ≤ N) (hmem : db.length < 2 ^ 64) :
    ∃ sk ev srv v, SecretKey.generate pc P krng = .ok sk ∧ Evaluation.build pc sk P aTape rng a0 a1 r0 r1 = .ok ev ∧
      Server.new ps fd dim db P = .ok srv ∧ (Client.mk fd dim).encode pc (i0 :: is) db.length = .ok v ∧
      (∃ q0 qs, IsQuery N P l sk fd v q0 qs) ∧
      ∀ q0 qs, IsQuery N P l sk fd v q0 qs → ∃ ct pt row, db[i0 + fd * address dim is]? = some row ∧
        srv.decodeWith ps xPows (q0 :: qs) ev P = .ok [ct] ∧ sk.decrypt pc ct = .ok pt ∧
        pt.values = (List.range N).map fun k => row.values.getD k 0 := by
  have hN : 1 ≤ N := by
    obtain ⟨K, ext, rfl, -⟩ := BfvP.params h
    exact Nat.one_le_two_pow
  have hfd : 0 < fd := by omega
  have hpow : dim ^ is.length < 2 ^ 64 := by
    refine lt_of_le_of_lt ?_ hmem
    rw [hrows]
    exact Nat.le_mul_of_pos_left _ hfd
  obtain ⟨sk, k1, hk, hb⟩ := c30_generate h pc hv1 hv2 hkr
  obtain ⟨ev, e1, -⟩ := c41_build h hk pc hv1 hv2 (by omega) (by omega) ha hr ha0 ha1 hr0 hr1
  obtain ⟨srv, s1, s2, s3, s4, -⟩ := c43_new h ps fd dim hdb (fun p hp x hx => (hv p hp x hx).trans_le (by omega))
  have hlen : is.length < 2 ^ 32 := by
    have : is.length ≤ dim * is.length := Nat.le_mul_of_pos_left _ (by omega)
    omega
  obtain ⟨v, v1, v2, v3, v4⟩ := c42_encode pc (Client.mk fd dim) h0 his hpow hlen hrows
  have hvb := Client.bits (by dsimp only; omega) v2 v3 v4
  obtain ⟨q0, qs, hq0⟩ := c44_query h hk hv1 hv2 (v := v) (by dsimp only at v2; omega) hvb fd
  have hdim : srv.dimensions ps = .ok (is.length + 1) := by
    obtain ⟨d, d1, -, d2⟩ := c53_dimensions_iff ps srv (by rw [s2]; exact hfd) (by rw [s3]; exact hd2) (by rw [s3]; exact hd64)
      (k := is.length) (by rw [s2, s3, s4, hrows]) (by rw [s4]; exact hmem)
    rw [d1, d2.2 (by rw [s3]; exact hcount)]
  refine ⟨sk, ev, srv, v, k1, e1, s1, v1, ⟨q0, qs, hq0⟩, fun q0 qs hq' => ?_⟩
  have hlq : 2 ^ 61 ≤ l.getD 0 0 := by
    rw [List.getD_eq_getElem _ _ (by omega)]
    exact (hq _ (List.getElem_mem _)).1
  exact c44_answer_partial h hk ps pc hv1 hv2 (by omega) (by omega) hb ha hr ha0 ha1 hr0 hr1 e1 hx hdb hv s1 h0 his (by omega) hrows
    hfit hpow v1 hq' hdim (by omega) (c64_noise_fits hN hN2 ht hl hq hv2 hfit (by omega) (by
      have : (variance : ℤ) ≤ 16 := by exact_mod_cast hv2
      linarith))

/-! ### The test `query` of the repository -/

namespace Ex

/-- Parameters of the test (src/evaluations.rs:422-431): degree 64, four generated moduli of 62 bits. -/
theorem query_params : ∃ P l, generateModuli .release [62, 62, 62, 62] 64 = .ok (some l) ∧ IsParams 64 1785857 l 10 P ∧ l.length = 4 ∧
    ∀ q ∈ l, 2 ^ 61 ≤ q ∧ q < 2 ^ 62 := by
  obtain ⟨P, l, h1, -, h3, h4, -, h5⟩ := c63_generate_then_new .release (K := 6) (n := 4) (t := 1785857) (by norm_num) (by norm_num)
    (by norm_num) (by norm_num) (by norm_num) (by norm_num) (by norm_num)
    (by have := friendly_card (K := 6) (by norm_num); omega) goodSample_lt
    (fun q hq hc => ⟨0, by norm_num, goodSample_good hq (by rintro rfl; norm_num at hc)⟩) 10 ⟨4, 8⟩
  exact ⟨P, l, h1, h3, h4, fun q hq => by
    obtain ⟨-, a, b, -⟩ := (mem_friendly (d := 2 ^ 6) (by norm_num) (by norm_num)).mp (h5 q hq)
    exact ⟨a, b⟩⟩

/-- Row `i` of the database of the test holds `[i, i, i, i]`. -/
def queryDb (P : BfvParameters) : List Plaintext := (List.range 16).map fun i => ⟨P, 0, .poly, [i, i, i, i]⟩

end Ex

/-- The test `query` (src/evaluations.rs:421-465): sixteen rows, `Client::new(4, 2)`, coordinates `(3, 1, 1)`. With the monomials repaired,
the answer decrypts to row 15. -/
example : ∃ P l sk ev xs srv v q0 qs ct pt, IsParams 64 1785857 l 10 P ∧ Server.new .debug 4 2 (Ex.queryDb P) P = .ok srv ∧
    (Client.mk 4 2).encode .release [3, 1, 1] 16 = .ok v ∧ IsQuery 64 P l sk 4 v q0 qs ∧
    srv.decodeWith .debug xs (q0 :: qs) ev P = .ok [ct] ∧ sk.decrypt .release ct = .ok pt ∧
    pt.values = [15, 15, 15, 15] ++ List.replicate 60 0 := by
  obtain ⟨P, l, -, h, hlen, hq⟩ := Ex.query_params
  have ht : TapeAt l 0 fun _ _ => 0 := Ex.tape0 fun q hq' => lt_of_lt_of_le (by norm_num) (hq q hq').1
  obtain ⟨xs, hx⟩ := Ex.monomials h (by rintro rfl; simp at hlen)
  obtain ⟨sk, ev, srv, v, -, -, h3, h4, ⟨q0, qs, h5⟩, h6⟩ := c64_protocol_partial h (by norm_num) (by norm_num) (by norm_num) (by norm_num)
    (by omega) hq .release .debug (krng := fun i => i % 1000) Ex.wordTape (aTape := fun _ _ _ _ => 0)
    (fun _ _ => ht) (rng := fun _ _ i => i % 1000) (fun _ _ => Ex.wordTape) (a0 := fun _ _ _ => 0)
    (fun _ => ht) (a1 := fun _ _ _ => 0) (fun _ => ht) (r0 := fun _ i => i % 1000) (fun _ => Ex.wordTape)
    (r1 := fun _ i => i % 1000) (fun _ => Ex.wordTape) hx (fd := 4) (dim := 2) (by norm_num) (db := Ex.queryDb P)
    (by simp [Ex.queryDb])
    (by
      intro p hp x hx
      obtain ⟨i, hi, rfl⟩ := List.mem_map.mp hp
      rw [List.mem_range] at hi
      simp at hx
      omega)
    (i0 := 3) (is := [1, 1]) (by norm_num) (by simp) (by simp [Ex.queryDb])
    (by decide) (by norm_num) (by norm_num) (by simp [Ex.queryDb])
  obtain ⟨ct, pt, row, r1, r2, r3, r4⟩ := h6 q0 qs h5
  have hrow : row = ⟨P, 0, .poly, [15, 15, 15, 15]⟩ := (Option.some.inj r1).symm
  rw [hrow] at r4
  exact ⟨P, l, sk, ev, xs, srv, v, q0, qs, ct, pt, h, h3, by simpa [Ex.queryDb] using h4, h5, r2, r3, r4.trans rfl⟩

/-- The noise bound for the largest parameters covered: degree 4096, four moduli of 62 bits. -/
example : 4 * answerNoise 4096 (2 ^ 21) [2 ^ 61, 2 ^ 61, 2 ^ 61, 2 ^ 61] 128 4 8 (2 * (2 ^ 21 : Nat) * (16 : Nat) + 2 * (2 ^ 21 : Nat)) (2 * (16 : Nat)) (2 ^ 21 : Nat) 32
      (switchNoise 4096 [2 ^ 61, 2 ^ 61, 2 ^ 61, 2 ^ 61] 0 * (2 * (16 : Nat))) (2 * (16 : Nat)) (2 * (16 : Nat)) ≤ levelQ [2 ^ 61, 2 ^ 61, 2 ^ 61, 2 ^ 61] 0 :=
  c64_noise_fits (by norm_num) (by norm_num) le_rfl (by simp) (by simp) le_rfl (by norm_num) (by norm_num) le_rfl

end OnionPIR
