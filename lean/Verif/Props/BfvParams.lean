import Mathlib.NumberTheory.LucasPrimality
import Mathlib.NumberTheory.LegendreSymbol.Basic
import Mathlib.Tactic.NormNum.Prime
import Verif.Proofs.BfvBridge
/-
Properties C27, C28, C29 and C51: BFV parameters and plaintexts.
Parameters are any value returned by `BfvParameters::new`, for any outcome of the sampler inside `primitive_root`.
-/
namespace OnionPIR
open Rg Spec

/-! ### C51: parameters -/

/-- C51: one context per level, level `i` using the first `n - i` moduli; the extended basis of a level is its moduli followed by
`ceil((bits + 60)/62)` further primes of 62 bits, distinct from each other and from all moduli. -/
theorem c51_levels {N t : Nat} {l : List Nat} {variance : Nat} {P : BfvParameters} (h : IsParams N t l variance P) :
    P.degree = N ∧ P.plaintextModulus = t ∧ P.ciphertextModuli = l ∧ P.variance = variance ∧ P.qCtxs.length = l.length ∧
    P.eCtxs.length = l.length ∧ P.mulParams.length = l.length ∧
    ∃ ext : List Nat, ext.Nodup ∧ (∀ p ∈ ext, p.Prime ∧ 2 ^ 61 ≤ p ∧ p < 2 ^ 62 ∧ p % (2 * N) = 1 ∧ p ∉ l) ∧
      ∀ i, i < l.length → ∃ q e, P.qCtxs[i]? = some q ∧ P.eCtxs[i]? = some e ∧ IsContext N (levelModuli l i) q ∧
        IsContext N (levelModuli l i ++ ext.take ((((levelModuli l i).map fun x => Nat.log 2 x + 1).sum + 60 + 61) / 62)) e ∧
        (((levelModuli l i).map fun x => Nat.log 2 x + 1).sum + 60 + 61) / 62 ≤ ext.length := by
  obtain ⟨h1, h2, h3, pr, sample, bd, hs, hn⟩ := h
  have hn' := hn
  obtain ⟨⟨K, ext, hw⟩, e1, e2, e3, e4⟩ := BfvParameters.new_wf hs h1 h3 h2 hn
  have hN : N = 2 ^ K := by rw [← e1, hw.deg]
  unfold BfvParameters.new at hn
  simp only [bind_eq_ok] at hn
  obtain ⟨ext', hext, tInvs, htInvs, q0, hq0, ptCtx, hpt, levels, hlev, map, hmap, tm, htm, op, hop, hn⟩ := hn
  obtain ⟨x1, x2, x3⟩ := BfvParameters.extLoop_inv (by rw [hN]; exact Nat.one_le_two_pow) (by omega) _ _ _ (by norm_num) (le_refl _)
    hext List.nodup_nil (by simp)
  obtain ⟨l1, l2⟩ := mapR_inv hlev
  cases hn
  refine ⟨rfl, rfl, rfl, rfl, by simp [l1], by simp [l1], by simp [l1], ext', x2, x3, ?_⟩
  intro i hi
  obtain ⟨L, hL, hLv⟩ := l2 i i (by rw [List.getElem?_range (by simpa using hi)])
  refine ⟨L.qCtx, L.eCtx, by simp [List.getElem?_map, hL], by simp [List.getElem?_map, hL], ?_⟩
  have h64 : N < 2 ^ 64 := by omega
  unfold BfvParameters.level at hLv
  rw [takeR_ok (by omega), res_ok_bind] at hLv
  simp only [bind_eq_ok] at hLv
  obtain ⟨qCtx, hq, r, -, qModT, -, lifted, -, tip, -, tip', -, sf, -, scalar, -, sizes, hsz, sum, hsum, bits, hbits, count, hcount, extra,
    hextra, eCtx, he, one, -, down, -, mul, -, hL'⟩ := hLv
  cases hL'
  have hqc : IsContext N (levelModuli l i) qCtx := ⟨h64, pr, sample, bd, hs, hq⟩
  obtain ⟨K', hK', hqw, hqm⟩ := RqP.ctx hqc
  have hbd : ∀ q ∈ levelModuli l i, 2 ≤ q ∧ q < 2 ^ 62 := fun q hq => hqw.bound (hqm ▸ hq)
  have hcnt := BfvParameters.count_ok pr (levelModuli l i) hbd (by unfold levelModuli; rw [List.length_take]; omega)
  unfold levelModuli at hcnt
  rw [hsz, res_ok_bind, hsum, res_ok_bind, hbits, res_ok_bind, hcount] at hcnt
  have hcnt := Except.ok.inj hcnt
  obtain ⟨hc1, rfl⟩ := takeR_inv hextra
  rw [hcnt] at hc1 he
  exact ⟨hqc, ⟨h64, pr, sample, bd, hs, he⟩, hc1⟩

/-- C51: `ctx_level` finds the level of every context of the chain. -/
theorem c51_ctx_level {N t : Nat} {l : List Nat} {variance : Nat} {P : BfvParameters} (h : IsParams N t l variance P) {i : Nat}
    {c : RqContext} (hi : P.qCtxs[i]? = some c) : P.ctxLevel c = some i := by
  obtain ⟨K, ext, rfl, hw, -, -, -⟩ := BfvP.params h
  have hlt : i < P.ciphertextModuli.length := by rw [← hw.nLevels]; exact (List.getElem?_eq_some_iff.mp hi).1
  obtain ⟨L, hL⟩ := hw.levels i hlt
  rw [hL.q] at hi
  cases hi
  exact BfvParameters.ctxLevel_at hw hL

/-- C51: construction succeeds in both build profiles for every nonempty list of distinct NTT-friendly primes above an NTT-friendly
prime `t`, as soon as `n + 1` further NTT-friendly primes of 62 bits exist; it then never runs out of auxiliary primes. The sampler
inside `primitive_root` has to find a quadratic non-residue. -/
theorem c51_new_succeeds (pr : Profile) {K : Nat} (hK : 3 ≤ K) (hK2 : K ≤ 60) {t : Nat} (htp : t.Prime) (ht2 : t < 2 ^ 62)
    (htc : t % (2 * 2 ^ K) = 1) {l : List Nat} (hne : l ≠ []) (hnd : l.Nodup)
    (hp : ∀ q ∈ l, q.Prime ∧ q < 2 ^ 62 ∧ q % (2 * 2 ^ K) = 1) (htq : ∀ q ∈ l, t < q) (hn : l.length ≤ 2 ^ 30)
    (hps : ∃ ps : List Nat, ps.Nodup ∧ l.length + 1 ≤ ps.length ∧
      ∀ p ∈ ps, p.Prime ∧ 2 ^ 61 ≤ p ∧ p < 2 ^ 62 ∧ p % (2 * 2 ^ K) = 1 ∧ p ∉ l)
    {sample : Nat → Nat → Nat} (hs : ∀ p i, 0 < p → sample p i < p)
    (hgood : ∀ q, q.Prime → q % (2 * 2 ^ K) = 1 → ∃ i, i < 100 ∧ sample q i ^ ((q - 1) / 2) % q = q - 1)
    (variance : Nat) (bd : BitDecomposition) :
    ∃ P, BfvParameters.new pr sample (2 ^ K) t l variance bd = .ok P ∧ IsParams (2 ^ K) t l variance P := by
  obtain ⟨ps, h1, h2, h3⟩ := hps
  obtain ⟨P, hP⟩ := BfvParameters.new_ok pr hK hK2 htp ht2 htc hne hnd hp htq hn h1 h3 h2 hs hgood variance bd
  exact ⟨P, hP, Nat.pow_lt_pow_right (by norm_num) (by omega), hn, htq, pr, sample, bd, hs, hP⟩

/-! ### Concrete parameters -/

namespace Ex

/-- `a^n mod p` by squaring, for `n < 2^fuel`. -/
def pw (p a : Nat) : Nat → Nat → Nat
  | 0, _ => 1 % p
  | f + 1, n => (pw p (a * a % p) f (n / 2)) * (if n % 2 = 1 then a else 1) % p

theorem pw_eq (p a f n : Nat) (h : n < 2 ^ f) : pw p a f n = a ^ n % p := by
  induction f generalizing a n with
  | zero =>
    have : n = 0 := by simpa using h
    subst this; simp [pw]
  | succ f ih =>
    rw [pw, ih _ _ (by rw [pow_succ] at h; omega), ← Nat.pow_mod, Nat.mod_mul_mod, ← pow_two, ← pow_mul]
    have := Nat.div_add_mod n 2
    split_ifs with h1
    · rw [← pow_succ, ← h1, this]
    · rw [mul_one]; congr 2; omega

theorem lucas {p : Nat} (a : Nat) (fs : List Nat) (e : Nat) (h1 : pw p a 64 (p - 1) = 1) (hp : 1 < p) (hp2 : p < 2 ^ 64)
    (hf : p - 1 ∣ (fs.prod) ^ e) (hfp : ∀ f ∈ fs, f.Prime) (hfa : ∀ f ∈ fs, pw p a 64 ((p - 1) / f) ≠ 1) : p.Prime := by
  have hd : ∀ f, (p - 1) / f < 2 ^ 64 := fun f => lt_of_le_of_lt (Nat.div_le_self _ _) (by omega)
  rw [pw_eq _ _ _ _ (by omega)] at h1
  apply lucas_primality p (a : ZMod p)
  · have := (ZMod.natCast_eq_natCast_iff' (a ^ (p - 1)) 1 p).mpr (by rw [h1, Nat.mod_eq_of_lt hp])
    simpa using this
  · intro q hq hd'
    have hm : q ∈ fs := by
      have := (Nat.Prime.dvd_of_dvd_pow hq (hd'.trans hf))
      obtain ⟨f, hfm, hqf⟩ := (Prime.dvd_prod_iff (Nat.prime_iff.mp hq)).mp this
      rwa [(Nat.prime_dvd_prime_iff_eq hq (hfp f hfm)).mp hqf]
    intro hc
    apply hfa q hm
    rw [pw_eq _ _ _ _ (hd q)]
    have := (ZMod.natCast_eq_natCast_iff' (a ^ ((p - 1) / q)) 1 p).mp (by simpa using hc)
    rw [this, Nat.mod_eq_of_lt hp]

/-- Every odd prime has a quadratic non-residue. -/
theorem nonresidue {p : Nat} (hp : p.Prime) (h2 : p ≠ 2) : ∃ a, a < p ∧ a ^ ((p - 1) / 2) % p = p - 1 := by
  have := Fact.mk hp
  have h3 := hp.two_le
  have hodd : p % 2 = 1 := by rcases hp.eq_two_or_odd with h | h <;> omega
  obtain ⟨a, ha⟩ := FiniteField.exists_nonsquare (F := ZMod p) (by rw [ZMod.ringChar_zmod_n]; exact h2)
  have ha0 : a ≠ 0 := by rintro rfl; exact ha (IsSquare.zero)
  have hlt := ZMod.val_lt a
  refine ⟨a.val, hlt, ?_⟩
  have he := ZMod.pow_div_two_eq_neg_one_or_one p ha0
  have hn : a ^ (p / 2) = -1 := by
    rcases he with he | he
    · exact absurd ((ZMod.euler_criterion p ha0).mpr he) ha
    · exact he
  have hd : (p - 1) / 2 = p / 2 := by omega
  have h4 : ((a.val ^ ((p - 1) / 2) : Nat) : ZMod p) = ((p - 1 : Nat) : ZMod p) := by
    rw [Nat.cast_pow, ZMod.natCast_zmod_val, hd, hn, Nat.cast_sub (by omega)]; simp
  rw [ZMod.natCast_eq_natCast_iff', Nat.mod_eq_of_lt (show p - 1 < p by omega)] at h4
  exact h4

open Classical in
/-- A sampler that always finds a non-residue of a prime. -/
noncomputable def goodSample (p _i : Nat) : Nat :=
  if h : p.Prime ∧ p ≠ 2 then (nonresidue h.1 h.2).choose else 0

theorem goodSample_lt (p i : Nat) (h : 0 < p) : goodSample p i < p := by
  unfold goodSample
  split_ifs with h'
  · exact (nonresidue h'.1 h'.2).choose_spec.1
  · exact h

theorem goodSample_good {p : Nat} (hp : p.Prime) (h2 : p ≠ 2) : goodSample p 0 ^ ((p - 1) / 2) % p = p - 1 := by
  unfold goodSample
  rw [dif_pos ⟨hp, h2⟩]
  exact (nonresidue hp h2).choose_spec.2

/-- Five primes of 62 bits, all equal to 1 modulo `2^51`. -/
def bigPrimes : List Nat :=
  [2533274790395904001, 3377699720527872001, 2452209997103235073, 3343922723322593281, 3161526938414088193]

theorem bigPrimes_prime : ∀ p ∈ bigPrimes, p.Prime := by
  unfold bigPrimes
  simp only [List.mem_cons, List.not_mem_nil, or_false]
  rintro p (rfl | rfl | rfl | rfl | rfl)
  · exact lucas 7 [2, 3, 5] 55 (by decide +kernel) (by norm_num) (by norm_num) (by norm_num) (by norm_num) (by decide +kernel)
  · exact lucas 26 [2, 3, 5] 55 (by decide +kernel) (by norm_num) (by norm_num) (by norm_num) (by norm_num) (by decide +kernel)
  · exact lucas 5 [2, 3, 11] 55 (by decide +kernel) (by norm_num) (by norm_num) (by norm_num) (by norm_num) (by decide +kernel)
  · exact lucas 19 [2, 3, 5, 11] 55 (by decide +kernel) (by norm_num) (by norm_num) (by norm_num) (by norm_num) (by decide +kernel)
  · exact lucas 5 [2, 3, 13] 55 (by decide +kernel) (by norm_num) (by norm_num) (by norm_num) (by norm_num) (by decide +kernel)

/-- Moduli of the example parameters. -/
def mods : List Nat := [1048609, 1048721, 1048897]

/-- `BfvParameters::new` succeeds for degree 8, plaintext modulus 17 and three moduli of 21 bits. -/
theorem exists_params : ∃ P, IsParams 8 17 mods 10 P := by
  obtain ⟨P, -, h⟩ := c51_new_succeeds .debug (K := 3) (by norm_num) (by norm_num) (t := 17) (by norm_num) (by norm_num) (by norm_num)
    (l := mods) (by simp [mods]) (by decide)
    (by
      unfold mods
      simp only [List.mem_cons, List.not_mem_nil, or_false]
      rintro q (rfl | rfl | rfl) <;> norm_num)
    (by unfold mods; simp) (by simp [mods])
    ⟨bigPrimes, by decide, by simp [mods, bigPrimes], fun p hp => ⟨bigPrimes_prime p hp, by
      revert p; unfold bigPrimes mods; decide⟩⟩
    goodSample_lt (fun q hq hc => ⟨0, by norm_num, goodSample_good hq (by rintro rfl; norm_num at hc)⟩) 10 ⟨1, 1⟩
  exact ⟨P, h⟩

end Ex

/-- C51 is not vacuous. -/
example : ∃ P, IsParams 8 17 Ex.mods 10 P ∧ P.qCtxs.length = 3 ∧ ∃ c, P.qCtxs[1]? = some c ∧ IsContext 8 [1048609, 1048721] c ∧
    P.ctxLevel c = some 1 := by
  obtain ⟨P, h⟩ := Ex.exists_params
  obtain ⟨-, -, -, -, h1, -, -, ext, -, -, h2⟩ := c51_levels h
  obtain ⟨q, e, hq, -, hc, -⟩ := h2 1 (by simp [Ex.mods])
  exact ⟨P, h, h1, q, hq, hc, c51_ctx_level h hq⟩

/-! ### C27: polynomial encoding -/

/-- C27: polynomial encoding followed by decoding pads with zeros. -/
theorem c27_poly_round_trip (pr pr' : Profile) (P : BfvParameters) {values : List Nat} (hv : values.length ≤ P.degree) (level : Nat) :
    ∃ pt, Plaintext.new pr P values level .poly = .ok pt ∧
      pt.decode pr' = .ok (values ++ List.replicate (P.degree - values.length) 0) :=
  Plaintext.poly_round_trip P pr pr' hv level

/-- C27: more values than the degree panic. -/
theorem c27_too_long (pr : Profile) (P : BfvParameters) {values : List Nat} (hv : P.degree < values.length) (level : Nat) :
    Plaintext.new pr P values level .poly = .error .bounds := by
  unfold Plaintext.new Plaintext.encode copyPrefix
  rw [if_neg (by simp; omega)]
  rfl

example : ∃ P pt, IsParams 8 17 Ex.mods 10 P ∧ Plaintext.new .release P [3, 1, 16] 0 .poly = .ok pt ∧
    pt.decode .debug = .ok [3, 1, 16, 0, 0, 0, 0, 0] := by
  obtain ⟨P, h⟩ := Ex.exists_params
  have hd := (c51_levels h).1
  obtain ⟨pt, h1, h2⟩ := c27_poly_round_trip .release .debug P (values := [3, 1, 16]) (by rw [hd]; simp) 0
  exact ⟨P, pt, h, h1, by rw [h2, hd]; rfl⟩

/-! ### C28: SIMD encoding -/

/-- C28, what holds: encoding and decoding never panic, and the round trip returns the vector exactly if it is constant on the
fibres of the index map. Missing: the map is not injective (`c28_simd_not_round_trip`), so this is not every vector. -/
theorem c28_simd_round_trip_partial {N t : Nat} {l : List Nat} {variance : Nat} {P : BfvParameters} (h : IsParams N t l variance P)
    (pr pr' : Profile) {values : List Nat} (hl : values.length = N) (hv : ∀ v ∈ values, v < t) (level : Nat) :
    ∃ pt out, Plaintext.new pr P values level .simd = .ok pt ∧ pt.decode pr' = .ok out ∧ out.length = N ∧
      (out = values ↔ ∀ i j, i < N → j < N → P.matrixRepsIndexMap.getD i 0 = P.matrixRepsIndexMap.getD j 0 →
        values.getD i 0 = values.getD j 0) := by
  obtain ⟨K, ext, rfl, hw, rfl, -, -⟩ := BfvP.params h
  exact Plaintext.simd_round_trip (Plaintext.simdWF hw) pr pr' hl hv level

/-- C28 fails for every parameter set: any vector whose entries `N/2` and `3N/4` differ is not returned. -/
theorem c28_simd_not_round_trip {N t : Nat} {l : List Nat} {variance : Nat} {P : BfvParameters} (h : IsParams N t l variance P)
    (pr pr' : Profile) {values : List Nat} (hl : values.length = N) (hv : ∀ v ∈ values, v < t) (level : Nat)
    (hne : values.getD (N / 2) 0 ≠ values.getD (N / 2 + N / 4) 0) :
    ∃ pt out, Plaintext.new pr P values level .simd = .ok pt ∧ pt.decode pr' = .ok out ∧ out ≠ values := by
  obtain ⟨pt, out, h1, h2, -, h3⟩ := c28_simd_round_trip_partial h pr pr' hl hv level
  refine ⟨pt, out, h1, h2, fun he => hne ?_⟩
  obtain ⟨K, ext, rfl, hw, rfl, -, -⟩ := BfvP.params h
  obtain ⟨pr'', hm⟩ := hw.map
  rw [hw.deg] at hm
  have h8 := hw.three
  have hk1 : 2 ^ K = 2 * 2 ^ (K - 1) := by rw [← pow_succ']; congr 1; omega
  have hk2 : 2 ^ (K - 1) = 2 * 2 ^ (K - 2) := by rw [← pow_succ']; congr 1; omega
  have e1 : 2 ^ K / 2 = 2 ^ (K - 1) := by omega
  have e2 : 2 ^ K / 4 = 2 ^ (K - 2) := by omega
  have hp : 0 < 2 ^ (K - 2) := by positivity
  rw [e1, e2]
  exact h3.mp he _ _ (by omega) (by omega) (BfvParameters.indexMap_collision h8 hw.K60 hm)

/-- C28 fails: a concrete vector. -/
example : ∃ P pt out, IsParams 8 17 Ex.mods 10 P ∧ Plaintext.new .debug P [0, 1, 2, 3, 4, 5, 6, 7] 0 .simd = .ok pt ∧
    pt.decode .debug = .ok out ∧ out ≠ [0, 1, 2, 3, 4, 5, 6, 7] := by
  obtain ⟨P, h⟩ := Ex.exists_params
  obtain ⟨pt, out, h1, h2, h3⟩ := c28_simd_not_round_trip h .debug .debug (values := [0, 1, 2, 3, 4, 5, 6, 7]) rfl (by decide) 0 (by decide)
  exact ⟨P, pt, out, h, h1, h2, h3⟩

/-- A vector that does round-trip. -/
example : ∃ P pt, IsParams 8 17 Ex.mods 10 P ∧ Plaintext.new .debug P (List.replicate 8 5) 0 .simd = .ok pt ∧
    pt.decode .debug = .ok (List.replicate 8 5) := by
  obtain ⟨P, h⟩ := Ex.exists_params
  obtain ⟨pt, out, h1, h2, -, h3⟩ := c28_simd_round_trip_partial h .debug .debug (values := List.replicate 8 5) rfl (by decide) 0
  have : out = List.replicate 8 5 := h3.mpr (by
    intro i j hi hj _
    interval_cases i <;> interval_cases j <;> rfl)
  exact ⟨P, pt, h, h1, by rw [h2, this]⟩

/-! ### C29: scaling of the message -/

/-- C29: `to_poly` holds, modulo `Q`, the polynomial with coefficients `floor(Q m/t)` or `floor(Q m/t) - 1`, for `m` the value
modulo `t`. -/
theorem c29_to_poly {N t : Nat} {l : List Nat} {variance : Nat} {P : BfvParameters} (h : IsParams N t l variance P) (pr : Profile)
    {pt : Plaintext} (hp : pt.params = P) (hlev : pt.level < l.length) (hlen : pt.values.length ≤ N) (hv : ∀ x ∈ pt.values, x < 2 ^ 64) :
    ∃ p M, pt.toPoly pr = .ok p ∧ PolyAt P pt.level (M : Rg N) p ∧ ∀ k, k < N →
      cf M k = (levelQ l pt.level * (pt.values.getD k 0 % t) / t : Nat) ∨
      cf M k = (levelQ l pt.level * (pt.values.getD k 0 % t) / t : Nat) - 1 := by
  obtain ⟨K, ext, rfl, hw, rfl, rfl, -⟩ := BfvP.params h
  obtain ⟨L, hL⟩ := hw.levels _ hlev
  subst hp
  obtain ⟨M, h1, h2⟩ := Plaintext.toPoly_enc hw hL pr hlen hv
  have hN : 0 < 2 ^ K := by positivity
  set t := pt.params.plaintextModulus
  have ht : 0 < t := hw.t_prime.pos
  rw [← BfvP.levelQ_eq hL]
  set Q := L.qCtx.Q
  refine ⟨_, ofCoeffs (2 ^ K) fun k => cf M k - (Q : ℤ) * (pt.values.getD k 0 / t : Nat), h1, ?_, ?_⟩
  · rw [BfvP.polyAt_iff hL]
    apply enc_congr hL.wf.ctx
    rw [dvd_iff hN]
    intro k hk
    rw [cf_sub hN, cf_ofCoeffs hN _ hk]
    exact ⟨((pt.values.getD k 0 / t : Nat) : ℤ), by ring⟩
  · intro k hk
    rw [cf_ofCoeffs hN _ hk]
    obtain ⟨r, r0, r1, r2⟩ := h2 k hk
    set v := pt.values.getD k 0
    have hvm : (v : ℤ) = t * (v / t : Nat) + (v % t : Nat) := by exact_mod_cast (Nat.div_add_mod v t).symm
    have hd : ((Q * (v % t) : Nat) : ℤ) = t * (Q * (v % t) / t : Nat) + (Q * (v % t) % t : Nat) := by
      exact_mod_cast (Nat.div_add_mod (Q * (v % t)) t).symm
    have hm := Nat.mod_lt (Q * (v % t)) ht
    set f := Q * (v % t) / t
    set w := Q * (v % t) % t
    rw [Nat.cast_mul] at hd
    set x := cf M k - (Q : ℤ) * (v / t : Nat) with hx
    have hx2 : (t : ℤ) * x = t * f + w - r := by
      rw [hx, mul_sub, r2, ← hd]
      nlinarith
    have ht' : (0 : ℤ) < t := by exact_mod_cast ht
    have u1 : x ≤ f := by
      by_contra hc
      have : (t : ℤ) * (f + 1) ≤ t * x := mul_le_mul_of_nonneg_left (by omega) ht'.le
      have : (w : ℤ) < t := by exact_mod_cast hm
      nlinarith
    have u2 : (f : ℤ) - 1 ≤ x := by
      by_contra hc
      have : (t : ℤ) * x ≤ t * (f - 2) := mul_le_mul_of_nonneg_left (by omega) ht'.le
      nlinarith
    omega

example : ∃ P p M, IsParams 8 17 Ex.mods 10 P ∧
    (Plaintext.mk P 2 .poly [3, 0, 20]).toPoly .debug = .ok p ∧ PolyAt P 2 (M : Rg 8) p ∧ (cf M 0 = 185048 ∨ cf M 0 = 185047) := by
  obtain ⟨P, h⟩ := Ex.exists_params
  obtain ⟨p, M, h1, h2, h3⟩ := c29_to_poly h .debug (pt := ⟨P, 2, .poly, [3, 0, 20]⟩) rfl (by simp [Ex.mods]) (by simp) (by simp)
  exact ⟨P, p, M, h, h1, h2, by simpa [levelQ, levelModuli, Ex.mods] using h3 0 (by norm_num)⟩

/-- Nine values do not fit in degree 8. -/
example : ∃ P, IsParams 8 17 Ex.mods 10 P ∧ Plaintext.new .release P [1, 2, 3, 4, 5, 6, 7, 8, 9] 0 .poly = .error .bounds := by
  obtain ⟨P, h⟩ := Ex.exists_params
  exact ⟨P, h, c27_too_long .release P (by rw [(c51_levels h).1]; simp) 0⟩

end OnionPIR
