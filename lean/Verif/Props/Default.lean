import Verif.Props.Utils
import Verif.Props.BfvParams
import Verif.Proofs.Moduli

/-! C62: `generate_moduli` finds the largest primes and fails only if there are too few. C63: `BfvParameters::default`. -/

namespace OnionPIR
open Rg Spec

/-! ### C62 -/

/-- C62: `generate_moduli` returns moduli exactly if for every size there are as many NTT-friendly primes as requested, and otherwise
returns `None`. Each modulus is the largest prime of its size that has not been used before it. -/
theorem c62_generate_moduli (pr : Profile) {degree : Nat} (hd : 1 ≤ degree) (hd2 : 2 * degree < 2 ^ 64) {sizes : List Nat}
    (hs : ∀ s ∈ sizes, 10 ≤ s ∧ s ≤ 62) :
    ((∃ s, (friendly degree s).ncard < sizes.count s) ∧ generateModuli pr sizes degree = .ok none) ∨
    ((∀ s, sizes.count s ≤ (friendly degree s).ncard) ∧ ∃ ms, generateModuli pr sizes degree = .ok (some ms) ∧
      ms.length = sizes.length ∧
      ∀ i s p, sizes[i]? = some s → ms[i]? = some p → IsGreatest {x | x ∈ friendly degree s ∧ x ∉ ms.take i} p) := by
  have he : ∀ s, remaining degree s [] = friendly degree s := fun s => by unfold remaining; simp
  rcases genModuliSizes_complete pr hd hd2 sizes hs [] with ⟨⟨s, h1⟩, h2⟩ | ⟨h1, ps, h2, h3, h4⟩
  · exact Or.inl ⟨⟨s, by rwa [he] at h1⟩, h2⟩
  · refine Or.inr ⟨fun s => ?_, ps, ?_, h2, fun i s p hi hp => ?_⟩
    · have := h1 s
      rwa [he] at this
    · unfold generateModuli; rw [h3, List.nil_append]
    · exact h4 i s p hi hp

/-! ### Primes for examples -/

namespace Ex

/-- Primes of 62 bits equal to 1 modulo `2^42`, each with a primitive root and the prime factors of `p - 1`. -/
def certs : List (Nat × Nat × List Nat) :=
  [(3576139579108884481, 13, [2, 3, 5, 7, 11]),
   (3765290763458445313, 10, [2, 3, 7, 13]),
   (4116571534393344001, 11, [2, 3, 5, 13]),
   (2420544062223286273, 11, [2, 3, 7, 13]),
   (2438276985756057601, 38, [2, 3, 5, 7, 11]),
   (2497386730865295361, 23, [2, 3, 5, 7, 13]),
   (2809823955014123521, 7, [2, 3, 5, 11]),
   (2973079441506304001, 3, [2, 5, 13]),
   (3413587780058480641, 26, [2, 3, 5, 7, 11]),
   (4001307531430330369, 7, [2, 3, 13]),
   (4063794976260096001, 13, [2, 3, 5, 7, 11]),
   (3169760081482874881, 29, [2, 3, 5, 7, 11, 13]),
   (3361866753087897601, 33, [2, 3, 5, 7, 13]),
   (3982519076734894081, 17, [2, 3, 5, 7, 11]),
   (4002222325104640001, 3, [2, 5, 7, 13]),
   (2705502291770736641, 3, [2, 5, 7, 13]),
   (2778685785715507201, 11, [2, 3, 5, 13]),
   (3047846232195072001, 13, [2, 3, 5, 7, 11]),
   (3129122131720273921, 13, [2, 3, 5, 7, 11]),
   (3291673930770677761, 31, [2, 3, 5, 7, 11]),
   (3294629418026139649, 19, [2, 3, 7, 13]),
   (3396171515874508801, 19, [2, 3, 5, 11, 13]),
   (3602000092594176001, 23, [2, 3, 5, 7, 13]),
   (4023157026497495041, 17, [2, 3, 5, 7, 11]),
   (4266984725073100801, 19, [2, 3, 5, 7, 11]),
   (4370426779014266881, 19, [2, 3, 5, 7, 13]),
   (2315571488096256001, 7, [2, 3, 5, 13]),
   (2607601776433561601, 3, [2, 5, 7, 11]),
   (2816209918548246529, 51, [2, 3, 7, 11]),
   (3237683511800365057, 10, [2, 3, 11, 13]),
   (4279176110001881089, 23, [2, 3, 7, 11, 13]),
   (4415022970636861441, 7, [2, 3, 5, 11, 13]),
   (2346841598790205441, 23, [2, 3, 5, 7, 11]),
   (2489074422959308801, 19, [2, 3, 5, 7, 11]),
   (2501388953190400001, 6, [2, 5, 7, 13]),
   (2763477340880109569, 3, [2, 11, 13]),
   (2787261976412160001, 7, [2, 3, 5, 13]),
   (3285578238306287617, 5, [2, 3, 7, 11]),
   (3362209800715763713, 5, [2, 3, 11, 13]),
   (3777297430433759233, 15, [2, 3, 7, 11, 13]),
   (3991570256454746113, 13, [2, 3, 7]),
   (4007719883243520001, 7, [2, 3, 5]),
   (4118286772532674561, 11, [2, 3, 5, 7, 13]),
   (2372917616554541057, 5, [2, 7, 11, 13]),
   (2428262633850273793, 5, [2, 3, 11, 13]),
   (2967876552483667969, 31, [2, 3, 11, 13]),
   (3050894078427267073, 15, [2, 3, 7, 11, 13]),
   (3235796749847101441, 68, [2, 3, 5, 7, 11, 13]),
   (3511950090279321601, 17, [2, 3, 5, 7, 13]),
   (3927565485578649601, 13, [2, 3, 5, 7]),
   (4056683335051640833, 5, [2, 3, 7, 11]),
   (4081936918118400001, 13, [2, 3, 5, 11]),
   (4160310106946273281, 34, [2, 3, 5, 7, 11, 13]),
   (4180892964618240001, 7, [2, 3, 5, 13]),
   (4302542931115376641, 29, [2, 3, 5, 7, 11])]

/-- Check of one entry. -/
def certOk (c : Nat × Nat × List Nat) : Bool :=
  decide (pw c.1 c.2.1 64 (c.1 - 1) = 1) && decide (1 < c.1) && decide (c.1 < 2 ^ 64) && decide (c.2.2.prod ^ 62 % (c.1 - 1) = 0) &&
    c.2.2.all (fun f => decide (f ∈ [2, 3, 5, 7, 11, 13]) && decide (pw c.1 c.2.1 64 ((c.1 - 1) / f) ≠ 1))

theorem certOk_prime {c : Nat × Nat × List Nat} (h : certOk c = true) : c.1.Prime := by
  unfold certOk at h
  simp only [Bool.and_eq_true, decide_eq_true_eq, List.all_eq_true] at h
  obtain ⟨⟨⟨⟨h1, h2⟩, h3⟩, h4⟩, h5⟩ := h
  refine lucas c.2.1 c.2.2 62 h1 h2 h3 (Nat.dvd_of_mod_eq_zero h4) (fun f hf => ?_) (fun f hf => (h5 f hf).2)
  have := (h5 f hf).1
  simp only [List.mem_cons, List.not_mem_nil, or_false] at this
  rcases this with rfl | rfl | rfl | rfl | rfl | rfl <;> norm_num

def primes62 : List Nat := certs.map (·.1)

theorem primes62_prime : ∀ p ∈ primes62, p.Prime := by
  intro p hp
  obtain ⟨c, hc, rfl⟩ := List.mem_map.mp hp
  have : ∀ c ∈ certs, certOk c = true := by decide +kernel
  exact certOk_prime (this c hc)

theorem primes62_nodup : primes62.Nodup := by decide +kernel

theorem primes62_mem {K : Nat} (hK : K ≤ 41) : ∀ p ∈ primes62, p ∈ friendly (2 ^ K) 62 := by
  intro p hp
  have h1 : ∀ p ∈ primes62, p % 2 ^ 42 = 1 ∧ 2 ^ 61 ≤ p ∧ p < 2 ^ 62 := by decide +kernel
  obtain ⟨h1, h2, h3⟩ := h1 p hp
  refine ⟨primes62_prime p hp, ?_, ?_⟩
  · rw [Nat.log_eq_of_pow_le_of_lt_pow (m := 61) h2 h3]
  · have : p ≡ 1 [MOD 2 ^ 42] := h1
    exact this.of_dvd (by rw [← pow_succ']; exact pow_dvd_pow 2 (by omega))

/-- There are at least 55 suitable primes of 62 bits for every degree up to `2^41`. -/
theorem friendly_card {K : Nat} (hK : K ≤ 41) : 55 ≤ (friendly (2 ^ K) 62).ncard := by
  have h1 : (primes62.toFinset : Set Nat) ⊆ friendly (2 ^ K) 62 := by
    intro p hp
    exact primes62_mem hK p (by simpa using hp)
  have h2 := Set.ncard_le_ncard h1 (friendly_finite _ _)
  rw [Set.ncard_coe_finset, List.toFinset_card_of_nodup primes62_nodup] at h2
  exact h2

end Ex

/-- C62 is not vacuous: four moduli of 62 bits for degree 64, as in the tests of the repository, are found. -/
example : ∃ ms, generateModuli .debug [62, 62, 62, 62] 64 = .ok (some ms) ∧ ms.length = 4 := by
  rcases c62_generate_moduli .debug (degree := 64) (by norm_num) (by norm_num) (sizes := [62, 62, 62, 62]) (by simp) with
    ⟨⟨s, h⟩, -⟩ | ⟨-, ms, h1, h2, -⟩
  · exfalso
    have := Ex.friendly_card (K := 6) (by norm_num)
    by_cases hs : s = 62
    · subst hs; norm_num at this h; omega
    · rw [List.count_eq_zero.mpr (by simp [hs])] at h
      omega
  · exact ⟨ms, h1, h2⟩

/-- And there is no second 10-bit prime that is 1 modulo 512, so two of them are refused. -/
example : generateModuli .release [10, 10] 256 = .ok none := by
  rcases c62_generate_moduli .release (degree := 256) (by norm_num) (by norm_num) (sizes := [10, 10]) (by simp) with
    ⟨-, h⟩ | ⟨h, -⟩
  · exact h
  · exfalso
    have h10 := h 10
    have : friendly 256 10 ⊆ {513} := by
      rintro p ⟨-, h2, h3⟩
      have l1 : 2 ^ 9 ≤ p := by
        have : Nat.log 2 p = 9 := by omega
        rw [← this]
        exact Nat.pow_log_le_self 2 (by rintro rfl; simp at this)
      have l2 : p < 2 ^ 10 := by rw [← h2]; exact Nat.lt_pow_succ_log_self (by norm_num) p
      unfold Nat.ModEq at h3
      norm_num at h3 l1 l2
      rw [Set.mem_singleton_iff]
      omega
    have := Set.ncard_le_ncard this (Set.finite_singleton _)
    rw [Set.ncard_singleton] at this
    simp at h10
    omega

/-! ### C63 -/

/-- C63: `default` can only succeed for the degrees 8, 16, 32 and 64, because its plaintext modulus 1153 is not 1 modulo `2 degree` for
any larger power of two. For every other degree it panics. -/
theorem c63_default_degrees (pr : Profile) (sample : Nat → Nat → Nat) (n : Nat) {degree : Nat} (hd : degree < 2 ^ 64)
    (bd : BitDecomposition) {P : BfvParameters} (h : BfvParameters.default pr sample n degree bd = .ok P) :
    1 ≤ n ∧ (degree = 8 ∨ degree = 16 ∨ degree = 32 ∨ degree = 64) := by
  unfold BfvParameters.default BfvParameters.new at h
  simp only [bind_eq_ok] at h
  obtain ⟨o, ho, ms, hms, ext, hext, tInvs, htInvs, q0, hq0, ptCtx, hpt, levels, hlev, map, hmap, tm, htm, op, hop, -⟩ := h
  constructor
  · by_contra hn
    have : n = 0 := by omega
    subst this
    cases ho
    cases hms
    cases hq0
  · have htp : tm.p = 1153 := by
      unfold Modulus.new at htm
      simp only [bind_eq_ok] at htm
      obtain ⟨_, -, _, -, _, -, h⟩ := htm
      cases h
      rfl
    unfold NttOperator.new at hop
    simp only [bind_eq_ok] at hop
    obtain ⟨s, hs, u, hu, -⟩ := hop
    have hst : s = true := by
      by_contra hc
      rw [rassert_fail hc] at hu
      cases hu
    subst hst
    rw [htp] at hs
    obtain ⟨K, hK3, hK62, rfl, -, hmod⟩ := NttOperator.supportsNtt_inv hd hs
    have hK : K ≤ 6 := by
      by_contra hc
      have h1 : (1153 : Nat) ≡ 1 [MOD 2 * 2 ^ K] := by
        unfold Nat.ModEq
        rw [hmod, Nat.mod_eq_of_lt]
        have : 1 ≤ 2 ^ K := Nat.one_le_two_pow
        omega
      have h2 : (1153 : Nat) ≡ 1 [MOD 2 ^ 8] := h1.of_dvd (by rw [← pow_succ']; exact pow_dvd_pow 2 (by omega))
      unfold Nat.ModEq at h2
      norm_num at h2
    interval_cases K <;> simp

/-- C63: moduli from `generate_moduli` make parameters. For every NTT-friendly plaintext modulus below 62 bits, `n` moduli of 62 bits and
then `new` succeed in both build profiles as soon as there are `2 n + 1` NTT-friendly primes of 62 bits. The sampler inside
`primitive_root` has to find a quadratic non-residue. -/
theorem c63_generate_then_new (pr : Profile) {K n t : Nat} (hK : 3 ≤ K) (hK2 : K ≤ 60) (htp : t.Prime) (ht : t < 2 ^ 61)
    (htc : t % (2 * 2 ^ K) = 1) (hn : 1 ≤ n) (hn2 : n ≤ 2 ^ 30)
    (hcard : 2 * n + 1 ≤ (friendly (2 ^ K) 62).ncard) {sample : Nat → Nat → Nat} (hs : ∀ p i, 0 < p → sample p i < p)
    (hgood : ∀ q, q.Prime → q % (2 * 2 ^ K) = 1 → ∃ i, i < 100 ∧ sample q i ^ ((q - 1) / 2) % q = q - 1) (variance : Nat)
    (bd : BitDecomposition) :
    ∃ P l, generateModuli pr (List.replicate n 62) (2 ^ K) = .ok (some l) ∧ BfvParameters.new pr sample (2 ^ K) t l variance bd = .ok P ∧
      IsParams (2 ^ K) t l variance P ∧ l.length = n ∧ l.Nodup ∧ ∀ q ∈ l, q ∈ friendly (2 ^ K) 62 := by
  have hd : 1 ≤ 2 ^ K := Nat.one_le_two_pow
  have hd2 : 2 ^ K ≤ 2 ^ 60 := Nat.pow_le_pow_right (by norm_num) hK2
  have hrep : ∀ i, i < n → (List.replicate n 62)[i]? = some 62 := fun i hi => by
    rw [List.getElem?_eq_getElem (by simpa using hi), List.getElem_replicate]
  rcases c62_generate_moduli pr hd (by omega) (sizes := List.replicate n 62) (fun s hs => by
      rw [(List.mem_replicate.mp hs).2]; norm_num) with ⟨⟨s, h1⟩, -⟩ | ⟨-, ms, h1, h2, h3⟩
  · exfalso
    rw [List.count_replicate] at h1
    split_ifs at h1 with h
    · have : 62 = s := by simpa using h
      subst this; omega
    · omega
  rw [List.length_replicate] at h2
  have hmem : ∀ q ∈ ms, q ∈ friendly (2 ^ K) 62 := by
    intro q hq
    obtain ⟨i, hi⟩ := List.mem_iff_getElem?.mp hq
    have hin : i < n := by rw [← h2]; exact (List.getElem?_eq_some_iff.mp hi).1
    exact (h3 i 62 q (hrep i hin) hi).1.1
  have hnd : ms.Nodup := by
    obtain ⟨o, g1, g2⟩ := c11_generate_moduli pr hd (by omega) (sizes := List.replicate n 62) (fun s hs => by
      rw [(List.mem_replicate.mp hs).2]; norm_num)
    rw [h1] at g1
    cases g1
    exact ((g2 ms rfl).2.1).imp fun h => h.1
  have hf : ∀ q ∈ friendly (2 ^ K) 62, q.Prime ∧ 2 ^ 61 ≤ q ∧ q < 2 ^ 62 ∧ q % (2 * 2 ^ K) = 1 := fun q hq =>
    (mem_friendly hd (by norm_num)).mp hq
  have hps : ∃ ps : List Nat, ps.Nodup ∧ ms.length + 1 ≤ ps.length ∧
      ∀ p ∈ ps, p.Prime ∧ 2 ^ 61 ≤ p ∧ p < 2 ^ 62 ∧ p % (2 * 2 ^ K) = 1 ∧ p ∉ ms := by
    have hfin := (friendly_finite (2 ^ K) 62)
    refine ⟨(hfin.toFinset \ ms.toFinset).toList, Finset.nodup_toList _, ?_, fun p hp => ?_⟩
    · rw [Finset.length_toList]
      have h4 := Finset.le_card_sdiff ms.toFinset hfin.toFinset
      have h5 := ms.toFinset_card_le
      rw [Set.ncard_eq_toFinset_card _ hfin] at hcard
      omega
    · simp only [Finset.mem_toList, Finset.mem_sdiff, Set.Finite.mem_toFinset, List.mem_toFinset] at hp
      obtain ⟨a, b, c, d⟩ := hf p hp.1
      exact ⟨a, b, c, d, hp.2⟩
  obtain ⟨P, hP, hI⟩ := c51_new_succeeds pr hK hK2 htp (ht.trans (by norm_num)) htc (l := ms) (by rintro rfl; simp at h2; omega) hnd
    (fun q hq => by obtain ⟨a, -, c, d⟩ := hf q (hmem q hq); exact ⟨a, c, d⟩)
    (fun q hq => lt_of_lt_of_le ht (hf q (hmem q hq)).2.1) (by omega) hps hs hgood variance bd
  exact ⟨P, ms, h1, hP, hI, h2, hnd, hmem⟩

/-- C63: for degrees 8 to 64 and at least one modulus, `default` succeeds in both build profiles as soon as there are `2 n + 1`
NTT-friendly primes of 62 bits, and gives parameters with `n` distinct primes of 62 bits, `t = 1153` and variance 10. The sampler inside
`primitive_root` has to find a quadratic non-residue. -/
theorem c63_default_partial (pr : Profile) {K n : Nat} (hK : 3 ≤ K) (hK2 : K ≤ 6) (hn : 1 ≤ n) (hn2 : n ≤ 2 ^ 30)
    (hcard : 2 * n + 1 ≤ (friendly (2 ^ K) 62).ncard) {sample : Nat → Nat → Nat} (hs : ∀ p i, 0 < p → sample p i < p)
    (hgood : ∀ q, q.Prime → q % (2 * 2 ^ K) = 1 → ∃ i, i < 100 ∧ sample q i ^ ((q - 1) / 2) % q = q - 1) (bd : BitDecomposition) :
    ∃ P l, BfvParameters.default pr sample n (2 ^ K) bd = .ok P ∧ IsParams (2 ^ K) 1153 l 10 P ∧ l.length = n ∧ l.Nodup ∧
      ∀ q ∈ l, q ∈ friendly (2 ^ K) 62 := by
  obtain ⟨P, l, h1, h2, h3⟩ := c63_generate_then_new pr hK (by omega) (t := 1153) (by norm_num) (by norm_num)
    (by interval_cases K <;> norm_num) hn hn2 hcard hs hgood 10 bd
  refine ⟨P, l, ?_, h3⟩
  unfold BfvParameters.default
  rw [h1, res_ok_bind]
  exact h2

/-- C63: enough primes exist for up to 27 moduli, so `default` always succeeds for those. -/
theorem c63_default_up_to_27_partial (pr : Profile) {K n : Nat} (hK : 3 ≤ K) (hK2 : K ≤ 6) (hn : 1 ≤ n) (hn2 : n ≤ 27)
    {sample : Nat → Nat → Nat} (hs : ∀ p i, 0 < p → sample p i < p)
    (hgood : ∀ q, q.Prime → q % (2 * 2 ^ K) = 1 → ∃ i, i < 100 ∧ sample q i ^ ((q - 1) / 2) % q = q - 1) (bd : BitDecomposition) :
    ∃ P l, BfvParameters.default pr sample n (2 ^ K) bd = .ok P ∧ IsParams (2 ^ K) 1153 l 10 P ∧ l.length = n ∧ l.Nodup ∧
      ∀ q ∈ l, q ∈ friendly (2 ^ K) 62 :=
  c63_default_partial pr hK hK2 hn (by omega) (by have := Ex.friendly_card (K := K) (by omega); omega) hs hgood bd

/-- The parameters of the tests in src/bfv.rs: six moduli, degree 8. -/
example : ∃ P l, BfvParameters.default .debug Ex.goodSample 6 8 ⟨4, 8⟩ = .ok P ∧ IsParams 8 1153 l 10 P ∧ l.length = 6 := by
  obtain ⟨P, l, h1, h2, h3, -⟩ := c63_default_up_to_27_partial .debug (K := 3) (n := 6) (by norm_num) (by norm_num) (by norm_num)
    (by norm_num) Ex.goodSample_lt (fun q hq hc => ⟨0, by norm_num, Ex.goodSample_good hq (by rintro rfl; norm_num at hc)⟩) ⟨4, 8⟩
  exact ⟨P, l, h1, h2, h3⟩

/-- C63 fails for the degrees used in practice: whatever the sampler and the number of moduli, degree 4096 panics. -/
theorem c63_default_panics (pr : Profile) (sample : Nat → Nat → Nat) (n : Nat) (bd : BitDecomposition) :
    ∃ e, BfvParameters.default pr sample n 4096 bd = .error e := by
  cases h : BfvParameters.default pr sample n 4096 bd with
  | error e => exact ⟨e, rfl⟩
  | ok P =>
    have := (c63_default_degrees pr sample n (by norm_num) bd h).2
    omega

/-- C63 with the count of primes discharged for two moduli and degree 64, and the converse for the result. -/
example : ∃ P l, BfvParameters.default .debug Ex.goodSample 2 64 ⟨4, 8⟩ = .ok P ∧ IsParams 64 1153 l 10 P ∧ l.length = 2 ∧
    (64 = 8 ∨ 64 = 16 ∨ 64 = 32 ∨ 64 = 64) := by
  obtain ⟨P, l, h1, h2, h3, -⟩ := c63_default_partial .debug (K := 6) (n := 2) (by norm_num) (by norm_num) (by norm_num)
    (by norm_num) (le_trans (by norm_num) (Ex.friendly_card (K := 6) (by norm_num))) Ex.goodSample_lt
    (fun q hq hc => ⟨0, by norm_num, Ex.goodSample_good hq (by rintro rfl; norm_num at hc)⟩) ⟨4, 8⟩
  exact ⟨P, l, h1, h2, h3, (c63_default_degrees .debug Ex.goodSample 2 (by norm_num) ⟨4, 8⟩ h1).2⟩

end OnionPIR
