import Verif.Proofs.Certify
import Verif.Props.Random
import Verif.Props.Tests
/-
C89: the parameters that the tests of the repository use are constructed, with these moduli and the generator of the code.
-/
namespace OnionPIR
open Rg Poly Spec
variable {N t : Nat} {l : List Nat} {variance : Nat} {P : BfvParameters}

namespace Ex

/-- The 13 largest primes of 62 bits that are 1 modulo 16. -/
def top8 : List Nat := [4611686018427387761, 4611686018427387617, 4611686018427387409, 4611686018427387329, 4611686018427387073, 4611686018427386897, 4611686018427386081, 4611686018427385553, 4611686018427385537, 4611686018427385393, 4611686018427384977, 4611686018427384881, 4611686018427384641]

theorem top8_top : Top 8 62 4611686018427384641 top8 :=
  top (n := 204) (c := 4611686018427387889) (by norm_num) (by norm_num) (by norm_num) (by decide +kernel) (by norm_num) (by norm_num) (by norm_num)
    (by norm_num) (by decide +kernel)

/-- The 9 largest primes of 62 bits that are 1 modulo 128. -/
def top64 : List Nat := [4611686018427382913, 4611686018427379201, 4611686018427378049, 4611686018427375361, 4611686018427373313, 4611686018427372289, 4611686018427372161, 4611686018427370369, 4611686018427366401]

theorem top64_top : Top 64 62 4611686018427366401 top64 :=
  top (n := 168) (c := 4611686018427387777) (by norm_num) (by norm_num) (by norm_num) (by decide +kernel) (by norm_num) (by norm_num) (by norm_num)
    (by norm_num) (by decide +kernel)

/-- The 4 largest primes of 62 bits that are 1 modulo 4096. -/
def top2048 : List Nat := [4611686018427322369, 4611686018427289601, 4611686018427277313, 4611686018427228161]

theorem top2048_top : Top 2048 62 4611686018427228161 top2048 :=
  top (n := 39) (c := 4611686018427383809) (by norm_num) (by norm_num) (by norm_num) (by decide +kernel) (by norm_num) (by norm_num) (by norm_num)
    (by norm_num) (by decide +kernel)

/-- The largest prime of 50 bits that is 1 modulo 4096. -/
def top2048_50 : List Nat := [1125899906826241]

theorem top2048_50_top : Top 2048 50 1125899906826241 top2048_50 :=
  top (n := 4) (c := 1125899906838529) (by norm_num) (by norm_num) (by norm_num) (by decide +kernel) (by norm_num) (by norm_num) (by norm_num)
    (by norm_num) (by decide +kernel)

/-- The 2 largest primes of 55 bits that are 1 modulo 4096. -/
def top2048_55 : List Nat := [36028797018820609, 36028797018746881]

theorem top2048_55_top : Top 2048 55 36028797018746881 top2048_55 :=
  top (n := 53) (c := 36028797018959873) (by norm_num) (by norm_num) (by norm_num) (by decide +kernel) (by norm_num) (by norm_num) (by norm_num)
    (by norm_num) (by decide +kernel)

/-- The largest prime of 50 bits that is 1 modulo 128. -/
def top64_50 : List Nat := [1125899906840833]

theorem top64_50_top : Top 64 50 1125899906840833 top64_50 :=
  top (n := 14) (c := 1125899906842497) (by norm_num) (by norm_num) (by norm_num) (by decide +kernel) (by norm_num) (by norm_num) (by norm_num)
    (by norm_num) (by decide +kernel)

/-- The 2 largest primes of 55 bits that are 1 modulo 128. -/
def top64_55 : List Nat := [36028797018963841, 36028797018963457]

theorem top64_55_top : Top 64 55 36028797018963457 top64_55 :=
  top (n := 4) (c := 36028797018963841) (by norm_num) (by norm_num) (by norm_num) (by decide +kernel) (by norm_num) (by norm_num) (by norm_num)
    (by norm_num) (by decide +kernel)

/-- The 3 largest primes of 61 bits that are 1 modulo 128. -/
def top64_61 : List Nat := [2305843009213689601, 2305843009213689089, 2305843009213687297]

theorem top64_61_top : Top 64 61 2305843009213687297 top64_61 :=
  top (n := 52) (c := 2305843009213693825) (by norm_num) (by norm_num) (by norm_num) (by decide +kernel) (by norm_num) (by norm_num) (by norm_num)
    (by norm_num) (by decide +kernel)

/-- The largest prime of 60 bits that is 1 modulo `2^21`. -/
def topPt : List Nat := [1152921504577486849]

theorem topPt_top : Top 1048576 60 1152921504577486849 topPt :=
  top (n := 14) (c := 1152921504604749825) (by norm_num) (by norm_num) (by norm_num) (by decide +kernel) (by norm_num) (by norm_num) (by norm_num)
    (by norm_num) (by decide +kernel)

end Ex

namespace Concrete
open Ex

/-- `generate_moduli` on sizes for which the largest primes are known. -/
theorem moduli (pr : Profile) {d : Nat} (hd : 1 ≤ d) (hd2 : 2 * d < 2 ^ 64) {sizes l : List Nat} (hs : ∀ s ∈ sizes, 10 ≤ s ∧ s ≤ 62)
    (h : Greedy d [] sizes l) : generateModuli pr sizes d = .ok (some l) := by
  unfold generateModuli
  rw [genModuliSizes_greedy pr hd hd2 sizes hs [] l h, List.nil_append]

/-- `BfvParameters::new` with the generator of the code, for moduli with certificates. -/
theorem params (pr : Profile) {sample : Nat → Nat → Nat} (hs : SeedZero sample) {K : Nat} (hK : 3 ≤ K) (hK2 : K ≤ 60) {t B : Nat} {l T : List Nat}
    (hT : Top (2 ^ K) 62 B T) (hTn : T.Nodup) (htp : t.Prime)
    (h : (decide (t < 2 ^ 62) && decide (t % (2 * 2 ^ K) = 1) && decide (l ≠ []) && decide l.Nodup &&
      l.all (fun q => (pratt.map Prod.fst).contains q && decide (t < q) && decide (q < 2 ^ 62) && decide (q % (2 * 2 ^ K) = 1)) &&
      decide (l.length ≤ 2 ^ 30) && decide (l.length + 1 ≤ (T.filter fun p => !l.contains p).length) && (t :: (l ++ T)).all seedOk) = true)
    (variance : Nat) (bd : BitDecomposition) :
    ∃ P, BfvParameters.new pr sample (2 ^ K) t l variance bd = .ok P ∧ IsParams (2 ^ K) t l variance P := by
  simp only [Bool.and_eq_true, decide_eq_true_eq, List.all_eq_true, List.contains_iff_mem, List.mem_cons, List.mem_append] at h
  obtain ⟨⟨⟨⟨⟨⟨⟨h1, h2⟩, h3⟩, h4⟩, h5⟩, h6⟩, h7⟩, h8⟩ := h
  have hp : ∀ q ∈ l, q.Prime ∧ q < 2 ^ 62 ∧ q % (2 * 2 ^ K) = 1 := fun q hq => by
    obtain ⟨⟨⟨a, -⟩, b⟩, c⟩ := h5 q hq
    exact ⟨pratt_prime q a, b, c⟩
  have htq : ∀ q ∈ l, t < q := fun q hq => (h5 q hq).1.1.2
  have hf : ∀ p ∈ T, p.Prime ∧ 2 ^ 61 ≤ p ∧ p < 2 ^ 62 ∧ p % (2 * 2 ^ K) = 1 := fun p hp =>
    (mem_friendly Nat.one_le_two_pow (by norm_num)).mp (hT.1 p hp).1
  obtain ⟨P, hP⟩ := BfvParameters.new_ok_above pr hK hK2 htp h1 h2 h3 h4 hp htq h6 (ps := T.filter fun p => !l.contains p) (hTn.filter _)
    (fun p hp => by
      rw [List.mem_filter] at hp
      obtain ⟨a, b, c, d⟩ := hf p hp.1
      exact ⟨a, b, c, d, by simpa using hp.2⟩) h7 hs.lt (B := B) (fun p hp => (hT.1 p (List.mem_filter.mp hp).1).2)
    (fun q hq hq2 hq3 => by
      rcases hq3 with rfl | hq3 | ⟨a, b, c, d⟩
      · exact seedOk_good hs (by omega) (h8 q (Or.inl rfl))
      · exact seedOk_good hs (by have := (hp q hq3).2.1; omega) (h8 q (Or.inr (Or.inl hq3)))
      · exact seedOk_good hs (by omega)
          (h8 q (Or.inr (Or.inr (hT.2 q ((mem_friendly Nat.one_le_two_pow (by norm_num)).mpr ⟨hq, a, b, hq2⟩) c))))) variance bd
  exact ⟨P, hP, Nat.pow_lt_pow_right (by norm_num) (by omega), h6, htq, pr, sample, bd, hs.lt, hP⟩

theorem params8 (pr : Profile) {sample : Nat → Nat → Nat} (hs : SeedZero sample) {n : Nat} (hn : 1 ≤ n) (hn2 : n ≤ 6) (variance : Nat)
    (bd : BitDecomposition) : generateModuli pr (List.replicate n 62) 8 = .ok (some (top8.take n)) ∧
    ∃ P, BfvParameters.new pr sample 8 1153 (top8.take n) variance bd = .ok P ∧ IsParams 8 1153 (top8.take n) variance P := by
  have hg : Greedy 8 [] (List.replicate 6 62) (top8.take 6) := ⟨(Top.greatest top8_top (by decide +kernel) (by decide +kernel) (by decide +kernel)), (Top.greatest top8_top (by decide +kernel) (by decide +kernel) (by decide +kernel)), (Top.greatest top8_top (by decide +kernel) (by decide +kernel) (by decide +kernel)), (Top.greatest top8_top (by decide +kernel) (by decide +kernel) (by decide +kernel)), (Top.greatest top8_top (by decide +kernel) (by decide +kernel) (by decide +kernel)), (Top.greatest top8_top (by decide +kernel) (by decide +kernel) (by decide +kernel)), trivial⟩
  have key : ∀ n, n ≤ 6 → Greedy 8 [] (List.replicate n 62) (top8.take n) := by
    obtain ⟨a, b, c, d, e, f, -⟩ := hg
    intro n hn
    interval_cases n
    · trivial
    · exact ⟨a, trivial⟩
    · exact ⟨a, b, trivial⟩
    · exact ⟨a, b, c, trivial⟩
    · exact ⟨a, b, c, d, trivial⟩
    · exact ⟨a, b, c, d, e, trivial⟩
    · exact ⟨a, b, c, d, e, f, trivial⟩
  refine ⟨moduli pr (by norm_num) (by norm_num) (fun s hs => by rw [(List.mem_replicate.mp hs).2]; norm_num) (key n hn2), ?_⟩
  have hc : ∀ n, 1 ≤ n → n ≤ 6 → (decide (1153 < 2 ^ 62) && decide (1153 % (2 * 2 ^ 3) = 1) && decide (top8.take n ≠ []) && decide (top8.take n).Nodup &&
      (top8.take n).all (fun q => (pratt.map Prod.fst).contains q && decide (1153 < q) && decide (q < 2 ^ 62) && decide (q % (2 * 2 ^ 3) = 1)) &&
      decide ((top8.take n).length ≤ 2 ^ 30) && decide ((top8.take n).length + 1 ≤ (top8.filter fun p => !(top8.take n).contains p).length) &&
      (1153 :: (top8.take n ++ top8)).all seedOk) = true := by
    intro n h1 h2
    interval_cases n <;> decide +kernel
  exact params pr hs (K := 3) (by norm_num) (by norm_num) top8_top (by decide +kernel) (by norm_num) (hc n hn hn2) variance bd

end Concrete

/-- C89: the generator `ChaCha8Rng::seed_from_u64(0)` determines the values that `primitive_root` draws, and `primitive_root` reading its words is
the modelled search on these values. -/
theorem c89_generator : (∃ sample, SeedZero sample) ∧ ∀ sample, SeedZero sample → ∀ {q : Nat} {m : Modulus}, Modulus.new q = .ok m →
    ∀ (pr : Profile) (n blocks : Nat), primitiveRootWords pr n m (ChaCha8.seeded 0 blocks) = .error .diverge ∨
      primitiveRootWords pr n m (ChaCha8.seeded 0 blocks) = primitiveRoot pr n m (sample q) := by
  refine ⟨exists_seedZero, fun sample hs q m hm pr n blocks => ?_⟩
  obtain ⟨-, -, rfl, hwf⟩ := Modulus.new_inv hm
  unfold primitiveRootWords primitiveRoot
  cases subW 64 pr m.p 1 with
  | error e => exact Or.inr rfl
  | ok a =>
    cases mulW 64 pr 2 n with
    | error e => exact Or.inr rfl
    | ok b =>
      simp only [res_ok_bind]
      cases divR a b with
      | error e => exact Or.inr rfl
      | ok lam =>
        refine RandP.loop_words hwf pr (n := n) (lam := lam) 100 0 fun j xs r hj => ?_
        have := hs.draws m.p (j + 1) blocks xs r hj j (by omega)
        rw [Nat.zero_add]
        rw [List.getD_eq_getElem?_getD, this]
        rfl

/-- C89: the test `construct_ntt_operator` of ntt.rs: `primitive_root` finds this 16-th root of unity, at the third draw. -/
theorem c89_construct_ntt_operator (pr : Profile) {sample : Nat → Nat → Nat} (hs : SeedZero sample) :
    ∃ m, Modulus.new 4611686018427387761 = .ok m ∧ primitiveRoot pr 8 m (sample 4611686018427387761) = .ok 2207018490928378648 := by
  obtain ⟨m, hm⟩ : ∃ m, Modulus.new 4611686018427387761 = .ok m := ⟨_, rfl⟩
  refine ⟨m, hm, ?_⟩
  have h : primitiveRootWords pr 8 m (ChaCha8.seeded 0 1) = .ok 2207018490928378648 := by
    cases hm
    cases pr <;> decide +kernel
  rcases c89_generator.2 sample hs hm pr 8 1 with h1 | h1
  · rw [h] at h1; cases h1
  · rw [← h1, h]

/-- C89: `BfvParameters::default(n, 8, _)` with one to six moduli, as in the tests of bfv.rs, ksk.rs, rgsw.rs and rq.rs, succeeds in both builds
with the generator of the code; the moduli are the `n` largest primes of 62 bits that are 1 modulo 16. -/
theorem c89_default (pr : Profile) {sample : Nat → Nat → Nat} (hs : SeedZero sample) {n : Nat} (hn : 1 ≤ n) (hn2 : n ≤ 6)
    (bd : BitDecomposition) :
    ∃ P, BfvParameters.default pr sample n 8 bd = .ok P ∧ IsParams 8 1153
      ([4611686018427387761, 4611686018427387617, 4611686018427387409, 4611686018427387329, 4611686018427387073, 4611686018427386897].take n) 10 P := by
  obtain ⟨h1, P, h2, h3⟩ := Concrete.params8 pr hs hn hn2 10 bd
  have he : Ex.top8.take n = [4611686018427387761, 4611686018427387617, 4611686018427387409, 4611686018427387329, 4611686018427387073, 4611686018427386897].take n := by
    interval_cases n <;> rfl
  rw [← he]
  refine ⟨P, ?_, h3⟩
  unfold BfvParameters.default
  rw [h1, res_ok_bind]
  exact h2

/-- C89: the parameters of `pack_and_construct_rgsw` and `query` of evaluations.rs. -/
theorem c89_degree_64 (pr : Profile) {sample : Nat → Nat → Nat} (hs : SeedZero sample) (variance : Nat) (bd : BitDecomposition) :
    generateModuli pr [62, 62, 62, 62] 64 = .ok (some [4611686018427382913, 4611686018427379201, 4611686018427378049, 4611686018427375361]) ∧
    ∃ P, BfvParameters.new pr sample 64 1785857 [4611686018427382913, 4611686018427379201, 4611686018427378049, 4611686018427375361] variance bd = .ok P ∧
      IsParams 64 1785857 [4611686018427382913, 4611686018427379201, 4611686018427378049, 4611686018427375361] variance P := by
  refine ⟨Concrete.moduli pr (by norm_num) (by norm_num) (by simp) ⟨(Ex.Top.greatest Ex.top64_top (by decide +kernel) (by decide +kernel) (by decide +kernel)), (Ex.Top.greatest Ex.top64_top (by decide +kernel) (by decide +kernel) (by decide +kernel)), (Ex.Top.greatest Ex.top64_top (by decide +kernel) (by decide +kernel) (by decide +kernel)), (Ex.Top.greatest Ex.top64_top (by decide +kernel) (by decide +kernel) (by decide +kernel)), trivial⟩, ?_⟩
  exact Concrete.params pr hs (K := 6) (by norm_num) (by norm_num) Ex.top64_top (by decide +kernel) (by norm_num) (by decide +kernel) variance bd

/-- C89: the parameters of `unpack_decomp` of evaluations.rs. -/
theorem c89_unpack_decomp (pr : Profile) {sample : Nat → Nat → Nat} (hs : SeedZero sample) (variance : Nat) (bd : BitDecomposition) :
    generateModuli pr [62, 62, 62, 62] 8 = .ok (some [4611686018427387761, 4611686018427387617, 4611686018427387409, 4611686018427387329]) ∧
    ∃ P, BfvParameters.new pr sample 8 1785857 [4611686018427387761, 4611686018427387617, 4611686018427387409, 4611686018427387329] variance bd = .ok P ∧
      IsParams 8 1785857 [4611686018427387761, 4611686018427387617, 4611686018427387409, 4611686018427387329] variance P := by
  refine ⟨Concrete.moduli pr (by norm_num) (by norm_num) (by simp) ⟨(Ex.Top.greatest Ex.top8_top (by decide +kernel) (by decide +kernel) (by decide +kernel)), (Ex.Top.greatest Ex.top8_top (by decide +kernel) (by decide +kernel) (by decide +kernel)), (Ex.Top.greatest Ex.top8_top (by decide +kernel) (by decide +kernel) (by decide +kernel)), (Ex.Top.greatest Ex.top8_top (by decide +kernel) (by decide +kernel) (by decide +kernel)), trivial⟩, ?_⟩
  exact Concrete.params pr hs (K := 3) (by norm_num) (by norm_num) Ex.top8_top (by decide +kernel) (by norm_num) (by decide +kernel) variance bd

/-- C89: the parameters of `client_encode` of evaluations.rs. -/
theorem c89_client_encode (pr : Profile) {sample : Nat → Nat → Nat} (hs : SeedZero sample) (variance : Nat) (bd : BitDecomposition) :
    generateModuli pr [50, 55, 55] 2048 = .ok (some [1125899906826241, 36028797018820609, 36028797018746881]) ∧
    ∃ P, BfvParameters.new pr sample 2048 1785857 [1125899906826241, 36028797018820609, 36028797018746881] variance bd = .ok P ∧
      IsParams 2048 1785857 [1125899906826241, 36028797018820609, 36028797018746881] variance P := by
  refine ⟨Concrete.moduli pr (by norm_num) (by norm_num) (by simp) ⟨(Ex.Top.greatest Ex.top2048_50_top (by decide +kernel) (by decide +kernel) (by decide +kernel)), (Ex.Top.greatest Ex.top2048_55_top (by decide +kernel) (by decide +kernel) (by decide +kernel)), (Ex.Top.greatest Ex.top2048_55_top (by decide +kernel) (by decide +kernel) (by decide +kernel)), trivial⟩, ?_⟩
  exact Concrete.params pr hs (K := 11) (by norm_num) (by norm_num) Ex.top2048_top (by decide +kernel) (by norm_num) (by decide +kernel) variance bd

/-- C89: the parameters of `unpack` of evaluations.rs. -/
theorem c89_unpack (pr : Profile) {sample : Nat → Nat → Nat} (hs : SeedZero sample) (variance : Nat) (bd : BitDecomposition) :
    generateModuli pr [50, 55, 55] 64 = .ok (some [1125899906840833, 36028797018963841, 36028797018963457]) ∧
    ∃ P, BfvParameters.new pr sample 64 1785857 [1125899906840833, 36028797018963841, 36028797018963457] variance bd = .ok P ∧
      IsParams 64 1785857 [1125899906840833, 36028797018963841, 36028797018963457] variance P := by
  refine ⟨Concrete.moduli pr (by norm_num) (by norm_num) (by simp) ⟨(Ex.Top.greatest Ex.top64_50_top (by decide +kernel) (by decide +kernel) (by decide +kernel)), (Ex.Top.greatest Ex.top64_55_top (by decide +kernel) (by decide +kernel) (by decide +kernel)), (Ex.Top.greatest Ex.top64_55_top (by decide +kernel) (by decide +kernel) (by decide +kernel)), trivial⟩, ?_⟩
  exact Concrete.params pr hs (K := 6) (by norm_num) (by norm_num) Ex.top64_top (by decide +kernel) (by norm_num) (by decide +kernel) variance bd

/-- C89: the parameters of `encrypt_poly` of rgsw.rs. -/
theorem c89_encrypt_poly (pr : Profile) {sample : Nat → Nat → Nat} (hs : SeedZero sample) (variance : Nat) (bd : BitDecomposition) :
    generateModuli pr [61, 61, 61] 64 = .ok (some [2305843009213689601, 2305843009213689089, 2305843009213687297]) ∧
    ∃ P, BfvParameters.new pr sample 64 1152921504577486849 [2305843009213689601, 2305843009213689089, 2305843009213687297] variance bd = .ok P ∧
      IsParams 64 1152921504577486849 [2305843009213689601, 2305843009213689089, 2305843009213687297] variance P := by
  refine ⟨Concrete.moduli pr (by norm_num) (by norm_num) (by simp) ⟨(Ex.Top.greatest Ex.top64_61_top (by decide +kernel) (by decide +kernel) (by decide +kernel)), (Ex.Top.greatest Ex.top64_61_top (by decide +kernel) (by decide +kernel) (by decide +kernel)), (Ex.Top.greatest Ex.top64_61_top (by decide +kernel) (by decide +kernel) (by decide +kernel)), trivial⟩, ?_⟩
  exact Concrete.params pr hs (K := 6) (by norm_num) (by norm_num) Ex.top64_top (by decide +kernel) (Ex.pratt_prime _ (by decide +kernel)) (by decide +kernel) variance bd

/-- C89: the plaintext modulus of `encrypt_poly` of rgsw.rs. -/
theorem c89_plaintext_modulus (pr : Profile) : generatePrime pr 60 (2 * 1048576) (2 ^ 60 - 1) = .ok (some 1152921504577486849) := by
  obtain ⟨o, h, hs⟩ := c10_generate_prime pr (nb := 60) (modulo := 2 * 1048576) (ub := 2 ^ 60 - 1) (by norm_num) (by norm_num) (by norm_num)
    (by norm_num) (by norm_num)
  rw [h, (hs 1152921504577486849).mpr ⟨⟨Ex.pratt_prime _ (by decide +kernel), by norm_num, by unfold Nat.ModEq; norm_num, by norm_num⟩, fun x hx => ?_⟩]
  obtain ⟨h1, h2, h3, h4⟩ := hx
  have hm := (mem_friendly (d := 2 ^ 20) (s := 60) (p := x) (by norm_num) (by norm_num)).mpr ⟨h1, h2.1, h2.2, by
    unfold Nat.ModEq at h3; norm_num at h3 ⊢; exact h3⟩
  by_contra hlt
  have := Ex.topPt_top.2 x (by norm_num at hm ⊢; exact hm) (by omega)
  simp only [Ex.topPt, List.mem_singleton] at this
  omega

/-- C89: the parameters of `trial` of ksk.rs. -/
theorem c89_trial (pr : Profile) {sample : Nat → Nat → Nat} (hs : SeedZero sample) (variance : Nat) (bd : BitDecomposition) :
    ∃ P, BfvParameters.new pr sample 8 1785857 [1125899906840833, 36028797018963841, 36028797018963457] variance bd = .ok P ∧
      IsParams 8 1785857 [1125899906840833, 36028797018963841, 36028797018963457] variance P :=
  Concrete.params pr hs (K := 3) (by norm_num) (by norm_num) Ex.top8_top (by decide +kernel) (by norm_num) (by decide +kernel) variance bd

/-- C89: the context of `substitute` and `mod_switch` of rq.rs. -/
theorem c89_context (pr : Profile) {sample : Nat → Nat → Nat} (hs : SeedZero sample) (bd : BitDecomposition) :
    ∃ c, RqContext.new pr sample [1153, 4611686018326724609, 4611686018309947393, 4611686018232352769, 4611686018171535361] 8 bd = .ok c ∧
      IsContext 8 [1153, 4611686018326724609, 4611686018309947393, 4611686018232352769, 4611686018171535361] c := by
  have hp : ∀ q ∈ [1153, 4611686018326724609, 4611686018309947393, 4611686018232352769, 4611686018171535361],
      q.Prime ∧ q < 2 ^ 62 ∧ q % (2 * 2 ^ 3) = 1 := by
    have h1 : ∀ q ∈ [4611686018326724609, 4611686018309947393, 4611686018232352769, 4611686018171535361], q ∈ Ex.pratt.map Prod.fst := by
      decide +kernel
    intro q hq
    have h2 : q < 2 ^ 62 ∧ q % (2 * 2 ^ 3) = 1 := by
      revert q
      decide
    rcases List.mem_cons.mp hq with rfl | hq
    · exact ⟨by norm_num, h2⟩
    · exact ⟨Ex.pratt_prime q (h1 q hq), h2⟩
  have hseed : ∀ q ∈ [1153, 4611686018326724609, 4611686018309947393, 4611686018232352769, 4611686018171535361], Ex.seedOk q = true := by
    decide +kernel
  exact c20_context_exists pr (K := 3) (by norm_num) (by norm_num) (by simp) (by decide) hp hs.lt
    (fun q hq => Ex.seedOk_good hs (by have := (hp q hq).2.1; omega) (hseed q hq)) bd

/-- C89: the operator of `process` of omr.rs. -/
theorem c89_omr_operator (pr : Profile) {sample : Nat → Nat → Nat} (hs : SeedZero sample) :
    ∃ m op, Modulus.new PvwParams.default.q = .ok m ∧ NttOperator.new pr (sample 65537) m 64 = .ok op := by
  obtain ⟨m, hm⟩ : ∃ m, Modulus.new PvwParams.default.q = .ok m := ⟨_, rfl⟩
  obtain ⟨-, -, hq, hw⟩ := Modulus.new_inv hm
  have hq : m.p = 65537 := hq
  obtain ⟨op, h⟩ := ntt_new_succeeds hw pr (K := 6) (by rw [hq]; norm_num) (by norm_num) (by rw [hq]; norm_num)
    (sample := sample 65537) (fun i => by rw [hq]; exact hs.lt 65537 i (by norm_num))
    (by rw [hq]; exact Ex.seedOk_good hs (by norm_num) (by decide +kernel))
  exact ⟨m, op, hm, h⟩

example : ∃ (sample : Nat → Nat → Nat) (P : BfvParameters), SeedZero sample ∧ BfvParameters.default .debug sample 6 8 ⟨4, 8⟩ = .ok P := by
  obtain ⟨sample, hs⟩ := c89_generator.1
  obtain ⟨P, h, -⟩ := c89_default .debug hs (n := 6) (by norm_num) (by norm_num) ⟨4, 8⟩
  exact ⟨sample, P, hs, h⟩

/-- C89: so all theorems about the tests (C71) apply to the parameters of the tests, in both builds: each is constructed with the generator of
the code, and is of the size required there. The sampler finds a non-residue modulo 1153, as `galois_key` and `external_product` require. -/
theorem c89_test_params (pr : Profile) {sample : Nat → Nat → Nat} (hs : SeedZero sample) (bd : BitDecomposition) :
    (∀ n, 2 ≤ n → n ≤ 6 → ∃ P, BfvParameters.default pr sample n 8 bd = .ok P ∧ ∃ l, TestParams 8 1153 l P ∧ l.length = n ∧ ∀ q ∈ l, 2 ^ 61 ≤ q ∧ q < 2 ^ 62) ∧
    (∃ P l, generateModuli pr [62, 62, 62, 62] 64 = .ok (some l) ∧ BfvParameters.new pr sample 64 1785857 l 10 bd = .ok P ∧ TestParams 64 1785857 l P ∧
      l.length = 4 ∧ ∀ q ∈ l, 2 ^ 61 ≤ q ∧ q < 2 ^ 62) ∧
    (∃ P l, generateModuli pr [62, 62, 62, 62] 8 = .ok (some l) ∧ BfvParameters.new pr sample 8 1785857 l 10 bd = .ok P ∧ TestParams 8 1785857 l P) ∧
    (∃ P l, generateModuli pr [50, 55, 55] 2048 = .ok (some l) ∧ BfvParameters.new pr sample 2048 1785857 l 10 bd = .ok P ∧ TestParams 2048 1785857 l P) ∧
    (∃ P l, generateModuli pr [50, 55, 55] 64 = .ok (some l) ∧ BfvParameters.new pr sample 64 1785857 l 10 bd = .ok P ∧ TestParams 64 1785857 l P) ∧
    (∃ P, BfvParameters.new pr sample 8 1785857 [1125899906840833, 36028797018963841, 36028797018963457] 10 bd = .ok P ∧
      TestParams 8 1785857 [1125899906840833, 36028797018963841, 36028797018963457] P) ∧
    ∃ i, i < 100 ∧ sample 1153 i ^ ((1153 - 1) / 2) % 1153 = 1153 - 1 := by
  refine ⟨fun n h1 h2 => ?_, ?_, ?_, ?_, ?_, ?_, Ex.seedOk_good hs (by norm_num) (by decide +kernel)⟩
  · obtain ⟨P, h3, -⟩ := c89_default pr hs (n := n) (by omega) h2 bd
    exact ⟨P, h3, c71_default hs.lt h1 (by omega) (by norm_num) h3⟩
  · obtain ⟨h1, P, h2, h3⟩ := c89_degree_64 pr hs 10 bd
    exact ⟨P, _, h1, h2, .of_62 h3 (by norm_num) (by norm_num) (by simp) (by simp) (by decide), by simp, by decide⟩
  · obtain ⟨h1, P, h2, h3⟩ := c89_unpack_decomp pr hs 10 bd
    exact ⟨P, _, h1, h2, .of_62 h3 (by norm_num) (by norm_num) (by simp) (by simp) (by decide)⟩
  · obtain ⟨h1, P, h2, h3⟩ := c89_client_encode pr hs 10 bd
    exact ⟨P, _, h1, h2, h3, by norm_num, by norm_num, by simp, by simp, by decide, by norm_num⟩
  · obtain ⟨h1, P, h2, h3⟩ := c89_unpack pr hs 10 bd
    exact ⟨P, _, h1, h2, h3, by norm_num, by norm_num, by simp, by simp, by decide, by norm_num⟩
  · obtain ⟨P, h2, h3⟩ := c89_trial pr hs 10 bd
    exact ⟨P, h2, h3, by norm_num, by norm_num, by simp, by simp, by decide, by norm_num⟩

end OnionPIR
