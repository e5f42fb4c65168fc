import Verif.Props.Default
import Verif.Proofs.Seed
/-
Certificates for the primes that the parameters of the repository use (C89): Pratt certificates for primality, Fermat tests for the numbers in
between, and quadratic non-residues among the first values drawn by the generator seeded with 0.
-/
namespace OnionPIR
open Spec

/-! ### Primality -/

namespace Ex

/-- Trial division, for numbers of 16 bits. -/
def trial (n : Nat) : Bool := decide (2 ≤ n) && decide (n < 2 ^ 16) && (List.range 256).all fun d => decide (d < 2) || decide (n ≤ d) || decide (n % d ≠ 0)

theorem trial_prime {n : Nat} (h : trial n = true) : n.Prime := by
  unfold trial at h
  simp only [Bool.and_eq_true, decide_eq_true_eq, List.all_eq_true, List.mem_range, Bool.or_eq_true] at h
  obtain ⟨⟨h1, h2⟩, h3⟩ := h
  rw [Nat.prime_def_le_sqrt]
  refine ⟨h1, fun m hm hm2 hd => ?_⟩
  have h4 : m * m ≤ n := Nat.le_sqrt.mp hm2
  have h5 : m < 256 := by
    by_contra hc
    have : 256 * 256 ≤ m * m := Nat.mul_le_mul (by omega) (by omega)
    omega
  rcases h3 m h5 with (h | h) | h
  · omega
  · have : 2 * m ≤ m * m := Nat.mul_le_mul_right _ hm
    omega
  · exact h (Nat.mod_eq_zero_of_dvd hd)

/-- Check of a list of Pratt certificates: a prime, a primitive root and the prime factors of `p - 1`, each small or further on in the list. -/
def prattOk : List (Nat × Nat × List Nat) → Bool
  | [] => true
  | c :: cs => decide (pw c.1 c.2.1 64 (c.1 - 1) = 1) && decide (1 < c.1) && decide (c.1 < 2 ^ 64) && decide (c.2.2.prod ^ 62 % (c.1 - 1) = 0) &&
      c.2.2.all (fun f => (if f < 2 ^ 16 then trial f else (cs.map Prod.fst).contains f) && decide (pw c.1 c.2.1 64 ((c.1 - 1) / f) ≠ 1)) &&
      prattOk cs

theorem prattOk_prime {cs : List (Nat × Nat × List Nat)} (h : prattOk cs = true) : ∀ p ∈ cs.map Prod.fst, p.Prime := by
  induction cs with
  | nil => simp
  | cons c cs ih =>
    unfold prattOk at h
    simp only [Bool.and_eq_true, decide_eq_true_eq, List.all_eq_true] at h
    obtain ⟨⟨⟨⟨⟨h1, h2⟩, h3⟩, h4⟩, h5⟩, h6⟩ := h
    intro p hp
    rw [List.map_cons, List.mem_cons] at hp
    rcases hp with rfl | hp
    · refine lucas c.2.1 c.2.2 62 h1 h2 h3 (Nat.dvd_of_mod_eq_zero h4) (fun f hf => ?_) (fun f hf => (h5 f hf).2)
      have := (h5 f hf).1
      split_ifs at this with hc
      · exact trial_prime this
      · exact ih h6 f (by simpa using this)
    · exact ih h6 p hp

/-- Certificates for the primes below and those in them. -/
def pratt : List (Nat × Nat × List Nat) :=
  [(4611686018427387761, 3, [2, 5, 7, 1901, 8069, 536870909]),
   (536870909, 2, [2, 7, 73, 262657]),
   (262657, 5, [2, 3, 19]),
   (4611686018427387617, 3, [2, 108669961, 1326173183]),
   (1326173183, 5, [2, 11027, 60133]),
   (108669961, 17, [2, 3, 5, 7, 29, 1487]),
   (4611686018427387409, 7, [2, 3, 23, 41, 101884190933797]),
   (101884190933797, 2, [2, 3, 17, 31, 16110719629]),
   (16110719629, 2, [2, 3, 19, 70661051]),
   (70661051, 2, [2, 5, 1413221]),
   (1413221, 2, [2, 5, 19, 3719]),
   (4611686018427387329, 3, [2, 11, 13, 1877171, 268435459]),
   (268435459, 2, [2, 3, 19, 87211]),
   (87211, 13, [2, 3, 5, 17, 19]),
   (1877171, 7, [2, 5, 29, 6473]),
   (4611686018427387073, 5, [2, 3, 8006399337547547]),
   (8006399337547547, 2, [2, 13, 2676433, 115055537]),
   (115055537, 3, [2, 7190971]),
   (7190971, 10, [2, 3, 5, 239699]),
   (239699, 2, [2, 119849]),
   (119849, 3, [2, 71, 211]),
   (2676433, 15, [2, 3, 11, 37, 137]),
   (4611686018427386897, 3, [2, 288230376151711681]),
   (288230376151711681, 11, [2, 3, 5, 53, 157, 1613, 2731, 8191]),
   (4611686018427386081, 3, [2, 5, 7, 13, 316736677089793]),
   (316736677089793, 10, [2, 3, 17, 97, 241, 257, 673]),
   (4611686018427385553, 3, [2, 288230376151711597]),
   (288230376151711597, 2, [2, 3, 47, 101, 269, 367, 51253193]),
   (4611686018427385537, 5, [2, 3, 47, 101, 269, 367, 51253193]),
   (51253193, 3, [2, 139, 46091]),
   (4611686018427385393, 7, [2, 3, 11, 17, 513779636634067]),
   (513779636634067, 3, [2, 3, 11, 80761, 32129947]),
   (32129947, 5, [2, 3, 22037]),
   (80761, 11, [2, 3, 5, 673]),
   (4611686018427384977, 3, [2, 110531711, 2607671351]),
   (2607671351, 17, [2, 5, 149, 571, 613]),
   (110531711, 11, [2, 5, 541, 20431]),
   (4611686018427384881, 3, [2, 5, 151, 211, 5653, 11617, 27551]),
   (4611686018427384641, 6, [2, 5, 239, 171803, 350978981]),
   (350978981, 3, [2, 5, 11, 97, 16447]),
   (171803, 2, [2, 17, 31, 163]),
   (4611686018427382913, 3, [2, 593, 119617, 507928009]),
   (507928009, 17, [2, 3, 7, 37, 41, 1993]),
   (119617, 15, [2, 3, 7, 89]),
   (4611686018427379201, 19, [2, 3, 5, 486391, 246912443]),
   (4611686018427378049, 7, [2, 3, 17, 911, 2903, 5119, 52183]),
   (4611686018427375361, 7, [2, 3, 5, 11, 2267, 3947, 12201611]),
   (12201611, 10, [2, 5, 19, 149, 431]),
   (4611686018427373313, 3, [2, 7, 53, 11083, 47431, 92369]),
   (92369, 3, [2, 23, 251]),
   (4611686018427372289, 7, [2, 3, 3929, 1528327692329]),
   (1528327692329, 3, [2, 59, 1663, 1947073]),
   (1947073, 5, [2, 3, 10141]),
   (4611686018427372161, 6, [2, 5, 2844601, 2533135369]),
   (2533135369, 13, [2, 3, 105547307]),
   (105547307, 2, [2, 521, 101293]),
   (101293, 2, [2, 3, 23, 367]),
   (2844601, 23, [2, 3, 5, 11, 431]),
   (4611686018427370369, 17, [2, 3, 4877, 273610803689]),
   (273610803689, 3, [2, 6271, 5453891]),
   (5453891, 2, [2, 5, 13, 41953]),
   (4611686018427366401, 6, [2, 5, 180143985094819]),
   (180143985094819, 2, [2, 3, 37, 811459392319]),
   (811459392319, 6, [2, 3, 89, 127, 389, 10253]),
   (4611686018427322369, 7, [2, 3, 47, 178481, 2796203]),
   (4611686018427289601, 3, [2, 5, 5629499534213]),
   (5629499534213, 2, [2, 137, 10272809369]),
   (10272809369, 3, [2, 17, 73, 1034731]),
   (1034731, 2, [2, 3, 5, 11497]),
   (4611686018427277313, 3, [2, 1125899906842597]),
   (1125899906842597, 6, [2, 3, 6637, 40123, 352333]),
   (352333, 6, [2, 3, 9787]),
   (4611686018427228161, 13, [2, 5, 7, 32168568766931]),
   (32168568766931, 2, [2, 5, 743, 4329551651]),
   (4329551651, 2, [2, 5, 86591033]),
   (86591033, 3, [2, 11, 71, 13859]),
   (4611686018326724609, 3, [2, 47189, 2912521]),
   (2912521, 7, [2, 3, 5, 13, 1867]),
   (4611686018309947393, 5, [2, 3, 113, 810849283]),
   (4611686018232352769, 3, [2, 59, 37271580601]),
   (37271580601, 11, [2, 3, 5, 307, 202343]),
   (202343, 5, [2, 7, 97, 149]),
   (4611686018171535361, 17, [2, 3, 5, 130051, 187877]),
   (187877, 2, [2, 13, 3613]),
   (130051, 3, [2, 3, 5, 17]),
   (2305843009213689601, 11, [2, 3, 5, 486391, 246912443]),
   (246912443, 2, [2, 7, 2239, 7877]),
   (486391, 3, [2, 3, 5, 31, 523]),
   (2305843009213689089, 3, [2, 11, 13, 5693, 11059, 1000453]),
   (1000453, 2, [2, 3, 263, 317]),
   (2305843009213687297, 15, [2, 3, 337, 940783, 4734991]),
   (4734991, 3, [2, 3, 5, 13, 19, 71]),
   (940783, 5, [2, 3, 156797]),
   (156797, 2, [2, 39199]),
   (1152921504577486849, 17, [2, 3, 113, 810849283]),
   (810849283, 2, [2, 3, 19, 7112713]),
   (7112713, 5, [2, 3, 296363]),
   (296363, 5, [2, 11, 19, 709]),
   (36028797018963841, 31, [2, 3, 5, 7, 13, 17, 97, 241, 257, 673]),
   (36028797018963457, 5, [2, 3, 47, 178481, 2796203]),
   (2796203, 5, [2, 23, 89, 683]),
   (178481, 3, [2, 5, 23, 97]),
   (36028797018820609, 7, [2, 3, 23, 127479609017]),
   (127479609017, 3, [2, 61, 261228707]),
   (261228707, 2, [2, 89, 439, 3343]),
   (36028797018746881, 7, [2, 3, 5, 47, 283, 2887, 15271]),
   (1125899906840833, 5, [2, 3, 19, 77158710721]),
   (77158710721, 41, [2, 3, 5, 7, 13, 37, 73, 109]),
   (1125899906826241, 22, [2, 3, 5, 7, 13, 19, 37, 73, 109]),
   (1785857, 3, [2, 109]),
   (65537, 3, [2])]

theorem pratt_prime : ∀ p ∈ pratt.map Prod.fst, p.Prime := prattOk_prime (by decide +kernel)

/-! ### The largest primes -/

/-- The list `T` has all primes of `s` bits that are 1 modulo `2 d` and at least `B`. -/
def Top (d s B : Nat) (T : List Nat) : Prop := (∀ p ∈ T, p ∈ friendly d s ∧ B ≤ p) ∧ ∀ p ∈ friendly d s, B ≤ p → p ∈ T

/-- The numbers `c`, `c - m`, ... (`n` of them) are in `T` or fail the Fermat test. -/
def scanOk (T : List Nat) (m : Nat) : (n : Nat) → (c : Nat) → Bool
  | 0, _ => true
  | n + 1, c => (T.contains c || decide (pw c 2 64 (c - 1) ≠ 1)) && scanOk T m n (c - m)

theorem scanOk_mem {T : List Nat} {m n c : Nat} (h : scanOk T m n c = true) (hm : m % 2 = 0) (hm1 : 1 < m) (hc : c < 2 ^ 64) (hcm : c % m = 1)
    {p : Nat} (hp : p.Prime) (hpm : p % m = 1) (h1 : p ≤ c) (h2 : c < p + n * m) : p ∈ T := by
  induction n generalizing c with
  | zero => omega
  | succ n ih =>
    rw [scanOk, Bool.and_eq_true, Bool.or_eq_true, List.contains_iff_mem, decide_eq_true_eq] at h
    by_cases he : p = c
    · subst he
      rcases h.1 with h | h
      · exact h
      · exfalso
        apply h
        rw [pw_eq _ _ _ _ (by omega)]
        have hp2 : Nat.Coprime 2 p := by
          rw [Nat.coprime_two_left, Nat.odd_iff]
          have := Nat.mod_mod_of_dvd p (Nat.dvd_of_mod_eq_zero hm)
          omega
        have := (Nat.ModEq.pow_totient hp2)
        rw [Nat.totient_prime hp] at this
        rw [this, Nat.mod_eq_of_lt hp.one_lt]
    · have hd : m ∣ c - p := (Nat.modEq_iff_dvd' h1).mp (by unfold Nat.ModEq; omega)
      have hle := Nat.le_of_dvd (by omega) hd
      refine ih h.2 (by omega) ?_ (by omega) ?_
      · rw [← Nat.mod_eq_sub_mod (by omega)]
        exact hcm
      · rw [Nat.succ_mul] at h2
        omega

theorem top {T : List Nat} {d s n c B : Nat} (hd : 1 ≤ d) (hs : 10 ≤ s) (hs2 : s ≤ 62) (h : scanOk T (2 * d) n c = true) (hc : c % (2 * d) = 1)
    (hc1 : c < 2 ^ 64) (hc2 : 2 ^ s ≤ c + 2 * d) (hB : c < B + n * (2 * d))
    (hT : T.all (fun p => (pratt.map Prod.fst).contains p && decide (2 ^ (s - 1) ≤ p) && decide (p < 2 ^ s) && decide (p % (2 * d) = 1) && decide (B ≤ p)) = true) :
    Top d s B T := by
  simp only [List.all_eq_true, Bool.and_eq_true, List.contains_iff_mem, decide_eq_true_eq] at hT
  refine ⟨fun p hp => ?_, fun p hp hBp => ?_⟩
  · obtain ⟨⟨⟨⟨h1, h2⟩, h3⟩, h4⟩, h5⟩ := hT p hp
    exact ⟨(mem_friendly hd hs).mpr ⟨pratt_prime p h1, h2, h3, h4⟩, h5⟩
  · obtain ⟨h1, h2, h3, h4⟩ := (mem_friendly hd hs).mp hp
    refine scanOk_mem h (by omega) (by omega) hc1 hc h1 h4 ?_ (by omega)
    by_contra hlt
    have hd' : 2 * d ∣ p - c := (Nat.modEq_iff_dvd' (by omega)).mp (by unfold Nat.ModEq; omega)
    have := Nat.le_of_dvd (by omega) hd'
    omega

theorem Top.greatest {d s B : Nat} {T : List Nat} (h : Top d s B T) {p : Nat} {ms : List Nat} (hp : p ∈ T) (hp2 : p ∉ ms)
    (hT : ∀ x ∈ T, p < x → x ∈ ms) : IsGreatest (remaining d s ms) p := by
  refine ⟨⟨(h.1 p hp).1, hp2⟩, fun x hx => ?_⟩
  by_contra hlt
  exact hx.2 (hT x (h.2 x hx.1 (by have := (h.1 p hp).2; omega)) (by omega))

end Ex

/-- Each of `ps` is the largest prime of its size that is not in `moduli` or earlier in the list. -/
def Greedy (d : Nat) : (moduli sizes ps : List Nat) → Prop
  | _, [], [] => True
  | ms, s :: ss, p :: ps => IsGreatest (remaining d s ms) p ∧ Greedy d (ms ++ [p]) ss ps
  | _, _, _ => False

theorem genModuliSizes_greedy (pr : Profile) {degree : Nat} (hd : 1 ≤ degree) (hd2 : 2 * degree < 2 ^ 64) (sizes : List Nat)
    (hs : ∀ s ∈ sizes, 10 ≤ s ∧ s ≤ 62) (moduli ps : List Nat) (h : Greedy degree moduli sizes ps) :
    genModuliSizes pr degree sizes moduli = .ok (some (moduli ++ ps)) := by
  induction sizes generalizing moduli ps with
  | nil =>
    cases ps with
    | nil => simp [genModuliSizes]
    | cons p ps => exact h.elim
  | cons s sizes ih =>
    cases ps with
    | nil => exact h.elim
    | cons p ps =>
      obtain ⟨hg, hr⟩ := h
      have hs0 := hs s (by simp)
      have hlt : 1 ≤ 2 ^ s := Nat.one_le_two_pow
      obtain ⟨o, h1, h2⟩ := genModuliLoop_ok pr (moduli := moduli) hs0.1 hs0.2 hd hd2 (2 ^ s) (2 ^ s) le_rfl hlt le_rfl
      unfold genModuliSizes
      rw [rassert_ok ⟨hs0.2, hs0.1⟩, res_ok_bind, h1, res_ok_bind]
      rcases h2 with ⟨rfl, h⟩ | ⟨p', rfl, p1, p2, p3, p4, p5, p6⟩
      · exfalso
        obtain ⟨x1, x2, x3, x4⟩ := (mem_friendly hd hs0.1).mp hg.1.1
        exact hg.1.2 (h p x1 x2 x3 x4 x3)
      · have hp : IsGreatest (remaining degree s moduli) p' := by
          refine ⟨⟨(mem_friendly hd hs0.1).mpr ⟨p1, p2, p3, p4⟩, p5⟩, fun x hx => ?_⟩
          obtain ⟨x1, x2, x3, x4⟩ := (mem_friendly hd hs0.1).mp hx.1
          exact p6 x x1 x2 x3 x4 x3 hx.2
        obtain rfl := hp.unique hg
        dsimp only
        rw [ih (fun x hx => hs x (List.mem_cons_of_mem _ hx)) _ _ hr]
        simp

/-! ### The generator -/

namespace Ex

/-- One of the first values drawn from the generator seeded with 0 is a quadratic non-residue modulo `q`. -/
def seedOk (q : Nat) : Bool := match Rand.times (Rand.genRange q) 10 (ChaCha8.seeded 0 5) with
  | .ok (xs, _) => xs.any fun x => decide (pw q x 64 ((q - 1) / 2) = q - 1)
  | .error _ => false

theorem seedOk_good {sample : Nat → Nat → Nat} (hs : SeedZero sample) {q : Nat} (hq : q < 2 ^ 64) (h : seedOk q = true) :
    ∃ i, i < 100 ∧ sample q i ^ ((q - 1) / 2) % q = q - 1 := by
  unfold seedOk at h
  cases ht : Rand.times (Rand.genRange q) 10 (ChaCha8.seeded 0 5) with
  | error e => rw [ht] at h; cases h
  | ok y =>
    obtain ⟨xs, r⟩ := y
    rw [ht] at h
    simp only [List.any_eq_true, decide_eq_true_eq] at h
    obtain ⟨x, hx, h⟩ := h
    obtain ⟨i, hi⟩ := List.mem_iff_getElem?.mp hx
    have hl : xs.length = 10 := Rand.times_length ht
    have hi10 : i < 10 := by rw [← hl]; exact (List.getElem?_eq_some_iff.mp hi).1
    have := hs.draws q 10 5 xs r ht i hi10
    rw [hi] at this
    refine ⟨i, by omega, ?_⟩
    rw [← Option.some.inj this, ← pw_eq _ _ 64 _ (by omega), h]

end Ex
end OnionPIR
