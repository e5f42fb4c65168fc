import Verif.Proofs.Prime
import Verif.Proofs.Utils
import Mathlib.Tactic.NormNum.Prime

/-! C98: the primality test behind `is_prime` (src/utils.rs:110-112), `probably_prime(p, 0)` of the crate `num-bigint-dig`, is the Baillie–PSW
test; it accepts every prime for which its search for a Lucas parameter ends. The rest of the model uses primality itself for `is_prime`. -/

namespace OnionPIR
open Spec Prime

/-- C98: `probably_prime` returns `true` exactly for the numbers that pass the Baillie–PSW test. -/
theorem c98_baillie_psw (n : Nat) : probablyPrime n = .ok true ↔ BailliePSW n := probablyPrime_iff n

/-- C98: a number accepted by `probably_prime` is a Fermat probable prime to base 2 without prime factor up to 53, unless it is below 64. -/
theorem c98_accepted (n : Nat) (h : probablyPrime n = .ok true) :
    n.Prime ∨ (64 ≤ n ∧ n.Coprime (2 * primesA * primesB) ∧ 2 ^ (n - 1) % n = 1) := by
  rcases (c98_baillie_psw n).mp h with ⟨-, h⟩ | ⟨h1, h2, ⟨k, q, -, h3, h4⟩, -⟩
  · exact Or.inl h
  · refine Or.inr ⟨h1, ?_, ?_⟩
    · have hc : ∀ p, p.Prime → p ≤ 53 → n.Coprime p := fun p hp hp2 =>
        (Nat.coprime_comm.mp ((Nat.Prime.coprime_iff_not_dvd hp).mpr (h2 p hp hp2)))
      have e : 2 * primesA * primesB = ([2, 3, 5, 7, 11, 13, 17, 19, 23, 37, 29, 31, 41, 43, 47, 53] : List Nat).prod := by decide
      rw [e]
      refine Nat.coprime_list_prod_right_iff.mpr fun p hp => ?_
      have : p.Prime ∧ p ≤ 53 := by revert p; decide
      exact hc p this.1 this.2
    · rw [← cast_eq_one (by omega)]
      push_cast
      rw [h3, mul_comm, pow_mul]
      rcases h4 with h4 | ⟨i, i1, i2⟩
      · push_cast at h4
        rw [h4, one_pow]
      · push_cast at i2
        have hA : ((2 : ZMod n) ^ q) ^ 2 ^ i = -1 := by rw [← pow_mul, mul_comm]; exact i2
        rw [show 2 ^ k = 2 ^ i * (2 * 2 ^ (k - (i + 1))) by rw [← pow_succ', ← pow_add]; congr 1; omega, pow_mul, hA, pow_mul]
        norm_num

/-- C98: the search for a Lucas parameter finds nothing for an odd `n` exactly if every number from 1 to 10002 has Jacobi symbol 1 modulo `n`.
For a prime `n` that means that all of them are quadratic residues. -/
theorem c98_search {n : Nat} (hn : n % 2 = 1) :
    (∀ P, 3 ≤ P → P ≤ 10000 → discSym n P = 1) ↔ ∀ m : Nat, 1 ≤ m → m ≤ 10002 → jacobiSym m n = 1 := by
  have hmul : ∀ P : Nat, 2 ≤ P → discSym n P = jacobiSym ((P - 2 : Nat) : Int) n * jacobiSym ((P + 2 : Nat) : Int) n := by
    intro P hP
    rw [discSym, ← jacobiSym.mul_left, Nat.cast_sub hP]
    congr 1
    push_cast
    ring
  have h4 : jacobiSym ((4 : Nat) : Int) n = 1 := jacobiSym.at_four (Nat.odd_iff.mpr hn)
  constructor
  · intro h
    have h6 := h 6 (by norm_num) (by norm_num)
    rw [hmul 6 (by norm_num), show 6 - 2 = 4 from rfl, h4, one_mul, show ((6 + 2 : Nat) : Int) = ((4 : Nat) : Int) * ((2 : Nat) : Int) by norm_num,
      jacobiSym.mul_left, h4, one_mul] at h6
    have h3 := h 4 (by norm_num) (by norm_num)
    rw [hmul 4 (by norm_num), show 4 - 2 = 2 from rfl, h6, one_mul, show ((4 + 2 : Nat) : Int) = ((2 : Nat) : Int) * ((3 : Nat) : Int) by norm_num,
      jacobiSym.mul_left, h6, one_mul] at h3
    intro m
    induction m using Nat.strong_induction_on with
    | _ m ih =>
      intro h1 h2
      by_cases h5 : m < 5
      · interval_cases m
        · exact jacobiSym.one_left n
        · exact h6
        · exact h3
        · exact h4
      · have := h (m - 2) (by omega) (by omega)
        rw [hmul (m - 2) (by omega), ih (m - 2 - 2) (by omega) (by omega) (by omega), one_mul, show m - 2 + 2 = m by omega] at this
        exact this
  · intro h P h1 h2
    rw [hmul P (by omega), h _ (by omega) (by omega), h _ (by omega) (by omega), one_mul]

/-- C98: no prime is rejected. A prime is accepted as soon as one number up to 10002 is not a quadratic residue modulo it. -/
theorem c98_primes {n : Nat} (hn : n.Prime) (h : n ≤ 10002 ∨ ∃ m : Nat, m ≤ 10002 ∧ ¬ IsSquare (m : ZMod n)) : probablyPrime n = .ok true := by
  have := Fact.mk hn
  rw [c98_baillie_psw]
  by_cases h64 : n < 64
  · exact Or.inl ⟨h64, hn⟩
  have h64' : 64 ≤ n := by omega
  have ho : n % 2 = 1 := by rcases hn.eq_two_or_odd with h | h <;> omega
  have hex : ∃ P, 3 ≤ P ∧ P ≤ 10000 ∧ discSym n P ≠ 1 := by
    by_contra hc
    push Not at hc
    have hall := (c98_search ho).mp hc
    rcases h with h | ⟨m, m1, m2⟩
    · have := hc (n - 2) (by omega) (by omega)
      rw [disc_last h64'] at this
      omega
    · have hm0 : m ≠ 0 := by rintro rfl; exact m2 ⟨0, by simp⟩
      have := ZMod.isSquare_of_jacobiSym_eq_one (hall m (by omega) m1)
      exact m2 (by simpa using this)
  classical
  have hP := Nat.find_spec hex
  set P := Nat.find hex
  have hf : FirstParam n P := ⟨hP.1, hP.2.1, hP.2.2, fun P' a b => by
    by_contra hc
    exact Nat.find_min hex b ⟨a, by omega, hc⟩⟩
  refine Or.inr ⟨h64', fun p hp hp2 hd => ?_, strong_of_prime hn (by omega), P, hf, ?_⟩
  · have := (Nat.prime_dvd_prime_iff_eq hp hn).mp hd
    omega
  · rcases disc_tri n P with h0 | h1 | h1
    · refine Or.inr ⟨h0, ?_⟩
      -- the shared factor is `P + 2`
      have hlt := (first_lt h64' hf).1
      unfold discSym at h0
      have hg := (jacobiSym.eq_zero_iff.mp h0).2
      have hdvd : (n : Int) ∣ (P : Int) ^ 2 - 4 := by
        rw [← ZMod.intCast_zmod_eq_zero_iff_dvd]
        rw [← jacobiSym.legendreSym.to_jacobiSym, legendreSym.eq_zero_iff] at h0
        exact h0
      rw [show ((P : Int) ^ 2 - 4) = ((P : Int) - 2) * (P + 2) by ring] at hdvd
      rcases (Nat.prime_iff_prime_int.mp hn).dvd_or_dvd hdvd with hd | hd
      · have := Int.le_of_dvd (by have := hP.1; omega) hd
        omega
      · have := Int.le_of_dvd (by omega) hd
        omega
    · exact absurd h1 hP.2.2
    · exact Or.inl ⟨h1, lucas_of_prime hn h64' h1⟩

/-- C98: `is_prime` of the model is what the code computes, on the assumption that no composite number below `2^64` passes the test and that no
prime below `2^64` has only quadratic residues up to 10002. Both are results of computer searches in the literature and are not proved here. -/
theorem c98_is_prime (hbpsw : ∀ n, n < 2 ^ 64 → BailliePSW n → n.Prime)
    (hres : ∀ n : Nat, 10002 < n → n < 2 ^ 64 → n.Prime → ∃ m : Nat, m ≤ 10002 ∧ ¬ IsSquare (m : ZMod n)) {n : Nat} (hn : n < 2 ^ 64) :
    probablyPrime n = .ok true ↔ isPrime n = true := by
  have e : isPrime n = true ↔ n.Prime := by simp [isPrime]
  rw [e]
  constructor
  · intro h; exact hbpsw n hn ((c98_baillie_psw n).mp h)
  · intro h
    refine c98_primes h ?_
    by_cases h1 : n ≤ 10002
    · exact Or.inl h1
    · exact Or.inr (hres n (by omega) hn h)

theorem Prime.bind_ne_error {α β : Type} {x : Res α} {f : α → Res β} {e : Panic} (hx : x ≠ .error e) (hf : ∀ a, f a ≠ .error e) : (x >>= f) ≠ .error e := by
  cases x with
  | ok a => exact hf a
  | error e' => exact fun h => hx (by simpa using h)

theorem Prime.foldR_ne_error {α σ : Type} {f : σ → α → Res σ} {e : Panic} (hf : ∀ s a, f s a ≠ .error e) : ∀ (l : List α) (s : σ), foldR f s l ≠ .error e
  | [], s => by simp [foldR]
  | a :: l, s => by rw [foldR]; exact Prime.bind_ne_error (hf s a) fun s' => Prime.foldR_ne_error hf l s'

/-- C98: `probably_prime` terminates for every argument: the search for the Lucas parameter does not run out of the fuel of the model, and the
other loops are bounded by the size of the number. -/
theorem c98_terminates (n : Nat) : probablyPrime n ≠ .error .diverge := by
  have hj : ∀ (a : Int), jacobi a n ≠ .error .diverge := by
    intro a h
    unfold jacobi rassert at h
    split at h <;> simp at h
  have hb : ∀ a b, bigSub a b ≠ .error .diverge := by
    intro a b h
    unfold bigSub at h
    split at h <;> simp at h
  have hs : ∀ fuel p, p ≤ 10001 → 10001 < p + fuel → searchP n fuel p ≠ .error .diverge := by
    intro fuel
    induction fuel with
    | zero => intro p hp h; omega
    | succ f ih =>
      intro p hp hf
      unfold searchP
      split
      · simp
      · refine Prime.bind_ne_error (hj _) fun j => ?_
        split_ifs
        · simp
        · simp
        · simp
        · exact ih (p + 1) (by omega) (by omega)
  have hl : ∀ r v, lucasLoop n r v ≠ .error .diverge := by
    intro r
    induction r with
    | zero => intro v; simp [lucasLoop]
    | succ r ih =>
      intro v
      unfold lucasLoop
      split_ifs
      · simp
      · simp
      · exact Prime.bind_ne_error (hb _ _) fun t => ih _
  have hL : lucas n ≠ .error .diverge := by
    unfold lucas
    split_ifs
    · simp
    · simp
    · refine Prime.bind_ne_error (hs _ _ (by norm_num) (by norm_num)) fun r => ?_
      cases r with
      | result b => simp
      | param p =>
        refine Prime.bind_ne_error (Prime.foldR_ne_error (fun v i => ?_) _ _) fun v => ?_
        · unfold lucasStep
          split_ifs <;> exact Prime.bind_ne_error (hb _ _) fun t => by simp
        · dsimp only
          split_ifs
          · simp
          · exact hl _ _
  unfold probablyPrime
  simp only
  split_ifs
  all_goals first | exact hL | simp

/-! ### `generate_prime` and `generate_moduli` with this test -/

theorem Prime.alignT_eq {lz modulo : Nat} (hlz : lz < 64) : ∀ (fuel t : Nat), t < fuel → alignT lz modulo fuel t = genPrimeAlign lz modulo t := by
  intro fuel
  induction fuel with
  | zero => intro t h; omega
  | succ f ih =>
    intro t h
    unfold alignT
    rw [genPrimeAlign]
    have h0 : leadingZeros 64 t = lz → 0 < t := by
      intro h1
      rcases Nat.eq_zero_or_pos t with rfl | h2
      · simp [leadingZeros] at h1; omega
      · exact h2
    split
    · next h1 => rw [dif_pos ⟨h1.1, h1.2, h0 h1.2⟩, ih _ (by have := h0 h1.2; omega)]
    · next h1 => rw [dif_neg (fun h2 => h1 ⟨h2.1, h2.2.1⟩)]

theorem Prime.genPrimeAlign_le {lz modulo : Nat} : ∀ t, genPrimeAlign lz modulo t ≤ t := by
  intro t
  induction t using Nat.strong_induction_on with
  | _ t ih =>
    rw [genPrimeAlign]
    split
    · next h => exact (ih (t - 1) (by omega)).trans (by omega)
    · exact le_rfl

theorem Prime.genPrimeSearch_le {lz modulo : Nat} : ∀ t, genPrimeSearch lz modulo t ≤ t := by
  intro t
  induction t using Nat.strong_induction_on with
  | _ t ih =>
    rw [genPrimeSearch]
    split
    · next h => exact (ih (t - modulo) (by omega)).trans (by omega)
    · exact le_rfl

theorem Prime.genPrimeAlign_spec {lz modulo : Nat} : ∀ t, leadingZeros 64 (genPrimeAlign lz modulo t) = lz → lz < 64 → genPrimeAlign lz modulo t % modulo = 1 := by
  intro t
  induction t using Nat.strong_induction_on with
  | _ t ih =>
    rw [genPrimeAlign]
    split
    · next h => exact ih (t - 1) (by omega)
    · next h =>
      intro h1 h2
      by_contra h3
      refine h ⟨h3, h1, ?_⟩
      rcases Nat.eq_zero_or_pos t with rfl | h4
      · simp [leadingZeros] at h1; omega
      · exact h4

theorem Prime.searchT_eq {lz modulo : Nat} (hlz : lz < 64) (hm : 0 < modulo) {B : Nat}
    (hB : ∀ t, t < B → leadingZeros 64 t = lz → t % modulo = 1 → probablyPrime t = .ok (isPrime t)) :
    ∀ (fuel t : Nat), t < fuel → t < B → (leadingZeros 64 t = lz → t % modulo = 1) →
      searchT lz modulo fuel t = .ok (genPrimeSearch lz modulo t) ∧
      (leadingZeros 64 (genPrimeSearch lz modulo t) = lz → genPrimeSearch lz modulo t % modulo = 1) := by
  intro fuel
  induction fuel with
  | zero => intro t h; omega
  | succ f ih =>
    intro t h htB hmod
    unfold searchT
    rw [genPrimeSearch]
    split
    · next h1 =>
      have h0 : 0 < t := by
        rcases Nat.eq_zero_or_pos t with rfl | h2
        · simp [leadingZeros] at h1; omega
        · exact h2
      rw [hB t htB h1 (hmod h1), res_ok_bind]
      split
      · next h2 =>
        rw [dif_pos ⟨h1, h2.1, h2.2, hm, h0⟩]
        exact ih _ (by omega) (by omega) fun _ => by
          rw [← Nat.mod_eq_sub_mod h2.2]; exact hmod h1
      · next h2 =>
        rw [dif_neg (fun h3 => h2 ⟨h3.2.1, h3.2.2.1⟩)]
        exact ⟨rfl, hmod⟩
    · next h1 =>
      rw [dif_neg (fun h3 => h1 h3.1)]
      exact ⟨rfl, hmod⟩

/-- C98: if the test agrees with primality on the candidates below the bound, `generate_prime` with the test is `generate_prime` of the model. -/
theorem c98_generate_prime (pr : Profile) {nb modulo ub : Nat} (hu : 0 < ub)
    (hB : ∀ t, t < ub → leadingZeros 64 t = 64 - nb → t % modulo = 1 → probablyPrime t = .ok (isPrime t)) :
    generatePrimeT pr nb modulo ub = generatePrime pr nb modulo ub := by
  unfold generatePrimeT generatePrime
  split
  · rfl
  next h =>
  push Not at h
  congr 1
  funext _
  have hs : subW 64 pr ub 1 = .ok (ub - 1) := by unfold subW; rw [if_pos (by omega)]
  simp only [hs, res_ok_bind]
  split
  · rfl
  next hm =>
  have hlz : 64 - nb < 64 := by omega
  rw [Prime.alignT_eq hlz _ _ (by omega)]
  have hle := Prime.genPrimeAlign_le (lz := 64 - nb) (modulo := modulo) (ub - 1)
  obtain ⟨e1, e2⟩ := Prime.searchT_eq hlz (by omega : 0 < modulo) hB (genPrimeAlign (64 - nb) modulo (ub - 1) + 1) (genPrimeAlign (64 - nb) modulo (ub - 1)) (by omega) (by omega)
    (fun h => Prime.genPrimeAlign_spec _ h hlz)
  rw [e1, res_ok_bind]
  have hle2 := Prime.genPrimeSearch_le (lz := 64 - nb) (modulo := modulo) (genPrimeAlign (64 - nb) modulo (ub - 1))
  generalize genPrimeSearch (64 - nb) modulo (genPrimeAlign (64 - nb) modulo (ub - 1)) = T at *
  by_cases h1 : leadingZeros 64 T = 64 - nb
  · rw [if_pos h1, hB T (by omega) h1 (e2 h1), res_ok_bind]
    by_cases h2 : isPrime T = true
    · rw [if_pos h2, if_pos ⟨h1, h2⟩]
    · rw [if_neg h2, if_neg (fun h => h2 h.2)]
  · rw [if_neg h1, if_neg (fun h => h1 h.1)]

/-- C98: if the test agrees with primality on the candidates of the sizes asked for, `generate_moduli` with the test is `generate_moduli` of the
model. -/
theorem c98_generate_moduli (pr : Profile) {degree : Nat} (hd : 1 ≤ degree) (hd2 : 2 * degree < 2 ^ 64) (sizes : List Nat)
    (hB : ∀ s ∈ sizes, ∀ t, t < 2 ^ s → leadingZeros 64 t = 64 - s → t % (2 * degree) = 1 → probablyPrime t = .ok (isPrime t)) :
    generateModuliT pr sizes degree = generateModuli pr sizes degree := by
  have loop : ∀ (s : Nat) (moduli : List Nat), 10 ≤ s → s ≤ 62 →
      (∀ t, t < 2 ^ s → leadingZeros 64 t = 64 - s → t % (2 * degree) = 1 → probablyPrime t = .ok (isPrime t)) →
      ∀ fuel ub, 1 ≤ ub → ub ≤ 2 ^ s → genModuliLoopT pr s degree moduli fuel ub = genModuliLoop pr s degree moduli fuel ub := by
    intro s moduli h1 h2 hs fuel
    induction fuel with
    | zero => intro ub _ _; rfl
    | succ fuel ih =>
      intro ub u1 u2
      obtain ⟨o, ho, hspec⟩ := generatePrime_ok pr h1 h2 (show 2 ≤ 2 * degree by omega) u1 u2
      unfold genModuliLoopT genModuliLoop
      rw [mulW_ok hd2, res_ok_bind, res_ok_bind, c98_generate_prime pr (by omega) fun t ht => hs t (by omega), ho, res_ok_bind, res_ok_bind]
      cases o with
      | none => rfl
      | some p =>
        obtain ⟨⟨pp, -, p2, -, -⟩, -⟩ := (hspec p).mp rfl
        dsimp only
        rw [ih p pp.one_lt.le p2.le]
  have outer : ∀ (sizes moduli : List Nat),
      (∀ s ∈ sizes, ∀ t, t < 2 ^ s → leadingZeros 64 t = 64 - s → t % (2 * degree) = 1 → probablyPrime t = .ok (isPrime t)) →
      genModuliSizesT pr degree sizes moduli = genModuliSizes pr degree sizes moduli := by
    intro sizes
    induction sizes with
    | nil => intro _ _; rfl
    | cons s sizes ih =>
      intro moduli hs
      unfold genModuliSizesT genModuliSizes
      by_cases h : s ≤ 62 ∧ s ≥ 10
      · rw [rassert_ok h, res_ok_bind, res_ok_bind, loop s moduli h.2 h.1 (hs s (by simp)) _ _ Nat.one_le_two_pow le_rfl]
        congr 1
        funext o
        cases o with
        | none => rfl
        | some ms => exact ih ms fun x hx => hs x (by simp [hx])
      · rw [rassert_fail h]; rfl
  exact outer sizes [] hB

end OnionPIR
