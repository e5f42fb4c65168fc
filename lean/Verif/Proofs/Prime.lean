import Verif.Model.Prime
import Verif.Spec.Prime
import Verif.Proofs.Machine
import Mathlib.Algebra.QuadraticAlgebra.Basic
import Mathlib.FieldTheory.Finite.Basic
import Mathlib.Tactic.LinearCombination
import Mathlib.Tactic.IntervalCases

/-! Lemmas for C98: the functions of Model/Prime compute the Baillie–PSW test. -/

namespace OnionPIR.Prime
open Spec

theorem twos_spec {n : Nat} (hn : 0 < n) : ∀ {fuel : Nat}, n < 2 ^ fuel → n = 2 ^ twos fuel n * (n >>> twos fuel n) ∧ (n >>> twos fuel n) % 2 = 1 := by
  intro fuel
  induction fuel generalizing n with
  | zero => intro h; simp at h; omega
  | succ f ih =>
    intro h
    unfold twos
    split
    · obtain ⟨h1, h2⟩ := ih (n := n / 2) (by omega) (by rw [pow_succ] at h; omega)
      have e : n >>> (twos f (n / 2) + 1) = (n / 2) >>> twos f (n / 2) := by
        rw [Nat.shiftRight_eq_div_pow, Nat.shiftRight_eq_div_pow, pow_succ', Nat.div_div_eq_div_mul]
      rw [e]
      refine ⟨?_, h2⟩
      rw [pow_succ, mul_right_comm, ← h1]; omega
    · simp; omega

theorem lt_log2 (n : Nat) : n < 2 ^ (n.log2 + 1) := Nat.lt_log2_self

theorem modpow_eq {n : Nat} : ∀ {fuel b e : Nat}, e < 2 ^ fuel → modpow fuel b e n = b ^ e % n := by
  intro fuel
  induction fuel with
  | zero => intro b e h; simp at h; subst h; simp [modpow]
  | succ f ih =>
    intro b e h
    unfold modpow
    split
    · next h0 => subst h0; simp
    · have h1 := ih (b := b * b % n) (e := e / 2) (by rw [pow_succ] at h; omega)
      have h2 : (b * b % n) ^ (e / 2) % n = b ^ (2 * (e / 2)) % n := by rw [← Nat.pow_mod, pow_mul, pow_two]
      simp only [h1, h2]
      split
      · next h3 =>
        rw [Nat.mod_mul_mod, ← pow_succ, show 2 * (e / 2) + 1 = e by omega]
      · rw [show 2 * (e / 2) = e by omega]

theorem even_step {b : Nat} (hb : b % 2 = 1) : ∀ (s c : Nat),
    jacobiSym ((2 ^ s * c : Nat) : Int) b = if s % 2 ≠ 0 ∧ (b % 8 = 3 ∨ b % 8 = 5) then -jacobiSym (c : Int) b else jacobiSym (c : Int) b := by
  intro s
  induction s with
  | zero => intro c; simp
  | succ s ih =>
    intro c
    have h1 := jacobiSym.even_odd (a := ((2 ^ (s + 1) * c : Nat) : Int)) (b := b) (by push_cast; rw [pow_succ', mul_assoc]; omega) hb
    have h2 : ((2 ^ (s + 1) * c : Nat) : Int) / 2 = ((2 ^ s * c : Nat) : Int) := by
      push_cast; rw [pow_succ', mul_assoc]; omega
    rw [h2, ih c] at h1
    rw [← h1]
    by_cases h8 : b % 8 = 3 ∨ b % 8 = 5
    · rcases Nat.mod_two_eq_zero_or_one s with h | h
      · rw [if_pos h8, if_neg (by omega), if_pos (by omega)]
      · rw [if_pos h8, if_pos (by omega), if_neg (by omega), neg_neg]
    · rw [if_neg h8, if_neg (by tauto), if_neg (by tauto)]

theorem jacobiLoop_eq : ∀ {fuel : Nat} {a : Int} {b : Nat} {j : Int}, b % 2 = 1 → b < fuel → jacobiLoop fuel a b j = j * jacobiSym a b := by
  intro fuel
  induction fuel with
  | zero => intro a b j hb h; omega
  | succ f ih =>
    intro a b j hb h
    unfold jacobiLoop
    split
    · next h1 => subst h1; simp
    next h1 =>
    have hb1 : 1 < b := by omega
    split
    · next h2 => subst h2; simp [jacobiSym.zero_left hb1]
    next h2 =>
    have hm : 0 ≤ a % (b : Int) := Int.emod_nonneg _ (by omega)
    have hm2 : a % (b : Int) < b := Int.emod_lt_of_pos _ (by omega)
    obtain ⟨A, hA⟩ : ∃ A, (a % (b : Int)).toNat = A := ⟨_, rfl⟩
    have hA' : a % (b : Int) = A := by omega
    rw [jacobiSym.mod_left, hA']
    simp only [Int.toNat_natCast]
    split
    · next h3 => subst h3; simp [jacobiSym.zero_left hb1]
    next h3 =>
    obtain ⟨e1, e2⟩ := twos_spec (n := A) (by omega) (lt_log2 A)
    have hcA : A >>> twos (A.log2 + 1) A ≤ A := by rw [Nat.shiftRight_eq_div_pow]; exact Nat.div_le_self _ _
    rw [ih (a := (b : Int)) e2 (by omega)]
    have e3 := even_step hb (twos (A.log2 + 1) A) (A >>> twos (A.log2 + 1) A)
    rw [← e1] at e3
    rw [e3, ← jacobiSym.quadratic_reciprocity_if e2 hb]
    split_ifs <;> first | ring1 | (exfalso; tauto)

theorem jacobi_eq {n : Nat} (hn : n % 2 = 1) (a : Int) : jacobi a n = .ok (jacobiSym a n) := by
  unfold jacobi
  rw [rassert_ok hn, res_ok_bind, jacobiLoop_eq hn (by omega), one_mul]

/-! ### Strong Fermat test -/

theorem odd_part_unique : ∀ {k k' q q' : Nat}, q % 2 = 1 → q' % 2 = 1 → 2 ^ k * q = 2 ^ k' * q' → k = k' ∧ q = q' := by
  intro k
  induction k with
  | zero =>
    intro k' q q' h1 h2 h
    cases k' with
    | zero => simpa using h
    | succ k' => rw [pow_succ', mul_assoc, pow_zero, one_mul] at h; omega
  | succ k ih =>
    intro k' q q' h1 h2 h
    cases k' with
    | zero => rw [pow_succ', mul_assoc, pow_zero, one_mul] at h; omega
    | succ k' =>
      rw [pow_succ', pow_succ', mul_assoc, mul_assoc] at h
      obtain ⟨e1, e2⟩ := ih (k' := k') h1 h2 (by omega)
      exact ⟨by omega, e2⟩

theorem millerRabinLoop_iff {n : Nat} (hn : 2 < n) : ∀ (k y : Nat), millerRabinLoop n k y = true ↔ ∃ i, 1 ≤ i ∧ i ≤ k ∧ y ^ 2 ^ i % n = n - 1 := by
  intro k
  induction k with
  | zero => intro y; simp only [millerRabinLoop]; constructor
            · intro h; simp at h
            · rintro ⟨i, h1, h2, -⟩; omega
  | succ k ih =>
    intro y
    unfold millerRabinLoop
    have h2 : modpow 2 y 2 n = y ^ 2 % n := modpow_eq (by norm_num)
    have hs : ∀ i, (y ^ 2 % n) ^ 2 ^ i % n = y ^ 2 ^ (i + 1) % n := fun i => by
      rw [← Nat.pow_mod, ← pow_mul, pow_succ' 2 i]
    simp only [h2]
    split
    · next h => simp only [true_iff]; exact ⟨1, by omega, by omega, by simpa using h⟩
    next h =>
    split
    · next h1 =>
      simp only [Bool.false_eq_true, false_iff]
      rintro ⟨i, i1, i2, i3⟩
      obtain ⟨i, rfl⟩ : ∃ i', i = i' + 1 := ⟨i - 1, by omega⟩
      rw [← hs, h1, one_pow, Nat.mod_eq_of_lt (by omega)] at i3
      omega
    · rw [ih]
      constructor
      · rintro ⟨i, i1, i2, i3⟩
        exact ⟨i + 1, by omega, by omega, by rw [← hs]; exact i3⟩
      · rintro ⟨i, i1, i2, i3⟩
        obtain ⟨i, rfl⟩ : ∃ i', i = i' + 1 := ⟨i - 1, by omega⟩
        rcases Nat.eq_zero_or_pos i with rfl | hi
        · exact absurd (by simpa using i3) h
        · exact ⟨i, hi, by omega, by rw [hs]; exact i3⟩

theorem cast_eq_one {n : Nat} (hn : 2 < n) (a : Nat) : (a : ZMod n) = 1 ↔ a % n = 1 := by
  have := ZMod.natCast_eq_natCast_iff' a 1 n
  rw [Nat.mod_eq_of_lt (by omega : 1 < n)] at this
  simpa using this

theorem cast_pred {n : Nat} (hn : 0 < n) : ((n - 1 : Nat) : ZMod n) = -1 := by
  rw [Nat.cast_sub (by omega)]; simp

theorem cast_eq_neg_one {n : Nat} (hn : 2 < n) (a : Nat) : (a : ZMod n) = -1 ↔ a % n = n - 1 := by
  have := ZMod.natCast_eq_natCast_iff' a (n - 1) n
  rw [Nat.mod_eq_of_lt (by omega : n - 1 < n), cast_pred (by omega)] at this
  exact this

theorem millerRabin_iff {n : Nat} (hn : 2 < n) (ho : n % 2 = 1) : millerRabin n = true ↔ StrongProbablePrime 2 n := by
  obtain ⟨e1, e2⟩ := twos_spec (n := n - 1) (by omega) (lt_log2 _)
  unfold millerRabin
  set k := twos ((n - 1).log2 + 1) (n - 1) with hk
  set q := (n - 1) >>> k with hq
  have hk0 : k ≠ 0 := by
    intro h0
    rw [h0, pow_zero, one_mul] at e1
    omega
  have hm : modpow (q.log2 + 1) 2 q n = 2 ^ q % n := modpow_eq (lt_log2 q)
  have key : millerRabin n = true ↔ (2 ^ q % n = 1 ∨ ∃ i, i < k ∧ 2 ^ (2 ^ i * q) % n = n - 1) := by
    have hp : ∀ i, (2 ^ q % n) ^ 2 ^ i % n = 2 ^ (2 ^ i * q) % n := fun i => by
      rw [← Nat.pow_mod, ← pow_mul, mul_comm]
    unfold millerRabin
    simp only [← hk, ← hq, hm]
    split
    · next h =>
      simp only [true_iff]
      rcases h with h | h
      · exact Or.inl h
      · exact Or.inr ⟨0, by omega, by simpa using h⟩
    · next h =>
      rw [millerRabinLoop_iff hn]
      push Not at h
      constructor
      · rintro ⟨i, i1, i2, i3⟩
        exact Or.inr ⟨i, by omega, by rw [← hp]; exact i3⟩
      · rintro (h1 | ⟨i, i1, i2⟩)
        · exact absurd h1 h.1
        · rcases Nat.eq_zero_or_pos i with rfl | hi
          · exact absurd (by simpa using i2) h.2
          · exact ⟨i, hi, by omega, by rw [hp]; exact i2⟩
  have hc1 : ∀ e : Nat, ((2 : Nat) : ZMod n) ^ e = 1 ↔ 2 ^ e % n = 1 := fun e => by
    rw [← Nat.cast_pow, cast_eq_one hn]
  have hc2 : ∀ e : Nat, ((2 : Nat) : ZMod n) ^ e = -1 ↔ 2 ^ e % n = n - 1 := fun e => by
    rw [← Nat.cast_pow, cast_eq_neg_one hn]
  unfold millerRabin at key
  simp only [← hk, ← hq] at key
  rw [key]
  unfold StrongProbablePrime
  simp only [hc1, hc2]
  constructor
  · intro h
    exact ⟨k, q, Nat.odd_iff.mpr e2, e1, h⟩
  · rintro ⟨k', q', h1, h2, h3⟩
    obtain ⟨rfl, rfl⟩ := odd_part_unique e2 (Nat.odd_iff.mp h1) (e1.symm.trans h2)
    exact h3

/-! ### Lucas sequences -/

section Lucas
variable {R : Type*} [CommRing R]

/-- `ω^k + (P - ω)^k` for a root `ω` of `x² - P x + 1`. -/
theorem lucasV_eq {P w : R} (hw : w * w = P * w - 1) : ∀ k, lucasV P k = w ^ k + (P - w) ^ k ∧ lucasV P (k + 1) = w ^ (k + 1) + (P - w) ^ (k + 1) := by
  intro k
  induction k with
  | zero => simp [lucasV]; norm_num
  | succ k ih =>
    refine ⟨ih.2, ?_⟩
    rw [lucasV, ih.1, ih.2]
    linear_combination (-w ^ k - (P - w) ^ k) * hw

theorem lucasV_map {S : Type*} [CommRing S] (f : R →+* S) (P : R) : ∀ k, f (lucasV P k) = lucasV (f P) k ∧ f (lucasV P (k + 1)) = lucasV (f P) (k + 1) := by
  intro k
  induction k with
  | zero => simp [lucasV, map_ofNat]
  | succ k ih => exact ⟨ih.2, by rw [lucasV, lucasV]; simp [ih.1, ih.2]⟩

theorem omega_root (P : R) : (QuadraticAlgebra.omega : QuadraticAlgebra R (-1) P) * QuadraticAlgebra.omega =
    algebraMap R _ P * QuadraticAlgebra.omega - 1 := by
  ext <;> simp [QuadraticAlgebra.re_one, QuadraticAlgebra.im_one]

theorem lucasV_alg (P : R) (k : Nat) : algebraMap R (QuadraticAlgebra R (-1) P) (lucasV P k) =
    QuadraticAlgebra.omega ^ k + (algebraMap R _ P - QuadraticAlgebra.omega) ^ k := by
  rw [(lucasV_map (algebraMap R (QuadraticAlgebra R (-1) P)) P k).1, (lucasV_eq (omega_root P) k).1]

theorem alg_inj (P : R) : Function.Injective (algebraMap R (QuadraticAlgebra R (-1) P)) := fun a b h => by
  have := congrArg QuadraticAlgebra.re h
  simpa using this

theorem omega_inv (P : R) : (QuadraticAlgebra.omega : QuadraticAlgebra R (-1) P) * (algebraMap R _ P - QuadraticAlgebra.omega) = 1 := by
  linear_combination -(omega_root P)

theorem lucasV_double (P : R) (k : Nat) : lucasV P (2 * k) = lucasV P k ^ 2 - 2 := by
  apply alg_inj P
  have h : ((QuadraticAlgebra.omega : QuadraticAlgebra R (-1) P) * (algebraMap R _ P - QuadraticAlgebra.omega)) ^ k = 1 := by rw [omega_inv, one_pow]
  rw [mul_pow] at h
  rw [map_sub, map_pow, lucasV_alg, lucasV_alg, map_ofNat, pow_mul', pow_mul']
  linear_combination -2 * h

theorem lucasV_double_succ (P : R) (k : Nat) : lucasV P (2 * k + 1) = lucasV P k * lucasV P (k + 1) - P := by
  apply alg_inj P
  have h : ((QuadraticAlgebra.omega : QuadraticAlgebra R (-1) P) * (algebraMap R _ P - QuadraticAlgebra.omega)) ^ k = 1 := by rw [omega_inv, one_pow]
  rw [mul_pow] at h
  rw [map_sub, map_mul, lucasV_alg, lucasV_alg, lucasV_alg, pow_succ, pow_mul', pow_succ (_ - _) (2 * k), pow_mul', pow_succ, pow_succ]
  linear_combination -(algebraMap R (QuadraticAlgebra R (-1) P) P) * h

theorem lucasU_eq (P : R) : ∀ k, 2 * lucasV P (k + 1) = P * lucasV P k + (P ^ 2 - 4) * lucasU P k ∧
    2 * lucasV P (k + 2) = P * lucasV P (k + 1) + (P ^ 2 - 4) * lucasU P (k + 1) := by
  intro k
  induction k with
  | zero => simp [lucasV, lucasU]; constructor <;> ring
  | succ k ih =>
    refine ⟨ih.2, ?_⟩
    have e1 : lucasV P (k + 3) = P * lucasV P (k + 2) - lucasV P (k + 1) := rfl
    have e2 : lucasU P (k + 2) = P * lucasU P (k + 1) - lucasU P k := rfl
    rw [e1, e2]
    have e3 : lucasV P (k + 2) = P * lucasV P (k + 1) - lucasV P k := rfl
    linear_combination P * ih.2 - ih.1 - P * e3

theorem lucasV_iterate (P : R) (s : Nat) : ∀ i, lucasV P (2 ^ i * s) = (fun x => x ^ 2 - 2)^[i] (lucasV P s) := by
  intro i
  induction i with
  | zero => simp
  | succ i ih => rw [Function.iterate_succ_apply', ← ih, ← lucasV_double, pow_succ', mul_assoc]

end Lucas

/-! ### The Lucas test -/

theorem disc_eq {n P : Nat} (hP : 2 ≤ P) (hn : n % 2 = 1) : jacobi ((P * P - 4 : Nat) : Int) n = .ok (discSym n P) := by
  rw [jacobi_eq hn, discSym, Nat.cast_sub (by nlinarith)]
  push_cast
  rw [pow_two]

theorem disc_sq {m P : Nat} : discSym (m * m) P ≠ -1 := by
  unfold discSym
  rw [← pow_two, jacobiSym.pow_right]
  have := sq_nonneg (jacobiSym ((P : Int) ^ 2 - 4) m)
  omega

theorem disc_tri (n P : Nat) : discSym n P = 0 ∨ discSym n P = 1 ∨ discSym n P = -1 := jacobiSym.trichotomy _ _

theorem searchP_ok {n : Nat} (hn : n % 2 = 1) : ∀ (fuel p : Nat) (r : Found), 3 ≤ p → searchP n fuel p = .ok r →
    ∃ P, p ≤ P ∧ P ≤ 10000 ∧ (∀ P', p ≤ P' → P' < P → discSym n P' = 1) ∧
      ((discSym n P = -1 ∧ r = .param P) ∨ (discSym n P = 0 ∧ r = .result (decide (n = P + 2))) ∨ r = .result false) := by
  intro fuel
  induction fuel with
  | zero => intro p r _ h; simp [searchP] at h
  | succ f ih =>
    intro p r hp h
    unfold searchP at h
    split at h
    · simp at h
    rw [disc_eq (by omega) hn, res_ok_bind] at h
    split at h
    · next h1 h2 => exact ⟨p, le_rfl, by omega, by omega, Or.inl ⟨h2, (Except.ok.inj h).symm⟩⟩
    split at h
    · next h1 h2 h3 => exact ⟨p, le_rfl, by omega, by omega, Or.inr (Or.inl ⟨h3, (Except.ok.inj h).symm⟩)⟩
    split at h
    · exact ⟨p, le_rfl, by omega, by omega, Or.inr (Or.inr (Except.ok.inj h).symm)⟩
    · next h1 h2 h3 h4 =>
      obtain ⟨P, p1, p2, p3, p4⟩ := ih (p + 1) r (by omega) h
      refine ⟨P, by omega, p2, fun P' h5 h6 => ?_, p4⟩
      rcases Nat.eq_or_lt_of_le h5 with rfl | h5
      · have := disc_tri n p; tauto
      · exact p3 P' (by omega) h6

theorem searchP_first {n : Nat} (hn : n % 2 = 1) {P : Nat} (hP : P ≤ 10000) (hd : discSym n P ≠ 1) (hs : P ≤ 40 ∨ n.sqrt * n.sqrt ≠ n) :
    ∀ (fuel p : Nat), 3 ≤ p → p ≤ P → P - p < fuel → (∀ P', p ≤ P' → P' < P → discSym n P' = 1) →
    searchP n fuel p = .ok (if discSym n P = -1 then .param P else .result (decide (n = P + 2))) := by
  intro fuel
  induction fuel with
  | zero => intro p _ _ h; omega
  | succ f ih =>
    intro p hp hpP hf h
    unfold searchP
    rw [if_neg (by omega), disc_eq (by omega) hn, res_ok_bind]
    rcases Nat.eq_or_lt_of_le hpP with rfl | hlt
    · split
      · rfl
      · next h1 =>
        have := disc_tri n p
        rw [if_pos (by tauto)]
    · have h1 := h p le_rfl hlt
      rw [h1, if_neg (by norm_num), if_neg (by norm_num), if_neg (by omega)]
      exact ih (p + 1) (by omega) hlt (by omega) (fun P' a b => h P' (by omega) b)

theorem disc_last {n : Nat} (hn : 64 ≤ n) : discSym n (n - 2) = 0 := by
  unfold discSym
  rw [jacobiSym.mod_left, show (((n - 2 : Nat) : Int) ^ 2 - 4) = n * ((n : Int) - 4) by rw [Nat.cast_sub (by omega)]; push_cast; ring,
    Int.mul_emod_right, jacobiSym.zero_left (by omega)]

theorem first_lt {n P : Nat} (hn : 64 ≤ n) (h : FirstParam n P) : P + 2 ≤ n ∧ (discSym n P = -1 → P + 2 < n) := by
  have h1 := disc_last hn
  obtain ⟨h2, h3, h4, h5⟩ := h
  have h6 : P ≤ n - 2 := by
    by_contra hc
    have := h5 (n - 2) (by omega) (by omega)
    omega
  refine ⟨by omega, fun h7 => ?_⟩
  rcases Nat.eq_or_lt_of_le h6 with rfl | h6 <;> omega

theorem bigSub_ok {a b : Nat} (h : b ≤ a) : bigSub a b = .ok (a - b) := if_pos h

theorem lucasStep_ok {n p s : Nat} (hn : 2 ≤ n) (hp : p ≤ n) {v1 v2 k : Nat} (i : Nat) (h1 : (v1 : ZMod n) = lucasV (p : ZMod n) k)
    (h2 : (v2 : ZMod n) = lucasV (p : ZMod n) (k + 1)) :
    ∃ w1 w2, lucasStep n p s (v1, v2) i = .ok (w1, w2) ∧ w1 < n ∧ w2 < n ∧
      (w1 : ZMod n) = lucasV (p : ZMod n) (2 * k + (s.testBit i).toNat) ∧ (w2 : ZMod n) = lucasV (p : ZMod n) (2 * k + (s.testBit i).toNat + 1) := by
  have hlt : ∀ x, x % n < n := fun x => Nat.mod_lt _ (by omega)
  have c1 : ((v1 * v2 + n - p : Nat) : ZMod n) = lucasV (p : ZMod n) (2 * k + 1) := by
    rw [lucasV_double_succ, Nat.cast_sub (by omega), ← h1, ← h2]; push_cast; simp
  have c2 : ∀ {v k : Nat}, (v : ZMod n) = lucasV (p : ZMod n) k → ((v * v + (n - 2) : Nat) : ZMod n) = lucasV (p : ZMod n) (2 * k) := by
    intro v k h
    rw [lucasV_double, ← h, Nat.cast_add, Nat.cast_sub (by omega)]; push_cast; simp; ring
  unfold lucasStep
  rw [bigSub_ok (by omega)]
  simp only [res_ok_bind]
  split
  · next h =>
    refine ⟨_, _, rfl, hlt _, hlt _, ?_, ?_⟩
    · rw [ZMod.natCast_mod, h]; exact c1
    · rw [ZMod.natCast_mod, h]; exact c2 h2
  · next h =>
    rw [Bool.not_eq_true] at h
    refine ⟨_, _, rfl, hlt _, hlt _, ?_, ?_⟩
    · rw [ZMod.natCast_mod, h]; exact c2 h1
    · rw [ZMod.natCast_mod, h]; exact c1

theorem lucasFold_ok {n p s : Nat} (hn : 2 ≤ n) (hp : p ≤ n) : ∀ (L : Nat) {v1 v2 : Nat}, v1 < n → v2 < n →
    (v1 : ZMod n) = lucasV (p : ZMod n) (s / 2 ^ L) → (v2 : ZMod n) = lucasV (p : ZMod n) (s / 2 ^ L + 1) →
    ∃ w1 w2, foldR (lucasStep n p s) (v1, v2) (List.range L).reverse = .ok (w1, w2) ∧ w1 < n ∧ w2 < n ∧
      (w1 : ZMod n) = lucasV (p : ZMod n) s ∧ (w2 : ZMod n) = lucasV (p : ZMod n) (s + 1) := by
  intro L
  induction L with
  | zero => intro v1 v2 a b h1 h2; exact ⟨v1, v2, rfl, a, b, by simpa using h1, by simpa using h2⟩
  | succ L ih =>
    intro v1 v2 a b h1 h2
    obtain ⟨w1, w2, e1, e2, e3, e4, e5⟩ := lucasStep_ok (s := s) hn hp L h1 h2
    have hk : 2 * (s / 2 ^ (L + 1)) + (s.testBit L).toNat = s / 2 ^ L := by
      rw [Nat.toNat_testBit, pow_succ, ← Nat.div_div_eq_div_mul]
      omega
    rw [hk] at e4 e5
    obtain ⟨x1, x2, f1, f2⟩ := ih e2 e3 e4 e5
    refine ⟨x1, x2, ?_, f2⟩
    rw [List.range_succ, List.reverse_append]
    change foldR _ _ (L :: _) = _
    rw [foldR, e1, res_ok_bind]
    exact f1

theorem lucasLoop_iff {n : Nat} (hn : 3 < n) (ho : n % 2 = 1) : ∀ (r v : Nat), v < n →
    (lucasLoop n r v = .ok true ↔ ∃ i, i < r ∧ (fun x : ZMod n => x ^ 2 - 2)^[i] v = 0) := by
  have two : (2 : ZMod n) ≠ 0 := by
    have := (ZMod.natCast_eq_zero_iff 2 n).not.mpr (fun h => by have := Nat.le_of_dvd (by norm_num) h; omega)
    simpa using this
  have one : (1 : ZMod n) ≠ 0 := by
    have := (ZMod.natCast_eq_zero_iff 1 n).not.mpr (fun h => by have := Nat.le_of_dvd (by norm_num) h; omega)
    simpa using this
  intro r
  induction r with
  | zero => intro v _; simp [lucasLoop]
  | succ r ih =>
    intro v hv
    unfold lucasLoop
    split
    · next h => subst h; simp only [true_iff]; exact ⟨0, by omega, by simp⟩
    next h0 =>
    split
    · next h =>
      subst h
      have fix : ∀ i, (fun x : ZMod n => x ^ 2 - 2)^[i] ((2 : Nat) : ZMod n) = 2 := by
        intro i
        exact Function.IsFixedPt.iterate (x := ((2 : Nat) : ZMod n)) (by show ((2 : Nat) : ZMod n) ^ 2 - 2 = _; push_cast; norm_num) i
      constructor
      · intro h; simp at h
      · rintro ⟨i, -, h⟩; rw [fix] at h; exact absurd h two
    next h2 =>
    by_cases h1 : v = 1
    · subst h1
      have fix : ∀ i, (fun x : ZMod n => x ^ 2 - 2)^[i] (-1 : ZMod n) = -1 := fun i =>
        Function.IsFixedPt.iterate (x := (-1 : ZMod n)) (by show (-1 : ZMod n) ^ 2 - 2 = _; norm_num) i
      constructor
      · intro h; simp [bigSub] at h
      · rintro ⟨i, -, h⟩
        cases i with
        | zero => simp at h; exact absurd h one
        | succ i =>
          rw [Function.iterate_succ_apply, show ((1 : Nat) : ZMod n) ^ 2 - 2 = -1 by push_cast; norm_num, fix] at h
          exact absurd (neg_eq_zero.mp h) one
    · rw [bigSub_ok (by nlinarith [show 2 ≤ v by omega]), res_ok_bind, ih _ (Nat.mod_lt _ (by omega)), ZMod.natCast_mod, Nat.cast_sub (by nlinarith [show 2 ≤ v by omega])]
      push_cast
      rw [← pow_two]
      constructor
      · rintro ⟨i, i1, i2⟩; exact ⟨i + 1, by omega, by rw [Function.iterate_succ_apply]; exact i2⟩
      · rintro ⟨i, i1, i2⟩
        cases i with
        | zero =>
          rw [Function.iterate_zero, id_eq, ZMod.natCast_eq_zero_iff] at i2
          have := Nat.le_of_dvd (by omega) i2
          omega
        | succ i => exact ⟨i, by omega, by rw [Function.iterate_succ_apply] at i2; exact i2⟩

theorem diff_mod {n a b : Nat} : (max a b - min a b) % n = 0 ↔ (a : ZMod n) = b := by
  rw [ZMod.natCast_eq_natCast_iff', ← Nat.dvd_iff_mod_eq_zero]
  rcases Nat.le_total a b with h | h
  · rw [max_eq_right h, min_eq_left h]
    exact (Nat.modEq_iff_dvd' h).symm
  · rw [max_eq_left h, min_eq_right h]
    exact (Nat.modEq_iff_dvd' h).symm.trans ⟨fun h => Eq.symm h, fun h => Eq.symm h⟩

theorem disc_unit {n P : Nat} (hn : 64 ≤ n) (h : discSym n P ≠ 0) : IsUnit (((P : ZMod n)) ^ 2 - 4) := by
  have h1 : ((P : Int) ^ 2 - 4).gcd n = 1 := by
    by_contra hc
    exact h (jacobiSym.eq_zero_iff.mpr ⟨by omega, hc⟩)
  have := (ZMod.coe_int_isUnit_iff_isCoprime ((P : Int) ^ 2 - 4) n).mpr (Int.isCoprime_iff_gcd_eq_one.mpr (by rw [Int.gcd_comm]; exact h1))
  simpa using this

/-- The part of `lucas` after the search. -/
theorem lucas_core {n P : Nat} (hn : 64 ≤ n) (ho : n % 2 = 1) (hP : 3 ≤ P) (hPn : P + 2 < n) (hd : discSym n P = -1) :
    ((do
      let r := twos ((n + 1).log2 + 1) (n + 1)
      let s := (n + 1) >>> r
      let (vk, vk1) ← foldR (lucasStep n P s) (2, P) (List.range (s.log2 + 1)).reverse
      let t1 := vk * P
      let t2 := 2 * vk1
      if (vk = 2 ∨ vk = n - 2) ∧ (max t1 t2 - min t1 t2) % n = 0 then .ok true
      else lucasLoop n (r - 1) vk : Res Bool) = .ok true ↔ ExtraStrongLucas P n) := by
  obtain ⟨e1, e2⟩ := twos_spec (n := n + 1) (by omega) (lt_log2 _)
  set r := twos ((n + 1).log2 + 1) (n + 1) with hr
  set s := (n + 1) >>> r with hs
  have hz : s / 2 ^ (s.log2 + 1) = 0 := Nat.div_eq_of_lt (lt_log2 s)
  obtain ⟨w1, w2, f1, f2, f3, f4, f5⟩ := lucasFold_ok (n := n) (p := P) (s := s) (by omega) (by omega) (s.log2 + 1) (v1 := 2) (v2 := P)
    (by omega) (by omega) (by rw [hz]; simp [lucasV]) (by rw [hz]; simp [lucasV])
  dsimp only
  rw [← hs, f1, res_ok_bind]
  dsimp only
  have hU : (max (w1 * P) (2 * w2) - min (w1 * P) (2 * w2)) % n = 0 ↔ lucasU (P : ZMod n) s = 0 := by
    rw [diff_mod]
    push_cast
    rw [f4, f5, (lucasU_eq (P : ZMod n) s).1]
    constructor
    · intro h
      have : ((P : ZMod n) ^ 2 - 4) * lucasU (P : ZMod n) s = 0 := by linear_combination -h
      exact (disc_unit hn (by rw [hd]; norm_num)).mul_right_eq_zero.mp this
    · intro h; rw [h]; ring
  have hV2 : w1 = 2 ↔ lucasV (P : ZMod n) s = 2 := by
    rw [← f4]
    have := ZMod.natCast_eq_natCast_iff' w1 2 n
    rw [Nat.mod_eq_of_lt f2, Nat.mod_eq_of_lt (by omega)] at this
    exact_mod_cast this.symm
  have hV2' : w1 = n - 2 ↔ lucasV (P : ZMod n) s = -2 := by
    rw [← f4]
    have := ZMod.natCast_eq_natCast_iff' w1 (n - 2) n
    rw [Nat.mod_eq_of_lt f2, Nat.mod_eq_of_lt (by omega), Nat.cast_sub (by omega)] at this
    simpa using this.symm
  have hit : (∃ i, i < r - 1 ∧ (fun x : ZMod n => x ^ 2 - 2)^[i] w1 = 0) ↔ ∃ i, i + 1 < r ∧ lucasV (P : ZMod n) (2 ^ i * s) = 0 := by
    constructor
    · rintro ⟨i, i1, i2⟩; exact ⟨i, by omega, by rw [lucasV_iterate, ← f4]; exact i2⟩
    · rintro ⟨i, i1, i2⟩; exact ⟨i, by omega, by rw [lucasV_iterate, ← f4] at i2; exact i2⟩
  have hES : ExtraStrongLucas P n ↔ ((lucasU (P : ZMod n) s = 0 ∧ (lucasV (P : ZMod n) s = 2 ∨ lucasV (P : ZMod n) s = -2)) ∨
      ∃ i, i + 1 < r ∧ lucasV (P : ZMod n) (2 ^ i * s) = 0) := by
    constructor
    · rintro ⟨r', s', h1, h2, h3⟩
      obtain ⟨rfl, rfl⟩ := odd_part_unique e2 (Nat.odd_iff.mp h1) (e1.symm.trans h2)
      exact h3
    · intro h; exact ⟨r, s, Nat.odd_iff.mpr e2, e1, h⟩
  rw [hES, ← hU, ← hV2, ← hV2', ← hit]
  split
  · next h => exact ⟨fun _ => Or.inl ⟨h.2, h.1⟩, fun _ => rfl⟩
  · next h =>
    rw [lucasLoop_iff (by omega) ho _ _ f2]
    exact ⟨Or.inr, fun hh => hh.resolve_left fun ⟨a, b⟩ => h ⟨b, a⟩⟩

theorem lucas_iff {n : Nat} (hn : 64 ≤ n) (ho : n % 2 = 1) : lucas n = .ok true ↔
    ∃ P, FirstParam n P ∧ ((discSym n P = -1 ∧ ExtraStrongLucas P n) ∨ (discSym n P = 0 ∧ n = P + 2)) := by
  unfold lucas
  rw [if_neg (by omega), if_neg (by omega)]
  constructor
  · intro h
    obtain ⟨r, h1, h2⟩ := bind_eq_ok.mp h
    obtain ⟨P, p1, p2, p3, p4⟩ := searchP_ok ho _ _ _ (by norm_num) h1
    rcases p4 with ⟨p4, rfl⟩ | ⟨p4, rfl⟩ | rfl
    · have hf : FirstParam n P := ⟨p1, p2, by rw [p4]; norm_num, p3⟩
      exact ⟨P, hf, Or.inl ⟨p4, (lucas_core hn ho p1 ((first_lt hn hf).2 p4) p4).mp h2⟩⟩
    · have hf : FirstParam n P := ⟨p1, p2, by rw [p4]; norm_num, p3⟩
      simp only [Except.ok.injEq, decide_eq_true_eq] at h2
      exact ⟨P, hf, Or.inr ⟨p4, h2⟩⟩
    · simp at h2
  · rintro ⟨P, hf, h⟩
    have hsq : P ≤ 40 ∨ n.sqrt * n.sqrt ≠ n := by
      by_contra hc
      push Not at hc
      rcases h with ⟨h, -⟩ | ⟨-, h⟩
      · rw [← hc.2] at h; exact disc_sq h
      · have h8 : 8 ≤ n.sqrt := Nat.le_sqrt.mpr (by omega)
        have hlt : n.sqrt < n := Nat.sqrt_lt_self (by omega)
        have h1 := hf.2.2.2 (n.sqrt - 2) (by omega) (by omega)
        have h0 : discSym n (n.sqrt - 2) = 0 := by
          unfold discSym
          refine jacobiSym.eq_zero_iff.mpr ⟨by omega, fun hg => ?_⟩
          have d1 : ((n.sqrt : Nat) : Int) ∣ (((n.sqrt - 2 : Nat) : Int) ^ 2 - 4) :=
            ⟨(n.sqrt : Int) - 4, by rw [Nat.cast_sub (by omega)]; push_cast; ring⟩
          have d2 : ((n.sqrt : Nat) : Int) ∣ (n : Int) := ⟨(n.sqrt : Int), by exact_mod_cast hc.2.symm⟩
          have := Int.dvd_coe_gcd d1 d2
          rw [hg] at this
          have := Int.le_of_dvd (by norm_num) this
          omega
        omega
    have := searchP_first ho hf.2.1 hf.2.2.1 hsq 10000 3 le_rfl hf.1 (by have := hf.2.1; omega) hf.2.2.2
    rw [this, res_ok_bind]
    rcases h with ⟨h1, h2⟩ | ⟨h1, h2⟩
    · rw [if_pos h1]
      exact (lucas_core hn ho hf.1 ((first_lt hn hf).2 h1) h1).mpr h2
    · rw [if_neg (by rw [h1]; norm_num)]
      simp [← h2]


/-! ### Primes pass -/

theorem two_pow_roots {R : Type*} [CommRing R] [IsDomain R] {x : R} : ∀ {k : Nat}, x ^ 2 ^ k = 1 → x = 1 ∨ ∃ i, i < k ∧ x ^ 2 ^ i = -1 := by
  intro k
  induction k with
  | zero => intro h; left; simpa using h
  | succ k ih =>
    intro h
    rw [pow_succ, pow_mul] at h
    have h' : (x ^ 2 ^ k - 1) * (x ^ 2 ^ k + 1) = 0 := by linear_combination h
    rcases mul_eq_zero.mp h' with h | h
    · rcases ih (sub_eq_zero.mp h) with h | ⟨i, i1, i2⟩
      · exact Or.inl h
      · exact Or.inr ⟨i, by omega, i2⟩
    · exact Or.inr ⟨k, by omega, by linear_combination h⟩

theorem strong_of_prime {n : Nat} (hn : n.Prime) (h2 : 2 < n) : StrongProbablePrime 2 n := by
  haveI := Fact.mk hn
  have ho : n % 2 = 1 := by rcases hn.eq_two_or_odd with h | h <;> omega
  obtain ⟨e1, e2⟩ := twos_spec (n := n - 1) (by omega) (lt_log2 _)
  refine ⟨_, _, Nat.odd_iff.mpr e2, e1, ?_⟩
  have hne : ((2 : Nat) : ZMod n) ≠ 0 := by
    rw [Ne, ZMod.natCast_eq_zero_iff]
    intro h
    have := Nat.le_of_dvd (by norm_num) h
    omega
  have h1 := ZMod.pow_card_sub_one_eq_one hne
  rw [e1, mul_comm, pow_mul] at h1
  rcases two_pow_roots h1 with h | ⟨i, i1, i2⟩
  · exact Or.inl h
  · exact Or.inr ⟨i, i1, by rw [mul_comm, pow_mul]; exact i2⟩

theorem lucas_of_prime {n P : Nat} (hn : n.Prime) (h2 : 64 ≤ n) (hd : discSym n P = -1) : ExtraStrongLucas P n := by
  haveI := Fact.mk hn
  have ho : n % 2 = 1 := by rcases hn.eq_two_or_odd with h | h <;> omega
  have htwo : (2 : ZMod n) ≠ 0 := by
    have : ((2 : Nat) : ZMod n) ≠ 0 := by
      rw [Ne, ZMod.natCast_eq_zero_iff]
      intro h
      have := Nat.le_of_dvd (by norm_num) h
      omega
    simpa using this
  have hns : ¬ IsSquare (((P : Int) ^ 2 - 4 : Int) : ZMod n) := ZMod.nonsquare_of_jacobiSym_eq_neg_one hd
  set p : ZMod n := (P : ZMod n) with hp
  have hD : (((P : Int) ^ 2 - 4 : Int) : ZMod n) = p ^ 2 - 4 := by push_cast; rfl
  rw [hD] at hns
  haveI hab : Fact (∀ r : ZMod n, r ^ 2 ≠ -1 + p * r) := ⟨fun r hr => hns ⟨2 * r - p, by linear_combination (-4 : ZMod n) * hr⟩⟩
  let K := QuadraticAlgebra (ZMod n) (-1) p
  let α : K := QuadraticAlgebra.omega
  let π : K := algebraMap (ZMod n) K p
  haveI : CharP K n := charP_of_injective_algebraMap (alg_inj p) n
  have hα : α * α = π * α - 1 := omega_root p
  have hinv : α * (π - α) = 1 := omega_inv p
  have htK : (2 : K) ≠ 0 := by
    intro h
    apply htwo
    apply alg_inj p
    rw [map_ofNat, map_zero]; exact h
  -- Frobenius
  have hfr : α ^ n = π - α := by
    have hδ2 : (2 * α - π) ^ 2 = algebraMap (ZMod n) K (p ^ 2 - 4) := by
      rw [map_sub, map_pow, map_ofNat]
      change _ = π ^ 2 - 4
      linear_combination 4 * hα
    have hE : (p ^ 2 - 4) ^ (n / 2) = -1 := by
      rw [← hD, ← legendreSym.eq_pow, jacobiSym.legendreSym.to_jacobiSym]
      unfold discSym at hd
      rw [hd]; simp
    have hδ : (2 * α - π) ^ n = -(2 * α - π) := by
      rw [show (2 * α - π) ^ n = (2 * α - π) ^ (2 * (n / 2) + 1) from congrArg (fun e => (2 * α - π) ^ e) (by omega), pow_succ, pow_mul, hδ2, ← map_pow, hE, map_neg, map_one]
      ring
    have h3 : (2 * α) ^ n = π + (2 * α - π) ^ n := by
      have hπ : π ^ n = π := by rw [← map_pow, ZMod.pow_card]
      have h5 := add_pow_char π (2 * α - π) n
      rw [hπ, add_sub_cancel] at h5
      exact h5
    have h4 : (2 : K) ^ n = 2 := by
      have : (2 : K) = algebraMap (ZMod n) K 2 := (map_ofNat _ 2).symm
      rw [this, ← map_pow, ZMod.pow_card]
    rw [mul_pow, h4, hδ] at h3
    apply mul_left_cancel₀ htK
    rw [h3]; ring
  have hord : α ^ (n + 1) = 1 := by rw [pow_succ, hfr, mul_comm]; exact hinv
  obtain ⟨e1, e2⟩ := twos_spec (n := n + 1) (by omega) (lt_log2 _)
  set r := twos ((n + 1).log2 + 1) (n + 1)
  set s := (n + 1) >>> r
  refine ⟨r, s, Nat.odd_iff.mpr e2, e1, ?_⟩
  have hβ : (α ^ s) ^ 2 ^ r = 1 := by rw [← pow_mul, mul_comm, ← e1]; exact hord
  have hV : ∀ k, algebraMap (ZMod n) K (lucasV p k) = α ^ k + (π - α) ^ k := lucasV_alg p
  have hmul : ∀ k, α ^ k * (π - α) ^ k = 1 := fun k => by rw [← mul_pow, hinv, one_pow]
  have hunit : IsUnit (p ^ 2 - 4) := disc_unit h2 (by rw [hd]; norm_num)
  have fin : ∀ ε : ZMod n, ε * ε = 1 → α ^ s = algebraMap (ZMod n) K ε → lucasV p s = 2 * ε ∧ lucasU p s = 0 := by
    intro ε hε h
    have hεK : algebraMap (ZMod n) K ε * algebraMap (ZMod n) K ε = 1 := by rw [← map_mul, hε, map_one]
    have hb : (π - α) ^ s = algebraMap (ZMod n) K ε := by
      have := hmul s
      rw [h] at this
      linear_combination (algebraMap (ZMod n) K ε) * this - (π - α) ^ s * hεK
    have hv : lucasV p s = 2 * ε := by
      apply alg_inj p
      rw [hV, h, hb, map_mul, map_ofNat]; ring
    have hv1 : lucasV p (s + 1) = p * ε := by
      apply alg_inj p
      rw [hV, pow_succ, pow_succ, h, hb, map_mul]
      change _ = π * _
      ring
    refine ⟨hv, hunit.mul_right_eq_zero.mp ?_⟩
    have := (lucasU_eq p s).1
    rw [hv, hv1] at this
    linear_combination -this
  rcases two_pow_roots hβ with h | ⟨i, i1, i2⟩
  · obtain ⟨a, b⟩ := fin 1 (by ring) (by rw [map_one]; exact h)
    exact Or.inl ⟨b, Or.inl (by rw [a]; ring)⟩
  · rcases Nat.eq_zero_or_pos i with rfl | hi
    · obtain ⟨a, b⟩ := fin (-1) (by ring) (by rw [map_neg, map_one]; simpa using i2)
      exact Or.inl ⟨b, Or.inr (by rw [a]; ring)⟩
    · refine Or.inr ⟨i - 1, by omega, ?_⟩
      apply alg_inj p
      rw [hV, map_zero]
      have hsq : (α ^ (2 ^ (i - 1) * s)) ^ 2 = -1 := by
        rw [← i2, ← pow_mul, ← pow_mul, show 2 ^ (i - 1) * s * 2 = s * (2 ^ (i - 1) * 2) by ring, ← pow_succ, show i - 1 + 1 = i by omega]
      have hm := hmul (2 ^ (i - 1) * s)
      linear_combination (π - α) ^ (2 ^ (i - 1) * s) * hsq - α ^ (2 ^ (i - 1) * s) * hm

/-! ### `probably_prime` -/

theorem small_iff : ∀ x, x < 64 → (x = 0 ∨ ((decide (primeBitMask &&& (1 <<< x) ≠ 0)) = true ↔ x.Prime)) := by decide +kernel

theorem trial_iff {x : Nat} : (x % 2 ≠ 0 ∧ ¬ (x % primesA % 3 = 0 ∨ x % primesA % 5 = 0 ∨ x % primesA % 7 = 0 ∨ x % primesA % 11 = 0 ∨
    x % primesA % 13 = 0 ∨ x % primesA % 17 = 0 ∨ x % primesA % 19 = 0 ∨ x % primesA % 23 = 0 ∨ x % primesA % 37 = 0 ∨ x % primesB % 29 = 0 ∨
    x % primesB % 31 = 0 ∨ x % primesB % 41 = 0 ∨ x % primesB % 43 = 0 ∨ x % primesB % 47 = 0 ∨ x % primesB % 53 = 0)) ↔
    ∀ p, p.Prime → p ≤ 53 → ¬ p ∣ x := by
  have key : (∀ p, p.Prime → p ≤ 53 → ¬ p ∣ x) ↔ ∀ p ∈ [2, 3, 5, 7, 11, 13, 17, 19, 23, 37, 29, 31, 41, 43, 47, 53], ¬ p ∣ x := by
    constructor
    · intro h p hp
      have : p.Prime ∧ p ≤ 53 := by revert p; decide
      exact h p this.1 this.2
    · intro h p hp hp2
      have : ∀ p, p ≤ 53 → p.Prime → p ∈ [2, 3, 5, 7, 11, 13, 17, 19, 23, 37, 29, 31, 41, 43, 47, 53] := by decide +kernel
      exact h p (this p hp2 hp)
  rw [key]
  simp only [List.forall_mem_cons, Nat.dvd_iff_mod_eq_zero]
  rw [Nat.mod_mod_of_dvd x (show 3 ∣ primesA by decide), Nat.mod_mod_of_dvd x (show 5 ∣ primesA by decide),
    Nat.mod_mod_of_dvd x (show 7 ∣ primesA by decide), Nat.mod_mod_of_dvd x (show 11 ∣ primesA by decide),
    Nat.mod_mod_of_dvd x (show 13 ∣ primesA by decide), Nat.mod_mod_of_dvd x (show 17 ∣ primesA by decide),
    Nat.mod_mod_of_dvd x (show 19 ∣ primesA by decide), Nat.mod_mod_of_dvd x (show 23 ∣ primesA by decide),
    Nat.mod_mod_of_dvd x (show 37 ∣ primesA by decide), Nat.mod_mod_of_dvd x (show 29 ∣ primesB by decide),
    Nat.mod_mod_of_dvd x (show 31 ∣ primesB by decide), Nat.mod_mod_of_dvd x (show 41 ∣ primesB by decide),
    Nat.mod_mod_of_dvd x (show 43 ∣ primesB by decide), Nat.mod_mod_of_dvd x (show 47 ∣ primesB by decide),
    Nat.mod_mod_of_dvd x (show 53 ∣ primesB by decide)]
  simp only [List.not_mem_nil, false_implies, implies_true, and_true]
  push Not
  rfl

theorem probablyPrime_iff (n : Nat) : probablyPrime n = .ok true ↔ BailliePSW n := by
  unfold probablyPrime BailliePSW
  by_cases h0 : n = 0
  · subst h0
    simp only [if_true]
    constructor
    · intro h; simp at h
    · rintro (⟨-, h⟩ | ⟨h, -⟩)
      · exact absurd h (by decide)
      · omega
  rw [if_neg h0]
  by_cases h64 : n < 64
  · rw [if_pos h64]
    have h1 := (small_iff n h64).resolve_left h0
    simp only [Except.ok.injEq]
    rw [h1]
    constructor
    · intro h; exact Or.inl ⟨h64, h⟩
    · rintro (⟨-, h⟩ | ⟨h, -⟩)
      · exact h
      · omega
  rw [if_neg h64]
  have ht := trial_iff (x := n)
  by_cases h2 : n % 2 = 0
  · rw [if_pos h2]
    constructor
    · intro h; simp at h
    · rintro (⟨h, -⟩ | ⟨-, h, -⟩)
      · exact absurd h h64
      · exact absurd h2 (ht.mpr h).1
  rw [if_neg h2]
  simp only
  split
  · next h3 =>
    constructor
    · intro h; simp at h
    · rintro (⟨h, -⟩ | ⟨-, h, -⟩)
      · exact absurd h h64
      · exact absurd h3 (ht.mpr h).2
  next h3 =>
  have htr := ht.mp ⟨h2, h3⟩
  have hm := millerRabin_iff (n := n) (by omega) (by omega)
  have hl := lucas_iff (n := n) (by omega) (by omega)
  split
  · next h4 =>
    rw [hl]
    constructor
    · intro h; exact Or.inr ⟨by omega, htr, hm.mp h4, h⟩
    · rintro (⟨h, -⟩ | ⟨-, -, -, h⟩)
      · exact absurd h h64
      · exact h
  · next h4 =>
    constructor
    · intro h; simp at h
    · rintro (⟨h, -⟩ | ⟨-, -, h, -⟩)
      · exact absurd h h64
      · exact absurd (hm.mpr h) h4

end OnionPIR.Prime
