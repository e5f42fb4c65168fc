import Verif.Model.Ntt
import Verif.Proofs.Utils
/- Bit reversal. -/
namespace OnionPIR

theorem reverseBits_lt (w x : Nat) : reverseBits w x < 2 ^ w := by
  induction w generalizing x with
  | zero => simp [reverseBits]
  | succ w ih =>
    have := ih (x / 2)
    have h2 := Nat.mod_lt x (show 0 < 2 by norm_num)
    rw [reverseBits, pow_succ]
    have h3 : x % 2 * 2 ^ w ≤ 1 * 2 ^ w := Nat.mul_le_mul_right _ (by omega)
    omega

theorem reverseBits_zero (w : Nat) : reverseBits w 0 = 0 := by
  induction w with
  | zero => rfl
  | succ w ih => simp [reverseBits, ih]

theorem reverseBits_two_mul (w i : Nat) : reverseBits (w + 1) (2 * i) = reverseBits w i := by
  rw [reverseBits, show 2 * i % 2 = 0 by omega, show 2 * i / 2 = i by omega]; simp

theorem reverseBits_two_mul_add_one (w i : Nat) : reverseBits (w + 1) (2 * i + 1) = 2 ^ w + reverseBits w i := by
  rw [reverseBits, show (2 * i + 1) % 2 = 1 by omega, show (2 * i + 1) / 2 = i by omega]; simp

/-- Reversal of a number split into a low part of `t` bits and a high part. -/
theorem reverseBits_split (t s i h : Nat) (hi : i < 2 ^ t) :
    reverseBits (t + s) (i + 2 ^ t * h) = reverseBits t i * 2 ^ s + reverseBits s h := by
  induction t generalizing i with
  | zero =>
    have : i = 0 := by simpa using hi
    subst this; simp [reverseBits]
  | succ t ih =>
    rw [show t + 1 + s = (t + s) + 1 by omega, reverseBits, reverseBits]
    have e1 : (i + 2 ^ (t + 1) * h) % 2 = i % 2 := by rw [pow_succ, Nat.mul_comm (2 ^ t) 2, Nat.mul_assoc]; omega
    have e2 : (i + 2 ^ (t + 1) * h) / 2 = i / 2 + 2 ^ t * h := by rw [pow_succ, Nat.mul_comm (2 ^ t) 2, Nat.mul_assoc]; omega
    rw [e1, e2, ih (i / 2) (by rw [pow_succ] at hi; omega), pow_add]; ring

theorem reverseBits_ones (s : Nat) : reverseBits s (2 ^ s - 1) = 2 ^ s - 1 := by
  induction s with
  | zero => rfl
  | succ s ih =>
    have hp : 0 < 2 ^ s := by positivity
    rw [show 2 ^ (s + 1) - 1 = 2 * (2 ^ s - 1) + 1 by rw [pow_succ]; omega, reverseBits_two_mul_add_one, ih]
    omega

theorem reverseBits_one (s : Nat) : reverseBits (s + 1) 1 = 2 ^ s := by
  have := reverseBits_two_mul_add_one s 0
  rw [reverseBits_zero] at this; simpa using this

/-- Twiddle exponent of block `i` of the layer with `2^t` blocks. -/
theorem reverseBits_twiddle (K t i : Nat) (ht : t < K) (hi : i < 2 ^ t) :
    reverseBits K (2 ^ t + i) = 2 ^ (K - 1 - t) * (2 * reverseBits t i + 1) := by
  obtain ⟨s, rfl⟩ : ∃ s, K = t + (s + 1) := ⟨K - 1 - t, by omega⟩
  have := reverseBits_split t (s + 1) i 1 hi
  rw [Nat.mul_one, Nat.add_comm i] at this
  rw [this, reverseBits_one, show t + (s + 1) - 1 - t = s by omega, pow_succ]; ring

theorem reverseBits_twiddle_inv (K t i : Nat) (ht : t < K) (hi : i < 2 ^ t) :
    reverseBits K (2 ^ K - 2 ^ (t + 1) + i) + 1 = 2 ^ (K - 1 - t) * (2 * reverseBits t i + 1) := by
  obtain ⟨s, rfl⟩ : ∃ s, K = t + (s + 1) := ⟨K - 1 - t, by omega⟩
  have hp : 0 < 2 ^ s := by positivity
  have := reverseBits_split t (s + 1) i (2 * (2 ^ s - 1)) hi
  rw [reverseBits_two_mul, reverseBits_ones] at this
  have e : 2 ^ (t + (s + 1)) - 2 ^ (t + 1) + i = i + 2 ^ t * (2 * (2 ^ s - 1)) := by
    rw [Nat.add_comm, pow_add, pow_add, pow_add, ← Nat.mul_sub]
    congr 2; omega
  rw [e, this, show t + (s + 1) - 1 - t = s by omega, pow_succ, Nat.add_assoc, Nat.sub_add_cancel hp]; ring

/-- Bit reversal is an involution. -/
theorem reverseBits_reverseBits (w x : Nat) (hx : x < 2 ^ w) : reverseBits w (reverseBits w x) = x := by
  induction w generalizing x with
  | zero => simp at hx; simp [reverseBits, hx]
  | succ w ih =>
    have h1 : x / 2 < 2 ^ w := by rw [pow_succ] at hx; omega
    rw [show reverseBits (w + 1) x = reverseBits w (x / 2) + 2 ^ w * (x % 2) by rw [reverseBits]; ring]
    rw [reverseBits_split w 1 _ _ (reverseBits_lt _ _), ih _ h1]
    simp only [reverseBits]
    have : x % 2 % 2 = x % 2 := by omega
    rw [this]; omega

theorem bitrevIndex_eq (K i : Nat) (hK : K ≤ 63) (hi : i < 2 ^ K) : bitrevIndex (2 ^ K) i = reverseBits K i := by
  have hlz : leadingZeros 64 (2 ^ K) = 63 - K := by
    unfold leadingZeros
    rw [if_neg (by positivity), Nat.log2_two_pow]
  unfold bitrevIndex
  rw [hlz]
  have h := reverseBits_split K (64 - K) i 0 hi
  rw [Nat.mul_zero, Nat.add_zero, reverseBits_zero, Nat.add_zero, show K + (64 - K) = 64 by omega] at h
  rw [h, show 63 - K + 1 = 64 - K by omega, Nat.shiftRight_eq_div_pow, Nat.mul_div_cancel _ (by positivity)]

end OnionPIR
