import Verif.Model.Sha
import Verif.Spec.Sha
import Mathlib.Data.Nat.Count
import Mathlib.Data.Nat.Prime.Basic
import Mathlib.Tactic.IntervalCases
import Mathlib.Tactic.NormNum.Prime
import Mathlib.Tactic.Ring
/-
The modelled SHA-256 and ChaCha8 follow their standards.
-/
namespace OnionPIR
open Spec

namespace ShaP

theorem add_toNat (x y : BitVec 32) : Sha256.add x.toNat y.toNat = (x + y).toNat := (BitVec.toNat_add x y).symm

theorem rotr_toNat (x : BitVec 32) {k : Nat} (hk : k < 32) : ChaCha8.rotr x.toNat k = (x.rotateRight k).toNat := by
  rw [BitVec.toNat_rotateRight, Nat.mod_eq_of_lt hk]
  rfl

theorem not_toNat (x : BitVec 32) : Sha256.not x.toNat = (~~~x).toNat := by
  rw [BitVec.toNat_not]; rfl

theorem sigma_toNat (x : BitVec 32) : Sha256.bigSigma0 x.toNat = (Fips180.Sigma0 x).toNat ∧ Sha256.bigSigma1 x.toNat = (Fips180.Sigma1 x).toNat ∧
    Sha256.smallSigma0 x.toNat = (Fips180.sigma0 x).toNat ∧ Sha256.smallSigma1 x.toNat = (Fips180.sigma1 x).toNat := by
  unfold Sha256.bigSigma0 Sha256.bigSigma1 Sha256.smallSigma0 Sha256.smallSigma1 Fips180.Sigma0 Fips180.Sigma1 Fips180.sigma0 Fips180.sigma1
  simp only [BitVec.toNat_xor, BitVec.toNat_ushiftRight]
  refine ⟨?_, ?_, ?_, ?_⟩ <;> simp only [rotr_toNat x (by norm_num : (2 : Nat) < 32), rotr_toNat x (by norm_num : (13 : Nat) < 32), rotr_toNat x (by norm_num : (22 : Nat) < 32),
    rotr_toNat x (by norm_num : (6 : Nat) < 32), rotr_toNat x (by norm_num : (11 : Nat) < 32), rotr_toNat x (by norm_num : (25 : Nat) < 32), rotr_toNat x (by norm_num : (7 : Nat) < 32),
    rotr_toNat x (by norm_num : (18 : Nat) < 32), rotr_toNat x (by norm_num : (17 : Nat) < 32), rotr_toNat x (by norm_num : (19 : Nat) < 32)]

theorem ch_toNat (x y z : BitVec 32) : Sha256.ch x.toNat y.toNat z.toNat = (Fips180.Ch x y z).toNat := by
  unfold Sha256.ch Fips180.Ch
  rw [not_toNat, BitVec.toNat_xor, BitVec.toNat_and, BitVec.toNat_and]

theorem maj_toNat (x y z : BitVec 32) : Sha256.maj x.toNat y.toNat z.toNat = (Fips180.Maj x y z).toNat := by
  unfold Sha256.maj Fips180.Maj
  simp only [BitVec.toNat_xor, BitVec.toNat_and]

/-- The state of the specification as the list of the model. -/
def words (s : Fips180.State) : List Nat := [s.a.toNat, s.b.toNat, s.c.toNat, s.d.toNat, s.e.toNat, s.f.toNat, s.g.toNat, s.h.toNat]

theorem round_after {K M : Nat → BitVec 32} (s : Fips180.State) (t : Nat) :
    Sha256.round (words (Fips180.after K M s t)) (K t).toNat (Fips180.schedule M t).toNat = words (Fips180.after K M s (t + 1)) := by
  rw [Fips180.after]
  simp only [words, Sha256.round, (sigma_toNat _).1, (sigma_toNat _).2.1, ch_toNat, maj_toNat, add_toNat]

/-- The window of the model after `t` rounds. -/
def window (M : Nat → BitVec 32) (t : Nat) : List Nat := (List.range 16).map fun i => (Fips180.schedule M (t + i)).toNat

theorem window_getD {M : Nat → BitVec 32} {t i : Nat} (hi : i < 16) : (window M t).getD i 0 = (Fips180.schedule M (t + i)).toNat := by
  rw [window, List.getD_eq_getElem _ _ (by simpa using hi), List.getElem_map, List.getElem_range]

theorem next_window (M : Nat → BitVec 32) (t : Nat) : Sha256.next (window M t) = (Fips180.schedule M (t + 16)).toNat := by
  unfold Sha256.next
  rw [window_getD (by norm_num), window_getD (by norm_num), window_getD (by norm_num), window_getD (by norm_num), (sigma_toNat _).2.2.1, (sigma_toNat _).2.2.2,
    add_toNat, add_toNat, add_toNat]
  conv_rhs => rw [Fips180.schedule, if_neg (by omega)]
  rfl

theorem window_succ (M : Nat → BitVec 32) (t : Nat) : (window M t).tail ++ [Sha256.next (window M t)] = window M (t + 1) := by
  rw [next_window]
  have h1 : window M t = (Fips180.schedule M t).toNat :: (List.range 15).map fun i => (Fips180.schedule M (t + 1 + i)).toNat := by
    rw [window, List.range_succ_eq_map, List.map_cons, List.map_map]
    congr 1
  rw [h1, List.tail_cons, window, List.range_succ, List.map_append]
  rfl

theorem rounds_after {K M : Nat → BitVec 32} (s : Fips180.State) (n t : Nat) :
    Sha256.rounds ((List.range n).map fun i => (K (t + i)).toNat) (window M t) (words (Fips180.after K M s t)) = words (Fips180.after K M s (t + n)) := by
  induction n generalizing t with
  | zero => rfl
  | succ n ih =>
    rw [List.range_succ_eq_map, List.map_cons, List.map_map, Sha256.rounds, window_succ, window_getD (by norm_num)]
    show Sha256.rounds _ _ (Sha256.round _ (K t).toNat (Fips180.schedule M t).toNat) = _
    rw [round_after]
    have := ih (t + 1)
    rw [show t + 1 + n = t + (n + 1) by omega] at this
    rw [← this]
    congr 1
    refine List.map_congr_left fun i _ => ?_
    show (K (t + (i + 1))).toNat = _
    rw [show t + (i + 1) = t + 1 + i by omega]

theorem compress_eq {K M : Nat → BitVec 32} (hK : Sha256.roundConstants = (List.range 64).map fun i => (K i).toNat) (s : Fips180.State) :
    Sha256.compress (words s) ((List.range 16).map fun i => (M i).toNat) = words (Fips180.compress K s M) := by
  have hw : (List.range 16).map (fun i => (M i).toNat) = window M 0 := by
    refine List.map_congr_left fun i hi => ?_
    rw [Nat.zero_add, Fips180.schedule, if_pos (by simpa using hi)]
  have h := rounds_after (K := K) (M := M) s 64 0
  simp only [Nat.zero_add] at h
  unfold Sha256.compress
  rw [hK, hw, show words s = words (Fips180.after K M s 0) from rfl, h, Fips180.compress]
  generalize Fips180.after K M s 64 = v
  simp only [words, Fips180.after, List.zipWith_cons_cons, List.zipWith_nil_right, add_toNat]

theorem blocks_eq {K : Nat → BitVec 32} (hK : Sha256.roundConstants = (List.range 64).map fun i => (K i).toNat) {H : Fips180.State} {M : Nat → BitVec 32} (n k : Nat) :
    Sha256.blocks n (words (Fips180.chain K H M k)) ((List.range (16 * n)).map fun i => (M (16 * k + i)).toNat) = words (Fips180.chain K H M (k + n)) := by
  induction n generalizing k with
  | zero => rfl
  | succ n ih =>
    have e : (List.range (16 * (n + 1))).map (fun i => (M (16 * k + i)).toNat) =
        ((List.range 16).map fun i => (M (16 * k + i)).toNat) ++ (List.range (16 * n)).map fun i => (M (16 * (k + 1) + i)).toNat := by
      rw [show 16 * (n + 1) = 16 + 16 * n by ring, List.range_add, List.map_append, List.map_map]
      congr 1
      refine List.map_congr_left fun i _ => ?_
      show (M (16 * k + (16 + i))).toNat = _
      rw [show 16 * k + (16 + i) = 16 * (k + 1) + i by ring]
    rw [Sha256.blocks, e, List.take_append_of_le_length (by simp), List.drop_append_of_le_length (by simp), List.take_of_length_le (by simp),
      List.drop_of_length_le (by simp), List.nil_append, compress_eq hK (M := fun i => M (16 * k + i))]
    have := ih (k + 1)
    rw [show k + 1 + n = k + (n + 1) by omega] at this
    rw [← this, Fips180.chain]

theorem or_shift {a b k : Nat} (hb : b < 2 ^ k) : a <<< k ||| b = a * 2 ^ k + b := by
  rw [Nat.shiftLeft_eq, Nat.mul_comm, Nat.two_pow_add_eq_or_of_lt hb]

theorem be_word {a b c d : Nat} (hb : b < 256) (hc : c < 256) (hd : d < 256) :
    a <<< 24 ||| b <<< 16 ||| c <<< 8 ||| d = ((a * 256 + b) * 256 + c) * 256 + d := by
  have e : a <<< 24 ||| b <<< 16 ||| c <<< 8 ||| d = ((a <<< 8 ||| b) <<< 8 ||| c) <<< 8 ||| d := by
    simp only [Nat.shiftLeft_or_distrib, ← Nat.shiftLeft_add]
  rw [e, or_shift hd, or_shift hc, or_shift hb]
  norm_num

theorem wordsBE_eq {l : List Nat} (n : Nat) (hl : l.length = 4 * n) (hb : ∀ x ∈ l, x < 256) :
    Sha256.wordsBE l = (List.range n).map fun i => (Fips180.word l i).toNat := by
  induction n generalizing l with
  | zero => rw [List.eq_nil_of_length_eq_zero (by omega : l.length = 0)]; rfl
  | succ n ih =>
    obtain ⟨a, b, c, d, r, rfl⟩ : ∃ a b c d r, l = a :: b :: c :: d :: r := by
      match l, hl with
      | a :: b :: c :: d :: r, _ => exact ⟨a, b, c, d, r, rfl⟩
      | [], h | [_], h | [_, _], h | [_, _, _], h => simp at h <;> omega
    have ha := hb a (by simp)
    have hb' := hb b (by simp)
    have hc := hb c (by simp)
    have hd := hb d (by simp)
    rw [Sha256.wordsBE, be_word hb' hc hd, List.range_succ_eq_map, List.map_cons, List.map_map, ih (by simp at hl; omega) (fun x hx => hb x (by simp [hx]))]
    congr 1
    unfold Fips180.word
    rw [BitVec.toNat_ofNat]
    show _ = (((a * 256 + b) * 256 + c) * 256 + d) % _
    rw [Nat.mod_eq_of_lt (by omega)]

theorem bytesBE_eq (x : Nat) : Sha256.bytesBE x = Fips180.bigEndian 4 x := by
  unfold Sha256.bytesBE Fips180.bigEndian
  simp only [Nat.shiftRight_eq_div_pow, List.range_succ, List.range_zero, List.nil_append, List.cons_append, List.map_cons, List.map_nil]
  norm_num

theorem padding_eq {len : Nat} (h : 8 * len < 2 ^ 64) :
    Sha256.padding len = [128] ++ List.replicate ((119 - len % 64) % 64) 0 ++ Fips180.bigEndian 8 (8 * len) := by
  have e : Sha256.bytesBE ((8 * len) >>> 32) ++ Sha256.bytesBE (8 * len % 2 ^ 32) = Fips180.bigEndian 8 (8 * len) := by
    unfold Sha256.bytesBE Fips180.bigEndian
    simp only [Nat.shiftRight_eq_div_pow, List.range_succ, List.range_zero, List.nil_append, List.cons_append, List.map_cons, List.map_nil]
    generalize 8 * len = x
    norm_num [Nat.div_div_eq_div_mul]
    omega
  unfold Sha256.padding
  rw [Nat.mul_comm len 8, Nat.mod_eq_of_lt h]
  simp only [List.append_assoc, List.cons_append, List.nil_append, e]

theorem bigEndian_lt (k x : Nat) : ∀ y ∈ Fips180.bigEndian k x, y < 256 := by
  intro y hy
  obtain ⟨i, -, rfl⟩ := List.mem_map.mp hy
  exact Nat.mod_lt _ (by norm_num)

theorem padded {msg : List Nat} (h : 8 * msg.length < 2 ^ 64) : Fips180.Padded msg (msg ++ Sha256.padding msg.length) := by
  refine ⟨(119 - msg.length % 64) % 64, Nat.mod_lt _ (by norm_num), ?_, by rw [padding_eq h]; simp [List.append_assoc]⟩
  rw [padding_eq h]
  simp only [List.length_append, List.length_cons, List.length_nil, List.length_replicate, Fips180.bigEndian, List.length_map, List.length_range]
  omega

theorem hash_eq {K : Nat → BitVec 32} (hK : Sha256.roundConstants = (List.range 64).map fun i => (K i).toNat) {H : Fips180.State} (hH : Sha256.init = words H)
    {msg : List Nat} (hb : ∀ x ∈ msg, x < 256) (h : 8 * msg.length < 2 ^ 64) :
    Sha256.hash msg = (Fips180.chain K H (Fips180.word (msg ++ Sha256.padding msg.length)) ((msg ++ Sha256.padding msg.length).length / 64)).bytes := by
  obtain ⟨z, hz, ⟨n, hn⟩, hp⟩ := padded h
  generalize hP : msg ++ Sha256.padding msg.length = P at *
  have hPb : ∀ x ∈ P, x < 256 := by
    intro x hx
    rw [hp] at hx
    simp only [List.mem_append, List.mem_singleton, List.mem_replicate] at hx
    rcases hx with ((hx | rfl) | ⟨-, rfl⟩) | hx
    · exact hb x hx
    · norm_num
    · norm_num
    · exact bigEndian_lt _ _ x hx
  unfold Sha256.hash
  simp only [hP]
  rw [hn, Nat.mul_div_cancel_left _ (by norm_num), hH, wordsBE_eq (16 * n) (by omega) hPb]
  have := blocks_eq hK (H := H) (M := Fips180.word P) n 0
  simp only [Nat.mul_zero, Nat.zero_add] at this
  rw [show words H = words (Fips180.chain K H (Fips180.word P) 0) from rfl, this]
  unfold Fips180.State.bytes words
  simp only [List.flatMap_cons, List.flatMap_nil, bytesBE_eq]

/-- The first 64 primes. -/
def primes : List Nat := [2, 3, 5, 7, 11, 13, 17, 19, 23, 29, 31, 37, 41, 43, 47, 53, 59, 61, 67, 71, 73, 79, 83, 89, 97, 101, 103, 107, 109, 113, 127,
  131, 137, 139, 149, 151, 157, 163, 167, 173, 179, 181, 191, 193, 197, 199, 211, 223, 227, 229, 233, 239, 241, 251, 257, 263, 269, 271, 277, 281,
  283, 293, 307, 311]

theorem primes_nth {t : Nat} (ht : t < 64) : Nat.nth Nat.Prime t = primes.getD t 0 := by
  have h : ∀ t < 64, Nat.Prime (primes.getD t 0) ∧ Nat.count Nat.Prime (primes.getD t 0) = t := by decide +kernel
  obtain ⟨h1, h2⟩ := h t ht
  conv_lhs => rw [← h2]
  exact Nat.nth_count h1

/-- The round constants and the initial state of the model as 32-bit vectors. -/
def K (t : Nat) : BitVec 32 := BitVec.ofNat 32 (Sha256.roundConstants.getD t 0)
def H : Fips180.State := ⟨0x6a09e667, 0xbb67ae85, 0x3c6ef372, 0xa54ff53a, 0x510e527f, 0x9b05688c, 0x1f83d9ab, 0x5be0cd19⟩

theorem constants : Fips180.Constants K H := by
  have hk : ∀ t < 64, ∃ c < 7, (c * 2 ^ 32 + (K t).toNat) ^ 3 ≤ primes.getD t 0 * (2 ^ 32) ^ 3 ∧
      primes.getD t 0 * (2 ^ 32) ^ 3 < (c * 2 ^ 32 + (K t).toNat + 1) ^ 3 := by decide +kernel
  refine ⟨fun t ht => ?_, ?_, ?_, ?_, ?_, ?_, ?_, ?_, ?_⟩
  · rw [primes_nth ht]
    obtain ⟨c, -, h⟩ := hk t ht
    exact ⟨c, h⟩
  · rw [primes_nth (by norm_num)]; exact ⟨1, by decide +kernel⟩
  · rw [primes_nth (by norm_num)]; exact ⟨1, by decide +kernel⟩
  · rw [primes_nth (by norm_num)]; exact ⟨2, by decide +kernel⟩
  · rw [primes_nth (by norm_num)]; exact ⟨2, by decide +kernel⟩
  · rw [primes_nth (by norm_num)]; exact ⟨3, by decide +kernel⟩
  · rw [primes_nth (by norm_num)]; exact ⟨3, by decide +kernel⟩
  · rw [primes_nth (by norm_num)]; exact ⟨4, by decide +kernel⟩
  · rw [primes_nth (by norm_num)]; exact ⟨4, by decide +kernel⟩

theorem roundConstants_eq : Sha256.roundConstants = (List.range 64).map fun i => (K i).toNat := by decide +kernel

theorem init_eq : Sha256.init = words H := by decide +kernel

theorem hash_length {msg : List Nat} (hb : ∀ x ∈ msg, x < 256) (h : 8 * msg.length < 2 ^ 64) :
    (Sha256.hash msg).length = 32 ∧ ∀ x ∈ Sha256.hash msg, x < 256 := by
  rw [hash_eq roundConstants_eq init_eq hb h]
  refine ⟨by simp [Fips180.State.bytes, Fips180.bigEndian], fun x hx => ?_⟩
  obtain ⟨w, -, hx⟩ := List.mem_flatMap.mp hx
  exact bigEndian_lt _ _ x hx

end ShaP

namespace ChaChaP
open Spec.ChaCha (Word)

theorem add_toNat (x y : Word) : ChaCha8.add x.toNat y.toNat = (x + y).toNat := (BitVec.toNat_add x y).symm

theorem rotl_toNat (x : Word) {k : Nat} (hk : k < 32) : ChaCha8.rotl x.toNat k = (x.rotateLeft k).toNat := by
  rw [BitVec.toNat_rotateLeft, Nat.mod_eq_of_lt hk]
  rfl

theorem xor_rotl (x y : Word) {k : Nat} (hk : k < 32) : ChaCha8.rotl (x.toNat ^^^ y.toNat) k = ((x ^^^ y).rotateLeft k).toNat := by
  rw [← BitVec.toNat_xor, rotl_toNat _ hk]

theorem quarter_toNat (a b c d : Word) : ChaCha8.quarter a.toNat b.toNat c.toNat d.toNat =
    ((ChaCha.quarterRound a b c d).1.toNat, (ChaCha.quarterRound a b c d).2.1.toNat, (ChaCha.quarterRound a b c d).2.2.1.toNat,
      (ChaCha.quarterRound a b c d).2.2.2.toNat) := by
  simp only [ChaCha8.quarter, ChaCha.quarterRound, add_toNat, xor_rotl _ _ (by norm_num : (16 : Nat) < 32), xor_rotl _ _ (by norm_num : (12 : Nat) < 32),
    xor_rotl _ _ (by norm_num : (8 : Nat) < 32), xor_rotl _ _ (by norm_num : (7 : Nat) < 32)]

/-- The state of the specification as the list of the model. -/
def words (s : Nat → Word) : List Nat :=
  [(s 0).toNat, (s 1).toNat, (s 2).toNat, (s 3).toNat, (s 4).toNat, (s 5).toNat, (s 6).toNat, (s 7).toNat, (s 8).toNat, (s 9).toNat, (s 10).toNat,
    (s 11).toNat, (s 12).toNat, (s 13).toNat, (s 14).toNat, (s 15).toNat]

theorem doubleRound_words (s : Nat → Word) : ChaCha8.doubleRound (words s) = words (ChaCha.doubleRound s) := by
  simp only [words, ChaCha8.doubleRound, quarter_toNat]
  simp [ChaCha.doubleRound, ChaCha.quarterAt]

theorem words_range (s : Nat → Word) : words s = (List.range 16).map fun i => (s i).toNat := rfl

theorem or_shift {a b k : Nat} (hb : b < 2 ^ k) : b ||| a <<< k = b + 2 ^ k * a := by
  rw [Nat.or_comm, ShaP.or_shift hb]
  ring

theorem le_word {a b c d : Nat} (ha : a < 256) (hb : b < 256) (hc : c < 256) :
    a ||| b <<< 8 ||| c <<< 16 ||| d <<< 24 = a + 256 * (b + 256 * (c + 256 * d)) := by
  have e : a ||| b <<< 8 ||| c <<< 16 ||| d <<< 24 = a ||| (b ||| (c ||| d <<< 8) <<< 8) <<< 8 := by
    simp only [Nat.shiftLeft_or_distrib, ← Nat.shiftLeft_add, Nat.or_assoc]
  rw [e, or_shift (by simpa using ha), or_shift (by simpa using hb), or_shift (by simpa using hc)]
  norm_num

theorem wordsLE_eq {l : List Nat} (n : Nat) (hl : l.length = 4 * n) (hb : ∀ x ∈ l, x < 256) :
    ChaCha8.wordsLE l = (List.range n).map fun i => (ChaCha.word l i).toNat := by
  induction n generalizing l with
  | zero => rw [List.eq_nil_of_length_eq_zero (by omega : l.length = 0)]; rfl
  | succ n ih =>
    obtain ⟨a, b, c, d, r, rfl⟩ : ∃ a b c d r, l = a :: b :: c :: d :: r := by
      match l, hl with
      | a :: b :: c :: d :: r, _ => exact ⟨a, b, c, d, r, rfl⟩
      | [], h | [_], h | [_, _], h | [_, _, _], h => simp at h <;> omega
    have ha := hb a (by simp)
    have hb' := hb b (by simp)
    have hc := hb c (by simp)
    have hd := hb d (by simp)
    rw [ChaCha8.wordsLE, le_word ha hb' hc, List.range_succ_eq_map, List.map_cons, List.map_map, ih (by simp at hl; omega) (fun x hx => hb x (by simp [hx]))]
    congr 1
    unfold ChaCha.word
    rw [BitVec.toNat_ofNat]
    show _ = (a + 256 * (b + 256 * (c + 256 * d))) % _
    rw [Nat.mod_eq_of_lt (by omega)]

/-- The blocks of the generator are the key stream. -/
theorem block_eq {key : List Nat} (hl : key.length = 32) (hb : ∀ x ∈ key, x < 256) {n : Nat} (hn : n < 2 ^ 64) :
    ChaCha8.block (ChaCha8.wordsLE key) n = (List.range 16).map fun i => (ChaCha.keyStream key n i).toNat := by
  rw [wordsLE_eq 8 hl hb]
  have hs : [0x61707865, 0x3320646e, 0x79622d32, 0x6b206574] ++ (List.range 8).map (fun i => (ChaCha.word key i).toNat) ++ [n % 2 ^ 32, n / 2 ^ 32, 0, 0] =
      words (ChaCha.start key n) := by
    have e : words (ChaCha.start key n) = [(ChaCha.word ChaCha.sigma 0).toNat, (ChaCha.word ChaCha.sigma 1).toNat, (ChaCha.word ChaCha.sigma 2).toNat,
        (ChaCha.word ChaCha.sigma 3).toNat] ++ (List.range 8).map (fun i => (ChaCha.word key i).toNat) ++
        [(BitVec.ofNat 32 n).toNat, (BitVec.ofNat 32 (n / 2 ^ 32)).toNat, (0 : Word).toNat, (0 : Word).toNat] := rfl
    rw [e, BitVec.toNat_ofNat, BitVec.toNat_ofNat, Nat.mod_eq_of_lt (show n / 2 ^ 32 < 2 ^ 32 by omega)]
    rfl
  unfold ChaCha8.block
  simp only [hs, doubleRound_words]
  generalize hd : ChaCha.doubleRound (ChaCha.doubleRound (ChaCha.doubleRound (ChaCha.doubleRound (ChaCha.start key n)))) = d
  have e : (List.range 16).map (fun i => (ChaCha.keyStream key n i).toNat) = words (fun i => d i + ChaCha.start key n i) := by
    rw [words_range]
    refine List.map_congr_left fun i _ => ?_
    have : ChaCha.keyStream key n i = d i + ChaCha.start key n i := by rw [← hd]; rfl
    rw [this]
  rw [e]
  generalize ChaCha.start key n = s
  simp only [words, List.zipWith_cons_cons, List.zipWith_nil_right, add_toNat, BitVec.add_comm]

end ChaChaP
end OnionPIR
