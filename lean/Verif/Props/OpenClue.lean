import Verif.Spec.OpenClue
import Verif.Props.AddClue
import Verif.Props.ClueLength
/-
Property C142 (src/pvw.rs): who can read a clue without the secret key.
-/
namespace OnionPIR
open Spec

variable {params : PvwParams} {q : Modulus} {e : Nat → Nat}

/-- C142: the selector opens the clue. For every public key, honest or not, whoever knows the selector reads the message, without the secret key and without any
bound on the noise. -/
theorem c142_open (hn : Modulus.new params.q = .ok q) (pr : Profile) {pk : PvwPk} (hpk : IsPvwPk params pk) {msg : List Nat} (hlen : msg.length = params.ell)
    (hbit : ∀ x ∈ msg, x < 2) (he : ∀ m, e m < 2) : ∃ ct, Pvw.encrypt pr pk params msg e = .ok ct ∧ openClue params pk e ct = msg := by
  obtain ⟨h2, -⟩ := Modulus.new_inv hn
  obtain ⟨ct, c1, -, -, -, c5⟩ := Pvw.encrypt_exact hn pr (ClueLength.pk hpk) hlen hbit he
  refine ⟨ct, c1, ?_⟩
  unfold openClue
  refine List.ext_getElem (by simp [hlen]) fun l g1 g2 => ?_
  have hl : l < params.ell := by simpa using g1
  have hb := hbit _ (List.getElem_mem g2)
  have h5 := c5 l hl
  rw [List.getD_eq_getElem msg _ g2] at h5
  rw [List.getElem_map, List.getElem_range]
  have key : (params.q : ℤ) ∣ (ct.b.getD l 0 : ℤ) - ∑ m ∈ Finset.range params.m, ((pk.getD m ⟨[], []⟩).b.getD l 0 : ℤ) * (e m : ℤ) ↔
      params.q ∣ params.q / 2 * msg[l] := by
    rw [← ZMod.intCast_zmod_eq_zero_iff_dvd, ← ZMod.natCast_eq_zero_iff]
    push_cast at h5 ⊢
    rw [h5, add_sub_cancel_left]
  rcases (show msg[l] = 0 ∨ msg[l] = 1 by omega) with u | u
  · rw [if_pos (key.mpr (by rw [u]; exact dvd_zero _)), u]
  · rw [if_neg (fun h => ?_), u]
    have h := Nat.le_of_dvd (by rw [u]; omega) (key.mp h)
    rw [u] at h
    omega

/-- C142: a public key with zeros in the second parts, which `encrypt` accepts like any other, makes clues that show the message: their second part is the message
times `q / 2`, for every selector. -/
theorem c142_zero (hn : Modulus.new params.q = .ok q) (pr : Profile) {pk : PvwPk} (hpk : IsPvwPk params pk)
    (hz : ∀ m, m < params.m → ∃ c, pk[m]? = some c ∧ c.b = List.replicate params.ell 0) {msg : List Nat} (hlen : msg.length = params.ell)
    (hbit : ∀ x ∈ msg, x < 2) (he : ∀ m, e m < 2) :
    ∃ ct, Pvw.encrypt pr pk params msg e = .ok ct ∧ ct.b = msg.map (params.q / 2 * ·) := by
  obtain ⟨h2, -⟩ := Modulus.new_inv hn
  obtain ⟨ct, c1, -, c3, -, c5⟩ := Pvw.encrypt_exact hn pr (ClueLength.pk hpk) hlen hbit he
  refine ⟨ct, c1, AddClue.ext c3 ⟨by simp [hlen], fun l hl => ?_⟩ fun l hl => ?_⟩
  · rw [List.getD_eq_getElem _ _ (by simpa using (by omega : l < msg.length)), List.getElem_map]
    have := hbit _ (List.getElem_mem (show l < msg.length by omega))
    have : params.q / 2 * msg[l] ≤ params.q / 2 * 1 := Nat.mul_le_mul_left _ (by omega)
    omega
  · rw [c5 l hl, Finset.sum_eq_zero fun m hm => ?_, zero_add, List.getD_eq_getElem msg _ (by omega),
      List.getD_eq_getElem (msg.map _) _ (by simpa using (by omega : l < msg.length)), List.getElem_map]
    obtain ⟨c, k1, k2⟩ := hz m (Finset.mem_range.mp hm)
    have : (pk.getD m ⟨[], []⟩).b.getD l 0 = 0 := by
      rw [show pk.getD m ⟨[], []⟩ = c by rw [List.getD, k1, Option.getD_some], k2]
      simp only [List.getD, List.getElem?_replicate]; split_ifs <;> rfl
    rw [this, Nat.cast_zero, zero_mul]

namespace OpenClue

/-- A sum of bits with weights `2 ^ j` is smaller than `2 ^ k` and shows the bits. -/
theorem bits {f : Nat → Nat} (hf : ∀ j, f j < 2) (k : Nat) : ∑ j ∈ Finset.range k, 2 ^ j * f j < 2 ^ k ∧
    ∀ j, j < k → (∑ j ∈ Finset.range k, 2 ^ j * f j) / 2 ^ j % 2 = f j := by
  induction k with
  | zero => exact ⟨by simp, fun j hj => absurd hj (by omega)⟩
  | succ k ih =>
    rw [Finset.sum_range_succ]
    have := hf k
    refine ⟨?_, fun j hj => ?_⟩
    · have : 2 ^ k * f k ≤ 2 ^ k * 1 := Nat.mul_le_mul_left _ (by omega)
      rw [pow_succ]
      omega
    · rcases Nat.lt_succ_iff_lt_or_eq.mp hj with h | rfl
      · obtain ⟨d, rfl⟩ := Nat.exists_eq_add_of_lt h
        rw [show 2 ^ (j + d + 1) * f (j + d + 1) = 2 ^ j * (2 * (2 ^ d * f (j + d + 1))) by ring, Nat.add_mul_div_left _ _ (by positivity),
          Nat.add_mul_mod_self_left]
        exact ih.2 j h
      · rw [Nat.add_mul_div_left _ _ (by positivity), Nat.div_eq_of_lt ih.1, zero_add, Nat.mod_eq_of_lt this]

end OpenClue

/-- C142: a public key with powers of two in one position reads the message bit of that position and the choices of `k` columns off every clue. -/
theorem c142_read (hn : Modulus.new params.q = .ok q) (pr : Profile) {pk : PvwPk} (hpk : IsPvwPk params pk) {l o k : Nat} (hl : l < params.ell)
    (hk : 2 ^ k ≤ params.q / 2) (ho : o + k ≤ params.m)
    (hw : ∀ m, m < params.m → ∃ c, pk[m]? = some c ∧ c.b.getD l 0 = if o ≤ m ∧ m < o + k then 2 ^ (m - o) else 0)
    {msg : List Nat} (hlen : msg.length = params.ell) (hbit : ∀ x ∈ msg, x < 2) (he : ∀ m, e m < 2) :
    ∃ ct, Pvw.encrypt pr pk params msg e = .ok ct ∧ ct.b.getD l 0 / (params.q / 2) = msg.getD l 0 ∧
      ∀ j, j < k → ct.b.getD l 0 % (params.q / 2) / 2 ^ j % 2 = e (o + j) := by
  obtain ⟨h2, -⟩ := Modulus.new_inv hn
  obtain ⟨ct, c1, -, c3, -, c5⟩ := Pvw.encrypt_exact hn pr (ClueLength.pk hpk) hlen hbit he
  obtain ⟨s1, s2⟩ := OpenClue.bits (f := fun j => e (o + j)) (fun _ => he _) k
  generalize hS : ∑ j ∈ Finset.range k, 2 ^ j * e (o + j) = S at s1 s2
  have hb : msg.getD l 0 < 2 := by rw [List.getD_eq_getElem _ _ (by omega)]; exact hbit _ (List.getElem_mem _)
  have sum : ∑ m ∈ Finset.range params.m, (((pk.getD m ⟨[], []⟩).b.getD l 0 : Nat) : ZMod params.q) * (e m : ZMod params.q) = (S : ZMod params.q) := by
    have t1 : ∀ m ∈ Finset.range params.m, (((pk.getD m ⟨[], []⟩).b.getD l 0 : Nat) : ZMod params.q) * (e m : ZMod params.q) =
        if m ∈ Finset.Ico o (o + k) then ((2 ^ (m - o) * e m : Nat) : ZMod params.q) else 0 := fun m hm => by
      obtain ⟨c, k1, k2⟩ := hw m (Finset.mem_range.mp hm)
      rw [show pk.getD m ⟨[], []⟩ = c by rw [List.getD, k1, Option.getD_some], k2]
      simp only [Finset.mem_Ico]
      split_ifs
      · push_cast; rfl
      · rw [Nat.cast_zero, zero_mul]
    rw [Finset.sum_congr rfl t1, ← Finset.sum_filter, Finset.filter_mem_eq_inter,
      Finset.inter_eq_right.mpr fun m hm => Finset.mem_range.mpr (by have := (Finset.mem_Ico.mp hm).2; omega), ← Nat.cast_sum, Finset.sum_Ico_eq_sum_range,
      Nat.add_sub_cancel_left, ← hS]
    simp only [Nat.add_sub_cancel_left]
  have val : ct.b.getD l 0 = S + params.q / 2 * msg.getD l 0 := by
    have h5 := c5 l hl
    rw [sum, ← Nat.cast_add, ZMod.natCast_eq_natCast_iff] at h5
    refine Nat.ModEq.eq_of_lt_of_lt h5 (c3.2 l hl) ?_
    have : params.q / 2 * msg.getD l 0 ≤ params.q / 2 * 1 := Nat.mul_le_mul_left _ (by omega)
    omega
  have hp : 0 < params.q / 2 := by omega
  refine ⟨ct, c1, ?_, fun j hj => ?_⟩
  · rw [val, Nat.add_mul_div_left _ _ hp, Nat.div_eq_of_lt (by omega), zero_add]
  · rw [val, Nat.add_mul_mod_self_left, Nat.mod_eq_of_lt (show S < params.q / 2 by omega)]
    exact s2 j hj

private def small : PvwParams := ⟨2, 2, 3, 17, 1⟩

private theorem small_pk : IsPvwPk small [⟨[1, 2], [3, 4]⟩, ⟨[0, 16], [5, 6]⟩, ⟨[7, 8], [9, 10]⟩] := by
  intro m hm
  have : m < 3 := hm
  interval_cases m <;> exact ⟨_, rfl, ⟨rfl, by decide⟩, rfl, by decide⟩

private theorem zero_pk : IsPvwPk small [⟨[1, 2], [0, 0]⟩, ⟨[0, 16], [0, 0]⟩, ⟨[7, 8], [0, 0]⟩] := by
  intro m hm
  have : m < 3 := hm
  interval_cases m <;> exact ⟨_, rfl, ⟨rfl, by decide⟩, rfl, by decide⟩

/-- A clue for an arbitrary public key, opened with its selector. -/
example (pr : Profile) : ∃ ct, Pvw.encrypt pr [⟨[1, 2], [3, 4]⟩, ⟨[0, 16], [5, 6]⟩, ⟨[7, 8], [9, 10]⟩] small [1, 0] (fun i => (i + 1) % 2) = .ok ct ∧
    openClue small [⟨[1, 2], [3, 4]⟩, ⟨[0, 16], [5, 6]⟩, ⟨[7, 8], [9, 10]⟩] (fun i => (i + 1) % 2) ct = [1, 0] := by
  obtain ⟨q, hq, -⟩ := Modulus.new_ok (p := small.q) (by decide) (by decide)
  exact c142_open hq pr small_pk rfl (by decide) (fun _ => by omega)

/-- A clue for a key with zeros. -/
example (pr : Profile) : ∃ ct, Pvw.encrypt pr [⟨[1, 2], [0, 0]⟩, ⟨[0, 16], [0, 0]⟩, ⟨[7, 8], [0, 0]⟩] small [1, 0] (fun i => (i + 1) % 2) = .ok ct ∧ ct.b = [8, 0] := by
  obtain ⟨q, hq, -⟩ := Modulus.new_ok (p := small.q) (by decide) (by decide)
  refine c142_zero hq pr zero_pk (fun m hm => ?_) rfl (by decide) (fun _ => by omega)
  have : m < 3 := hm
  interval_cases m <;> exact ⟨_, rfl, rfl⟩

private theorem read_pk : IsPvwPk small [⟨[1, 2], [1, 0]⟩, ⟨[0, 16], [2, 0]⟩, ⟨[7, 8], [4, 0]⟩] := by
  intro m hm
  have : m < 3 := hm
  interval_cases m <;> exact ⟨_, rfl, ⟨rfl, by decide⟩, rfl, by decide⟩

/-- A key that reads all three choices. -/
example (pr : Profile) : ∃ ct, Pvw.encrypt pr [⟨[1, 2], [1, 0]⟩, ⟨[0, 16], [2, 0]⟩, ⟨[7, 8], [4, 0]⟩] small [1, 0] (fun i => (i + 1) % 2) = .ok ct ∧
    ct.b.getD 0 0 / 8 = 1 ∧ ∀ j, j < 3 → ct.b.getD 0 0 % 8 / 2 ^ j % 2 = (0 + j + 1) % 2 := by
  obtain ⟨q, hq, -⟩ := Modulus.new_ok (p := small.q) (by decide) (by decide)
  refine c142_read hq pr read_pk (l := 0) (o := 0) (k := 3) (by decide) (by decide) (by decide) (fun m hm => ?_) rfl (by decide) (fun _ => by omega)
  have : m < 3 := hm
  interval_cases m <;> exact ⟨_, rfl, rfl⟩

end OnionPIR
