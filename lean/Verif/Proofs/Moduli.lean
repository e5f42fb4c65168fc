import Verif.Proofs.Utils
import Verif.Spec.Moduli
import Mathlib.Data.Set.Card

/-! `BfvParameters::generate_moduli` finds the largest primes, and fails only when there are not enough of them (C62). -/

namespace OnionPIR

theorem friendly_finite (d s : Nat) : (friendly d s).Finite := by
  apply (Set.finite_Iio (2 ^ s)).subset
  rintro p ⟨-, h, -⟩
  rw [Set.mem_Iio, ← h]
  exact Nat.lt_pow_succ_log_self (by norm_num) p

theorem mem_friendly {d s p : Nat} (hd : 1 ≤ d) (hs : 10 ≤ s) :
    p ∈ friendly d s ↔ p.Prime ∧ 2 ^ (s - 1) ≤ p ∧ p < 2 ^ s ∧ p % (2 * d) = 1 := by
  have h1 : 1 % (2 * d) = 1 := Nat.mod_eq_of_lt (by omega)
  constructor
  · rintro ⟨h, rfl, h3⟩
    refine ⟨h, ?_, Nat.lt_pow_succ_log_self (by norm_num) p, by rw [← h1]; exact h3⟩
    exact Nat.pow_log_le_self 2 h.pos.ne'
  · rintro ⟨h, h2, h3, h4⟩
    refine ⟨h, ?_, by unfold Nat.ModEq; rw [h1, h4]⟩
    have : Nat.log 2 p = s - 1 := Nat.log_eq_of_pow_le_of_lt_pow h2 (by rwa [show s - 1 + 1 = s by omega])
    omega

/-- What is left of `friendly d s` when the moduli in `ms` are taken. -/
def remaining (d s : Nat) (ms : List Nat) : Set Nat := friendly d s \ {x | x ∈ ms}

theorem remaining_finite (d s : Nat) (ms : List Nat) : (remaining d s ms).Finite := (friendly_finite d s).sdiff

theorem remaining_append_self {d s : Nat} {ms : List Nat} {p : Nat} (hp : p ∈ remaining d s ms) :
    (remaining d s (ms ++ [p])).ncard + 1 = (remaining d s ms).ncard := by
  have : remaining d s (ms ++ [p]) = remaining d s ms \ {p} := by
    ext x
    simp only [remaining, Set.mem_sdiff, Set.mem_ofPred_eq, List.mem_append, List.mem_singleton, Set.mem_singleton_iff, not_or]
    tauto
  rw [this]
  exact Set.ncard_sdiff_singleton_add_one hp (remaining_finite d s ms)

theorem remaining_append_ne {d s s' : Nat} {ms : List Nat} {p : Nat} (hp : p ∈ remaining d s ms) (hne : s' ≠ s) :
    remaining d s' (ms ++ [p]) = remaining d s' ms := by
  ext x
  simp only [remaining, Set.mem_sdiff, Set.mem_ofPred_eq, List.mem_append, List.mem_singleton, not_or]
  constructor
  · rintro ⟨h1, h2, -⟩; exact ⟨h1, h2⟩
  · rintro ⟨h1, h2⟩
    refine ⟨h1, h2, ?_⟩
    rintro rfl
    exact hne (h1.2.1.symm.trans hp.1.2.1)

theorem genModuliSizes_complete (pr : Profile) {degree : Nat} (hd : 1 ≤ degree) (hd2 : 2 * degree < 2 ^ 64)
    (sizes : List Nat) (hs : ∀ s ∈ sizes, 10 ≤ s ∧ s ≤ 62) (moduli : List Nat) :
    ((∃ s, (remaining degree s moduli).ncard < sizes.count s) ∧ genModuliSizes pr degree sizes moduli = .ok none) ∨
    ((∀ s, sizes.count s ≤ (remaining degree s moduli).ncard) ∧ ∃ ps, ps.length = sizes.length ∧
      genModuliSizes pr degree sizes moduli = .ok (some (moduli ++ ps)) ∧
      ∀ i s p, sizes[i]? = some s → ps[i]? = some p → IsGreatest (remaining degree s (moduli ++ ps.take i)) p) := by
  induction sizes generalizing moduli with
  | nil => exact Or.inr ⟨by simp, [], rfl, by rw [List.append_nil]; rfl, by simp⟩
  | cons s sizes ih =>
    have hs0 := hs s (by simp)
    have hlt : 1 ≤ 2 ^ s := Nat.one_le_two_pow
    obtain ⟨o, h1, h2⟩ := genModuliLoop_ok pr (moduli := moduli) hs0.1 hs0.2 hd hd2 (2 ^ s) (2 ^ s) le_rfl hlt le_rfl
    unfold genModuliSizes
    rw [rassert_ok ⟨hs0.2, hs0.1⟩, res_ok_bind, h1, res_ok_bind]
    rcases h2 with ⟨rfl, h⟩ | ⟨p, rfl, p1, p2, p3, p4, p5, p6⟩
    · refine Or.inl ⟨⟨s, ?_⟩, rfl⟩
      have : remaining degree s moduli = ∅ := by
        rw [Set.eq_empty_iff_forall_notMem]
        rintro x ⟨hx, hx'⟩
        obtain ⟨x1, x2, x3, x4⟩ := (mem_friendly hd hs0.1).mp hx
        exact hx' (h x x1 x2 x3 x4 x3)
      rw [this, Set.ncard_empty, List.count_cons_self]
      omega
    · have hp : p ∈ remaining degree s moduli := ⟨(mem_friendly hd hs0.1).mpr ⟨p1, p2, p3, p4⟩, p5⟩
      have hself := remaining_append_self hp
      dsimp only
      rcases ih (fun x hx => hs x (List.mem_cons_of_mem _ hx)) (moduli ++ [p]) with ⟨⟨s', g1⟩, g2⟩ | ⟨g1, ps, g2, g3, g4⟩
      · refine Or.inl ⟨⟨s', ?_⟩, g2⟩
        by_cases he : s' = s
        · subst he; rw [List.count_cons_self]; omega
        · rw [remaining_append_ne hp he] at g1
          rwa [List.count_cons_of_ne (Ne.symm he)]
      · refine Or.inr ⟨fun s' => ?_, p :: ps, by simp [g2], by rw [g3]; simp, ?_⟩
        · by_cases he : s' = s
          · subst he
            have := g1 s'
            rw [List.count_cons_self]; omega
          · have := g1 s'
            rw [remaining_append_ne hp he] at this
            rwa [List.count_cons_of_ne (Ne.symm he)]
        · intro i s' p' hi hp'
          cases i with
          | zero =>
            simp only [List.getElem?_cons_zero, Option.some.injEq] at hi hp'
            subst hi; subst hp'
            rw [List.take_zero, List.append_nil]
            refine ⟨hp, fun x hx => ?_⟩
            obtain ⟨x1, x2, x3, x4⟩ := (mem_friendly hd hs0.1).mp hx.1
            exact p6 x x1 x2 x3 x4 x3 hx.2
          | succ i =>
            simp only [List.getElem?_cons_succ] at hi hp'
            have := g4 i s' p' hi hp'
            simpa using this

end OnionPIR
