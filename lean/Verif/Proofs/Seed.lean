import Verif.Spec.Seed
import Verif.Proofs.Random
/-
The values drawn from a generator do not depend on how many blocks are computed (C89).
-/
namespace OnionPIR
open Spec

namespace Rand

theorem times_length {α : Type} {f : Sampler α} {k : Nat} {ws : List Nat} {xs : List α} {r : List Nat} (h : times f k ws = .ok (xs, r)) :
    xs.length = k := by
  induction k generalizing ws xs r with
  | zero =>
    simp only [times, Except.ok.injEq, Prod.mk.injEq] at h
    rw [← h.1]; rfl
  | succ k ih =>
    simp only [times, bind_eq_ok] at h
    obtain ⟨⟨y, r1⟩, h1, ⟨ys, r2⟩, h2, h3⟩ := h
    simp only [Except.ok.injEq, Prod.mk.injEq] at h3
    obtain ⟨rfl, rfl⟩ := h3
    simp [ih h2]

/-- The first values do not depend on how many are drawn. -/
theorem times_take {α : Type} {f : Sampler α} {k : Nat} {ws : List Nat} {xs : List α} {r : List Nat} (h : times f k ws = .ok (xs, r)) {i : Nat}
    (hi : i ≤ k) : ∃ r', times f i ws = .ok (xs.take i, r') := by
  induction k generalizing ws xs r i with
  | zero =>
    obtain rfl : i = 0 := by omega
    exact ⟨ws, by simp [times]⟩
  | succ k ih =>
    simp only [times, bind_eq_ok] at h
    obtain ⟨⟨y, r1⟩, h1, ⟨ys, r2⟩, h2, h3⟩ := h
    simp only [Except.ok.injEq, Prod.mk.injEq] at h3
    obtain ⟨rfl, rfl⟩ := h3
    cases i with
    | zero => exact ⟨ws, by simp [times]⟩
    | succ i =>
      obtain ⟨r', hr'⟩ := ih h2 (show i ≤ k by omega)
      exact ⟨r', by rw [times, h1, res_ok_bind]; simp only [hr', res_ok_bind, List.take_succ_cons]⟩

theorem draw_append {n zone : Nat} {ws ws' : List Nat} {x : Nat} {r : List Nat} (h : draw n zone ws = .ok (x, r)) :
    draw n zone (ws ++ ws') = .ok (x, r ++ ws') := by
  induction ws with
  | nil => simp [draw] at h
  | cons w ws ih =>
    rw [draw] at h
    rw [List.cons_append, draw]
    split_ifs at h ⊢ with hc
    · simp only [Except.ok.injEq, Prod.mk.injEq] at h
      rw [h.1, h.2]
    · exact ih h

theorem times_append {n : Nat} {k : Nat} {ws ws' : List Nat} {xs : List Nat} {r : List Nat} (h : times (genRange n) k ws = .ok (xs, r)) :
    times (genRange n) k (ws ++ ws') = .ok (xs, r ++ ws') := by
  induction k generalizing ws xs r with
  | zero =>
    simp only [times, Except.ok.injEq, Prod.mk.injEq] at h ⊢
    rw [h.1, h.2]
    exact ⟨rfl, rfl⟩
  | succ k ih =>
    simp only [times, bind_eq_ok] at h
    obtain ⟨⟨y, r1⟩, h1, ⟨ys, r2⟩, h2, h3⟩ := h
    simp only [Except.ok.injEq, Prod.mk.injEq] at h3
    obtain ⟨rfl, rfl⟩ := h3
    have h4 : genRange n (ws ++ ws') = .ok (y, r1 ++ ws') := by
      unfold genRange at h1 ⊢
      simp only [bind_eq_ok] at h1
      obtain ⟨u, h1, h5⟩ := h1
      rw [h1, res_ok_bind]
      exact draw_append h5
    rw [times, h4, res_ok_bind]
    simp only [ih h2, res_ok_bind]

theorem genRange_lt {n : Nat} {ws r : List Nat} {x : Nat} (hw : ∀ w ∈ ws, w < 2 ^ 64) (h : genRange n ws = .ok (x, r)) :
    x < n ∧ ∀ w ∈ r, w < 2 ^ 64 := by
  unfold genRange at h
  by_cases hn : 0 < n
  · rw [rassert_ok hn, res_ok_bind] at h
    obtain ⟨h1, h2⟩ := draw_lt hn hw h
    exact ⟨h1, h2⟩
  · rw [rassert_fail hn] at h
    cases h

theorem times_lt {n k : Nat} {ws xs r : List Nat} (hw : ∀ w ∈ ws, w < 2 ^ 64) (h : times (genRange n) k ws = .ok (xs, r)) : ∀ x ∈ xs, x < n := by
  induction k generalizing ws xs r with
  | zero =>
    simp only [times, Except.ok.injEq, Prod.mk.injEq] at h
    rw [← h.1]
    simp
  | succ k ih =>
    simp only [times, bind_eq_ok] at h
    obtain ⟨⟨y, r1⟩, h1, ⟨ys, r2⟩, h2, h3⟩ := h
    simp only [Except.ok.injEq, Prod.mk.injEq] at h3
    obtain ⟨rfl, rfl⟩ := h3
    obtain ⟨h4, h5⟩ := genRange_lt hw h1
    intro x hx
    rcases List.mem_cons.mp hx with rfl | hx
    · exact h4
    · exact ih h5 h2 x hx

end Rand

namespace ChaCha8

theorem words_prefix (key : List Nat) {a b : Nat} (h : a ≤ b) : ∃ ws, words key b = words key a ++ ws := by
  obtain ⟨k, rfl⟩ := Nat.exists_eq_add_of_le h
  exact ⟨_, by unfold words; rw [List.range_add, List.flatMap_append]⟩

theorem add_lt (a b : Nat) : add a b < 2 ^ 32 := Nat.mod_lt _ (by norm_num)

theorem pairs_lt {s : List Nat} (h : ∀ x ∈ s, x < 2 ^ 32) : ∀ w ∈ pairs s, w < 2 ^ 64 := by
  induction s using pairs.induct with
  | case1 lo hi r ih =>
    intro w hw
    rw [pairs] at hw
    rcases List.mem_cons.mp hw with rfl | hw
    · have h1 := h lo (by simp)
      have h2 := h hi (by simp)
      apply Nat.or_lt_two_pow
      · rw [Nat.shiftLeft_eq]; omega
      · omega
    · exact ih (fun x hx => h x (by simp [hx])) w hw
  | case2 s hs =>
    intro w hw
    rw [pairs] at hw
    · simp at hw
    · exact hs

theorem words_lt (key : List Nat) (blocks : Nat) : ∀ w ∈ words key blocks, w < 2 ^ 64 := by
  intro w hw
  unfold words at hw
  obtain ⟨i, -, hi⟩ := List.mem_flatMap.mp hw
  refine pairs_lt (fun x hx => ?_) w hi
  unfold block at hx
  obtain ⟨i, hi, rfl⟩ := List.mem_iff_getElem.mp hx
  rw [List.getElem_zipWith]
  exact add_lt _ _

end ChaCha8

open Classical in
/-- There are such values. -/
theorem exists_seedZero : ∃ sample, SeedZero sample := by
  let S : Nat → Nat → Nat → Prop := fun p i x => ∃ blocks xs r, Rand.times (Rand.genRange p) (i + 1) (ChaCha8.seeded 0 blocks) = .ok (xs, r) ∧ xs[i]? = some x
  have huniq : ∀ p i x y, S p i x → S p i y → x = y := by
    rintro p i x y ⟨b1, xs, r, h1, h2⟩ ⟨b2, ys, r', h3, h4⟩
    have key : ∀ {a b : Nat} {xs ys r r' : List Nat}, a ≤ b → Rand.times (Rand.genRange p) (i + 1) (ChaCha8.seeded 0 a) = .ok (xs, r) →
        Rand.times (Rand.genRange p) (i + 1) (ChaCha8.seeded 0 b) = .ok (ys, r') → xs = ys := by
      intro a b xs ys r r' hab g1 g2
      obtain ⟨ws, hws⟩ := ChaCha8.words_prefix (ChaCha8.expandSeed 8 0) hab
      have := Rand.times_append (ws' := ws) g1
      unfold ChaCha8.seeded at this g2
      rw [← hws, g2] at this
      simp only [Except.ok.injEq, Prod.mk.injEq] at this
      exact this.1.symm
    have he : xs = ys := by
      rcases Nat.le_total b1 b2 with h | h
      · exact key h h1 h3
      · exact (key h h3 h1).symm
    rw [he, h4] at h2
    exact (Option.some.inj h2).symm
  have hlt : ∀ p i x, S p i x → x < p := by
    rintro p i x ⟨b, xs, r, h1, h2⟩
    exact Rand.times_lt (ChaCha8.words_lt _ _) h1 x (List.mem_of_getElem? h2)
  refine ⟨fun p i => if h : ∃ x, S p i x then h.choose else 0, fun p i hp => ?_, fun p k blocks xs r h i hi => ?_⟩
  · show (if h : ∃ x, S p i x then h.choose else 0) < p
    split_ifs with h
    · exact hlt p i _ h.choose_spec
    · exact hp
  · obtain ⟨r', hr'⟩ := Rand.times_take h (show i + 1 ≤ k by omega)
    have hl := Rand.times_length h
    have hx : xs[i]? = some (xs[i]'(by omega)) := List.getElem?_eq_getElem _
    have hS : S p i (xs[i]'(by omega)) := ⟨blocks, _, r', hr', by rw [List.getElem?_take, if_pos (by omega), hx]⟩
    have hex : ∃ x, S p i x := ⟨_, hS⟩
    rw [dif_pos hex, hx]
    exact congrArg some (huniq p i _ _ hS hex.choose_spec)

end OnionPIR
