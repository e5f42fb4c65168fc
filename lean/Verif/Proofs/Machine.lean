import Verif.Model.Machine
import Mathlib.Tactic.Ring
import Mathlib.Tactic.Linarith
import Mathlib.Tactic.NormNum
import Mathlib.Data.List.Basic
/- Basic lemmas about the machine layer. -/
namespace OnionPIR

theorem fit_ok {w : Nat} {pr : Profile} {x : Nat} (h : x < 2 ^ w) : fit w pr x = .ok x := by
  simp [fit, h]
theorem addW_ok {w : Nat} {pr : Profile} {a b : Nat} (h : a + b < 2 ^ w) : addW w pr a b = .ok (a + b) := fit_ok h
theorem mulW_ok {w : Nat} {pr : Profile} {a b : Nat} (h : a * b < 2 ^ w) : mulW w pr a b = .ok (a * b) := fit_ok h
theorem subW_ok {w : Nat} {pr : Profile} {a b : Nat} (h : b ≤ a) : subW w pr a b = .ok (a - b) := by
  simp [subW, h]
theorem divR_ok {a b : Nat} (h : b ≠ 0) : divR a b = .ok (a / b) := by simp [divR, h]
theorem modR_ok {a b : Nat} (h : b ≠ 0) : modR a b = .ok (a % b) := by simp [modR, h]
theorem rassert_ok {c : Prop} [Decidable c] (h : c) : rassert c = .ok () := by simp [rassert, h]
theorem rassert_fail {c : Prop} [Decidable c] (h : ¬ c) : rassert c = .error .assert := by simp [rassert, h]
theorem dassert_ok {pr : Profile} {c : Prop} [Decidable c] (h : c) : dassert pr c = .ok () := by
  cases pr <;> simp [dassert, h]
theorem dassertEqR_ok {pr : Profile} {x : Nat} {y : Res Nat} (h : y = .ok x) : dassertEqR pr x y = .ok () := by
  subst h; cases pr <;> simp [dassertEqR, dassert]
theorem idx_ok {α : Type _} {l : List α} {i : Nat} (h : i < l.length) : idx l i = .ok l[i] := by
  simp [idx, List.getElem?_eq_getElem h]
theorem idx_getD {α : Type _} {l : List α} {i : Nat} (d : α) (h : i < l.length) :
    idx l i = .ok (l.getD i d) := by
  rw [idx_ok h]; simp [List.getD, List.getElem?_eq_getElem h]
theorem idx_fail {α : Type _} {l : List α} {i : Nat} (h : l.length ≤ i) : idx l i = .error .bounds := by
  simp [idx, List.getElem?_eq_none h]

theorem rassert_eq_ok {c : Prop} [Decidable c] {u : Unit} : rassert c = .ok u ↔ c := by
  by_cases h : c <;> simp [rassert, h]
theorem unwrapR_eq_ok {α : Type _} {o : Option α} {a : α} : unwrapR o = .ok a ↔ o = some a := by
  cases o <;> simp [unwrapR]
theorem idx_eq_ok {α : Type _} {l : List α} {i : Nat} {a : α} : idx l i = .ok a ↔ l[i]? = some a := by
  unfold idx; cases l[i]? <;> simp

/-- Inversion of a successful sequential composition. -/
theorem bind_eq_ok {α β : Type _} {x : Res α} {f : α → Res β} {b : β} :
    (x >>= f) = .ok b ↔ ∃ a, x = .ok a ∧ f a = .ok b := by
  cases x with
  | error e => simp
  | ok a => simp

theorem mapR_ok {α β : Type _} {f : α → Res β} {g : α → β} {l : List α}
    (h : ∀ x ∈ l, f x = .ok (g x)) : mapR f l = .ok (l.map g) := by
  induction l with
  | nil => rfl
  | cons a as ih =>
    simp [mapR, h a (by simp), ih (fun x hx => h x (by simp [hx]))]

theorem mapR_eq_ok {α β : Type _} {f : α → Res β} {l : List α} {r : List β} (h : mapR f l = .ok r) :
    r.length = l.length ∧ ∀ i (hi : i < l.length) (hi' : i < r.length), f l[i] = .ok r[i] := by
  induction l generalizing r with
  | nil => simp [mapR] at h; subst h; simp
  | cons a as ih =>
    simp only [mapR, bind_eq_ok] at h
    obtain ⟨x, hx, r', hr', h⟩ := h
    cases h
    obtain ⟨h1, h2⟩ := ih hr'
    refine ⟨by simp [h1], ?_⟩
    intro i hi hi'
    cases i with
    | zero => simpa using hx
    | succ i => simpa using h2 i (by simpa using hi) (by simpa using hi')

theorem zipMutM_ok {α β : Type _} {f : α → β → Res α} {g : α → β → α} {as : List α} {bs : List β}
    (hl : as.length = bs.length)
    (h : ∀ p ∈ as.zip bs, f p.1 p.2 = .ok (g p.1 p.2)) : zipMutM f as bs = .ok (List.zipWith g as bs) := by
  induction as generalizing bs with
  | nil => cases bs <;> simp [zipMutM]
  | cons a as ih =>
    cases bs with
    | nil => simp at hl
    | cons b bs =>
      have h1 := h (a, b) (by simp)
      have h2 := ih (bs := bs) (by simpa using hl) (fun p hp => h p (by simp [hp]))
      simp only at h1
      simp [zipMutM, h1, h2]

theorem zipR_ok {α β γ : Type _} {f : α → β → Res γ} {g : α → β → γ} {as : List α} {bs : List β}
    (h : ∀ p ∈ as.zip bs, f p.1 p.2 = .ok (g p.1 p.2)) : zipR f as bs = .ok (List.zipWith g as bs) := by
  induction as generalizing bs with
  | nil => cases bs <;> simp [zipR]
  | cons a as ih =>
    cases bs with
    | nil => simp [zipR]
    | cons b bs =>
      have h1 := h (a, b) (by simp)
      have h2 := ih (bs := bs) (fun p hp => h p (by simp [hp]))
      simp only at h1
      simp [zipR, h1, h2]

theorem foldR_nil {α σ : Type _} (f : σ → α → Res σ) (s : σ) : foldR f s [] = .ok s := rfl
theorem foldR_cons {α σ : Type _} (f : σ → α → Res σ) (s : σ) (a : α) (as : List α) :
    foldR f s (a :: as) = (f s a >>= fun s' => foldR f s' as) := rfl
theorem foldR_append {α σ : Type _} (f : σ → α → Res σ) (s : σ) (as bs : List α) :
    foldR f s (as ++ bs) = (foldR f s as >>= fun s' => foldR f s' bs) := by
  induction as generalizing s with
  | nil => simp [foldR]
  | cons a as ih =>
    simp only [List.cons_append, foldR]
    cases f s a with
    | error e => simp
    | ok v => simp [ih]

/-- Loop rule: a `for` loop over `0..n` that preserves an indexed invariant, and does not panic. -/
theorem foldR_range_ok {σ : Type _} {f : σ → Nat → Res σ} {n : Nat} {s : σ} (Inv : Nat → σ → Prop)
    (h0 : Inv 0 s) (hs : ∀ i s, i < n → Inv i s → ∃ s', f s i = .ok s' ∧ Inv (i + 1) s') :
    ∃ s', foldR f s (List.range n) = .ok s' ∧ Inv n s' := by
  induction n with
  | zero => exact ⟨s, by simp [foldR], h0⟩
  | succ n ih =>
    obtain ⟨s1, h1, i1⟩ := ih (fun i s hi => hs i s (by omega))
    obtain ⟨s2, h2, i2⟩ := hs n s1 (by omega) i1
    refine ⟨s2, ?_, i2⟩
    rw [List.range_succ, foldR_append, h1]
    simp [foldR, h2]

/-- Inversion form of the loop rule. -/
theorem foldR_range_inv {σ : Type _} {f : σ → Nat → Res σ} {n : Nat} {s r : σ} (Inv : Nat → σ → Prop)
    (h : foldR f s (List.range n) = .ok r)
    (h0 : Inv 0 s) (hs : ∀ i s s', i < n → Inv i s → f s i = .ok s' → Inv (i + 1) s') : Inv n r := by
  induction n generalizing r with
  | zero => simp [foldR] at h; subst h; exact h0
  | succ n ih =>
    rw [List.range_succ, foldR_append, bind_eq_ok] at h
    obtain ⟨a, ha, hb⟩ := h
    have := ih ha (fun i s s' hi => hs i s s' (by omega))
    simp only [foldR, bind_eq_ok] at hb
    obtain ⟨c, hc, hb⟩ := hb
    cases hb
    exact hs n a _ (by omega) this hc

end OnionPIR
