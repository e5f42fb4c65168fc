import Mathlib.SetTheory.Cardinal.Finite
import Mathlib.Algebra.BigOperators.Fin
import Mathlib.Algebra.BigOperators.Field
import Mathlib.Algebra.Order.BigOperators.Group.Finset
import Verif.Props.Privacy
/- Probabilities over products: averages, irrelevant coordinates and hybrids. -/
namespace OnionPIR.Spec

theorem prob_avg {A Z : Type} [Finite A] [Fintype Z] (E : A → Z → Prop) :
    prob (fun x : A × Z => E x.1 x.2) = (∑ z, prob (fun a => E a z)) / Nat.card Z := by
  unfold prob
  let e : {x : A × Z // E x.1 x.2} ≃ (z : Z) × {a : A // E a z} :=
    { toFun := fun x => ⟨x.1.2, x.1.1, x.2⟩
      invFun := fun y => ⟨(y.2.1, y.1), y.2.2⟩
      left_inv := fun _ => rfl
      right_inv := fun _ => rfl }
  rw [Nat.card_congr e, Nat.card_sigma, Nat.card_prod, ← Finset.sum_div, div_div]
  push_cast
  rfl

/-- A bound for every value of a coordinate holds on average. -/
theorem prob_avg_sub {A B Z : Type} [Finite A] [Finite B] [Finite Z] {E : A → Z → Prop} {F : B → Z → Prop} {c : ℝ} (hc : 0 ≤ c)
    (h : ∀ z, |prob (fun a => E a z) - prob (fun b => F b z)| ≤ c) :
    |prob (fun x : A × Z => E x.1 x.2) - prob (fun x : B × Z => F x.1 x.2)| ≤ c := by
  have := Fintype.ofFinite Z
  rw [prob_avg, prob_avg, ← sub_div, ← Finset.sum_sub_distrib, abs_div, Nat.abs_cast]
  rcases Nat.eq_zero_or_pos (Nat.card Z) with h0 | h0
  · rw [h0]; simpa using hc
  · rw [div_le_iff₀ (by exact_mod_cast h0)]
    refine (Finset.abs_sum_le_sum_abs _ _).trans ((Finset.sum_le_sum fun z _ => h z).trans_eq ?_)
    rw [Finset.sum_const, Finset.card_univ, Nat.card_eq_fintype_card, nsmul_eq_mul, mul_comm]

theorem prob_snd {A Z : Type} [Finite A] [Nonempty A] (E : Z → Prop) : prob (fun x : A × Z => E x.2) = prob E := by
  unfold prob
  let e : {x : A × Z // E x.2} ≃ A × {z // E z} :=
    { toFun := fun x => (x.1.1, ⟨x.1.2, x.2⟩)
      invFun := fun y => ⟨(y.1, y.2.1), y.2.2⟩
      left_inv := fun _ => rfl
      right_inv := fun _ => rfl }
  have hA : (Nat.card A : ℝ) ≠ 0 := by exact_mod_cast Nat.card_pos.ne'
  rw [Nat.card_congr e, Nat.card_prod, Nat.card_prod]
  push_cast
  rw [mul_div_mul_left _ _ hA]

/-- Exchanging a value with the one at a place of a table. -/
def swapAt {ι A B : Type} [DecidableEq ι] (i : ι) : A × ((ι → A) × B) ≃ A × ((ι → A) × B) where
  toFun x := (x.2.1 i, Function.update x.2.1 i x.1, x.2.2)
  invFun x := (x.2.1 i, Function.update x.2.1 i x.1, x.2.2)
  left_inv x := by simp
  right_inv x := by simp

/-- A place of a uniform table may be drawn separately. -/
theorem prob_update {ι A B : Type} [DecidableEq ι] [Finite A] [Nonempty A] (i : ι) (E : (ι → A) → B → Prop) :
    prob (fun x : A × ((ι → A) × B) => E (Function.update x.2.1 i x.1) x.2.2) = prob (fun x : (ι → A) × B => E x.1 x.2) := by
  rw [← prob_snd (A := A) (fun x : (ι → A) × B => E x.1 x.2)]
  exact Privacy.prob_equiv (swapAt i) fun x => Iff.rfl

/-- A chain of hybrids. -/
theorem hybrid {n : Nat} (p : Nat → ℝ) (c : Fin n → ℝ) (h : ∀ r : Fin n, |p r - p (r + 1)| ≤ c r) : |p 0 - p n| ≤ ∑ r, c r := by
  induction n with
  | zero => simp
  | succ n ih =>
    rw [Fin.sum_univ_castSucc]
    have h1 := ih (fun r => c r.castSucc) fun r => h r.castSucc
    have h2 := h (Fin.last n)
    exact (abs_sub_le _ (p n) _).trans (add_le_add h1 h2)

section
variable {V B P : Type} {R k : Nat}

/-- Clue `i` of the hybrids: the first `n` clues are uniform. -/
def sumAt (s : B → V → P) (n : Nat) (dest : Fin k → Fin R) (u : Fin R → V) (e : Fin k → B) (w : Fin k → P)
    (i : Fin k) : P := if (i : Nat) < n then w i else s (e i) (u (dest i))

theorem lateHybrid [Finite V] [Nonempty V] [Finite B] [Nonempty B] [Finite P] [Nonempty P] (s : B → V → P) {c : ℝ} (hc : 0 ≤ c)
    (h : ∀ d : V → P → Prop, |prob (fun x : V × B => d x.1 (s x.2 x.1)) - prob (fun x : V × P => d x.1 x.2)| ≤ c) (dest : Fin k → Fin R)
    (G : (Fin R → V) → (Fin k → P) → Prop) :
    |prob (fun x : (Fin R → V) × (Fin k → B) => G x.1 fun i => s (x.2 i) (x.1 (dest i))) -
      prob (fun x : (Fin R → V) × (Fin k → P) => G x.1 x.2)| ≤
      k * c := by
  let p : Nat → ℝ := fun n => prob (fun x : (Fin R → V) × (Fin k → B) × (Fin k → P) =>
    G x.1 (sumAt s n dest x.1 x.2.1 x.2.2))
  have h0 : p 0 = prob (fun x : (Fin R → V) × (Fin k → B) =>
      G x.1 fun i => s (x.2 i) (x.1 (dest i))) := by
    rw [← prob_snd (A := Fin k → P) (fun x : (Fin R → V) × (Fin k → B) =>
      G x.1 fun i => s (x.2 i) (x.1 (dest i)))]
    exact Privacy.prob_equiv ⟨fun x => (x.2.2, x.1, x.2.1), fun y => (y.2.1, y.2.2, y.1), fun _ => rfl, fun _ => rfl⟩ fun x => Iff.rfl
  have hk : p k = prob (fun x : (Fin R → V) × (Fin k → P) => G x.1 x.2) := by
    rw [← prob_snd (A := Fin k → B) (fun x : (Fin R → V) × (Fin k → P) => G x.1 x.2)]
    refine Privacy.prob_equiv ⟨fun x => (x.2.1, x.1, x.2.2), fun y => (y.2.1, y.1, y.2.2), fun _ => rfl, fun _ => rfl⟩ fun x => ?_
    have : sumAt s k dest x.1 x.2.1 x.2.2 = x.2.2 := funext fun i => if_pos i.isLt
    rw [this]; rfl
  rw [← h0, ← hk]
  have key := hybrid (n := k) p (fun _ => c) fun i => ?_
  · simpa using key
  -- one clue
  let Z := (Fin R → V) × (Fin k → B) × (Fin k → P)
  let d : Z → V → P → Prop := fun z x y =>
    G (Function.update z.1 (dest i) x) (Function.update (sumAt s i dest (Function.update z.1 (dest i) x) z.2.1 z.2.2) i y)
  have e1 : p i = prob (fun x : (V × B) × Z => d x.2 x.1.1 (s x.1.2 x.1.1)) := by
    have s1 := prob_update (A := V) (dest i)
      (fun u (b : (Fin k → B) × (Fin k → P)) => G u (sumAt s i dest u b.1 b.2))
    have s2 := prob_update (A := B) i
      (fun e (b : V × (Fin R → V) × (Fin k → P)) =>
        G (Function.update b.2.1 (dest i) b.1) (sumAt s i dest (Function.update b.2.1 (dest i) b.1) e b.2.2))
    have m1 : prob (fun x : V × (Fin R → V) × (Fin k → B) × (Fin k → P) => G (Function.update x.2.1 (dest i) x.1)
          (sumAt s i dest (Function.update x.2.1 (dest i) x.1) x.2.2.1 x.2.2.2)) =
        prob (fun x : (Fin k → B) × V × (Fin R → V) × (Fin k → P) => G (Function.update x.2.2.1 (dest i) x.2.1)
          (sumAt s i dest (Function.update x.2.2.1 (dest i) x.2.1) x.1 x.2.2.2)) :=
      Privacy.prob_equiv (Ω := V × (Fin R → V) × (Fin k → B) × (Fin k → P)) (Ω' := (Fin k → B) × V × (Fin R → V) × (Fin k → P))
        ⟨fun x => (x.2.2.1, x.1, x.2.1, x.2.2.2), fun y => (y.2.1, y.2.2.1, y.1, y.2.2.2), fun _ => rfl, fun _ => rfl⟩ fun x => Iff.rfl
    refine (s1.symm.trans m1).trans (s2.symm.trans ?_)
    refine Privacy.prob_equiv ⟨fun x => ((x.2.2.1, x.1), x.2.2.2.1, x.2.1, x.2.2.2.2), fun y => (y.1.2, y.2.2.1, y.1.1, y.2.1, y.2.2.2), fun _ => rfl, fun _ => rfl⟩
      fun x => ?_
    obtain ⟨e0, e, v0, u, w⟩ := x
    show G (Function.update u (dest i) v0) (sumAt s i dest (Function.update u (dest i) v0) (Function.update e i e0) w) ↔
      G (Function.update u (dest i) v0) (Function.update (sumAt s i dest (Function.update u (dest i) v0) e w) i (s e0 v0))
    have : sumAt s i dest (Function.update u (dest i) v0) (Function.update e i e0) w =
        Function.update (sumAt s i dest (Function.update u (dest i) v0) e w) i (s e0 v0) := by
      funext i'
      by_cases h : i' = i
      · rw [h]
        rw [Function.update_self]
        unfold sumAt
        rw [if_neg (lt_irrefl _), Function.update_self, Function.update_self]
      · rw [Function.update_of_ne h]
        unfold sumAt
        rw [Function.update_of_ne h]
    rw [this]
  have e2 : p (i + 1) = prob (fun x : (V × P) × Z => d x.2 x.1.1 x.1.2) := by
    have s1 := prob_update (A := V) (dest i)
      (fun u (b : (Fin k → B) × (Fin k → P)) => G u (sumAt s (i + 1) dest u b.1 b.2))
    have s2 := prob_update (A := P) i
      (fun w (b : V × (Fin R → V) × (Fin k → B)) =>
        G (Function.update b.2.1 (dest i) b.1) (sumAt s (i + 1) dest (Function.update b.2.1 (dest i) b.1) b.2.2 w))
    have m1 : prob (fun x : V × (Fin R → V) × (Fin k → B) × (Fin k → P) => G (Function.update x.2.1 (dest i) x.1)
          (sumAt s (i + 1) dest (Function.update x.2.1 (dest i) x.1) x.2.2.1 x.2.2.2)) =
        prob (fun x : (Fin k → P) × V × (Fin R → V) × (Fin k → B) => G (Function.update x.2.2.1 (dest i) x.2.1)
          (sumAt s (i + 1) dest (Function.update x.2.2.1 (dest i) x.2.1) x.2.2.2 x.1)) :=
      Privacy.prob_equiv (Ω := V × (Fin R → V) × (Fin k → B) × (Fin k → P)) (Ω' := (Fin k → P) × V × (Fin R → V) × (Fin k → B))
        ⟨fun x => (x.2.2.2, x.1, x.2.1, x.2.2.1), fun y => (y.2.1, y.2.2.1, y.2.2.2, y.1), fun _ => rfl, fun _ => rfl⟩ fun x => Iff.rfl
    refine (s1.symm.trans m1).trans (s2.symm.trans ?_)
    refine Privacy.prob_equiv ⟨fun x => ((x.2.2.1, x.1), x.2.2.2.1, x.2.2.2.2, x.2.1), fun y => (y.1.2, y.2.2.2, y.1.1, y.2.1, y.2.2.1), fun _ => rfl, fun _ => rfl⟩
      fun x => ?_
    obtain ⟨w0, w, v0, u, e⟩ := x
    show G (Function.update u (dest i) v0) (sumAt s (i + 1) dest (Function.update u (dest i) v0) e (Function.update w i w0)) ↔
      G (Function.update u (dest i) v0) (Function.update (sumAt s i dest (Function.update u (dest i) v0) e w) i w0)
    have : sumAt s (i + 1) dest (Function.update u (dest i) v0) e (Function.update w i w0) =
        Function.update (sumAt s i dest (Function.update u (dest i) v0) e w) i w0 := by
      funext i'
      by_cases h : i' = i
      · rw [h]
        rw [Function.update_self]
        unfold sumAt
        rw [if_pos (Nat.lt_succ_self _), Function.update_self]
      · have h' : (i' : Nat) ≠ i := fun g => h (Fin.ext g)
        rw [Function.update_of_ne h]
        unfold sumAt
        rw [Function.update_of_ne h]
        by_cases g : (i' : Nat) < i
        · rw [if_pos g, if_pos (by omega)]
        · rw [if_neg g, if_neg (by omega)]
    rw [this]
  rw [e1, e2]
  exact prob_avg_sub (A := V × B) (B := V × P) (Z := Z)
    (E := fun x z => d z x.1 (s x.2 x.1)) (F := fun x z => d z x.1 x.2) hc fun z => h (d z)

end

end OnionPIR.Spec
