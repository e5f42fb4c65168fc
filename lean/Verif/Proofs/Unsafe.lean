/-
Which computations can reach `Panic.bounds`. Used for the memory safety of the `unsafe` blocks (src/ntt.rs:88-112 and
134-147, src/rns.rs:395-430), whose unchecked accesses are the only uses of `idx` in the functions treated here.
-/
import Verif.Model.Rns
import Verif.Model.Ntt
import Verif.Proofs.Machine
import Mathlib.Data.Nat.Prime.Basic
import Mathlib.Algebra.Order.Ring.Nat
import Mathlib.Tactic.Linarith
import Mathlib.Tactic.Ring

namespace OnionPIR

/-- The computation does not end in an out-of-bounds access, and its value (if any) satisfies `p`. -/
def Sat {α : Type _} (p : α → Prop) : Res α → Prop
  | .ok x => p x
  | .error e => e ≠ .bounds

theorem Sat.ok {α : Type _} {p : α → Prop} {x : α} (h : p x) : Sat p (.ok x : Res α) := h

theorem Sat.bind {α β : Type _} {p : α → Prop} {q : β → Prop} {r : Res α} {f : α → Res β} (h : Sat p r)
    (hf : ∀ x, p x → Sat q (f x)) : Sat q (r >>= f) := by
  cases r with
  | ok x => exact hf x h
  | error e => exact h

theorem Sat.mono {α : Type _} {p q : α → Prop} {r : Res α} (h : Sat p r) (hf : ∀ x, p x → q x) : Sat q r := by
  cases r with
  | ok x => exact hf x h
  | error e => exact h

theorem Sat.ne {α : Type _} {p : α → Prop} {r : Res α} (h : Sat p r) : r ≠ .error .bounds := by
  rintro rfl
  exact h rfl

/-- No out-of-bounds access. -/
abbrev Free {α : Type _} (r : Res α) : Prop := Sat (fun _ => True) r

theorem Free.bind {α β : Type _} {r : Res α} {f : α → Res β} (h : Free r) (hf : ∀ x, Free (f x)) : Free (r >>= f) :=
  Sat.bind h fun x _ => hf x

theorem Free.ok {α : Type _} (x : α) : Free (.ok x : Res α) := trivial

theorem free_fit (w pr x) : Free (fit w pr x) := by
  unfold fit
  split
  · trivial
  · cases pr
    · exact Panic.noConfusion
    · trivial
theorem free_addW (w pr a b) : Free (addW w pr a b) := free_fit ..
theorem free_mulW (w pr a b) : Free (mulW w pr a b) := free_fit ..
theorem free_subW (w pr a b) : Free (subW w pr a b) := by
  unfold subW
  split
  · trivial
  · cases pr
    · exact Panic.noConfusion
    · trivial
theorem free_divR (a b) : Free (divR a b) := by
  unfold divR
  split
  · exact Panic.noConfusion
  · trivial
theorem free_modR (a b) : Free (modR a b) := by
  unfold modR
  split
  · exact Panic.noConfusion
  · trivial
theorem free_dassert (pr) (c : Prop) [Decidable c] : Free (dassert pr c) := by
  cases pr
  · unfold dassert
    dsimp only
    split
    · trivial
    · exact Panic.noConfusion
  · trivial
theorem free_rassert (c : Prop) [Decidable c] : Free (rassert c) := by
  unfold rassert
  split
  · trivial
  · exact Panic.noConfusion
theorem free_dassertEqR (pr x y) (h : Free y) : Free (dassertEqR pr x y) := by
  cases pr
  · exact Free.bind h fun _ => free_dassert ..
  · trivial
theorem free_unwrapR {α : Type _} (o : Option α) : Free (unwrapR o) := by
  cases o
  · exact Panic.noConfusion
  · trivial

theorem sat_idx {α : Type _} {l : List α} {i : Nat} (h : i < l.length) : Sat (fun x => x ∈ l) (idx l i) := by
  unfold idx
  rw [List.getElem?_eq_getElem h]
  exact List.getElem_mem h

theorem sat_foldR {α σ : Type _} {f : σ → α → Res σ} {p : Nat → σ → Prop} (l : List α)
    (hf : ∀ (k : Nat) (hk : k < l.length) s, p k s → Sat (p (k + 1)) (f s l[k])) {s : σ} (hs : p 0 s) :
    Sat (p l.length) (foldR f s l) := by
  induction l generalizing s p with
  | nil => exact hs
  | cons a as ih =>
    unfold foldR
    refine Sat.bind (hf 0 (by simp) s hs) fun s' hs' => ?_
    exact ih (p := fun k => p (k + 1)) (fun k hk t ht => hf (k + 1) (by simpa using hk) t ht) hs'

theorem free_mapR {α β : Type _} {f : α → Res β} (l : List α) (hf : ∀ x ∈ l, Free (f x)) : Free (mapR f l) := by
  induction l with
  | nil => trivial
  | cons a as ih =>
    exact Free.bind (hf a (by simp)) fun _ => Free.bind (ih fun x hx => hf x (by simp [hx])) fun _ => Free.ok _

namespace Modulus
theorem free_reduceCt (pr x p) : Free (reduceCt pr x p) := by
  unfold reduceCt
  exact Free.bind (free_dassert ..) fun _ => Free.bind (free_dassert ..) fun _ =>
    Free.bind (free_dassert ..) fun _ => Free.ok _
theorem free_shoup (pr m a) : Free (shoup pr m a) :=
  Free.bind (free_dassert ..) fun _ => Free.bind (free_divR ..) fun _ => Free.ok _
theorem free_lazyMulShoup (pr m a b c) : Free (lazyMulShoup pr m a b c) :=
  Free.bind (free_dassert ..) fun _ => Free.bind (free_dassertEqR _ _ _ (free_shoup ..)) fun _ =>
    Free.bind (free_mulW ..) fun _ => Free.bind (free_mulW ..) fun _ => Free.bind (free_mulW ..) fun _ =>
    Free.bind (free_subW ..) fun _ => Free.bind (free_dassert ..) fun _ => Free.ok _
theorem free_mulShoup (pr m a b c) : Free (mulShoup pr m a b c) :=
  Free.bind (free_lazyMulShoup ..) fun _ => free_reduceCt ..
theorem free_lazyReduceU128 (pr m a) : Free (lazyReduceU128 pr m a) :=
  Free.bind (free_mulW ..) fun _ => Free.bind (free_mulW ..) fun _ => Free.bind (free_mulW ..) fun _ =>
    Free.bind (free_mulW ..) fun _ => Free.bind (free_addW ..) fun _ => Free.bind (free_addW ..) fun _ =>
    Free.bind (free_addW ..) fun _ => Free.bind (free_mulW ..) fun _ => Free.bind (free_subW ..) fun _ => Free.ok _
theorem free_reduceU128 (pr m a) : Free (reduceU128 pr m a) :=
  Free.bind (free_lazyReduceU128 ..) fun _ => free_reduceCt ..
end Modulus

namespace NttOperator
variable (pr : Profile) (op : NttOperator)

theorem free_butterfly (x y w ws) : Free (butterfly pr op x y w ws) :=
  Free.bind (free_dassert ..) fun _ => Free.bind (free_dassert ..) fun _ => Free.bind (free_dassert ..) fun _ =>
    Free.bind (free_dassertEqR _ _ _ (Modulus.free_shoup ..)) fun _ => Free.bind (Modulus.free_reduceCt ..) fun _ =>
    Free.bind (Modulus.free_lazyMulShoup ..) fun _ => Free.bind (free_addW ..) fun _ => Free.bind (free_subW ..) fun _ =>
    Free.bind (free_addW ..) fun _ => Free.bind (free_dassert ..) fun _ => Free.bind (free_dassert ..) fun _ => Free.ok _
theorem free_butterflyInv (x y w ws) : Free (butterflyInv pr op x y w ws) :=
  Free.bind (free_dassert ..) fun _ => Free.bind (free_dassert ..) fun _ => Free.bind (free_dassert ..) fun _ =>
    Free.bind (free_dassertEqR _ _ _ (Modulus.free_shoup ..)) fun _ => Free.bind (free_addW ..) fun _ =>
    Free.bind (Modulus.free_reduceCt ..) fun _ => Free.bind (free_addW ..) fun _ => Free.bind (free_subW ..) fun _ =>
    Free.bind (Modulus.free_lazyMulShoup ..) fun _ => Free.bind (free_dassert ..) fun _ =>
    Free.bind (free_dassert ..) fun _ => Free.ok _
theorem free_reduce4p (a p) : Free (reduce4p pr a p) :=
  Free.bind (free_dassert ..) fun _ => Free.bind (free_mulW ..) fun _ =>
    Free.bind (Modulus.free_reduceCt ..) fun _ => Modulus.free_reduceCt ..

theorem sat_updatePair {a : List Nat} {j l : Nat} {f : Nat → Nat → Res (Nat × Nat)} (h : j + l < a.length)
    (hf : ∀ x y, Free (f x y)) : Sat (fun b => b.length = a.length) (updatePair a j l f) :=
  Sat.bind (sat_idx (by omega)) fun _ _ => Sat.bind (sat_idx h) fun _ _ => Sat.bind (hf _ _) fun _ _ => by
    simp [Sat]

theorem sat_pairs {n s l : Nat} {f : Nat → Nat → Res (Nat × Nat)} {a : List Nat} (ha : a.length = n) (h : s + 2 * l ≤ n)
    (hf : ∀ x y, Free (f x y)) :
    Sat (fun b : List Nat => b.length = n) (foldR (fun a j => updatePair a (s + j) l f) a (List.range l)) := by
  refine sat_foldR (p := fun _ (b : List Nat) => b.length = n) _ (fun k hk b hb => ?_) ha
  simp only [List.length_range] at hk
  simp only [List.getElem_range]
  exact (sat_updatePair (by omega) hf).mono fun c hc => hc.trans hb

theorem sat_forwardBlock {n l i o os : Nat} {a : List Nat} (ha : a.length = n) (h : (i + 1) * (2 * l) ≤ n) (hl : 0 < l) :
    Sat (fun b => b.length = n) (forwardBlock pr op l i o os a) := by
  have h' : 2 * i * l + 2 * l ≤ n := by linarith [show (i + 1) * (2 * l) = 2 * i * l + 2 * l by ring]
  unfold forwardBlock
  dsimp only
  split
  · subst l
    refine (sat_updatePair (by omega) fun x y => ?_).mono fun c hc => hc.trans ha
    exact Free.bind (free_butterfly ..) fun _ => Free.bind (free_reduce4p ..) fun _ =>
      Free.bind (free_reduce4p ..) fun _ => Free.ok _
  · exact sat_pairs ha h' fun x y => free_butterfly ..

theorem sat_forwardLayer {n l m k : Nat} {a : List Nat} (ha : a.length = n) (h : m * (2 * l) ≤ n) (hl : 0 < l)
    (hk : k + m ≤ n) (ho : op.omegas.length = n) (hs : op.omegasShoup.length = n) :
    Sat (fun st => st.1.length = n ∧ st.2 = k + m) (forwardLayer pr op l m k a) := by
  unfold forwardLayer
  refine (sat_foldR (p := fun i st => st.1.length = n ∧ st.2 = k + i) _ (fun i hi st hst => ?_) ⟨ha, rfl⟩).mono
    fun st hst => by simpa using hst
  simp only [List.length_range] at hi
  simp only [List.getElem_range]
  refine Sat.bind (sat_idx (by omega)) fun _ _ => Sat.bind (sat_idx (by omega)) fun _ _ => ?_
  refine Sat.bind (sat_forwardBlock pr op hst.1 (le_trans (Nat.mul_le_mul_right _ hi) h) hl) fun b hb => ?_
  exact ⟨hb, by simp only [hst.2]; omega⟩

theorem sat_forwardLoop {n l m k : Nat} {a : List Nat} (ha : a.length = n) (h : l = 0 ∨ m * (2 * l) = n) (hk : k = m)
    (ho : op.omegas.length = n) (hs : op.omegasShoup.length = n) (hpow : ∃ K, n = 2 ^ K) :
    Sat (fun b => b.length = n) (forwardLoop pr op l m k a) := by
  induction l using Nat.strong_induction_on generalizing m k a with
  | _ l ih =>
    unfold forwardLoop
    split
    · exact ha
    · rename_i hl
      have h2 : m * (2 * l) = n := h.resolve_left hl
      subst hk
      have hkm : k + k ≤ n := by nlinarith [Nat.pos_of_ne_zero hl]
      refine Sat.bind (sat_forwardLayer pr op ha h2.le (Nat.pos_of_ne_zero hl) hkm ho hs) fun st hst => ?_
      refine ih (l >>> 1) (by rw [Nat.shiftRight_eq_div_pow]; omega) hst.1 ?_ (by
        rw [hst.2, Nat.shiftLeft_eq]; omega)
      rw [Nat.shiftRight_eq_div_pow, Nat.shiftLeft_eq, pow_one]
      rcases Nat.lt_or_ge l 2 with h1 | h1
      · left; omega
      · right
        obtain ⟨K, rfl⟩ := hpow
        have hdvd : l ∣ 2 ^ K := ⟨k * 2, by rw [← h2]; ring⟩
        obtain ⟨e, -, rfl⟩ := (Nat.dvd_prime_pow Nat.prime_two).1 hdvd
        cases e with
        | zero => omega
        | succ e =>
          rw [← h2, pow_succ, Nat.mul_div_cancel _ (by norm_num)]
          ring

theorem sat_backwardLayer {n l m k : Nat} {a : List Nat} (ha : a.length = n) (h : m * (2 * l) ≤ n)
    (hk : k + m ≤ n) (ho : op.zetasInv.length = n) (hs : op.zetasInvShoup.length = n) :
    Sat (fun st => st.1.length = n ∧ st.2 = k + m) (backwardLayer pr op l m k a) := by
  unfold backwardLayer
  refine (sat_foldR (p := fun i st => st.1.length = n ∧ st.2 = k + i) _ (fun i hi st hst => ?_) ⟨ha, rfl⟩).mono
    fun st hst => by simpa using hst
  simp only [List.length_range] at hi
  simp only [List.getElem_range]
  refine Sat.bind (sat_idx (by omega)) fun _ _ => Sat.bind (sat_idx (by omega)) fun _ _ => ?_
  have h' : 2 * i * l + 2 * l ≤ n := by
    have := le_trans (Nat.mul_le_mul_right (2 * l) hi) h
    linarith [show (i + 1) * (2 * l) = 2 * i * l + 2 * l by ring]
  refine Sat.bind (sat_pairs hst.1 h' fun x y => free_butterflyInv ..) fun b hb => ?_
  exact ⟨hb, by simp only [hst.2]; omega⟩

theorem sat_backwardLoop {n l m k : Nat} {a : List Nat} (ha : a.length = n) (h : m = 0 ∨ m * (2 * l) = n)
    (hk : k + 2 * m ≤ n) (ho : op.zetasInv.length = n) (hs : op.zetasInvShoup.length = n) (hpow : ∃ K, n = 2 ^ K) :
    Sat (fun b => b.length = n) (backwardLoop pr op l m k a) := by
  induction m using Nat.strong_induction_on generalizing l k a with
  | _ m ih =>
    unfold backwardLoop
    split
    · exact ha
    · rename_i hm
      have h2 : m * (2 * l) = n := h.resolve_left hm
      refine Sat.bind (sat_backwardLayer pr op ha h2.le (by omega) ho hs) fun st hst => ?_
      refine ih (m >>> 1) (by rw [Nat.shiftRight_eq_div_pow]; omega) hst.1 ?_ (by
        rw [hst.2, Nat.shiftRight_eq_div_pow]; omega)
      rw [Nat.shiftRight_eq_div_pow, Nat.shiftLeft_eq, pow_one]
      rcases Nat.lt_or_ge m 2 with h1 | h1
      · left; omega
      · right
        obtain ⟨K, rfl⟩ := hpow
        have hdvd : m ∣ 2 ^ K := ⟨2 * l, by rw [← h2]⟩
        obtain ⟨e, -, rfl⟩ := (Nat.dvd_prime_pow Nat.prime_two).1 hdvd
        cases e with
        | zero => omega
        | succ e =>
          rw [← h2, pow_succ, Nat.mul_div_cancel _ (by norm_num)]
          ring

theorem sat_forward {K : Nat} (hs : op.size = 2 ^ K) (ho : op.omegas.length = 2 ^ K)
    (hos : op.omegasShoup.length = 2 ^ K) (a : List Nat) : Sat (fun b => b.length = a.length) (forward pr op a) := by
  unfold forward
  by_cases hl : a.length = op.size
  · refine Sat.bind (free_rassert _) fun _ _ => ?_
    rw [hl, hs]
    refine sat_forwardLoop pr op (hl.trans hs) ?_ rfl ho hos ⟨K, rfl⟩
    rw [Nat.shiftRight_eq_div_pow, pow_one]
    cases K with
    | zero => left; rfl
    | succ e => right; rw [pow_succ, Nat.mul_div_cancel _ (by norm_num)]; ring
  · simp [rassert, hl, Sat]

theorem sat_backward {K : Nat} (hs : op.size = 2 ^ K) (ho : op.zetasInv.length = 2 ^ K)
    (hos : op.zetasInvShoup.length = 2 ^ K) (a : List Nat) : Free (backward pr op a) := by
  unfold backward
  by_cases hl : a.length = op.size
  · refine Free.bind (free_rassert _) fun _ => ?_
    refine Sat.bind (p := fun b => b.length = 2 ^ K) ?_ fun b _ => free_mapR _ fun x _ => Modulus.free_mulShoup ..
    rw [hs, Nat.shiftRight_eq_div_pow, pow_one]
    refine sat_backwardLoop pr op (hl.trans hs) ?_ (by omega) ho hos ⟨K, rfl⟩
    cases K with
    | zero => left; rfl
    | succ e => right; rw [pow_succ, Nat.mul_div_cancel _ (by norm_num)]
  · simp [rassert, hl, Sat]

end NttOperator

theorem free_divCeil (w pr a b) : Free (divCeil w pr a b) :=
  Free.bind (free_rassert _) fun _ => Free.bind (free_addW ..) fun _ => Free.bind (free_subW ..) fun _ => free_divR ..

/-- A computation that succeeds. -/
def Total {α : Type _} (r : Res α) : Prop := ∃ v, r = .ok v

theorem Total.ok {α : Type _} (x : α) : Total (.ok x : Res α) := ⟨x, rfl⟩

theorem Total.bind {α β : Type _} {r : Res α} {f : α → Res β} (h : Total r) (hf : ∀ x, Total (f x)) :
    Total (r >>= f) := by
  obtain ⟨v, rfl⟩ := h
  exact hf v

theorem total_fit (w x) : Total (fit w .release x) := by
  unfold fit
  split <;> exact ⟨_, rfl⟩
theorem total_addW (w a b) : Total (addW w .release a b) := total_fit ..
theorem total_mulW (w a b) : Total (mulW w .release a b) := total_fit ..
theorem total_subW (w a b) : Total (subW w .release a b) := by
  unfold subW
  split <;> exact ⟨_, rfl⟩
theorem total_dassert (c : Prop) [Decidable c] : Total (dassert .release c) := ⟨_, rfl⟩
theorem total_dassertEqR (x y) : Total (dassertEqR .release x y) := ⟨_, rfl⟩
theorem total_divCeil (w a) : Total (divCeil w .release a 2) := by
  unfold divCeil
  rw [rassert_ok (by norm_num), res_ok_bind]
  exact Total.bind (total_addW ..) fun _ => Total.bind (total_subW ..) fun _ => ⟨_, rfl⟩

namespace Modulus
theorem total_reduceCt (x p) : Total (reduceCt .release x p) :=
  Total.bind (total_dassert _) fun _ => Total.bind (total_dassert _) fun _ =>
    Total.bind (total_dassert _) fun _ => Total.ok _
theorem total_lazyMulShoup (m a b c) : Total (lazyMulShoup .release m a b c) :=
  Total.bind (total_dassert _) fun _ => Total.bind (total_dassertEqR _ _) fun _ =>
    Total.bind (total_mulW ..) fun _ => Total.bind (total_mulW ..) fun _ => Total.bind (total_mulW ..) fun _ =>
    Total.bind (total_subW ..) fun _ => Total.bind (total_dassert _) fun _ => Total.ok _
theorem total_lazyReduceU128 (m a) : Total (lazyReduceU128 .release m a) :=
  Total.bind (total_mulW ..) fun _ => Total.bind (total_mulW ..) fun _ => Total.bind (total_mulW ..) fun _ =>
    Total.bind (total_mulW ..) fun _ => Total.bind (total_addW ..) fun _ => Total.bind (total_addW ..) fun _ =>
    Total.bind (total_addW ..) fun _ => Total.bind (total_mulW ..) fun _ => Total.bind (total_subW ..) fun _ => Total.ok _
theorem total_reduceU128 (m a) : Total (reduceU128 .release m a) :=
  Total.bind (total_lazyReduceU128 ..) fun _ => total_reduceCt ..
end Modulus

namespace RnsScaler

theorem free_mulWords (pr a b c) : Free (mulWords pr a b c) :=
  Free.bind (free_mulW ..) fun _ => Free.bind (free_mulW ..) fun _ => Free.bind (free_addW ..) fun _ => Free.ok _
theorem total_mulWords (a b c) : Total (mulWords .release a b c) :=
  Total.bind (total_mulW ..) fun _ => Total.bind (total_mulW ..) fun _ => Total.bind (total_addW ..) fun _ => Total.ok _

theorem free_sumThetaGarner (pr) (a b c : List Nat) (acc) : Free (sumThetaGarner pr a b c acc) := by
  induction a generalizing b c acc with
  | nil => exact Free.ok _
  | cons x a ih =>
    cases b with
    | nil => exact Free.ok _
    | cons y b =>
      cases c with
      | nil => exact Free.ok _
      | cons z c => exact Free.bind (free_mulWords ..) fun _ => ih _ _ _
theorem total_sumThetaGarner (a b c : List Nat) (acc) : Total (sumThetaGarner .release a b c acc) := by
  induction a generalizing b c acc with
  | nil => exact Total.ok _
  | cons x a ih =>
    cases b with
    | nil => exact Total.ok _
    | cons y b =>
      cases c with
      | nil => exact Total.ok _
      | cons z c => exact Total.bind (total_mulWords ..) fun _ => ih _ _ _

theorem free_scaleV (pr s r) : Free (scaleV pr s r) :=
  Free.bind (free_sumThetaGarner ..) fun _ => Free.bind (free_subW ..) fun _ => free_divCeil ..
theorem total_scaleV (s r) : Total (scaleV .release s r) :=
  Total.bind (total_sumThetaGarner ..) fun _ => Total.bind (total_subW ..) fun _ => total_divCeil ..

theorem free_sumThetaOmega (pr) (a b : List Nat) (g : List Bool) (c : List Nat) (acc) :
    Free (sumThetaOmega pr a b g c acc) := by
  induction a generalizing b g c acc with
  | nil => exact Free.ok _
  | cons x a ih =>
    cases b with
    | nil => exact Free.ok _
    | cons y b =>
      cases g with
      | nil => exact Free.ok _
      | cons w g =>
        cases c with
        | nil => exact Free.ok _
        | cons z c => exact Free.bind (free_mulWords ..) fun _ => ih _ _ _ _
theorem total_sumThetaOmega (a b : List Nat) (g : List Bool) (c : List Nat) (acc) :
    Total (sumThetaOmega .release a b g c acc) := by
  induction a generalizing b g c acc with
  | nil => exact Total.ok _
  | cons x a ih =>
    cases b with
    | nil => exact Total.ok _
    | cons y b =>
      cases g with
      | nil => exact Total.ok _
      | cons w g =>
        cases c with
        | nil => exact Total.ok _
        | cons z c => exact Total.bind (total_mulWords ..) fun _ => ih _ _ _ _

theorem free_vThetaGamma (pr a b c) : Free (vThetaGamma pr a b c) :=
  Free.bind (free_mulW ..) fun _ => Free.bind (free_mulW ..) fun _ => Free.bind (free_mulW ..) fun _ =>
    Free.bind (free_mulW ..) fun _ => Free.bind (free_addW ..) fun _ => Free.bind (free_addW ..) fun _ =>
    Free.bind (free_addW ..) fun _ => Free.bind (free_addW ..) fun _ => Free.ok _
theorem total_vThetaGamma (a b c) : Total (vThetaGamma .release a b c) :=
  Total.bind (total_mulW ..) fun _ => Total.bind (total_mulW ..) fun _ => Total.bind (total_mulW ..) fun _ =>
    Total.bind (total_mulW ..) fun _ => Total.bind (total_addW ..) fun _ => Total.bind (total_addW ..) fun _ =>
    Total.bind (total_addW ..) fun _ => Total.bind (total_addW ..) fun _ => Total.ok _

theorem free_shr (pr) (x : U256) : Free (x.shr pr 126) := Free.bind (free_dassert ..) fun _ => Free.ok _
theorem total_shr (x : U256) : Total (x.shr .release 126) := ⟨_, rfl⟩
theorem free_toU128 (pr) (x : U256) : Free (x.toU128 pr) := by
  unfold U256.toU128
  generalize x.l1 <<< 64 = y
  exact Free.bind (free_dassert _ _) fun _ => free_addW _ _ _ _
theorem total_toU128 (x : U256) : Total (x.toU128 .release) := Total.bind (total_dassert _) fun _ => total_addW ..

theorem free_roundW (pr s) : Free (roundW pr s) := by
  unfold roundW
  split
  · exact Free.bind (free_shr ..) fun _ => Free.bind (free_toU128 ..) fun _ => Free.bind (free_addW ..) fun _ => Free.ok _
  · exact Free.bind (free_shr ..) fun _ => Free.bind (free_toU128 ..) fun _ =>
      Free.bind (free_divCeil ..) fun _ => Free.ok _
theorem total_roundW (s) : Total (roundW .release s) := by
  unfold roundW
  split
  · exact Total.bind (total_shr ..) fun _ => Total.bind (total_toU128 ..) fun _ =>
      Total.bind (total_addW ..) fun _ => Total.ok _
  · exact Total.bind (total_shr ..) fun _ => Total.bind (total_toU128 ..) fun _ =>
      Total.bind (total_divCeil ..) fun _ => Total.ok _

theorem free_scaleW (pr s r v) : Free (scaleW pr s r v) := by
  unfold scaleW
  split
  · exact Free.ok _
  · exact Free.bind (free_sumThetaOmega ..) fun _ => Free.bind (free_vThetaGamma ..) fun _ => free_roundW ..
theorem total_scaleW (s r v) : Total (scaleW .release s r v) := by
  unfold scaleW
  split
  · exact Total.ok _
  · exact Total.bind (total_sumThetaOmega ..) fun _ => Total.bind (total_vThetaGamma ..) fun _ => total_roundW ..

theorem free_signedW (pr q g w) : Free (signedW pr q g w) := by
  unfold signedW
  split
  · exact Free.bind (free_mulW ..) fun _ => free_subW ..
  · exact Free.ok _
theorem total_signedW (q g w) : Total (signedW .release q g w) := by
  unfold signedW
  split
  · exact Total.bind (total_mulW ..) fun _ => total_subW ..
  · exact Total.ok _
theorem free_addWTerm (pr s q g w y) : Free (addWTerm pr s q g w y) := by
  unfold addWTerm
  split
  · exact Free.ok _
  · exact Free.bind (Modulus.free_lazyReduceU128 ..) fun _ => Free.bind (free_signedW ..) fun _ => free_addW ..
theorem total_addWTerm (s q g w y) : Total (addWTerm .release s q g w y) := by
  unfold addWTerm
  split
  · exact Total.ok _
  · exact Total.bind (Modulus.total_lazyReduceU128 ..) fun _ => Total.bind (total_signedW ..) fun _ => total_addW ..

theorem free_addOmega (pr q) {rs os shs : List Nat} (y) (h1 : rs.length ≤ os.length) (h2 : rs.length ≤ shs.length) :
    Free (addOmega pr q rs os shs y) := by
  induction rs generalizing os shs y with
  | nil => unfold addOmega; exact Free.ok _
  | cons r rs ih =>
    cases os with
    | nil => simp at h1
    | cons o os =>
      cases shs with
      | nil => simp at h2
      | cons sh shs =>
        exact Free.bind (Modulus.free_lazyMulShoup ..) fun _ => Free.bind (free_addW ..) fun _ =>
          ih _ (by simpa using h1) (by simpa using h2)
theorem total_addOmega (q) {rs os shs : List Nat} (y) (h1 : rs.length ≤ os.length) (h2 : rs.length ≤ shs.length) :
    Total (addOmega .release q rs os shs y) := by
  induction rs generalizing os shs y with
  | nil => unfold addOmega; exact Total.ok _
  | cons r rs ih =>
    cases os with
    | nil => simp at h1
    | cons o os =>
      cases shs with
      | nil => simp at h2
      | cons sh shs =>
        exact Total.bind (Modulus.total_lazyMulShoup ..) fun _ => Total.bind (total_addW ..) fun _ =>
          ih _ (by simpa using h1) (by simpa using h2)
theorem addOmega_bounds (q) {rs os shs : List Nat} (y) (h1 : os.length < rs.length) :
    addOmega .release q rs os shs y = .error .bounds := by
  induction rs generalizing os shs y with
  | nil => simp at h1
  | cons r rs ih =>
    cases os with
    | nil => rfl
    | cons o os =>
      cases shs with
      | nil => rfl
      | cons sh shs =>
        unfold addOmega
        obtain ⟨l, hl⟩ := Modulus.total_lazyMulShoup q r o sh
        obtain ⟨t, ht⟩ := total_addW 128 y l
        rw [hl, res_ok_bind, ht, res_ok_bind]
        exact ih _ (by simpa using h1)

/-- The lengths of the tables of a scaler. -/
structure Shape (s : RnsScaler) : Prop where
  moduli : s.dst.moduli.length = s.dst.moduliU64.length
  gamma : s.gamma.length = s.dst.moduliU64.length
  gammaShoup : s.gammaShoup.length = s.dst.moduliU64.length
  omega : s.omega.length = s.dst.moduliU64.length
  omegaShoup : s.omegaShoup.length = s.dst.moduliU64.length
  row : ∀ r ∈ s.omega, r.length = s.src.moduliU64.length
  rowShoup : ∀ r ∈ s.omegaShoup, r.length = s.src.moduliU64.length

variable {s : RnsScaler}

theorem free_scaleOut (pr) (h : s.Shape) {rests : List Nat} (v g w) {j : Nat} (hj : j < s.dst.moduliU64.length)
    (hr : rests.length ≤ s.src.moduliU64.length) : Free (scaleOut pr s rests v g w j) := by
  unfold scaleOut
  refine Sat.bind (sat_idx (by rw [h.moduli]; exact hj)) fun q _ => ?_
  refine Sat.bind (sat_idx (by rw [h.omega]; exact hj)) fun om hom => ?_
  refine Sat.bind (sat_idx (by rw [h.omegaShoup]; exact hj)) fun oms homs => ?_
  refine Sat.bind (sat_idx (by rw [h.gamma]; exact hj)) fun _ _ => ?_
  refine Sat.bind (sat_idx (by rw [h.gammaShoup]; exact hj)) fun _ _ => ?_
  exact Free.bind (Modulus.free_reduceU128 ..) fun _ => Free.bind (Modulus.free_lazyMulShoup ..) fun _ =>
    Free.bind (free_mulW ..) fun _ => Free.bind (free_subW ..) fun _ => Free.bind (free_addWTerm ..) fun _ =>
    Free.bind (free_addOmega _ _ _ (by rw [h.row _ hom]; exact hr) (by rw [h.rowShoup _ homs]; exact hr)) fun _ =>
    Modulus.free_reduceU128 ..

theorem idx_ok {α : Type _} {l : List α} {i : Nat} (h : i < l.length) : idx l i = .ok l[i] := by
  unfold idx
  rw [List.getElem?_eq_getElem h]

theorem idx_bounds {α : Type _} {l : List α} {i : Nat} (h : l.length ≤ i) : idx l i = .error .bounds := by
  unfold idx
  rw [List.getElem?_eq_none h]

theorem scaleOut_release (h : s.Shape) (rests : List Nat) (v w j : Nat) (g : Bool) :
    (j < s.dst.moduliU64.length ∧ rests.length ≤ s.src.moduliU64.length ∧ Total (scaleOut .release s rests v g w j)) ∨
    ((s.dst.moduliU64.length ≤ j ∨ s.src.moduliU64.length < rests.length) ∧
      scaleOut .release s rests v g w j = .error .bounds) := by
  rcases Nat.lt_or_ge j s.dst.moduliU64.length with hj | hj
  · have e : ∀ β (f : Nat → Res β) x, Total x → (∃ y, x >>= f = f y) := by
      rintro β f x ⟨y, rfl⟩
      exact ⟨y, rfl⟩
    unfold scaleOut
    have h1 : j < s.dst.moduli.length := by rw [h.moduli]; exact hj
    have h2 : j < s.omega.length := by rw [h.omega]; exact hj
    have h3 : j < s.omegaShoup.length := by rw [h.omegaShoup]; exact hj
    have h4 : j < s.gamma.length := by rw [h.gamma]; exact hj
    have h5 : j < s.gammaShoup.length := by rw [h.gammaShoup]; exact hj
    rw [idx_ok h1, idx_ok h2, idx_ok h3, idx_ok h4, idx_ok h5]
    simp only [res_ok_bind]
    have r1 := h.row _ (List.getElem_mem h2)
    have r2 := h.rowShoup _ (List.getElem_mem h3)
    obtain ⟨_, e1⟩ := e _ _ _ (Modulus.total_reduceU128 (s.dst.moduli[j]) v)
    rw [e1]
    obtain ⟨_, e1⟩ := e _ _ _ (Modulus.total_lazyMulShoup (s.dst.moduli[j]) _ (s.gamma[j]) (s.gammaShoup[j]))
    rw [e1]
    obtain ⟨_, e1⟩ := e _ _ _ (total_mulW 64 (s.dst.moduli[j]).p 2)
    rw [e1]
    obtain ⟨_, e1⟩ := e _ _ _ (total_subW 64 _ _)
    rw [e1]
    obtain ⟨_, e1⟩ := e _ _ _ (total_addWTerm s (s.dst.moduli[j]) g w _)
    rw [e1]
    rcases Nat.lt_or_ge s.src.moduliU64.length rests.length with hr | hr
    · right
      refine ⟨Or.inr hr, ?_⟩
      rw [addOmega_bounds _ _ (by rw [r1]; exact hr)]
      rfl
    · left
      refine ⟨hj, hr, Total.bind (total_addOmega _ _ (by rw [r1]; exact hr) (by rw [r2]; exact hr)) fun _ =>
        Modulus.total_reduceU128 ..⟩
  · right
    refine ⟨Or.inl hj, ?_⟩
    unfold scaleOut
    rw [idx_bounds (by rw [h.moduli]; exact hj)]
    rfl

theorem mapR_bounds {α β : Type _} {f : α → Res β} {l : List α} (h : ∀ x ∈ l, Total (f x) ∨ f x = .error .bounds)
    {y : α} (hy : y ∈ l) (he : f y = .error .bounds) : mapR f l = .error .bounds := by
  induction l with
  | nil => simp at hy
  | cons a as ih =>
    unfold mapR
    rcases h a (by simp) with ⟨v, hv⟩ | hb
    · rw [hv, res_ok_bind]
      rcases List.mem_cons.1 hy with rfl | hy'
      · rw [he] at hv; cases hv
      · rw [ih (fun x hx => h x (by simp [hx])) hy']
        rfl
    · rw [hb]; rfl

theorem free_scale (pr) (h : s.Shape) {rests : List Nat} {outLen start : Nat}
    (hr : rests.length ≤ s.src.moduliU64.length) (ho : start + outLen ≤ s.dst.moduliU64.length) :
    Free (scale pr s rests outLen start) := by
  unfold scale
  refine Free.bind (free_dassert ..) fun _ => Free.bind (free_dassert ..) fun _ => Free.bind (free_dassert ..) fun _ =>
    Free.bind (free_scaleV ..) fun _ => Free.bind (free_scaleW ..) fun _ => free_mapR _ fun i hi => ?_
  rw [List.mem_range] at hi
  exact free_scaleOut pr h _ _ _ (by omega) hr

theorem scale_debug (h : s.Shape) (rests : List Nat) (outLen start : Nat) :
    Free (scale .debug s rests outLen start) := by
  by_cases h1 : rests.length = s.src.moduliU64.length
  · by_cases h3 : start + outLen ≤ s.dst.moduliU64.length
    · exact free_scale .debug h h1.le h3
    · by_cases h2 : outLen ≠ 0
      · simp [scale, dassert, h1, h2, h3, Sat]
      · simp [scale, dassert, h1, h2, Sat]
  · simp [scale, dassert, h1, Sat]

theorem scale_release (h : s.Shape) (rests : List Nat) (outLen start : Nat) :
    scale .release s rests outLen start = .error .bounds ↔
      0 < outLen ∧ (s.dst.moduliU64.length < start + outLen ∨ s.src.moduliU64.length < rests.length) := by
  constructor
  · intro he
    have hpos : 0 < outLen := by
      rcases Nat.eq_zero_or_pos outLen with rfl | hp
      · unfold scale at he
        obtain ⟨v, hv⟩ := total_scaleV s rests
        obtain ⟨w, hw⟩ := total_scaleW s rests v
        simp only [dassert, res_ok_bind, hv, hw, List.range_zero, mapR] at he
        cases he
      · exact hp
    refine ⟨hpos, ?_⟩
    by_contra hcon
    push Not at hcon
    exact (free_scale .release h hcon.2 hcon.1).ne he
  · rintro ⟨hpos, hbad⟩
    unfold scale
    obtain ⟨v, hv⟩ := total_scaleV s rests
    obtain ⟨w, hw⟩ := total_scaleW s rests v
    simp only [dassert, res_ok_bind, hv, hw]
    refine mapR_bounds (y := outLen - 1) (fun i _ => ?_) (by simp; omega) ?_
    · rcases scaleOut_release h rests v w.2 (start + i) w.1 with ⟨-, -, ht⟩ | ⟨-, ht⟩
      · exact Or.inl ht
      · exact Or.inr ht
    · rcases scaleOut_release h rests v w.2 (start + (outLen - 1)) w.1 with ⟨a, b, -⟩ | ⟨-, ht⟩
      · omega
      · exact ht

end RnsScaler
end OnionPIR
