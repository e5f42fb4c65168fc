import Mathlib.Algebra.BigOperators.Ring.Finset
import Mathlib.Algebra.Order.BigOperators.Group.Finset
import Mathlib.Data.Fin.Tuple.Basic
import Mathlib.Order.Interval.Finset.Nat
import Verif.Model.Rand
import Verif.Proofs.Machine
import Verif.Spec.Random
/-
Lemmas for C88.
-/
namespace OnionPIR.Rand
open Spec

theorem card_val {M : Nat} (P : Nat → Prop) [DecidablePred P] :
    (Finset.univ.filter fun w : Fin M => P w).card = ((Finset.range M).filter P).card := by
  rw [← Finset.card_image_of_injective _ (Fin.val_injective (n := M))]
  congr 1
  ext x
  simp only [Finset.mem_image, Finset.mem_filter, Finset.mem_univ, true_and, Finset.mem_range]
  constructor
  · rintro ⟨w, h, rfl⟩
    exact ⟨w.isLt, h⟩
  · rintro ⟨h1, h2⟩
    exact ⟨⟨x, h1⟩, h2, rfl⟩

/-- The words accepted for a value. -/
theorem card_accept {M n c v : Nat} (hn : 0 < n) (hc : c * n ≤ M) (hv : v < n) :
    ((Finset.range M).filter fun w => w * n % M < c * n ∧ w * n / M = v).card = c := by
  rcases Nat.eq_zero_or_pos M with rfl | hM
  · simp; have := Nat.le_zero.mp hc; rcases Nat.mul_eq_zero.mp this with h | h <;> omega
  have h : ((Finset.range M).filter fun w => w * n % M < c * n ∧ w * n / M = v) =
      Finset.Ico ((v * M + n - 1) / n) ((v * M + n - 1) / n + c) := by
    have e1 : ∀ w, (v * M + n - 1) / n ≤ w ↔ v * M ≤ w * n := by
      intro w
      rw [← Nat.lt_succ_iff, Nat.div_lt_iff_lt_mul hn, Nat.succ_mul]
      omega
    generalize (v * M + n - 1) / n = d at e1
    ext w
    simp only [Finset.mem_filter, Finset.mem_range, Finset.mem_Ico]
    have e2 : w < d + c ↔ w * n < v * M + c * n := by
      rw [← not_le, ← not_le, not_iff_not]
      constructor
      · intro h
        have := (e1 (w - c)).mp (by omega)
        have h2 : (w - c) * n + c * n = w * n := by rw [← Nat.add_mul]; congr 1; omega
        omega
      · intro h
        have hcw : c ≤ w := by
          have : c * n ≤ w * n := by omega
          exact Nat.le_of_mul_le_mul_right this hn
        have h2 : (w - c) * n + c * n = w * n := by rw [← Nat.add_mul]; congr 1; omega
        have := (e1 (w - c)).mpr (by omega)
        omega
    rw [e1, e2]
    have hdm := Nat.div_add_mod (w * n) M
    constructor
    · rintro ⟨-, h2, rfl⟩
      rw [Nat.mul_comm M] at hdm
      omega
    · rintro ⟨h1, h2⟩
      have hq : w * n / M = v := by
        rw [Nat.div_eq_iff hM]
        constructor
        · exact h1
        · have : w * n < v * M + M := by omega
          omega
      refine ⟨?_, ?_, hq⟩
      · have : v * M + M ≤ n * M := by rw [← Nat.succ_mul]; exact Nat.mul_le_mul_right _ hv
        have h3 : w * n < M * n := by rw [Nat.mul_comm M]; omega
        exact Nat.lt_of_mul_lt_mul_right h3
      · rw [hq, Nat.mul_comm M] at hdm
        omega
  rw [h, Nat.card_Ico]
  omega

/-- The words rejected. -/
theorem card_reject {M n c : Nat} (hn : 0 < n) (hc : c * n ≤ M) :
    ((Finset.range M).filter fun w => ¬ w * n % M < c * n).card = M - c * n := by
  have h1 : ((Finset.range M).filter fun w => w * n % M < c * n).card = c * n := by
    rw [Finset.card_eq_sum_card_fiberwise (f := fun w => w * n / M) (t := Finset.range n)]
    · rw [Finset.sum_congr rfl (g := fun _ => c)]
      · simp [Nat.mul_comm]
      · intro v hv
        rw [Finset.filter_filter]
        exact card_accept hn hc (Finset.mem_range.mp hv)
    · intro w hw
      have hw := Finset.mem_coe.mp hw
      simp only [Finset.mem_filter, Finset.mem_range] at hw
      have hM : 0 < M := by omega
      simp only [Finset.coe_range, Set.mem_Iio]
      rw [Nat.div_lt_iff_lt_mul hM, Nat.mul_comm n]
      exact Nat.mul_lt_mul_of_pos_right hw.1 hn
  have h2 := Finset.card_filter_add_card_filter_not (s := Finset.range M) (fun w => w * n % M < c * n)
  rw [h1, Finset.card_range] at h2
  omega

/-- Counting sequences by their first word. -/
theorem card_first {M L : Nat} (P : List Nat → Prop) [∀ ws, Decidable (P ws)] :
    (Finset.univ.filter fun w : Fin (L + 1) → Fin M => P (List.ofFn fun i => (w i : Nat))).card =
      ∑ a : Fin M, (Finset.univ.filter fun w : Fin L → Fin M => P (a :: List.ofFn fun i => (w i : Nat))).card := by
  rw [← Finset.card_sigma]
  refine Finset.card_bij' (fun w _ => ⟨w 0, Fin.tail w⟩) (fun w _ => Fin.cons w.1 w.2) ?_ ?_ ?_ ?_
  · intro w hw
    simp only [Finset.mem_filter, Finset.mem_univ, true_and, Finset.mem_sigma] at hw ⊢
    simpa [List.ofFn_succ, Fin.tail] using hw
  · rintro ⟨a, w⟩ hw
    simp only [Finset.mem_filter, Finset.mem_univ, true_and, Finset.mem_sigma] at hw ⊢
    simpa [List.ofFn_succ] using hw
  · intro w _
    exact Fin.cons_self_tail w
  · rintro ⟨a, w⟩ _
    simp

/-- One word: accepted for the wanted value, rejected, or accepted for another value. -/
theorem sum_first {M n c zone v X Y : Nat} (hn : 0 < n) (hz : zone + 1 = c * n) (hc : c * n ≤ M) (hv : v < n) (F : Nat → Nat)
    (h1 : ∀ a, a < M → a * n % M ≤ zone → a * n / M = v → F a = X) (h2 : ∀ a, a < M → ¬ a * n % M ≤ zone → F a = Y)
    (h3 : ∀ a, a < M → a * n % M ≤ zone → a * n / M ≠ v → F a = 0) : ∑ a : Fin M, F a = c * X + (M - c * n) * Y := by
  rw [Finset.sum_fin_eq_sum_range]
  have e : ∀ a ∈ Finset.range M, (if h : a < M then F (⟨a, h⟩ : Fin M) else 0) =
      (if a * n % M < c * n ∧ a * n / M = v then X else 0) + (if ¬ a * n % M < c * n then Y else 0) := by
    intro a ha
    have ha := Finset.mem_range.mp ha
    rw [dif_pos ha]
    by_cases hb : a * n % M ≤ zone
    · have hb' : a * n % M < c * n := by omega
      by_cases hd : a * n / M = v
      · rw [if_pos ⟨hb', hd⟩, if_neg (not_not.mpr hb'), h1 a ha hb hd, Nat.add_zero]
      · rw [if_neg (fun h => hd h.2), if_neg (not_not.mpr hb'), h3 a ha hb hd]
    · have hb' : ¬ a * n % M < c * n := by omega
      rw [if_neg (fun h => hb' h.1), if_pos hb', h2 a ha hb, Nat.zero_add]
  rw [Finset.sum_congr rfl e, Finset.sum_add_distrib, ← Finset.sum_filter, ← Finset.sum_filter, Finset.sum_const, Finset.sum_const,
    card_accept hn hc hv, card_reject hn hc]
  rfl

theorem draw_nil (n zone : Nat) : draw n zone [] = .error .diverge := rfl

theorem draw_cons {M : Nat} (hM : M = 2 ^ 64) (n zone w : Nat) (ws : List Nat) :
    draw n zone (w :: ws) = if w * n % M ≤ zone then .ok (w * n / M, ws) else draw n zone ws := by
  subst hM; rfl

/-- A sequence of samples with ranges `ns`. -/
def drawAll (z : Nat → Nat) (ns : List Nat) (ws : List Nat) : Res (List Nat × List Nat) := each (fun n => draw n (z n)) ns ws

theorem drawAll_cons (z : Nat → Nat) (n : Nat) (ns ws : List Nat) :
    drawAll z (n :: ns) ws = (do
      let x ← draw n (z n) ws
      let xs ← drawAll z ns x.2
      .ok (x.1 :: xs.1, xs.2)) := rfl

/-- The number of sequences of words for samples with ranges `ns`; `c n` words are accepted for each value below `n`. -/
def count (M : Nat) (c : Nat → Nat) : List Nat → Nat → Nat
  | [], 0 => 1
  | [], _ + 1 => 0
  | _ :: _, 0 => 0
  | n :: ns, L + 1 => c n * count M c ns L + (M - c n * n) * count M c (n :: ns) L

/-- The zones of the sampler fit: `c n` words for each value. -/
def Zones (M : Nat) (z c : Nat → Nat) (ns : List Nat) : Prop := ∀ n ∈ ns, 0 < n ∧ z n + 1 = c n * n ∧ c n * n ≤ M

theorem card_drawAll {M : Nat} (hM : M = 2 ^ 64) {z c : Nat → Nat} (L : Nat) {ns vs : List Nat} (h : Zones M z c ns)
    (hv : List.Forall₂ (· < ·) vs ns) :
    (Finset.univ.filter fun w : Fin L → Fin M => drawAll z ns (List.ofFn fun i => (w i : Nat)) = .ok (vs, [])).card =
      count M c ns L := by
  induction L generalizing ns vs with
  | zero =>
    cases hv with
    | nil => simp [count, drawAll, each]
    | cons _ _ => simp [count, drawAll_cons, draw_nil]
  | succ L ih =>
    cases hv with
    | nil => simp [count, drawAll, each]
    | @cons v n vs ns hv hvs =>
      obtain ⟨h1, h2, h3⟩ := h n List.mem_cons_self
      rw [card_first (fun ws => drawAll z (n :: ns) ws = .ok (v :: vs, [])), count]
      refine sum_first h1 h2 h3 hv (fun a => (Finset.univ.filter fun w : Fin L → Fin M =>
        drawAll z (n :: ns) (a :: List.ofFn fun i => (w i : Nat)) = .ok (v :: vs, [])).card) ?_ ?_ ?_
      · intro a ha hacc hval
        rw [← ih (fun m hm => h m (List.mem_cons_of_mem _ hm)) hvs]
        congr 1
        ext w
        simp only [Finset.mem_filter, Finset.mem_univ, true_and]
        rw [drawAll_cons, draw_cons hM, if_pos hacc, res_ok_bind, bind_eq_ok]
        constructor
        · rintro ⟨⟨xs, r⟩, e1, e2⟩
          simp only [Except.ok.injEq, Prod.mk.injEq, List.cons.injEq] at e2
          rw [e1, e2.1.2, e2.2]
        · intro e
          exact ⟨(vs, []), e, by simp [hval]⟩
      · intro a ha hrej
        rw [← ih h (List.Forall₂.cons hv hvs)]
        congr 1
        ext w
        simp only [Finset.mem_filter, Finset.mem_univ, true_and]
        rw [drawAll_cons, draw_cons hM, if_neg hrej, ← drawAll_cons]
      · intro a ha hacc hval
        rw [Finset.card_eq_zero, Finset.filter_eq_empty_iff]
        intro w _ e
        rw [drawAll_cons, draw_cons hM, if_pos hacc, res_ok_bind, bind_eq_ok] at e
        obtain ⟨⟨xs, r⟩, e1, e2⟩ := e
        simp only [Except.ok.injEq, Prod.mk.injEq, List.cons.injEq] at e2
        exact hval e2.1.1

theorem count_pos {M : Nat} {z c : Nat → Nat} {ns : List Nat} (h : Zones M z c ns) : 0 < count M c ns ns.length := by
  induction ns with
  | nil => simp [count]
  | cons n ns ih =>
    obtain ⟨h1, h2, -⟩ := h n List.mem_cons_self
    have hc : 0 < c n := by
      rcases Nat.eq_zero_or_pos (c n) with h0 | h0
      · rw [h0] at h2; omega
      · exact h0
    rw [List.length_cons, count]
    have := Nat.mul_pos hc (ih (fun m hm => h m (List.mem_cons_of_mem _ hm)))
    omega

/-- The sampler reads a prefix and its result does not depend on the rest. -/
def Reads {α : Type} (S : Sampler α) : Prop := ∀ ws x r, S ws = .ok (x, r) → ∃ used, ws = used ++ r ∧ ∀ r', S (used ++ r') = .ok (x, r')

theorem draw_reads (n zone : Nat) : Reads (draw n zone) := by
  intro ws x r h
  induction ws with
  | nil => cases h
  | cons w ws ih =>
    rw [draw_cons rfl] at h
    by_cases hc : w * n % 2 ^ 64 ≤ zone
    · rw [if_pos hc, Except.ok.injEq, Prod.mk.injEq] at h
      obtain ⟨rfl, rfl⟩ := h
      refine ⟨[w], rfl, fun r' => ?_⟩
      rw [List.singleton_append, draw_cons rfl, if_pos hc]
    · rw [if_neg hc] at h
      obtain ⟨u, rfl, h2⟩ := ih h
      refine ⟨w :: u, rfl, fun r' => ?_⟩
      rw [List.cons_append, draw_cons rfl, if_neg hc, h2]

theorem each_reads {α β : Type} {f : β → Sampler α} {bs : List β} (h : ∀ b ∈ bs, Reads (f b)) : Reads (each f bs) := by
  intro ws x r hx
  induction bs generalizing ws x with
  | nil =>
    simp only [each, Except.ok.injEq, Prod.mk.injEq] at hx
    obtain ⟨rfl, rfl⟩ := hx
    exact ⟨[], rfl, fun r' => rfl⟩
  | cons b bs ih =>
    simp only [each, bind_eq_ok] at hx
    obtain ⟨⟨y, r1⟩, h1, ⟨ys, r2⟩, h2, h3⟩ := hx
    simp only [Except.ok.injEq, Prod.mk.injEq] at h3
    obtain ⟨rfl, rfl⟩ := h3
    obtain ⟨u, rfl, hu⟩ := h b List.mem_cons_self _ _ _ h1
    obtain ⟨u', rfl, hu'⟩ := ih (fun b' hb => h b' (List.mem_cons_of_mem _ hb)) _ _ h2
    refine ⟨u ++ u', by rw [List.append_assoc], fun r' => ?_⟩
    simp only [each]
    rw [List.append_assoc, hu, res_ok_bind]
    simp only [hu', res_ok_bind]

theorem draw_lt {n zone : Nat} (hn : 0 < n) {ws : List Nat} (hw : ∀ w ∈ ws, w < 2 ^ 64) {x : Nat} {r : List Nat}
    (h : draw n zone ws = .ok (x, r)) : x < n ∧ ∀ w ∈ r, w < 2 ^ 64 := by
  induction ws with
  | nil => cases h
  | cons w ws ih =>
    rw [draw_cons rfl] at h
    by_cases hc : w * n % 2 ^ 64 ≤ zone
    · rw [if_pos hc, Except.ok.injEq, Prod.mk.injEq] at h
      obtain ⟨rfl, rfl⟩ := h
      refine ⟨?_, fun w hw' => hw w (List.mem_cons_of_mem _ hw')⟩
      rw [Nat.div_lt_iff_lt_mul (by positivity), Nat.mul_comm n]
      exact Nat.mul_lt_mul_of_pos_right (hw w List.mem_cons_self) hn
    · rw [if_neg hc] at h
      exact ih (fun w hw' => hw w (List.mem_cons_of_mem _ hw')) h

theorem draw_total {n zone : Nat} {ws : List Nat} {e : Panic} (h : draw n zone ws = .error e) : e = .diverge := by
  induction ws with
  | nil => simpa [draw] using h.symm
  | cons w ws ih =>
    rw [draw_cons rfl] at h
    by_cases hc : w * n % 2 ^ 64 ≤ zone
    · rw [if_pos hc] at h; cases h
    · rw [if_neg hc] at h; exact ih h

theorem drawAll_lt {z : Nat → Nat} {ns : List Nat} (hn : ∀ n ∈ ns, 0 < n) {ws : List Nat} (hw : ∀ w ∈ ws, w < 2 ^ 64) {x r : List Nat}
    (h : drawAll z ns ws = .ok (x, r)) : List.Forall₂ (· < ·) x ns ∧ ∀ w ∈ r, w < 2 ^ 64 := by
  induction ns generalizing ws x with
  | nil =>
    simp only [drawAll, each, Except.ok.injEq, Prod.mk.injEq] at h
    obtain ⟨rfl, rfl⟩ := h
    exact ⟨.nil, hw⟩
  | cons n ns ih =>
    rw [drawAll_cons] at h
    simp only [bind_eq_ok] at h
    obtain ⟨⟨y, r1⟩, h1, ⟨ys, r2⟩, h2, h3⟩ := h
    simp only [Except.ok.injEq, Prod.mk.injEq] at h3
    obtain ⟨rfl, rfl⟩ := h3
    obtain ⟨a1, a2⟩ := draw_lt (hn n List.mem_cons_self) hw h1
    obtain ⟨b1, b2⟩ := ih (fun m hm => hn m (List.mem_cons_of_mem _ hm)) a2 h2
    exact ⟨.cons a1 b1, b2⟩

theorem drawAll_total {z : Nat → Nat} {ns ws : List Nat} {e : Panic} (h : drawAll z ns ws = .error e) : e = .diverge := by
  induction ns generalizing ws with
  | nil => cases h
  | cons n ns ih =>
    rw [drawAll_cons] at h
    cases h1 : draw n (z n) ws with
    | error e' =>
      rw [h1, res_error_bind, Except.error.injEq] at h
      exact draw_total (h ▸ h1)
    | ok y =>
      rw [h1, res_ok_bind] at h
      cases h2 : drawAll z ns y.2 with
      | error e' =>
        rw [h2, res_error_bind, Except.error.injEq] at h
        exact ih (h ▸ h2)
      | ok ys => rw [h2] at h; cases h

/-- Samples that are a rearrangement of a sequence of single samples are fair. -/
theorem fair_of_drawAll {α : Type} {S : Sampler α} {A : Set α} {z c : Nat → Nat} {ns : List Nat} (h : Zones (2 ^ 64) z c ns)
    (hr : Reads S) (g : α → List Nat) (hS : ∀ ws, (fun y => (g y.1, y.2)) <$> S ws = drawAll z ns ws) (hg : Set.InjOn g A)
    (hA : ∀ ws x r, (∀ w ∈ ws, w < 2 ^ 64) → S ws = .ok (x, r) → x ∈ A) (hlt : ∀ x ∈ A, List.Forall₂ (· < ·) (g x) ns) : Fair S A := by
  have hiff : ∀ ws x, (∀ w ∈ ws, w < 2 ^ 64) → x ∈ A → (S ws = .ok (x, []) ↔ drawAll z ns ws = .ok (g x, [])) := by
    intro ws x hw hx
    rw [← hS]
    cases h1 : S ws with
    | error e => simp [Functor.map, Except.map]
    | ok y =>
      obtain ⟨y, r⟩ := y
      simp only [res_map_ok, Except.ok.injEq, Prod.mk.injEq]
      constructor
      · rintro ⟨rfl, rfl⟩; exact ⟨rfl, rfl⟩
      · rintro ⟨e, rfl⟩; exact ⟨hg (hA _ _ _ hw h1) hx e, rfl⟩
  have hways : ∀ L, ∀ x ∈ A, ways S L x = count (2 ^ 64) c ns L := by
    intro L x hx
    rw [← card_drawAll rfl L h (hlt x hx)]
    unfold ways
    congr 1
    ext w
    simp only [Finset.mem_filter, Finset.mem_univ, true_and]
    exact hiff _ _ (fun a ha => by
      obtain ⟨i, rfl⟩ := List.mem_ofFn.mp ha
      exact (w i).isLt) hx
  refine ⟨?_, ?_, ?_, ?_⟩
  · intro ws x r hw hx
    exact ⟨hA ws x r hw hx, hr ws x r hx⟩
  · intro ws e _ he
    refine drawAll_total (z := z) (ns := ns) (ws := ws) ?_
    rw [← hS, he]; rfl
  · intro x hx
    exact ⟨ns.length, by rw [hways _ x hx]; exact count_pos h⟩
  · intro L x hx y hy
    rw [hways L x hx, hways L y hy]

/-! ### The zones of the two samplers -/

theorem uniformZone_eq {n : Nat} (hn : 0 < n) (hn2 : n < 2 ^ 64) : uniformZone n + 1 = 2 ^ 64 / n * n := by
  unfold uniformZone
  have h1 : (2 ^ 64 - 1 - n + 1) % n = 2 ^ 64 % n := by
    rw [show 2 ^ 64 - 1 - n + 1 = 2 ^ 64 - n by omega]
    exact (Nat.mod_eq_sub_mod hn2.le).symm
  have h2 := Nat.div_add_mod (2 ^ 64) n
  have h3 := Nat.mod_lt (2 ^ 64) hn
  rw [h1]
  rw [Nat.mul_comm] at h2
  omega

theorem uniform_zones {ns : List Nat} (h : ∀ n ∈ ns, 0 < n ∧ n < 2 ^ 64) : Zones (2 ^ 64) uniformZone (fun n => 2 ^ 64 / n) ns :=
  fun n hn => ⟨(h n hn).1, uniformZone_eq (h n hn).1 (h n hn).2, Nat.div_mul_le_self _ _⟩

theorem singleZone_eq {n : Nat} (hn : 0 < n) (hn2 : n < 2 ^ 64) :
    singleZone n + 1 = 2 ^ leadingZeros 64 n * n ∧ 2 ^ 63 ≤ 2 ^ leadingZeros 64 n * n ∧ 2 ^ leadingZeros 64 n * n < 2 ^ 64 := by
  unfold singleZone leadingZeros
  rw [if_neg (by omega), Nat.shiftLeft_eq]
  have h1 := Nat.log2_self_le (n := n) (by omega)
  have h2 := Nat.lt_log2_self (n := n)
  have h3 : n.log2 < 64 := (Nat.log2_lt (by omega)).mpr hn2
  have e : 2 ^ (64 - 1 - n.log2) * 2 ^ n.log2 = 2 ^ 63 := by rw [← pow_add]; congr 1; omega
  have e' : 2 ^ (64 - 1 - n.log2) * 2 ^ (n.log2 + 1) = 2 ^ 64 := by rw [← pow_add]; congr 1; omega
  have hp : 0 < 2 ^ (64 - 1 - n.log2) := by positivity
  generalize 2 ^ (64 - 1 - n.log2) = k at *
  have l1 : k * 2 ^ n.log2 ≤ k * n := Nat.mul_le_mul_left _ h1
  have l2 : k * n < k * 2 ^ (n.log2 + 1) := Nat.mul_lt_mul_of_pos_left h2 hp
  rw [Nat.mul_comm n k, Nat.mod_eq_of_lt (by omega)]
  exact ⟨by omega, by omega, by omega⟩

theorem single_zones {ns : List Nat} (h : ∀ n ∈ ns, 0 < n ∧ n < 2 ^ 64) : Zones (2 ^ 64) singleZone (fun n => 2 ^ leadingZeros 64 n) ns :=
  fun n hn => ⟨(h n hn).1, (singleZone_eq (h n hn).1 (h n hn).2).1, (singleZone_eq (h n hn).1 (h n hn).2).2.2.le⟩

/-! ### Rearrangements -/

theorem uniform_eq {n : Nat} (hn : 0 < n) : uniform n = draw n (uniformZone n) := by
  funext ws; unfold uniform; rw [rassert_ok hn, res_ok_bind]

theorem genRange_eq {n : Nat} (hn : 0 < n) : genRange n = draw n (singleZone n) := by
  funext ws; unfold genRange; rw [rassert_ok hn, res_ok_bind]

theorem times_eq (z : Nat → Nat) (n k : Nat) : times (draw n (z n)) k = drawAll z (List.replicate k n) := by
  induction k with
  | zero => rfl
  | succ k ih =>
    funext ws
    rw [List.replicate_succ, drawAll_cons, times, ih]

theorem times_each {α : Type} (f : Sampler α) (k : Nat) {β : Type} (b : β) : times f k = each (fun _ => f) (List.replicate k b) := by
  induction k with
  | zero => rfl
  | succ k ih =>
    funext ws
    rw [List.replicate_succ, each, times, ih]

theorem drawAll_append (z : Nat → Nat) (a b ws : List Nat) :
    drawAll z (a ++ b) ws = (do
      let x ← drawAll z a ws
      let y ← drawAll z b x.2
      .ok (x.1 ++ y.1, y.2)) := by
  induction a generalizing ws with
  | nil =>
    simp only [drawAll, each, List.nil_append, res_ok_bind]
    cases each (fun n => draw n (z n)) b ws <;> rfl
  | cons n a ih =>
    rw [List.cons_append, drawAll_cons, drawAll_cons]
    cases draw n (z n) ws with
    | error e => rfl
    | ok x =>
      simp only [res_ok_bind, ih]
      cases drawAll z a x.2 with
      | error e => rfl
      | ok y =>
        simp only [res_ok_bind]
        cases drawAll z b y.2 with
        | error e => rfl
        | ok y => rfl

theorem each_flat {β : Type} (z : Nat → Nat) (R : β → List Nat) (bs : List β) (ws : List Nat) :
    (fun y : List (List Nat) × List Nat => (y.1.flatten, y.2)) <$> each (fun b => drawAll z (R b)) bs ws = drawAll z (bs.flatMap R) ws := by
  induction bs generalizing ws with
  | nil => rfl
  | cons b bs ih =>
    rw [List.flatMap_cons, drawAll_append]
    simp only [each]
    cases drawAll z (R b) ws with
    | error e => rfl
    | ok x =>
      simp only [res_ok_bind, ← ih]
      cases each (fun b => drawAll z (R b)) bs x.2 with
      | error e => rfl
      | ok y => rfl

theorem each_forall {α β : Type} {f : β → Sampler α} {R : α → β → Prop} {bs : List β}
    (h : ∀ b ∈ bs, ∀ ws x r, (∀ w ∈ ws, w < 2 ^ 64) → f b ws = .ok (x, r) → R x b ∧ ∀ w ∈ r, w < 2 ^ 64) {ws : List Nat} {xs : List α}
    {r : List Nat} (hw : ∀ w ∈ ws, w < 2 ^ 64) (hx : each f bs ws = .ok (xs, r)) : List.Forall₂ R xs bs := by
  induction bs generalizing ws xs with
  | nil =>
    simp only [each, Except.ok.injEq, Prod.mk.injEq] at hx
    rw [← hx.1]
    exact .nil
  | cons b bs ih =>
    simp only [each, bind_eq_ok] at hx
    obtain ⟨⟨y, r1⟩, h1, ⟨ys, r2⟩, h2, h3⟩ := hx
    simp only [Except.ok.injEq, Prod.mk.injEq] at h3
    obtain ⟨rfl, rfl⟩ := h3
    obtain ⟨a1, a2⟩ := h b List.mem_cons_self _ _ _ hw h1
    exact .cons a1 (ih (fun b' hb => h b' (List.mem_cons_of_mem _ hb)) a2 h2)

theorem forall_replicate {xs : List Nat} {n k : Nat} : List.Forall₂ (· < ·) xs (List.replicate k n) ↔ xs.length = k ∧ ∀ x ∈ xs, x < n := by
  induction k generalizing xs with
  | zero => cases xs <;> simp
  | succ k ih =>
    cases xs with
    | nil => simp
    | cons x xs =>
      rw [List.replicate_succ, List.forall₂_cons, ih]
      simp only [List.length_cons, List.mem_cons, forall_eq_or_imp, Nat.add_right_cancel_iff]
      tauto

theorem rows_length {x : List (List Nat)} {bs : List (Nat × Nat)} (h : List.Forall₂ (fun row b => row.length = b.2 ∧ ∀ x ∈ row, x < b.1) x bs) :
    x.map List.length = bs.map Prod.snd := by
  induction h with
  | nil => rfl
  | cons h1 _ ih => rw [List.map_cons, List.map_cons, h1.1, ih]

/-- Rows of samples, `b.2` below `b.1` for each `b`. -/
theorem fair_rows {z c : Nat → Nat} {bs : List (Nat × Nat)} (h : Zones (2 ^ 64) z c (bs.map Prod.fst)) :
    Fair (each (fun b : Nat × Nat => drawAll z (List.replicate b.2 b.1)) bs)
      {rows | List.Forall₂ (fun row b => row.length = b.2 ∧ ∀ x ∈ row, x < b.1) rows bs} := by
  have hz : Zones (2 ^ 64) z c (bs.flatMap fun b => List.replicate b.2 b.1) := by
    intro n hn
    obtain ⟨b, hb, hn⟩ := List.mem_flatMap.mp hn
    rw [(List.mem_replicate.mp hn).2]
    exact h _ (List.mem_map_of_mem hb)
  refine fair_of_drawAll hz (each_reads fun b _ => each_reads fun n _ => draw_reads _ _) List.flatten
    (fun ws => each_flat z _ bs ws) ?_ ?_ ?_
  · intro x hx y hy he
    refine List.eq_iff_flatten_eq.mpr ⟨he, ?_⟩
    rw [rows_length hx, rows_length hy]
  · intro ws x r hw hx
    refine each_forall (fun b hb ws x r hw hx => ?_) hw hx
    obtain ⟨h1, h2⟩ := drawAll_lt (fun n hn => by
      rw [(List.mem_replicate.mp hn).2]; exact (h _ (List.mem_map_of_mem hb)).1) hw hx
    exact ⟨forall_replicate.mp h1, h2⟩
  · intro x hx
    clear hz h
    have hx : List.Forall₂ (fun (row : List Nat) (b : Nat × Nat) => row.length = b.2 ∧ ∀ x ∈ row, x < b.1) x bs := hx
    rename_i hx0
    clear hx0
    induction hx with
    | nil => exact .nil
    | cons h1 _ ih =>
      rw [List.flatten_cons, List.flatMap_cons]
      exact List.rel_append (forall_replicate.mpr h1) ih

/-! ### Counts for samples with one range -/

theorem count_replicate {M n : Nat} {c : Nat → Nat} (k L : Nat) :
    count M c (List.replicate (k + 1) n) (L + 1) = L.choose k * c n ^ (k + 1) * (M - c n * n) ^ (L - k) := by
  have h0 : ∀ L, count M c [] (L + 1) = 0 := fun _ => rfl
  induction L generalizing k with
  | zero =>
    rw [List.replicate_succ, count]
    cases k with
    | zero => simp [count]
    | succ k => rw [List.replicate_succ]; simp [count]
  | succ L ih =>
    rw [List.replicate_succ, count, ← List.replicate_succ, ih]
    cases k with
    | zero =>
      rw [List.replicate_zero, h0, Nat.choose_zero_right, Nat.choose_zero_right, Nat.sub_zero, Nat.sub_zero]
      ring
    | succ k =>
      rw [ih, Nat.choose_succ_succ]
      by_cases hk : k < L
      · rw [show L - k = L - (k + 1) + 1 by omega, show L + 1 - (k + 1) = L - (k + 1) + 1 by omega]
        ring
      · rw [Nat.choose_eq_zero_of_lt (show L < k + 1 by omega), show L + 1 - (k + 1) = L - k by omega]
        ring

/-- The number of sequences of words that do not suffice. -/
def countStuck (M : Nat) (c : Nat → Nat) : List Nat → Nat → Nat
  | [], _ => 0
  | _ :: _, 0 => 1
  | n :: ns, L + 1 => c n * n * countStuck M c ns L + (M - c n * n) * countStuck M c (n :: ns) L

theorem sum_two {M n c zone X Y : Nat} (hn : 0 < n) (hz : zone + 1 = c * n) (hc : c * n ≤ M) (F : Nat → Nat)
    (h1 : ∀ a, a < M → a * n % M ≤ zone → F a = X) (h2 : ∀ a, a < M → ¬ a * n % M ≤ zone → F a = Y) :
    ∑ a : Fin M, F a = c * n * X + (M - c * n) * Y := by
  rw [Finset.sum_fin_eq_sum_range]
  have e : ∀ a ∈ Finset.range M, (if h : a < M then F (⟨a, h⟩ : Fin M) else 0) =
      (if a * n % M < c * n then X else 0) + (if ¬ a * n % M < c * n then Y else 0) := by
    intro a ha
    have ha := Finset.mem_range.mp ha
    rw [dif_pos ha]
    by_cases hb : a * n % M ≤ zone
    · have hb' : a * n % M < c * n := by omega
      rw [if_pos hb', if_neg (not_not.mpr hb'), h1 a ha hb, Nat.add_zero]
    · have hb' : ¬ a * n % M < c * n := by omega
      rw [if_neg hb', if_pos hb', h2 a ha hb, Nat.zero_add]
  have h3 := Finset.card_filter_add_card_filter_not (s := Finset.range M) (fun w => w * n % M < c * n)
  rw [Finset.card_range] at h3
  have h4 := card_reject hn hc
  rw [Finset.sum_congr rfl e, Finset.sum_add_distrib, ← Finset.sum_filter, ← Finset.sum_filter, Finset.sum_const, Finset.sum_const,
    h4, show ((Finset.range M).filter fun w => w * n % M < c * n).card = c * n by omega]
  rfl

theorem card_stuck {M : Nat} (hM : M = 2 ^ 64) {z c : Nat → Nat} (L : Nat) {ns : List Nat} (h : Zones M z c ns) :
    (Finset.univ.filter fun w : Fin L → Fin M => drawAll z ns (List.ofFn fun i => (w i : Nat)) = .error .diverge).card =
      countStuck M c ns L := by
  induction L generalizing ns with
  | zero =>
    cases ns with
    | nil => simp [countStuck, drawAll, each]
    | cons _ _ => simp [countStuck, drawAll_cons, draw_nil]
  | succ L ih =>
    cases ns with
    | nil => simp [countStuck, drawAll, each]
    | cons n ns =>
      obtain ⟨h1, h2, h3⟩ := h n List.mem_cons_self
      rw [card_first (fun ws => drawAll z (n :: ns) ws = .error .diverge), countStuck]
      refine sum_two h1 h2 h3 (fun a => (Finset.univ.filter fun w : Fin L → Fin M =>
        drawAll z (n :: ns) (a :: List.ofFn fun i => (w i : Nat)) = .error .diverge).card) ?_ ?_
      · intro a ha hacc
        rw [← ih (fun m hm => h m (List.mem_cons_of_mem _ hm))]
        congr 1
        ext w
        simp only [Finset.mem_filter, Finset.mem_univ, true_and]
        rw [drawAll_cons, draw_cons hM, if_pos hacc, res_ok_bind]
        cases drawAll z ns (List.ofFn fun i => (w i : Nat)) with
        | error e => simp
        | ok x => simp
      · intro a ha hrej
        rw [← ih h]
        congr 1
        ext w
        simp only [Finset.mem_filter, Finset.mem_univ, true_and]
        rw [drawAll_cons, draw_cons hM, if_neg hrej, ← drawAll_cons]

theorem countStuck_replicate {M n : Nat} {c : Nat → Nat} (k L : Nat) :
    countStuck M c (List.replicate k n) L = ∑ j ∈ Finset.range k, L.choose j * (c n * n) ^ j * (M - c n * n) ^ (L - j) := by
  induction L generalizing k with
  | zero =>
    cases k with
    | zero => rfl
    | succ k =>
      rw [List.replicate_succ, Finset.sum_range_succ']
      simp [countStuck]
  | succ L ih =>
    cases k with
    | zero => rfl
    | succ k =>
      rw [List.replicate_succ, countStuck, ← List.replicate_succ, ih, ih, Finset.sum_range_succ', Finset.sum_range_succ' (n := k),
        Nat.mul_add, Finset.mul_sum, Finset.mul_sum, ← Nat.add_assoc, ← Finset.sum_add_distrib]
      congr 1
      · refine Finset.sum_congr rfl fun j _ => ?_
        rw [Nat.choose_succ_succ]
        by_cases hk : j < L
        · rw [show L - j = L - (j + 1) + 1 by omega, show L + 1 - (j + 1) = L - (j + 1) + 1 by omega]
          ring
        · rw [Nat.choose_eq_zero_of_lt (show L < j + 1 by omega), show L + 1 - (j + 1) = L - j by omega]
          ring
      · simp only [Nat.choose_zero_right, pow_zero, Nat.sub_zero]
        ring

end OnionPIR.Rand
