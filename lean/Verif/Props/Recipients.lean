import Verif.Spec.Recipients
import Verif.Proofs.Hybrid
import Verif.Props.PvwPrivacy
/-
C112 (src/pvw.rs): clues do not reveal for whom they are.
-/
namespace OnionPIR
open Spec Privacy PvwPrivacy

variable {params : PvwParams} {W R k : Nat}

namespace Recipients

/-- `D` of keys and clues over the integers modulo `q`. -/
def Clues (params : PvwParams) (dest : Fin k → Fin R) (msg : Fin k → List Nat) (D : (Fin R → PvwPk) → (Fin k → PvwCiphertext) → Prop)
    (K : Fin R → Fin params.m → PvwVec params) (e : Fin k → Fin params.m → Fin 2) : Prop :=
  D (fun r => storePk (K r)) fun i => storeCt (∑ j, (e i j : Nat) • K (dest i) j + msgVec params (msg i))

section
variable (hq2 : 2 ≤ params.q) (hq62 : params.q < 2 ^ 62) (pr : Profile) {dest : Fin k → Fin R} {msg : Fin k → List Nat}
  (hlen : ∀ i, (msg i).length = params.ell) (hbit : ∀ i, ∀ x ∈ msg i, x < 2) {D : (Fin R → PvwPk) → (Fin k → PvwCiphertext) → Prop}

include hq2 hq62 hlen hbit in
theorem clues_iff (K : Fin R → Fin params.m → PvwVec params) (e : Fin k → Fin params.m → Fin 2) :
    (∃ ct : Fin k → PvwCiphertext, (∀ i, Pvw.encrypt pr (storePk (K (dest i))) params (msg i) (bitTape (e i)) = .ok (ct i)) ∧
      D (fun r => storePk (K r)) ct) ↔ Clues params dest msg D K e := by
  have hx := fun i => encrypt hq2 hq62 pr (K (dest i)) (hlen i) (hbit i) (e i)
  constructor
  · rintro ⟨ct, f1, f2⟩
    have : ct = fun i => storeCt (∑ j, (e i j : Nat) • K (dest i) j + msgVec params (msg i)) := by
      funext i
      exact Except.ok.inj ((f1 i).symm.trans (hx i))
    rw [this] at f2
    exact f2
  · exact fun f => ⟨_, hx, f⟩

include hq2 hq62 hlen hbit in
theorem view_iff (hv1 : 1 ≤ params.variance) (hv2 : params.variance ≤ 16) (x : OmrCoins params W R k) :
    omrView pr params dest msg D x ↔ Clues params dest msg D (fun r => lweSamples (x.1 r)) x.2 := by
  rw [← clues_iff hq2 hq62 pr hlen hbit]
  have g := fun r => genPk hq2 hq62 hv1 hv2 pr (x.1 r)
  constructor
  · rintro ⟨sk, pk, ct, f1, f2, f3⟩
    have : pk = fun r => storePk (lweSamples (x.1 r)) := by
      funext r
      obtain ⟨s, g1, g2⟩ := g r
      have := Except.ok.inj (g1.symm.trans (f1 r).1)
      subst this
      exact Except.ok.inj ((f1 r).2.symm.trans g2)
    subst this
    exact ⟨ct, f2, f3⟩
  · rintro ⟨ct, f2, f3⟩
    choose sk hsk using g
    exact ⟨sk, _, ct, hsk, f2, f3⟩

end

/-- The keys of the hybrids: `n` tables of uniform pairs, then LWE samples. -/
def mixAt (n : Nat) (c : Fin R → PvwKeyCoins params W) (u : Fin R → Fin params.m → PvwVec params) (r : Fin R) : Fin params.m → PvwVec params :=
  if (r : Nat) < n then u r else lweSamples (c r)

theorem mixedKeys_real (r : Fin R) (c0 : PvwKeyCoins params W) (c : Fin R → PvwKeyCoins params W) (u : Fin R → Fin params.m → PvwVec params) :
    mixedKeys r (lweSamples c0) c u = mixAt r (Function.update c r c0) u := by
  funext r'
  unfold mixedKeys mixAt
  by_cases h1 : (r' : Nat) < r
  · rw [if_pos (show r' < r from h1), if_pos h1]
  · rw [if_neg (show ¬ r' < r from h1), if_neg h1]
    by_cases h2 : r' = r
    · rw [if_pos h2, h2, Function.update_self]
    · rw [if_neg h2, Function.update_of_ne h2]

theorem mixedKeys_uniform (r : Fin R) (x : Fin params.m → PvwVec params) (c : Fin R → PvwKeyCoins params W) (u : Fin R → Fin params.m → PvwVec params) :
    mixedKeys r x c u = mixAt (r + 1) c (Function.update u r x) := by
  funext r'
  unfold mixedKeys mixAt
  by_cases h2 : r' = r
  · rw [if_neg (by rw [h2]; exact lt_irrefl _), if_pos h2, if_pos (by rw [h2]; omega), h2, Function.update_self]
  · have h3 : (r' : Nat) ≠ r := fun h => h2 (Fin.ext h)
    rw [if_neg h2, Function.update_of_ne h2]
    by_cases h1 : (r' : Nat) < r
    · rw [if_pos (show r' < r from h1), if_pos (by omega)]
    · rw [if_neg (show ¬ r' < r from h1), if_neg (by omega)]

theorem keys_hybrid {B : Type} (hq : 0 < params.q) (F : (Fin R → Fin params.m → PvwVec params) → B → Prop) :
    |prob (fun x : (Fin R → PvwKeyCoins params W) × B => F (fun r => lweSamples (x.1 r)) x.2) -
      prob (fun x : (Fin R → Fin params.m → PvwVec params) × B => F x.1 x.2)| ≤
      ∑ r : Fin R, lweAdvantage params W fun x (aux : (Fin R → PvwKeyCoins params W) × (Fin R → Fin params.m → PvwVec params) ×
        B) => F (mixedKeys r x aux.1 aux.2.1) aux.2.2 := by
  have : NeZero params.q := ⟨by omega⟩
  let p : Nat → ℝ := fun n => prob (fun x : (Fin R → PvwKeyCoins params W) × (Fin R → Fin params.m → PvwVec params) × B =>
    F (mixAt n x.1 x.2.1) x.2.2)
  have h0 : p 0 = prob (fun x : (Fin R → PvwKeyCoins params W) × B => F (fun r => lweSamples (x.1 r)) x.2) := by
    rw [← prob_snd (A := Fin R → Fin params.m → PvwVec params) (fun x : (Fin R → PvwKeyCoins params W) × B => F (fun r => lweSamples (x.1 r)) x.2)]
    refine prob_equiv ⟨fun x => (x.2.1, x.1, x.2.2), fun y => (y.2.1, y.1, y.2.2), fun _ => rfl, fun _ => rfl⟩ fun x => ?_
    have : mixAt 0 x.1 x.2.1 = fun r => lweSamples (x.1 r) := rfl
    rw [this]; rfl
  have hR : p R = prob (fun x : (Fin R → Fin params.m → PvwVec params) × B => F x.1 x.2) := by
    rw [← prob_snd (A := Fin R → PvwKeyCoins params W) (fun x : (Fin R → Fin params.m → PvwVec params) × B => F x.1 x.2)]
    refine prob_equiv (Equiv.refl _) fun x => ?_
    have : mixAt R x.1 x.2.1 = x.2.1 := funext fun r => if_pos r.isLt
    rw [this]; rfl
  rw [← h0, ← hR]
  refine hybrid p _ fun r => le_of_eq ?_
  unfold lweAdvantage
  congr 2
  · have := prob_update (A := PvwKeyCoins params W) r
      (fun c (b : (Fin R → Fin params.m → PvwVec params) × B) => F (mixAt r c b.1) b.2)
    refine this.symm.trans (prob_equiv (Equiv.refl _) fun x => ?_)
    rw [← mixedKeys_real]; rfl
  · have := prob_update (A := Fin params.m → PvwVec params) r
      (fun u (b : (Fin R → PvwKeyCoins params W) × B) => F (mixAt (r + 1) b.1 u) b.2)
    have e1 : p (r + 1) = prob (fun x : (Fin R → Fin params.m → PvwVec params) × ((Fin R → PvwKeyCoins params W) × B) =>
        F (mixAt (r + 1) x.2.1 x.1) x.2.2) :=
      prob_equiv ⟨fun x => (x.2.1, x.1, x.2.2), fun y => (y.2.1, y.1, y.2.2), fun _ => rfl, fun _ => rfl⟩ fun x => Iff.rfl
    rw [e1, ← this]
    refine prob_equiv ⟨fun x => (x.1, x.2.2.1, x.2.1, x.2.2.2), fun y => (y.1, y.2.2.1, y.2.1, y.2.2.2), fun _ => rfl, fun _ => rfl⟩ fun x => ?_
    show F (mixAt (r + 1) x.2.2.1 (Function.update x.2.1 r x.1)) x.2.2.2 ↔ F (mixedKeys r x.1 x.2.2.1 x.2.1) x.2.2.2
    rw [mixedKeys_uniform]

theorem clues_hybrid (hq : 0 < params.q) (dest : Fin k → Fin R)
    (G : (Fin R → Fin params.m → PvwVec params) → (Fin k → PvwVec params) → Prop) :
    |prob (fun x : (Fin R → Fin params.m → PvwVec params) × (Fin k → Fin params.m → Fin 2) => G x.1 fun i => ∑ j, (x.2 i j : Nat) • x.1 (dest i) j) -
      prob (fun x : (Fin R → Fin params.m → PvwVec params) × (Fin k → PvwVec params) => G x.1 x.2)| ≤
      k * (Real.sqrt ((params.q : ℝ) ^ (params.n + params.ell) / 2 ^ params.m) / 2) := by
  have : NeZero params.q := ⟨by omega⟩
  exact lateHybrid (V := Fin params.m → PvwVec params) (B := Fin params.m → Fin 2) (P := PvwVec params) (fun e v => ∑ j, (e j : Nat) • v j)
    (by positivity) (c81_leftover hq) dest G

end Recipients

open Recipients

/-- C112: what is seen of the public keys of `R` recipients and of `k` clues differs from what is seen of the keys and other clues, for other
recipients and other messages, with a probability of at most the advantages of `2 R` explicit distinguishers of `m` LWE samples from uniform
pairs plus `k sqrt(q^(n + ell) / 2^m)`. -/
theorem c112_recipients (hq2 : 2 ≤ params.q) (hq62 : params.q < 2 ^ 62) (hv1 : 1 ≤ params.variance) (hv2 : params.variance ≤ 16) (pr : Profile)
    (W : Nat) (dest dest' : Fin k → Fin R) {msg msg' : Fin k → List Nat} (hlen : ∀ i, (msg i).length = params.ell) (hbit : ∀ i, ∀ x ∈ msg i, x < 2)
    (hlen' : ∀ i, (msg' i).length = params.ell) (hbit' : ∀ i, ∀ x ∈ msg' i, x < 2) (D : (Fin R → PvwPk) → (Fin k → PvwCiphertext) → Prop) :
    |prob (omrView (W := W) pr params dest msg D) - prob (omrView (W := W) pr params dest' msg' D)| ≤
      ∑ r, lweAdvantage params W (omrDistinguisher (W := W) pr dest msg D r) + ∑ r, lweAdvantage params W (omrDistinguisher (W := W) pr dest' msg' D r) +
        k * Real.sqrt ((params.q : ℝ) ^ (params.n + params.ell) / 2 ^ params.m) := by
  have hp : 0 < params.q := by omega
  have key : ∀ (dest : Fin k → Fin R) (msg : Fin k → List Nat), (∀ i, (msg i).length = params.ell) → (∀ i, ∀ x ∈ msg i, x < 2) →
      |prob (omrView (W := W) pr params dest msg D) -
        prob (fun x : (Fin R → Fin params.m → PvwVec params) × (Fin k → PvwVec params) => D (fun r => storePk (x.1 r)) fun i => storeCt (x.2 i))| ≤
        ∑ r, lweAdvantage params W (omrDistinguisher (W := W) pr dest msg D r) +
          k * (Real.sqrt ((params.q : ℝ) ^ (params.n + params.ell) / 2 ^ params.m) / 2) := by
    intro dest msg hlen hbit
    have h1 : prob (omrView (W := W) pr params dest msg D) =
        prob (fun x : OmrCoins params W R k => Clues params dest msg D (fun r => lweSamples (x.1 r)) x.2) :=
      prob_equiv (Equiv.refl _) fun x => view_iff hq2 hq62 pr hlen hbit hv1 hv2 x
    have h2 := keys_hybrid (W := W) hp (Clues params dest msg D)
    have h3 := clues_hybrid hp dest fun u w => D (fun r => storePk (u r)) fun i => storeCt (w i + msgVec params (msg i))
    have h4 : prob (fun x : (Fin R → Fin params.m → PvwVec params) × (Fin k → PvwVec params) => D (fun r => storePk (x.1 r)) fun i =>
          storeCt (x.2 i + msgVec params (msg i))) =
        prob (fun x : (Fin R → Fin params.m → PvwVec params) × (Fin k → PvwVec params) => D (fun r => storePk (x.1 r)) fun i => storeCt (x.2 i)) :=
      prob_equiv (Equiv.prodCongr (Equiv.refl _) (Equiv.piCongrRight fun i => Equiv.addRight (msgVec params (msg i)))) fun p => Iff.rfl
    rw [h4] at h3
    have h5 : ∀ r, lweAdvantage params W (omrDistinguisher (W := W) pr dest msg D r) = lweAdvantage params W fun x (aux : (Fin R → PvwKeyCoins params W) ×
        (Fin R → Fin params.m → PvwVec params) × (Fin k → Fin params.m → Fin 2)) => Clues params dest msg D (mixedKeys r x aux.1 aux.2.1) aux.2.2 := by
      intro r
      congr 1
      funext x aux
      exact propext (clues_iff hq2 hq62 pr hlen hbit _ _)
    rw [h1]
    simp only [h5]
    exact (abs_sub_le _ _ _).trans (add_le_add h2 h3)
  have k1 := key dest msg hlen hbit
  have k2 := key dest' msg' hlen' hbit'
  rw [abs_sub_comm] at k2
  refine (abs_sub_le _ _ _).trans ((add_le_add k1 k2).trans_eq ?_)
  ring

/-- C112: with the default parameters the last term is below `k 2^-4000`. -/
theorem c112_default (pr : Profile) (W : Nat) (dest dest' : Fin k → Fin R) {msg msg' : Fin k → List Nat} (hlen : ∀ i, (msg i).length = 4)
    (hbit : ∀ i, ∀ x ∈ msg i, x < 2) (hlen' : ∀ i, (msg' i).length = 4) (hbit' : ∀ i, ∀ x ∈ msg' i, x < 2)
    (D : (Fin R → PvwPk) → (Fin k → PvwCiphertext) → Prop) :
    |prob (omrView (W := W) pr PvwParams.default dest msg D) - prob (omrView (W := W) pr PvwParams.default dest' msg' D)| ≤
      ∑ r, lweAdvantage PvwParams.default W (omrDistinguisher (W := W) pr dest msg D r) +
        ∑ r, lweAdvantage PvwParams.default W (omrDistinguisher (W := W) pr dest' msg' D r) + k / 2 ^ 4000 := by
  refine (c112_recipients (params := PvwParams.default) (by decide) (by decide) (by decide) (by decide) pr W dest dest' hlen hbit hlen' hbit' D).trans
    (add_le_add_right ?_ _)
  rw [div_eq_mul_one_div (k : ℝ)]
  exact mul_le_mul_of_nonneg_left leftover_default (Nat.cast_nonneg _)

/-- C112: the keys and the clues are made for all coins, so that nothing is learnt from a panic. -/
theorem c112_returns (hq2 : 2 ≤ params.q) (hq62 : params.q < 2 ^ 62) (hv1 : 1 ≤ params.variance) (hv2 : params.variance ≤ 16) (pr : Profile)
    (dest : Fin k → Fin R) {msg : Fin k → List Nat} (hlen : ∀ i, (msg i).length = params.ell) (hbit : ∀ i, ∀ x ∈ msg i, x < 2) :
    ∀ x : OmrCoins params W R k, omrView pr params dest msg (fun _ _ => True) x :=
  fun x => (view_iff hq2 hq62 pr hlen hbit hv1 hv2 x).mpr trivial

/-- Two recipients with the default parameters and a clue for one or the other; `D` compares the clue with the first row of the first key. -/
example : (∃ x : OmrCoins PvwParams.default 2000 2 1, omrView .debug PvwParams.default (fun _ => 0) (fun _ => [0, 0, 0, 0]) (fun _ _ => True) x) ∧
    |prob (omrView (W := 2000) (R := 2) (k := 1) .release PvwParams.default (fun _ => 0) (fun _ => [0, 0, 0, 0])
        fun pk ct => (ct 0).a.getD 0 0 < ((pk 0).getD 0 ⟨[], []⟩).a.getD 0 0) -
      prob (omrView (W := 2000) (R := 2) (k := 1) .release PvwParams.default (fun _ => 1) (fun _ => [0, 0, 0, 0])
        fun pk ct => (ct 0).a.getD 0 0 < ((pk 0).getD 0 ⟨[], []⟩).a.getD 0 0)| ≤
      ∑ r, lweAdvantage PvwParams.default 2000 (omrDistinguisher (W := 2000) (R := 2) (k := 1) .release (fun _ => 0) (fun _ => [0, 0, 0, 0])
        (fun pk ct => (ct 0).a.getD 0 0 < ((pk 0).getD 0 ⟨[], []⟩).a.getD 0 0) r) +
      ∑ r, lweAdvantage PvwParams.default 2000 (omrDistinguisher (W := 2000) (R := 2) (k := 1) .release (fun _ => 1) (fun _ => [0, 0, 0, 0])
        (fun pk ct => (ct 0).a.getD 0 0 < ((pk 0).getD 0 ⟨[], []⟩).a.getD 0 0) r) + (1 : Nat) / 2 ^ 4000 :=
  ⟨⟨(fun _ => (fun _ _ => ⟨0, by decide⟩, fun _ _ => ⟨0, by decide⟩, fun _ _ => 0), fun _ _ => 0),
    c112_returns (by decide) (by decide) (by decide) (by decide) .debug _ (fun _ => rfl) (fun _ => by simp) _⟩,
   c112_default .release 2000 _ _ (fun _ => rfl) (fun _ => by simp) (fun _ => rfl) (fun _ => by simp) _⟩

/-- Three clues for two recipients, all with small parameters: the statement with all its terms. -/
example (D : (Fin 2 → PvwPk) → (Fin 3 → PvwCiphertext) → Prop) :
    |prob (omrView (W := 5) .debug ⟨2, 1, 40, 17, 1⟩ ![0, 0, 1] (fun _ => [1]) D) - prob (omrView (W := 5) .debug ⟨2, 1, 40, 17, 1⟩ ![1, 0, 1] (fun _ => [0]) D)| ≤
      ∑ r, lweAdvantage ⟨2, 1, 40, 17, 1⟩ 5 (omrDistinguisher (W := 5) .debug ![0, 0, 1] (fun _ => [1]) D r) +
      ∑ r, lweAdvantage ⟨2, 1, 40, 17, 1⟩ 5 (omrDistinguisher (W := 5) .debug ![1, 0, 1] (fun _ => [0]) D r) + (3 : Nat) * Real.sqrt ((17 : Nat) ^ (2 + 1) / 2 ^ 40) :=
  c112_recipients (by decide) (by decide) (by decide) (by decide) .debug 5 _ _ (fun _ => rfl) (fun _ => by simp) (fun _ => rfl) (fun _ => by simp) D

end OnionPIR
