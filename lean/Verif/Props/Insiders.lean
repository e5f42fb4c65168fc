import Verif.Spec.Insiders
import Verif.Props.Recipients
/-
C114 (src/pvw.rs): clues do not reveal for whom they are, not even to other recipients with all their keys and clues.
-/
namespace OnionPIR
open Spec Privacy PvwPrivacy Recipients

variable {params : PvwParams} {W R k R' k' : Nat}

namespace Insiders

/-- The bound of C112 for predicates that have further coins. -/
theorem others {Z : Type} [Finite Z] (hq2 : 2 ≤ params.q) (hq62 : params.q < 2 ^ 62) (hv1 : 1 ≤ params.variance) (hv2 : params.variance ≤ 16) (pr : Profile)
    (W : Nat) (dest : Fin k → Fin R) {msg : Fin k → List Nat} (hlen : ∀ i, (msg i).length = params.ell) (hbit : ∀ i, ∀ x ∈ msg i, x < 2)
    (D : (Fin R → PvwPk) → (Fin k → PvwCiphertext) → Z → Prop) :
    |prob (fun x : OmrCoins params W R k × Z => omrView pr params dest msg (fun pk ct => D pk ct x.2) x.1) -
      prob (fun x : ((Fin R → Fin params.m → PvwVec params) × (Fin k → PvwVec params)) × Z =>
        D (fun r => storePk (x.1.1 r)) (fun i => storeCt (x.1.2 i)) x.2)| ≤
      ∑ r, lweAdvantage params W (fun x (aux : ((Fin R → PvwKeyCoins params W) × (Fin R → Fin params.m → PvwVec params) ×
        (Fin k → Fin params.m → Fin 2)) × Z) => omrDistinguisher pr dest msg (fun pk ct => D pk ct aux.2) r x aux.1) +
        k * (Real.sqrt ((params.q : ℝ) ^ (params.n + params.ell) / 2 ^ params.m) / 2) := by
  have hp : 0 < params.q := by omega
  have : NeZero params.q := ⟨by omega⟩
  let F : (Fin R → Fin params.m → PvwVec params) → (Fin k → Fin params.m → Fin 2) × Z → Prop :=
    fun K b => Clues params dest msg (fun pk ct => D pk ct b.2) K b.1
  have h1 : prob (fun x : OmrCoins params W R k × Z => omrView pr params dest msg (fun pk ct => D pk ct x.2) x.1) =
      prob (fun x : (Fin R → PvwKeyCoins params W) × ((Fin k → Fin params.m → Fin 2) × Z) => F (fun r => lweSamples (x.1 r)) x.2) :=
    prob_equiv ⟨fun x => (x.1.1, x.1.2, x.2), fun y => ((y.1, y.2.1), y.2.2), fun _ => rfl, fun _ => rfl⟩
      fun x => view_iff hq2 hq62 pr hlen hbit hv1 hv2 x.1
  have h2 := keys_hybrid (W := W) hp F
  have h3 : |prob (fun x : (Fin R → Fin params.m → PvwVec params) × ((Fin k → Fin params.m → Fin 2) × Z) => F x.1 x.2) -
      prob (fun x : ((Fin R → Fin params.m → PvwVec params) × (Fin k → PvwVec params)) × Z =>
        D (fun r => storePk (x.1.1 r)) (fun i => storeCt (x.1.2 i)) x.2)| ≤
      k * (Real.sqrt ((params.q : ℝ) ^ (params.n + params.ell) / 2 ^ params.m) / 2) := by
    have e1 : prob (fun x : (Fin R → Fin params.m → PvwVec params) × ((Fin k → Fin params.m → Fin 2) × Z) => F x.1 x.2) =
        prob (fun x : ((Fin R → Fin params.m → PvwVec params) × (Fin k → Fin params.m → Fin 2)) × Z =>
          Clues params dest msg (fun pk ct => D pk ct x.2) x.1.1 x.1.2) :=
      prob_equiv ⟨fun x => ((x.1, x.2.1), x.2.2), fun y => (y.1.1, y.1.2, y.2), fun _ => rfl, fun _ => rfl⟩ fun x => Iff.rfl
    rw [e1]
    refine prob_avg_sub (E := fun (x : (Fin R → Fin params.m → PvwVec params) × (Fin k → Fin params.m → Fin 2)) (z : Z) =>
        Clues params dest msg (fun pk ct => D pk ct z) x.1 x.2)
      (F := fun (x : (Fin R → Fin params.m → PvwVec params) × (Fin k → PvwVec params)) (z : Z) => D (fun r => storePk (x.1 r)) (fun i => storeCt (x.2 i)) z)
      (by positivity) fun z => ?_
    have h3 := clues_hybrid hp dest fun u w => D (fun r => storePk (u r)) (fun i => storeCt (w i + msgVec params (msg i))) z
    have h4 : prob (fun x : (Fin R → Fin params.m → PvwVec params) × (Fin k → PvwVec params) => D (fun r => storePk (x.1 r)) (fun i =>
          storeCt (x.2 i + msgVec params (msg i))) z) =
        prob (fun x : (Fin R → Fin params.m → PvwVec params) × (Fin k → PvwVec params) => D (fun r => storePk (x.1 r)) (fun i => storeCt (x.2 i)) z) :=
      prob_equiv (Equiv.prodCongr (Equiv.refl _) (Equiv.piCongrRight fun i => Equiv.addRight (msgVec params (msg i)))) fun p => Iff.rfl
    rw [h4] at h3
    exact h3
  have h5 : ∀ r, lweAdvantage params W (fun x (aux : ((Fin R → PvwKeyCoins params W) × (Fin R → Fin params.m → PvwVec params) ×
        (Fin k → Fin params.m → Fin 2)) × Z) => omrDistinguisher pr dest msg (fun pk ct => D pk ct aux.2) r x aux.1) =
      lweAdvantage params W fun x (aux : (Fin R → PvwKeyCoins params W) × (Fin R → Fin params.m → PvwVec params) ×
        ((Fin k → Fin params.m → Fin 2) × Z)) => F (mixedKeys r x aux.1 aux.2.1) aux.2.2 := by
    intro r
    unfold lweAdvantage
    congr 2
    all_goals
      refine prob_equiv ⟨fun x => (x.1, x.2.1.1, x.2.1.2.1, x.2.1.2.2, x.2.2), fun y => (y.1, (y.2.1, y.2.2.1, y.2.2.2.1), y.2.2.2.2), fun _ => rfl, fun _ => rfl⟩
        fun x => ?_
      exact clues_iff hq2 hq62 pr hlen hbit (D := fun pk ct => D pk ct x.2.2) _ _
  rw [h1]
  simp only [h5]
  exact (abs_sub_le _ _ _).trans (add_le_add h2 h3)

end Insiders

/-- C114: what others with all their secret keys and clues see of the public keys of `R` recipients and of `k` clues for them differs from what they
see of the keys and of other clues, for other ones of the `R` recipients and other messages, with a probability of at most the advantages of `2 R`
explicit distinguishers of `m` LWE samples from uniform pairs plus `k sqrt(q^(n + ell) / 2^m)`. -/
theorem c114_insiders (hq2 : 2 ≤ params.q) (hq62 : params.q < 2 ^ 62) (hv1 : 1 ≤ params.variance) (hv2 : params.variance ≤ 16) (pr : Profile)
    (W : Nat) (dest1 dest2 : Fin k → Fin R) {msg1 msg2 : Fin k → List Nat} (hlen1 : ∀ i, (msg1 i).length = params.ell) (hbit1 : ∀ i, ∀ x ∈ msg1 i, x < 2)
    (hlen2 : ∀ i, (msg2 i).length = params.ell) (hbit2 : ∀ i, ∀ x ∈ msg2 i, x < 2) (dest' : Fin k' → Fin R') (msg' : Fin k' → List Nat)
    (D : (Fin R → PvwPk) → (Fin k → PvwCiphertext) → (Fin R' → PvwSk) → (Fin R' → PvwPk) → (Fin k' → PvwCiphertext) → Prop) :
    |prob (insiderView (W := W) pr params dest1 msg1 dest' msg' D) - prob (insiderView (W := W) pr params dest2 msg2 dest' msg' D)| ≤
      ∑ r, lweAdvantage params W (insiderDistinguisher (W := W) pr dest1 msg1 dest' msg' D r) +
        ∑ r, lweAdvantage params W (insiderDistinguisher (W := W) pr dest2 msg2 dest' msg' D r) +
        k * Real.sqrt ((params.q : ℝ) ^ (params.n + params.ell) / 2 ^ params.m) := by
  have : NeZero params.q := ⟨by omega⟩
  let D' : (Fin R → PvwPk) → (Fin k → PvwCiphertext) → OmrCoins params W R' k' → Prop :=
    fun pk ct z => ∃ sk' pk' ct', Makes pr params dest' msg' z sk' pk' ct' ∧ D pk ct sk' pk' ct'
  have e1 : ∀ (dest : Fin k → Fin R) (msg : Fin k → List Nat), prob (insiderView (W := W) pr params dest msg dest' msg' D) =
      prob (fun x : OmrCoins params W R k × OmrCoins params W R' k' => omrView pr params dest msg (fun pk ct => D' pk ct x.2) x.1) := by
    intro dest msg
    refine prob_equiv (Equiv.refl _) fun x => ?_
    constructor
    · rintro ⟨sk, pk, ct, sk', pk', ct', ⟨f1, f2⟩, f3, f4⟩
      exact ⟨sk, pk, ct, f1, f2, sk', pk', ct', f3, f4⟩
    · rintro ⟨sk, pk, ct, f1, f2, sk', pk', ct', f3, f4⟩
      exact ⟨sk, pk, ct, sk', pk', ct', ⟨f1, f2⟩, f3, f4⟩
  have e2 : ∀ (dest : Fin k → Fin R) (msg : Fin k → List Nat) (r : Fin R), insiderDistinguisher (W := W) pr dest msg dest' msg' D r =
      fun x (aux : ((Fin R → PvwKeyCoins params W) × (Fin R → Fin params.m → PvwVec params) × (Fin k → Fin params.m → Fin 2)) × OmrCoins params W R' k') =>
        omrDistinguisher pr dest msg (fun pk ct => D' pk ct aux.2) r x aux.1 := by
    intro dest msg r
    funext x aux
    refine propext ⟨?_, ?_⟩
    · rintro ⟨sk', pk', ct', f1, ct, f2, f3⟩
      exact ⟨ct, f2, sk', pk', ct', f1, f3⟩
    · rintro ⟨ct, f2, sk', pk', ct', f1, f3⟩
      exact ⟨sk', pk', ct', f1, ct, f2, f3⟩
  have k1 := Insiders.others hq2 hq62 hv1 hv2 pr W dest1 hlen1 hbit1 D'
  have k2 := Insiders.others hq2 hq62 hv1 hv2 pr W dest2 hlen2 hbit2 D'
  simp only [e1, e2]
  rw [abs_sub_comm] at k2
  refine (abs_sub_le _ _ _).trans ((add_le_add k1 k2).trans_eq ?_)
  ring

/-- C114: with the default parameters the last term is below `k 2^-4000`. -/
theorem c114_default (pr : Profile) (W : Nat) (dest1 dest2 : Fin k → Fin R) {msg1 msg2 : Fin k → List Nat} (hlen1 : ∀ i, (msg1 i).length = 4)
    (hbit1 : ∀ i, ∀ x ∈ msg1 i, x < 2) (hlen2 : ∀ i, (msg2 i).length = 4) (hbit2 : ∀ i, ∀ x ∈ msg2 i, x < 2) (dest' : Fin k' → Fin R')
    (msg' : Fin k' → List Nat)
    (D : (Fin R → PvwPk) → (Fin k → PvwCiphertext) → (Fin R' → PvwSk) → (Fin R' → PvwPk) → (Fin k' → PvwCiphertext) → Prop) :
    |prob (insiderView (W := W) pr PvwParams.default dest1 msg1 dest' msg' D) - prob (insiderView (W := W) pr PvwParams.default dest2 msg2 dest' msg' D)| ≤
      ∑ r, lweAdvantage PvwParams.default W (insiderDistinguisher (W := W) pr dest1 msg1 dest' msg' D r) +
        ∑ r, lweAdvantage PvwParams.default W (insiderDistinguisher (W := W) pr dest2 msg2 dest' msg' D r) + k / 2 ^ 4000 := by
  refine (c114_insiders (params := PvwParams.default) (by decide) (by decide) (by decide) (by decide) pr W dest1 dest2 hlen1 hbit1 hlen2 hbit2 dest' msg' D).trans
    (add_le_add_right ?_ _)
  rw [div_eq_mul_one_div (k : ℝ)]
  exact mul_le_mul_of_nonneg_left leftover_default (Nat.cast_nonneg _)

/-- C114: all keys and clues are made for all coins. -/
theorem c114_returns (hq2 : 2 ≤ params.q) (hq62 : params.q < 2 ^ 62) (hv1 : 1 ≤ params.variance) (hv2 : params.variance ≤ 16) (pr : Profile)
    (dest : Fin k → Fin R) {msg : Fin k → List Nat} (hlen : ∀ i, (msg i).length = params.ell) (hbit : ∀ i, ∀ x ∈ msg i, x < 2)
    (dest' : Fin k' → Fin R') {msg' : Fin k' → List Nat} (hlen' : ∀ i, (msg' i).length = params.ell) (hbit' : ∀ i, ∀ x ∈ msg' i, x < 2) :
    ∀ x : OmrCoins params W R k × OmrCoins params W R' k', insiderView pr params dest msg dest' msg' (fun _ _ _ _ _ => True) x := by
  intro x
  obtain ⟨sk, pk, ct, f1, f2, -⟩ := c112_returns hq2 hq62 hv1 hv2 pr dest hlen hbit x.1
  obtain ⟨sk', pk', ct', g1, g2, -⟩ := c112_returns hq2 hq62 hv1 hv2 pr dest' hlen' hbit' x.2
  exact ⟨sk, pk, ct, sk', pk', ct', ⟨f1, f2⟩, ⟨g1, g2⟩, trivial⟩

/-- A third recipient tries its own secret key on a clue for one of two recipients. -/
example : (∃ x : OmrCoins PvwParams.default 2000 2 1 × OmrCoins PvwParams.default 2000 1 0,
      insiderView .debug PvwParams.default (fun _ => 0) (fun _ => [0, 1, 1, 0]) (fun i => i.elim0) (fun i => i.elim0) (fun _ _ _ _ _ => True) x) ∧
    let D : (Fin 2 → PvwPk) → (Fin 1 → PvwCiphertext) → (Fin 1 → PvwSk) → (Fin 1 → PvwPk) → (Fin 0 → PvwCiphertext) → Prop :=
      fun _ ct sk' _ _ => Pvw.decrypt .release (sk' 0) PvwParams.default (ct 0) = .ok [0, 1, 1, 0]
    |prob (insiderView (W := 2000) .release PvwParams.default (fun _ => 0) (fun _ => [0, 1, 1, 0]) (fun i => i.elim0) (fun i => i.elim0) D) -
      prob (insiderView (W := 2000) .release PvwParams.default (fun _ => 1) (fun _ => [0, 0, 0, 0]) (fun i => i.elim0) (fun i => i.elim0) D)| ≤
      ∑ r, lweAdvantage PvwParams.default 2000 (insiderDistinguisher (W := 2000) .release (fun _ => 0) (fun _ => [0, 1, 1, 0]) (fun i => i.elim0) (fun i => i.elim0) D r) +
      ∑ r, lweAdvantage PvwParams.default 2000 (insiderDistinguisher (W := 2000) .release (fun _ => 1) (fun _ => [0, 0, 0, 0]) (fun i => i.elim0) (fun i => i.elim0) D r) +
        (1 : Nat) / 2 ^ 4000 := by
  refine ⟨⟨((fun _ => (fun _ _ => ⟨0, by decide⟩, fun _ _ => ⟨0, by decide⟩, fun _ _ => 0), fun _ _ => 0),
      (fun _ => (fun _ _ => ⟨0, by decide⟩, fun _ _ => ⟨0, by decide⟩, fun _ _ => 0), fun _ _ => 0)),
    c114_returns (by decide) (by decide) (by decide) (by decide) .debug _ (fun _ => rfl) (fun _ => by simp) _ (fun i => i.elim0) (fun i => i.elim0) _⟩, ?_⟩
  exact c114_default .release 2000 _ _ (fun _ => rfl) (fun _ => by simp) (fun _ => rfl) (fun _ => by simp) _ _ _

end OnionPIR
