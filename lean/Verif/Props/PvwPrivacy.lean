import Verif.Proofs.Leftover
import Verif.Props.Privacy
import Verif.Props.PvwFailure
import Verif.Spec.PvwPrivacy
/-
Property C81: telling PVW encryptions of two messages apart, given the public key, is at most as easy as telling LWE samples from uniform
pairs, up to the distance of random subset sums from the uniform distribution.
-/
namespace OnionPIR
open Spec Privacy

variable {params : PvwParams} {W : Nat}

namespace PvwPrivacy

theorem tableTape_lt {a b q : Nat} (hq : 0 < q) (f : Fin a → Fin b → Fin q) (i j : Nat) : tableTape f i j < q := by
  unfold tableTape
  split
  · exact (f _ _).2
  · exact hq

theorem tableTape_eq {a b q : Nat} (f : Fin a → Fin b → Fin q) (i : Fin a) (j : Fin b) : tableTape f i j = f i j := by
  unfold tableTape
  rw [dif_pos ⟨i.2, j.2⟩]

theorem bitTape_lt {m : Nat} (e : Fin m → Fin 2) (j : Nat) : bitTape e j < 2 := by
  unfold bitTape
  split
  · exact (e _).2
  · omega

theorem streams_lt {n : Nat} (w : Fin n → Words W) (l i : Nat) : streams w l i < 2 ^ 64 := by
  unfold streams
  split
  · exact stream_lt _ _
  · norm_num

/-- A list of canonical values is determined by its residues. -/
theorem list_eq {q n : Nat} (hq : 0 < q) {a : List Nat} (ha : Pvw.Vec q n a) {f : Fin n → ZMod q} (h : ∀ i (hi : i < n), (a.getD i 0 : ZMod q) = f ⟨i, hi⟩) :
    a = List.ofFn fun i => (f i).val := by
  haveI : NeZero q := ⟨by omega⟩
  apply List.ext_getElem (by simp [ha.1])
  intro i h1 h2
  have hi : i < n := by rw [← ha.1]; exact h1
  rw [List.getElem_ofFn, ← h i hi, List.getD_eq_getElem _ _ h1, ZMod.val_natCast, Nat.mod_eq_of_lt]
  have := ha.2 i hi
  rwa [List.getD_eq_getElem _ _ h1] at this

theorem ofFn_getD {n : Nat} (f : Fin n → Nat) {i : Nat} (hi : i < n) : (List.ofFn f).getD i 0 = f ⟨i, hi⟩ := by
  rw [List.getD_eq_getElem _ _ (by simpa using hi), List.getElem_ofFn]

theorem storeCt_vec (hq : 0 < params.q) (x : PvwVec params) :
    Pvw.Vec params.q params.n (storeCt x).a ∧ Pvw.Vec params.q params.ell (storeCt x).b := by
  haveI : NeZero params.q := ⟨by omega⟩
  refine ⟨⟨by simp [storeCt], fun i hi => ?_⟩, ⟨by simp [storeCt], fun i hi => ?_⟩⟩ <;>
  · dsimp only [storeCt]
    rw [ofFn_getD _ hi]
    exact ZMod.val_lt _

theorem storePk_get (x : Fin params.m → PvwVec params) {j : Nat} (hj : j < params.m) : (storePk x)[j]? = some (storeCt (x ⟨j, hj⟩)) := by
  unfold storePk
  rw [List.getElem?_ofFn, dif_pos hj]

/-- Key generation stores LWE samples. -/
theorem genPk (hq2 : 2 ≤ params.q) (hq62 : params.q < 2 ^ 62) (hv1 : 1 ≤ params.variance) (hv2 : params.variance ≤ 16) (pr : Profile)
    (c : PvwKeyCoins params W) : ∃ sk, Pvw.genSk params (tableTape c.1) = .ok sk ∧
      Pvw.genPk pr sk params (tableTape c.2.1) (streams c.2.2) = .ok (storePk (lweSamples c)) := by
  obtain ⟨q, hq, -⟩ := Modulus.new_ok hq2 hq62
  have hp : 0 < params.q := by omega
  refine ⟨(List.range params.ell).map fun l => Pvw.randomVec params.n (tableTape c.1 l), by rw [Pvw.genSk, hq]; rfl, ?_⟩
  have hsk : ∀ l, l < params.ell → ∃ s, ((List.range params.ell).map fun l => Pvw.randomVec params.n (tableTape c.1 l))[l]? = some s ∧
      Pvw.Vec params.q params.n s := fun l hl =>
    ⟨Pvw.randomVec params.n (tableTape c.1 l), by rw [List.getElem?_map, List.getElem?_range hl]; rfl, Pvw.vec_randomVec (tableTape_lt hp c.1 l)⟩
  obtain ⟨pk, h1, h2, ha, h3⟩ := Pvw.genPk_exact hq pr hv1 hv2 (tableTape_lt hp c.2.1) (streams_lt c.2.2) hsk
  rw [h1]
  congr 1
  apply List.ext_getElem (by simp [h2, storePk])
  intro j g1 g2
  have hj : j < params.m := by rw [← h2]; exact g1
  obtain ⟨ct, c1, c2, c3, c4⟩ := h3 j hj
  have haj := ha j hj
  rw [List.getElem?_eq_getElem g1] at c1 haj
  cases c1
  have g3 := storePk_get (lweSamples c) hj
  rw [List.getElem?_eq_getElem g2, Option.some.injEq] at g3
  rw [g3]
  simp only [Option.map_some, Option.some.injEq] at haj
  have hA : ∀ i (hi : i < params.n), (pk[j].a.getD i 0 : Nat) = (c.2.1 ⟨j, hj⟩ ⟨i, hi⟩ : Nat) := fun i hi => by
    rw [haj, Pvw.randomVec_getD hi]
    exact tableTape_eq c.2.1 ⟨j, hj⟩ ⟨i, hi⟩
  have e1 := list_eq hp c2 (f := (lweSamples c ⟨j, hj⟩).1) fun i hi => by rw [hA i hi]; rfl
  have e2 := list_eq hp c3 (f := (lweSamples c ⟨j, hj⟩).2) fun l hl => by
    rw [c4 l hl]
    unfold lweSamples
    dsimp only
    congr 1
    · rw [Finset.sum_range]
      refine Finset.sum_congr rfl fun i _ => ?_
      rw [hA i i.2, Pvw.getD_map_range [] hl, Pvw.randomVec_getD i.2]
      congr 2
      exact tableTape_eq c.1 ⟨l, hl⟩ i
    · have : streams c.2.2 l = stream (c.2.2 ⟨l, hl⟩) := by funext i; unfold streams; rw [dif_pos hl]
      rw [this]
      rfl
  cases hh : pk[j]
  rw [hh] at e1 e2
  unfold storeCt
  rw [← e1, ← e2]

/-- The part of the ciphertext that carries the message. -/
def msgVec (params : PvwParams) (msg : List Nat) : PvwVec params := (0, fun l => ((params.q / 2 * msg.getD l 0 : Nat) : ZMod params.q))

/-- Encryption stores the subset sum of the public key plus the message. -/
theorem encrypt (hq2 : 2 ≤ params.q) (hq62 : params.q < 2 ^ 62) (pr : Profile) (x : Fin params.m → PvwVec params) {msg : List Nat}
    (hlen : msg.length = params.ell) (hbit : ∀ x ∈ msg, x < 2) (e : Fin params.m → Fin 2) :
    Pvw.encrypt pr (storePk x) params msg (bitTape e) = .ok (storeCt (Leftover.subsetSum x e + msgVec params msg)) := by
  obtain ⟨q, hq, -⟩ := Modulus.new_ok hq2 hq62
  have hp : 0 < params.q := by omega
  haveI : NeZero params.q := ⟨by omega⟩
  obtain ⟨ct, h1, h2, h3, h4, h5⟩ := Pvw.encrypt_exact hq pr (pk := storePk x) (fun j hj => ⟨_, storePk_get x hj, storeCt_vec hp _⟩) hlen hbit
    (bitTape_lt e)
  have hpk : ∀ j : Fin params.m, (storePk x).getD j ⟨[], []⟩ = storeCt (x j) := fun j => by
    simp only [List.getD, storePk_get x j.2, Option.getD_some]
  have hbt : ∀ j : Fin params.m, bitTape e j = e j := fun j => by unfold bitTape; rw [dif_pos j.2]
  have ea : ct.a = List.ofFn fun i => ((Leftover.subsetSum x e + msgVec params msg).1 i).val := list_eq hp h2 fun i hi => by
    rw [h4 i hi, Finset.sum_range]
    simp only [hpk, hbt]
    unfold Leftover.subsetSum msgVec
    rw [Prod.fst_add, add_zero, Prod.fst_sum, Finset.sum_apply]
    refine Finset.sum_congr rfl fun j _ => ?_
    dsimp only [storeCt]
    rw [ofFn_getD _ hi, ZMod.natCast_zmod_val, Prod.smul_fst, Pi.smul_apply, nsmul_eq_mul, mul_comm]
  have eb : ct.b = List.ofFn fun l => ((Leftover.subsetSum x e + msgVec params msg).2 l).val := list_eq hp h3 fun l hl => by
    rw [h5 l hl, Finset.sum_range]
    simp only [hpk, hbt]
    unfold Leftover.subsetSum msgVec
    rw [Prod.snd_add, Pi.add_apply, Prod.snd_sum, Finset.sum_apply]
    congr 1
    refine Finset.sum_congr rfl fun j _ => ?_
    dsimp only [storeCt]
    rw [ofFn_getD _ hl, ZMod.natCast_zmod_val, Prod.smul_snd, Pi.smul_apply, nsmul_eq_mul, mul_comm]
  rw [h1]
  unfold storeCt
  rw [← ea, ← eb]

theorem card_vec (hq : 0 < params.q) : Nat.card (PvwVec params) = params.q ^ (params.n + params.ell) := by
  haveI : NeZero params.q := ⟨by omega⟩
  rw [Nat.card_prod, Nat.card_fun, Nat.card_fun, Nat.card_fin, Nat.card_fin, Nat.card_zmod, pow_add]

theorem card_filter {Ω : Type} [Fintype Ω] (E : Ω → Prop) [DecidablePred E] : Nat.card {ω // E ω} = (Finset.univ.filter E).card := by
  rw [Nat.card_eq_fintype_card, Fintype.card_subtype]

end PvwPrivacy

open PvwPrivacy

/-- C81: the number of choices of the coins, so that the probabilities below are proper. -/
theorem c81_card (hq : 0 < params.q) : Nat.card (PvwKeyCoins params W × (Fin params.m → Fin 2)) =
    params.q ^ (params.n * params.ell) * params.q ^ (params.n * params.m) * 2 ^ (64 * W * params.ell) * 2 ^ params.m ∧
    Nat.card (PvwVec params) = params.q ^ (params.n + params.ell) := by
  refine ⟨?_, card_vec hq⟩
  simp only [Nat.card_prod, Nat.card_fun, Nat.card_fin, ← pow_mul]
  ring

/-- C81: key generation does not fail and its public key stores `m` LWE samples. -/
theorem c81_key (hq2 : 2 ≤ params.q) (hq62 : params.q < 2 ^ 62) (hv1 : 1 ≤ params.variance) (hv2 : params.variance ≤ 16) (pr : Profile)
    (c : PvwKeyCoins params W) : ∃ sk, Pvw.genSk params (tableTape c.1) = .ok sk ∧
      Pvw.genPk pr sk params (tableTape c.2.1) (streams c.2.2) = .ok (storePk (lweSamples c)) := genPk hq2 hq62 hv1 hv2 pr c

/-- C81: for every predicate, a uniform public matrix together with a random subset sum of its columns, or together with a uniform column,
makes a difference of at most `sqrt(q^(n + ell) / 2^m) / 2` (the leftover hash lemma). The modulus need not be prime. -/
theorem c81_leftover (hq : 0 < params.q) (d : (Fin params.m → PvwVec params) → PvwVec params → Prop) :
    |prob (fun p : (Fin params.m → PvwVec params) × (Fin params.m → Fin 2) => d p.1 (∑ j, (p.2 j : Nat) • p.1 j)) -
      prob (fun p : (Fin params.m → PvwVec params) × PvwVec params => d p.1 p.2)| ≤
      Real.sqrt ((params.q : ℝ) ^ (params.n + params.ell) / 2 ^ params.m) / 2 := by
  classical
  haveI : NeZero params.q := ⟨by omega⟩
  have h := Leftover.leftover (G := PvwVec params) (m := params.m) d
  have hc : (Fintype.card (PvwVec params) : ℝ) = (params.q : ℝ) ^ (params.n + params.ell) := by
    rw [← Nat.card_eq_fintype_card, card_vec hq]; push_cast; rfl
  rw [hc] at h
  unfold prob
  rw [card_filter, card_filter, Nat.card_prod, Nat.card_prod, Nat.card_fun, Nat.card_fun, Nat.card_fin, Nat.card_fin, card_vec hq]
  push_cast
  exact h

/-- C81: for every two messages and every predicate `D` of the public key and a ciphertext, the probabilities that `D` holds of the
encryptions of the two messages differ by at most the advantages of two explicit distinguishers of `m` LWE samples from uniform pairs plus
`sqrt(q^(n + ell) / 2^m)`. The probabilities are over the secret key, the public matrix, the words of the errors and the selection bits. -/
theorem c81_privacy (hq2 : 2 ≤ params.q) (hq62 : params.q < 2 ^ 62) (hv1 : 1 ≤ params.variance) (hv2 : params.variance ≤ 16) (pr : Profile)
    (W : Nat) {msg msg' : List Nat} (hlen : msg.length = params.ell) (hbit : ∀ x ∈ msg, x < 2) (hlen' : msg'.length = params.ell)
    (hbit' : ∀ x ∈ msg', x < 2) (D : PvwPk → PvwCiphertext → Prop) :
    |prob (pvwView (W := W) pr params msg D) - prob (pvwView (W := W) pr params msg' D)| ≤
      lweAdvantage params W (pvwDistinguisher pr msg D) + lweAdvantage params W (pvwDistinguisher pr msg' D) +
        Real.sqrt ((params.q : ℝ) ^ (params.n + params.ell) / 2 ^ params.m) := by
  have hp : 0 < params.q := by omega
  have key : ∀ msg : List Nat, msg.length = params.ell → (∀ x ∈ msg, x < 2) →
      |prob (pvwView (W := W) pr params msg D) - prob (fun p : (Fin params.m → PvwVec params) × PvwVec params => D (storePk p.1) (storeCt p.2))| ≤
        lweAdvantage params W (pvwDistinguisher pr msg D) + Real.sqrt ((params.q : ℝ) ^ (params.n + params.ell) / 2 ^ params.m) / 2 := by
    intro msg hlen hbit
    have h1 : prob (pvwView (W := W) pr params msg D) =
        prob (fun x : PvwKeyCoins params W × (Fin params.m → Fin 2) => pvwDistinguisher pr msg D (lweSamples x.1) x.2) := by
      refine prob_equiv (Equiv.refl _) fun x => ?_
      obtain ⟨sk, g1, g2⟩ := genPk hq2 hq62 hv1 hv2 pr x.1
      constructor
      · rintro ⟨sk', pk, ct, f1, f2, f3, f4⟩
        rw [g1] at f1; cases f1
        rw [g2] at f2; cases f2
        exact ⟨ct, f3, f4⟩
      · rintro ⟨ct, f3, f4⟩
        exact ⟨sk, _, ct, g1, g2, f3, f4⟩
    have h2 : prob (fun x : (Fin params.m → PvwVec params) × (Fin params.m → Fin 2) => pvwDistinguisher pr msg D x.1 x.2) =
        prob (fun p : (Fin params.m → PvwVec params) × (Fin params.m → Fin 2) =>
          D (storePk p.1) (storeCt (∑ j, (p.2 j : Nat) • p.1 j + msgVec params msg))) := by
      refine prob_equiv (Equiv.refl _) fun x => ?_
      have hx := encrypt hq2 hq62 pr x.1 hlen hbit x.2
      unfold pvwDistinguisher
      rw [hx]
      constructor
      · rintro ⟨ct, f1, f2⟩
        cases f1
        exact f2
      · exact fun f => ⟨_, rfl, f⟩
    have h3 := c81_leftover hp fun x u => D (storePk x) (storeCt (u + msgVec params msg))
    have h4 : prob (fun p : (Fin params.m → PvwVec params) × PvwVec params => D (storePk p.1) (storeCt (p.2 + msgVec params msg))) =
        prob (fun p : (Fin params.m → PvwVec params) × PvwVec params => D (storePk p.1) (storeCt p.2)) :=
      prob_equiv (Equiv.prodCongr (Equiv.refl _) (Equiv.addRight (msgVec params msg))) fun p => Iff.rfl
    rw [h4] at h3
    unfold lweAdvantage
    rw [h1, h2]
    exact (abs_sub_le _ _ _).trans (add_le_add_right h3 _)
  have k1 := key msg hlen hbit
  have k2 := key msg' hlen' hbit'
  rw [abs_sub_comm] at k2
  refine (abs_sub_le _ _ _).trans ((add_le_add k1 k2).trans_eq ?_)
  ring

theorem leftover_default : Real.sqrt ((PvwParams.default.q : ℝ) ^ (PvwParams.default.n + PvwParams.default.ell) / 2 ^ PvwParams.default.m) ≤
    1 / 2 ^ 4000 := by
  have e1 : ((PvwParams.default.q : Nat) : ℝ) ^ (PvwParams.default.n + PvwParams.default.ell) / 2 ^ PvwParams.default.m =
      (65537 : ℝ) ^ 454 / 2 ^ 16000 := by
    show ((65537 : Nat) : ℝ) ^ (450 + 4) / 2 ^ 16000 = _
    push_cast
    rfl
  rw [e1]
  apply Real.sqrt_le_iff.mpr
  refine ⟨by positivity, ?_⟩
  rw [div_pow, one_pow, ← pow_mul, div_le_div_iff₀ (by positivity) (by positivity), one_mul]
  calc (65537 : ℝ) ^ 454 * 2 ^ (4000 * 2) ≤ (2 ^ 17) ^ 454 * 2 ^ (4000 * 2) :=
        mul_le_mul_of_nonneg_right (pow_le_pow_left₀ (by norm_num) (by norm_num) _) (by positivity)
    _ = 2 ^ (17 * 454 + 4000 * 2) := by rw [← pow_mul, ← pow_add]
    _ ≤ 2 ^ 16000 := pow_le_pow_right₀ (by norm_num) (by norm_num)

/-- C81: with the default parameters the last term is below `2^-4000`. -/
theorem c81_default (pr : Profile) (W : Nat) {msg msg' : List Nat} (hlen : msg.length = 4) (hbit : ∀ x ∈ msg, x < 2) (hlen' : msg'.length = 4)
    (hbit' : ∀ x ∈ msg', x < 2) (D : PvwPk → PvwCiphertext → Prop) :
    |prob (pvwView (W := W) pr PvwParams.default msg D) - prob (pvwView (W := W) pr PvwParams.default msg' D)| ≤
      lweAdvantage PvwParams.default W (pvwDistinguisher pr msg D) + lweAdvantage PvwParams.default W (pvwDistinguisher pr msg' D) +
        1 / 2 ^ 4000 := by
  refine (c81_privacy (params := PvwParams.default) (by decide) (by decide) (by decide) (by decide) pr W hlen hbit hlen' hbit' D).trans
    (add_le_add_right leftover_default _)

/-- Non-vacuity: the messages 0000 and 1011 with 2000 words per row, as many as the errors of 16000 columns need, and the predicate that
looks at one value of the ciphertext. -/
example : 4 * PvwParams.default.variance * PvwParams.default.m ≤ 64 * 2000 ∧
    |prob (pvwView (W := 2000) .release PvwParams.default [0, 0, 0, 0] fun _ ct => ct.b.getD 0 0 < 32768) -
      prob (pvwView (W := 2000) .release PvwParams.default [1, 0, 1, 1] fun _ ct => ct.b.getD 0 0 < 32768)| ≤
      lweAdvantage PvwParams.default 2000 (pvwDistinguisher .release [0, 0, 0, 0] fun _ ct => ct.b.getD 0 0 < 32768) +
      lweAdvantage PvwParams.default 2000 (pvwDistinguisher .release [1, 0, 1, 1] fun _ ct => ct.b.getD 0 0 < 32768) + 1 / 2 ^ 4000 :=
  ⟨by decide, c81_default .release 2000 rfl (by simp) rfl (by simp) _⟩

/-- `c81_card`, `c81_key` and `c81_leftover` with the default parameters. -/
example (c : PvwKeyCoins PvwParams.default 2000) : (∃ sk, Pvw.genSk PvwParams.default (tableTape c.1) = .ok sk ∧
      Pvw.genPk .debug sk PvwParams.default (tableTape c.2.1) (streams c.2.2) = .ok (storePk (lweSamples c))) ∧
    Nat.card (PvwVec PvwParams.default) = PvwParams.default.q ^ (PvwParams.default.n + PvwParams.default.ell) ∧
    |prob (fun p : (Fin PvwParams.default.m → PvwVec PvwParams.default) × (Fin PvwParams.default.m → Fin 2) => ∑ j, (p.2 j : Nat) • p.1 j = 0) -
      prob (fun p : (Fin PvwParams.default.m → PvwVec PvwParams.default) × PvwVec PvwParams.default => p.2 = 0)| ≤
      Real.sqrt ((PvwParams.default.q : ℝ) ^ (PvwParams.default.n + PvwParams.default.ell) / 2 ^ PvwParams.default.m) / 2 :=
  ⟨c81_key (by decide) (by decide) (by decide) (by decide) .debug c, (c81_card (W := 2000) (by decide)).2, c81_leftover (by decide) fun _ x => x = 0⟩

end OnionPIR
