import Verif.Model.Rns
import Verif.Proofs.Utils
import Verif.Proofs.Modulus
import Mathlib.Data.Nat.ChineseRemainder
import Mathlib.Algebra.BigOperators.Ring.Finset
import Mathlib.Algebra.BigOperators.Intervals
/- Lemmas about RNS contexts. -/
namespace OnionPIR

theorem getD_eq_getElem' {α : Type*} (l : List α) (i : Nat) (d : α) (h : i < l.length) : l.getD i d = l[i] := by
  simp [List.getD, h]

theorem list_prod_eq (l : List Nat) : l.prod = ∏ k ∈ Finset.range l.length, l.getD k 1 := by
  induction l with
  | nil => simp
  | cons a l ih => rw [List.prod_cons, List.length_cons, Finset.prod_range_succ', ih]; simp [mul_comm]

theorem foldl_mul (l : List Nat) (a : Nat) : l.foldl (fun acc q => acc * q) a = a * l.prod := by
  induction l generalizing a with
  | nil => simp
  | cons b l ih => rw [List.foldl_cons, ih, List.prod_cons, mul_assoc]

theorem getD_dvd_prod (l : List Nat) {i : Nat} (h : i < l.length) : l.getD i 1 ∣ l.prod := by
  rw [list_prod_eq]
  exact Finset.dvd_prod_of_mem _ (Finset.mem_range.mpr h)

theorem getD_mul_dvd_prod (l : List Nat) {i j : Nat} (h : i < l.length) (h' : j < l.length) (hne : i ≠ j) :
    l.getD i 1 * l.getD j 1 ∣ l.prod := by
  rw [list_prod_eq]
  have : ∏ k ∈ ({i, j} : Finset Nat), l.getD k 1 = l.getD i 1 * l.getD j 1 := Finset.prod_pair hne
  rw [← this]
  apply Finset.prod_dvd_prod_of_subset
  intro k hk
  simp only [Finset.mem_insert, Finset.mem_singleton] at hk
  rw [Finset.mem_range]
  rcases hk with rfl | rfl <;> assumption

theorem modInverse_some {v q r : Nat} (hq : 2 ≤ q) (h : modInverse v q = some r) :
    Nat.Coprime v q ∧ r < q ∧ v * r % q = 1 := by
  unfold modInverse at h
  split_ifs at h with hc
  simp only [Option.some.injEq] at h
  have hq0 : (q : Int) ≠ 0 := by omega
  have hnn := Int.emod_nonneg (Nat.gcdA v q) hq0
  have hlt := Int.emod_lt_of_pos (Nat.gcdA v q) (show (0 : Int) < q by omega)
  have hr : (r : Int) = Nat.gcdA v q % q := by omega
  refine ⟨hc, by omega, ?_⟩
  have hb := Nat.gcd_eq_gcd_ab v q
  rw [hc] at hb
  have : ((v * r % q : Nat) : Int) = 1 := by
    rw [Int.natCast_emod, Nat.cast_mul, hr, Int.mul_emod, Int.emod_emod_of_dvd _ (dvd_refl _), ← Int.mul_emod]
    have e : (v : Int) * Nat.gcdA v q = 1 + q * (-(Nat.gcdB v q)) := by push_cast at hb; linarith
    rw [e, Int.add_mul_emod_self_left]
    exact Int.emod_eq_of_lt (by norm_num) (by omega)
  exact_mod_cast this

theorem modInverse_coprime {v q : Nat} (h : Nat.Coprime v q) : ∃ r, modInverse v q = some r := by
  unfold modInverse
  rw [if_pos h]; exact ⟨_, rfl⟩

theorem coprime_div_prod {l : List Nat} (hpos : ∀ q ∈ l, 0 < q) (hc : l.Pairwise Nat.Coprime) {i : Nat} (hi : i < l.length) :
    Nat.Coprime (l.prod / l.getD i 1) (l.getD i 1) := by
  have hgp : 0 < l.getD i 1 := by rw [getD_eq_getElem' _ _ _ hi]; exact hpos _ (List.getElem_mem _)
  have : l.prod = l.getD i 1 * ∏ k ∈ (Finset.range l.length).erase i, l.getD k 1 := by
    rw [list_prod_eq, Finset.mul_prod_erase _ (fun k => l.getD k 1) (Finset.mem_range.mpr hi)]
  rw [this, Nat.mul_div_cancel_left _ hgp]
  apply Nat.Coprime.prod_left
  intro k hk
  rw [Finset.mem_erase, Finset.mem_range] at hk
  rw [getD_eq_getElem' _ _ _ hk.2, getD_eq_getElem' _ _ _ hi]
  rw [List.pairwise_iff_getElem] at hc
  rcases Nat.lt_or_gt_of_ne hk.1 with h | h
  · exact hc k i hk.2 hi h
  · exact (hc i k hi hk.2 h).symm

namespace RnsContext

/-- What `RnsContext::new` establishes. -/
structure WF (c : RnsContext) : Prop where
  bound : ∀ q ∈ c.moduliU64, 2 ≤ q ∧ q < 2 ^ 62
  cop : c.moduliU64.Pairwise Nat.Coprime
  ps : c.moduli.map Modulus.p = c.moduliU64
  mods : ∀ m ∈ c.moduli, m.WF
  new_mods : mapR Modulus.new c.moduliU64 = .ok c.moduli
  prod : c.product = c.moduliU64.prod
  g_len : c.garner.length = c.moduliU64.length
  g_one : ∀ i, i < c.moduliU64.length → c.garner.getD i 0 % c.moduliU64.getD i 1 = 1
  g_zero : ∀ i j, i < c.moduliU64.length → j < c.moduliU64.length → i ≠ j → c.moduliU64.getD j 1 ∣ c.garner.getD i 0
  g_lt : ∀ i, i < c.moduliU64.length → c.garner.getD i 0 < c.product

theorem mapR_new_inv {l : List Nat} {ms : List Modulus} (h : mapR Modulus.new l = .ok ms) :
    (∀ q ∈ l, 2 ≤ q ∧ q < 2 ^ 62) ∧ ms.map Modulus.p = l ∧ ∀ m ∈ ms, m.WF := by
  induction l generalizing ms with
  | nil => simp [mapR] at h; subst h; simp
  | cons a l ih =>
    simp only [mapR, bind_eq_ok] at h
    obtain ⟨m, hm, ms', hms, h⟩ := h
    cases h
    obtain ⟨h1, h2, h3⟩ := ih hms
    obtain ⟨g1, g2, g3, g4⟩ := Modulus.new_inv hm
    refine ⟨?_, by simp [g3, h2], ?_⟩
    · intro q hq; rcases List.mem_cons.mp hq with rfl | hq
      · exact ⟨g1, g2⟩
      · exact h1 q hq
    · intro q hq; rcases List.mem_cons.mp hq with rfl | hq
      · exact g4
      · exact h3 q hq

theorem mapR_new_ok {l : List Nat} (h : ∀ q ∈ l, 2 ≤ q ∧ q < 2 ^ 62) : ∃ ms, mapR Modulus.new l = .ok ms := by
  induction l with
  | nil => exact ⟨[], rfl⟩
  | cons a l ih =>
    obtain ⟨ms, hms⟩ := ih (fun q hq => h q (by simp [hq]))
    obtain ⟨m, hm, -⟩ := Modulus.new_ok (h a (by simp)).1 (h a (by simp)).2
    exact ⟨m :: ms, by simp [mapR, hm, hms]⟩

theorem new_wf {l : List Nat} {c : RnsContext} (h : new l = .ok c) : c.WF ∧ c.moduliU64 = l := by
  unfold new at h
  simp only [bind_eq_ok] at h
  obtain ⟨ms, hms, qs, hqs, qt, hqt, h⟩ := h
  obtain ⟨b1, b2, b3⟩ := mapR_new_inv hms
  cases h
  rw [foldl_mul, one_mul] at *
  obtain ⟨l1, s1⟩ := mapR_eq_ok hqs
  obtain ⟨l2, s2⟩ := mapR_eq_ok hqt
  have hpos : ∀ q ∈ l, 0 < q := fun q hq => by have := (b1 q hq).1; omega
  have hq2 : ∀ i, i < l.length → 2 ≤ l.getD i 1 := fun i hi => by
    rw [getD_eq_getElem' _ _ _ hi]; exact (b1 _ (List.getElem_mem _)).1
  have hs : ∀ i, i < l.length → qs.getD i 0 = l.prod / l.getD i 1 := by
    intro i hi
    have := s1 i hi (by omega)
    have h2 := hq2 i hi
    rw [getD_eq_getElem' _ _ _ hi] at h2 ⊢
    rw [divR_ok (by omega)] at this
    rw [getD_eq_getElem' _ _ _ (by omega)]
    simpa using this.symm
  have ht : ∀ i, i < l.length → Nat.Coprime (l.prod / l.getD i 1) (l.getD i 1) ∧ qt.getD i 0 < l.getD i 1 ∧
      (l.prod / l.getD i 1) * qt.getD i 0 % l.getD i 1 = 1 := by
    intro i hi
    have := s2 i hi (by omega)
    have h2 := hq2 i hi
    rw [getD_eq_getElem' _ _ _ hi] at h2 ⊢
    rw [divR_ok (by omega), res_ok_bind, bind_eq_ok] at this
    obtain ⟨v, hv, hv2⟩ := this
    rw [unwrapR_eq_ok] at hv hv2
    split_ifs at hv2
    simp only [Option.some.injEq] at hv2
    rw [getD_eq_getElem' _ _ _ (by omega), ← hv2]
    exact modInverse_some h2 hv
  have hg : ∀ i, i < l.length → (List.zipWith (fun qs qt => qs * qt) qs qt).getD i 0 = (l.prod / l.getD i 1) * qt.getD i 0 := by
    intro i hi
    rw [← hs i hi, getD_eq_getElem' _ _ _ (by simp; omega), List.getElem_zipWith, getD_eq_getElem' _ _ _ (by omega),
      getD_eq_getElem' _ _ _ (by omega)]
  have hprod0 : 0 < l.prod := List.prod_pos hpos
  refine ⟨⟨b1, ?_, b2, b3, hms, rfl, ?_, ?_, ?_, ?_⟩, rfl⟩
  · rw [List.pairwise_iff_getElem]
    intro i j hi hj hij
    have := (ht j hj).1
    have hdvd : l.getD i 1 ∣ l.prod / l.getD j 1 := by
      have h2 := hq2 j hj
      rw [Nat.dvd_div_iff_mul_dvd (getD_dvd_prod _ hj)]
      exact getD_mul_dvd_prod l hj hi (by omega)
    have := Nat.Coprime.coprime_dvd_left hdvd this
    rwa [getD_eq_getElem' _ _ _ hi, getD_eq_getElem' _ _ _ hj] at this
  · simp [l1, l2]
  · intro i hi; simp only at hi ⊢; rw [hg i hi]; exact (ht i hi).2.2
  · intro i j hi hj hij
    simp only at hi hj ⊢
    rw [hg i hi]
    apply Dvd.dvd.mul_right
    rw [Nat.dvd_div_iff_mul_dvd (getD_dvd_prod _ hi)]
    exact getD_mul_dvd_prod l hi hj hij
  · intro i hi
    simp only at hi ⊢
    rw [hg i hi]
    have h2 := hq2 i hi
    have hd := Nat.div_mul_cancel (getD_dvd_prod l hi)
    have h0 : 0 < l.prod / l.getD i 1 := Nat.div_pos (Nat.le_of_dvd hprod0 (getD_dvd_prod l hi)) (by omega)
    calc l.prod / l.getD i 1 * qt.getD i 0 < l.prod / l.getD i 1 * l.getD i 1 := Nat.mul_lt_mul_of_pos_left (ht i hi).2.1 h0
      _ = l.prod := hd

theorem new_ok {l : List Nat} (hb : ∀ q ∈ l, 2 ≤ q ∧ q < 2 ^ 62) (hc : l.Pairwise Nat.Coprime) : ∃ c, new l = .ok c := by
  obtain ⟨ms, hms⟩ := mapR_new_ok hb
  have hpos : ∀ q ∈ l, 0 < q := fun q hq => by have := (hb q hq).1; omega
  unfold new
  rw [hms, res_ok_bind]
  simp only [foldl_mul, one_mul]
  rw [mapR_ok (g := fun qi => l.prod / qi) (fun q hq => divR_ok (by have := hpos q hq; omega)), res_ok_bind]
  have : ∀ q ∈ l, ∃ v, (do
      let d ← divR l.prod q
      let v ← unwrapR (modInverse d q)
      unwrapR (if v < 2 ^ 64 then some v else none)) = .ok v := by
    intro q hq
    have h2 := hb q hq
    obtain ⟨i, hi, rfl⟩ := List.getElem_of_mem hq
    have hcp := coprime_div_prod hpos hc hi
    rw [getD_eq_getElem' _ _ _ hi] at hcp
    obtain ⟨r, hr⟩ := modInverse_coprime hcp
    obtain ⟨-, hr2, -⟩ := modInverse_some h2.1 hr
    rw [divR_ok (by omega), res_ok_bind, hr]
    simp only [unwrapR, res_ok_bind]
    rw [if_pos (by omega)]
    exact ⟨r, rfl⟩
  have key : ∃ qt, mapR (fun qi => do
      let d ← divR l.prod qi
      let v ← unwrapR (modInverse d qi)
      unwrapR (if v < 2 ^ 64 then some v else none)) l = .ok qt := by
    generalize l.prod = P at this
    clear hms hc hb hpos
    induction l with
    | nil => exact ⟨[], rfl⟩
    | cons a l ih =>
      obtain ⟨v, hv⟩ := this a (by simp)
      obtain ⟨vs, hvs⟩ := ih (fun q hq => this q (by simp [hq]))
      exact ⟨v :: vs, by rw [mapR, hv, res_ok_bind, hvs, res_ok_bind]⟩
  obtain ⟨qt, hqt⟩ := key
  rw [hqt, res_ok_bind]
  exact ⟨_, rfl⟩

theorem project_ok {c : RnsContext} (h : c.WF) (a : Nat) : c.project a = .ok (c.moduliU64.map (fun q => a % q)) := by
  apply mapR_ok
  intro q hq
  have hb := h.bound q hq
  have hm := Nat.mod_lt a (show 0 < q by omega)
  rw [modR_ok (by omega), res_ok_bind, if_pos (by omega)]; rfl

theorem liftSum_eq (xs gs : List Nat) (res : Nat) (hl : xs.length = gs.length) :
    liftSum xs gs res = res + ∑ i ∈ Finset.range xs.length, gs.getD i 0 * xs.getD i 0 := by
  induction xs generalizing gs res with
  | nil => simp [liftSum]
  | cons x xs ih =>
    cases gs with
    | nil => simp at hl
    | cons g gs =>
      rw [liftSum, ih gs _ (by simpa using hl), List.length_cons, Finset.sum_range_succ']
      simp only [List.getD_cons_succ, List.getD_cons_zero]; ring

/-- `lift` returns `(Σ garner_i * r_i) mod Q`. -/
theorem lift_ok {c : RnsContext} (h : c.WF) {r : List Nat} (hr : r.length = c.moduliU64.length) :
    c.lift r = .ok ((∑ i ∈ Finset.range c.moduliU64.length, c.garner.getD i 0 * r.getD i 0) % c.product) := by
  have hpos : 0 < c.product := by
    rw [h.prod]; exact List.prod_pos (fun q hq => by have := (h.bound q hq).1; omega)
  unfold lift
  rw [liftSum_eq _ _ _ (by rw [hr, h.g_len]), modR_ok (by omega), hr, Nat.zero_add]

theorem garner_sum_mod {c : RnsContext} (h : c.WF) (f : Nat → Nat) {j : Nat} (hj : j < c.moduliU64.length) :
    (∑ i ∈ Finset.range c.moduliU64.length, c.garner.getD i 0 * f i) % c.moduliU64.getD j 1 =
      f j % c.moduliU64.getD j 1 := by
  rw [Finset.sum_nat_mod, Finset.sum_eq_single j]
  · rw [Nat.mod_mod, Nat.mul_mod, h.g_one j hj, Nat.one_mul, Nat.mod_mod]
  · intro i hi hij
    exact Nat.mod_eq_zero_of_dvd ((h.g_zero i j (Finset.mem_range.mp hi) hj hij).mul_right _)
  · intro hc; exact absurd (Finset.mem_range.mpr hj) hc

theorem WF.pos {c : RnsContext} (h : c.WF) : 0 < c.product := by
  rw [h.prod]; exact List.prod_pos (fun q hq => by have := (h.bound q hq).1; omega)

theorem WF.q_dvd {c : RnsContext} (h : c.WF) {j : Nat} (hj : j < c.moduliU64.length) : c.moduliU64.getD j 1 ∣ c.product := by
  rw [h.prod]; exact getD_dvd_prod _ hj

/-- Chinese remaindering: congruence modulo every modulus is congruence modulo the product. -/
theorem WF.crt {c : RnsContext} (h : c.WF) {a b : Nat}
    (hab : ∀ j, j < c.moduliU64.length → a % c.moduliU64.getD j 1 = b % c.moduliU64.getD j 1) :
    a % c.product = b % c.product := by
  rw [h.prod]
  refine (Nat.modEq_list_prod_iff h.cop).mpr (fun i => ?_)
  have := hab i.1 i.2
  rw [getD_eq_getElem' _ _ _ i.2] at this
  exact this

end RnsContext
end OnionPIR
