import Verif.Proofs.RqContext
/- Import/export, substitution, modulus switching and scaling of encodings. -/
namespace OnionPIR
open Rg

namespace Poly
variable {K : Nat} {c : RqContext}

/-- The ring element with the given leading coefficients. -/
noncomputable def ofList (K : Nat) (l : List ℤ) : Rg (2 ^ K) := ofCoeffs (2 ^ K) fun k => l.getD k 0

theorem rowP_ofList {l : List ℤ} (hl : l.length ≤ 2 ^ K) (q : Nat) :
    rowP (ofList K l) q = l.map (fun x => (x % (q : ℤ)).toNat) ++ (List.replicate (2 ^ K) 0).drop l.length := by
  have hN : 0 < 2 ^ K := by positivity
  unfold rowP
  apply List.ext_getElem
  · simp; omega
  · intro k hk hk'
    have hk2 : k < 2 ^ K := by simpa using hk
    rw [List.getElem_map, List.getElem_range, ofList, cf_ofCoeffs hN _ hk2, List.getElem_append]
    split_ifs with h
    · rw [List.getElem_map, getD_eq_getElem' _ _ _ (by simpa using h)]
    · rw [List.getD, List.getElem?_eq_none (by simpa using h)]; simp

theorem fromRows_ok {α : Type} (h : c.WF K) {f : Modulus → List α → Res (List Nat)} {a : List α} (ha : a.length ≤ 2 ^ K) (v : α → ℤ)
    (hf : ∀ m : Modulus, m ∈ c.moduli → f m a = .ok ((a.map v).map (fun x => (x % (m.p : ℤ)).toNat))) :
    fromRows c f a = .ok (enc c .powerBasis (ofList K (a.map v))) := by
  unfold fromRows
  rw [zero_coeffs h, h.moduli_eq, zipMutM_map (d := fun op => rowP (ofList K (a.map v)) op.p.p)]
  · rfl
  · intro op hop
    rw [hf op.p (by rw [h.moduli_eq]; exact List.mem_map_of_mem hop), res_ok_bind, copyPrefix, if_pos (by simpa using ha),
      rowP_ofList (by simpa using ha)]
    simp

theorem fromRows_long {α : Type} (h : c.WF K) {f : Modulus → List α → Res (List Nat)} {a : List α} (ha : 2 ^ K < a.length) (v : Modulus → α → Nat)
    (hf : ∀ m : Modulus, m ∈ c.moduli → f m a = .ok (a.map (v m))) : fromRows c f a = .error .bounds := by
  have hne : c.nttOps ≠ [] := by
    intro h0
    have := h.core.ne
    rw [h.core.m64_ops, h0] at this
    exact this rfl
  obtain ⟨op, ops, hop⟩ := List.exists_cons_of_ne_nil hne
  unfold fromRows
  rw [zero_coeffs h, h.moduli_eq, hop]
  have hm := hf op.p (by rw [h.moduli_eq, hop]; simp)
  simp only [List.map_cons, zipMutM]
  rw [hm, res_ok_bind, copyPrefix, if_neg (by simp; omega)]
  rfl

theorem tryFromVecU64_ok (h : c.WF K) (pr : Profile) {a : List Nat} (ha : a.length ≤ 2 ^ K) (hb : ∀ x ∈ a, x < 2 ^ 64) :
    tryFromVecU64 pr c a = .ok (enc c .powerBasis (ofList K (a.map (fun x : Nat => (x : ℤ))))) := by
  refine fromRows_ok h ha (fun x : Nat => (x : ℤ)) (fun m hm => ?_)
  rw [Modulus.reduceVecU64, mapR_ok (g := fun x => x % m.p)]
  · rw [List.map_map]; congr 1
  · intro x hx
    exact Modulus.reduce_ok (h.core.mod_wf hm) pr (hb x hx)

theorem tryFromVecI64_ok (h : c.WF K) (pr : Profile) {a : List ℤ} (ha : a.length ≤ 2 ^ K)
    (hb : ∀ x ∈ a, -2 ^ 63 ≤ x ∧ x < 2 ^ 63) : tryFromVecI64 pr c a = .ok (enc c .powerBasis (ofList K a)) := by
  have := fromRows_ok (f := fun q => q.reduceVecI64 pr) h ha (fun x : ℤ => x) (fun m hm => by
    rw [Modulus.reduceVecI64, List.map_id', mapR_ok]
    intro x hx
    exact Modulus.reduceI64_ok (h.core.mod_wf hm) pr (hb x hx).1 (hb x hx).2)
  rw [List.map_id'] at this
  exact this

theorem tryFromBigint_ok (h : c.WF K) {a : List Nat} (ha : a.length ≤ 2 ^ K) :
    tryFromBigint c a = .ok (enc c .powerBasis (ofList K (a.map (fun x : Nat => (x : ℤ))))) := by
  refine fromRows_ok h ha (fun x : Nat => (x : ℤ)) (fun m hm => ?_)
  rw [Modulus.reduceVecBigUint, mapR_ok (g := fun x => x % m.p)]
  · rw [List.map_map]; congr 1
  · intro x hx
    exact Modulus.reduceBigUint_ok (h.core.mod_wf hm) x

theorem ofList_singleton (x : ℤ) : ofList K [x] = (x : Rg (2 ^ K)) := by
  have hN : 0 < 2 ^ K := by positivity
  apply ext_cf hN
  intro k hk
  rw [ofList, cf_ofCoeffs hN _ hk, cf_int hN]
  cases k <;> simp

theorem mulBig_enc (h : c.WF K) (pr : Profile) (f : Rg (2 ^ K)) (b : Nat) :
    (enc c .ntt f).mulBig pr b = .ok (enc c .ntt (f * ((b : ℤ) : Rg (2 ^ K)))) := by
  unfold mulBig
  have hN : 0 < 2 ^ K := by positivity
  rw [show (enc c .ntt f).context = c from rfl, tryFromBigint_ok h (by simp; omega), res_ok_bind, toNtt_enc h, res_ok_bind,
    rassert_ok (show (enc c .ntt f).representation = .ntt from rfl), res_ok_bind, mul_enc h]
  rw [show List.map (fun x : Nat => (x : ℤ)) [b] = [(b : ℤ)] from rfl, ofList_singleton]

theorem column_enc (h : c.WF K) (f : Rg (2 ^ K)) {j : Nat} (hj : j < 2 ^ K) :
    (enc c .powerBasis f).column j = .ok (c.moduli64.map (fun (q : Nat) => (cf f j % (q : ℤ)).toNat)) := by
  unfold column
  rw [show (enc c .powerBasis f).coefficients = c.moduli64.map (rowP f) from encRows_power h f]
  apply mapR_map
  intro q _
  rw [idx_getD 0 (by rw [length_rowP]; exact hj), getD_rowP f q hj]

theorem lift_residues {r : RnsContext} (h : r.WF) (x : ℤ) :
    r.lift (r.moduliU64.map (fun (q : Nat) => (x % (q : ℤ)).toNat)) = .ok (x % (r.product : ℤ)).toNat := by
  have hpos := h.pos
  have h1 := Int.emod_nonneg x (show (r.product : ℤ) ≠ 0 by omega)
  have h2 := Int.emod_lt_of_pos x (show (0 : ℤ) < r.product by omega)
  rw [RnsContext.lift_ok h (by simp)]
  congr 1
  have : (x % (r.product : ℤ)).toNat = (x % (r.product : ℤ)).toNat % r.product := (Nat.mod_eq_of_lt (by omega)).symm
  rw [this]
  apply h.crt
  intro j hj
  rw [RnsContext.garner_sum_mod h _ hj, NttOperator.getD_map_of_lt _ _ _ 1 0 hj]
  have hd := h.q_dvd hj
  have hq : 0 < r.moduliU64.getD j 1 := Nat.pos_of_dvd_of_pos hd hpos
  generalize r.moduliU64.getD j 1 = q at *
  rw [Nat.mod_eq_of_lt (emod_toNat_lt hq x)]
  zify
  have hd' : (q : ℤ) ∣ r.product := by exact_mod_cast hd
  rw [Int.toNat_of_nonneg h1, Int.toNat_of_nonneg (Int.emod_nonneg x (by omega)), Int.emod_emod_of_dvd _ hd']

theorem lift_column (h : c.WF K) (x : ℤ) :
    c.rns.lift (c.moduli64.map (fun (q : Nat) => (x % (q : ℤ)).toNat)) = .ok (x % (c.Q : ℤ)).toNat := by
  rw [h.core.m64, lift_residues h.core.rns, h.Q_eq]

theorem toBigUints_enc (h : c.WF K) (f : Rg (2 ^ K)) : (enc c .powerBasis f).toBigUints = .ok (rowP f c.Q) := by
  unfold toBigUints rowP
  rw [show (enc c .powerBasis f).context = c from rfl, h.core.deg]
  apply mapR_ok
  intro j hj
  rw [column_enc h f (List.mem_range.mp hj), res_ok_bind, lift_column h]

/-! ### Substitution -/

theorem foldR_map {α β σ : Type _} (f : σ → β → Res σ) (g : α → β) (s : σ) (l : List α) :
    foldR f s (l.map g) = foldR (fun s a => f s (g a)) s l := by
  induction l generalizing s with
  | nil => rfl
  | cons a l ih =>
    simp only [List.map_cons, foldR]
    congr 1
    funext s'
    exact ih s'

theorem getD_set {l : List Nat} {i j v : Nat} (hj : j < l.length) : (l.set i v).getD j 0 = if i = j then v else l.getD j 0 := by
  simp only [List.getD, List.getElem?_set]
  split_ifs <;> simp_all

theorem substPowers_ok (pr : Profile) {e : Nat} (hK : K ≤ 31) (he : e < 2 * 2 ^ K) (p : Nat → Nat) (count start : Nat)
    (hp : ∀ t, p t = (e - 1) / 2 + t * e) (hc : start + count ≤ 2 ^ K) :
    Substitution.powersLoop pr (2 ^ K) e count (p start) =
      .ok ((List.range count).map (fun t => reverseBits K (p (start + t) % 2 ^ K))) := by
  induction count generalizing start with
  | zero => rfl
  | succ n ih =>
    have hN : 0 < 2 ^ K := by positivity
    have hN2 : 2 ^ K ≤ 2 ^ 31 := Nat.pow_le_pow_right (by norm_num) hK
    unfold Substitution.powersLoop
    have hs : p start + e = p (start + 1) := by rw [hp, hp]; ring
    have hlt : p start + e < 2 ^ 64 := by
      rw [hs, hp]
      have : (start + 1) * e ≤ 2 ^ 31 * 2 ^ 32 := Nat.mul_le_mul (by omega) (by omega)
      omega
    rw [addW_ok hlt, hs]
    simp only [res_ok_bind]
    rw [ih (start + 1) (by omega), res_ok_bind, Nat.and_two_pow_sub_one_eq_mod,
      bitrevIndex_eq K _ (by omega) (Nat.mod_lt _ hN), List.range_succ_eq_map, List.map_cons, List.map_map, Nat.add_zero]
    congr 2
    apply List.map_congr_left
    intro t _
    simp only [Function.comp]
    rw [show start + 1 + t = start + (t + 1) by omega]

theorem substitution_new_ok (h : c.WF K) (pr : Profile) (hK : K ≤ 31) {e : Nat} (he : Odd e) :
    Substitution.new pr c e = .ok ⟨e % (2 * 2 ^ K),
      (List.range (2 ^ K)).map (fun t => reverseBits K (((e % (2 * 2 ^ K) - 1) / 2 + t * (e % (2 * 2 ^ K))) % 2 ^ K))⟩ := by
  have hN : 0 < 2 ^ K := by positivity
  have hN2 : 2 ^ K ≤ 2 ^ 31 := Nat.pow_le_pow_right (by norm_num) hK
  have hodd : e % (2 * 2 ^ K) % 2 = 1 := by
    rw [Nat.mod_mod_of_dvd _ (dvd_mul_right _ _)]; exact Nat.odd_iff.mp he
  unfold Substitution.new
  rw [h.core.deg, mulW_ok (by omega), res_ok_bind, modR_ok (by omega), res_ok_bind,
    rassert_ok (by rw [Nat.and_one_is_mod]; exact hodd), res_ok_bind]
  have hlt : e % (2 * 2 ^ K) < 2 * 2 ^ K := Nat.mod_lt _ (by omega)
  have := substPowers_ok (K := K) pr hK hlt (fun t => (e % (2 * 2 ^ K) - 1) / 2 + t * (e % (2 * 2 ^ K))) (2 ^ K) 0 (fun t => rfl)
    (by omega)
  simp only [Nat.zero_mul, Nat.add_zero, Nat.zero_add] at this
  rw [Nat.shiftRight_eq_div_pow, pow_one, this]
  rfl

theorem substitution_new_even (h : c.WF K) (pr : Profile) (hK : K ≤ 31) {e : Nat} (he : Even e) :
    Substitution.new pr c e = .error .assert := by
  have hN : 0 < 2 ^ K := by positivity
  have hN2 : 2 ^ K ≤ 2 ^ 31 := Nat.pow_le_pow_right (by norm_num) hK
  have hodd : e % (2 * 2 ^ K) % 2 = 0 := by
    rw [Nat.mod_mod_of_dvd _ (dvd_mul_right _ _)]; exact Nat.even_iff.mp he
  unfold Substitution.new
  rw [h.core.deg, mulW_ok (by omega), res_ok_bind, modR_ok (by omega), res_ok_bind,
    rassert_fail (by rw [Nat.and_one_is_mod]; omega)]
  rfl

theorem substRowNtt_ok {op : NttOperator} {psi psiInv : Nat} (hw : op.WF K psi psiInv) (f : Rg (2 ^ K)) {e : Nat} (he : Odd e) :
    substRowNtt ((List.range (2 ^ K)).map (fun t => reverseBits K (((e - 1) / 2 + t * e) % 2 ^ K)))
      ((List.range (2 ^ K)).map (reverseBits K)) (List.replicate (2 ^ K) 0) (rowN f op) = .ok (rowN (sg e f) op) := by
  have hN : 0 < 2 ^ K := by positivity
  unfold substRowNtt
  rw [List.zip_map', foldR_map]
  obtain ⟨s, hs, hlen, hinv⟩ := foldR_range_ok (n := 2 ^ K) (s := List.replicate (2 ^ K) 0)
    (f := fun row t => (do
      let v ← idx (rowN f op) (reverseBits K (((e - 1) / 2 + t * e) % 2 ^ K))
      if reverseBits K t < row.length then .ok (row.set (reverseBits K t) v) else .error .bounds : Res (List Nat)))
    (fun i row => row.length = 2 ^ K ∧ ∀ t, t < i → row.getD (reverseBits K t) 0 =
      (rowN f op).getD (reverseBits K (((e - 1) / 2 + t * e) % 2 ^ K)) 0)
    (by simp) (by
      intro i row hi ⟨h1, h2⟩
      refine ⟨row.set (reverseBits K i) ((rowN f op).getD (reverseBits K (((e - 1) / 2 + i * e) % 2 ^ K)) 0), ?_, by simp [h1], ?_⟩
      · rw [idx_getD 0 (by rw [length_rowN]; exact reverseBits_lt _ _), res_ok_bind, if_pos (by rw [h1]; exact reverseBits_lt _ _)]
      · intro t ht
        rw [getD_set (by rw [h1]; exact reverseBits_lt _ _)]
        split_ifs with heq
        · have : i = t := by
            rw [← reverseBits_reverseBits K i hi, heq, reverseBits_reverseBits K t (by omega)]
          rw [this]
        · exact h2 t (by
            have : t ≠ i := fun h => heq (by rw [h])
            omega))
  rw [hs]
  congr 1
  have hlen2 := length_rowN (sg e f) op
  apply List.ext_getElem (by rw [hlen, hlen2])
  intro j hj hj'
  have hj2 : j < 2 ^ K := by rw [← hlen]; exact hj
  have := hinv (reverseBits K j) (reverseBits_lt _ _)
  rw [reverseBits_reverseBits K j hj2, getD_rowN f op (reverseBits_lt _ _)] at this
  rw [← getD_eq_getElem' _ _ 0 hj, this, ← getD_eq_getElem' _ _ 0 hj', getD_rowN _ op hj2, ev_sg hN _ (ptOf_pow hw j)]
  congr 2
  unfold ptOf
  rw [reverseBits_reverseBits K _ (Nat.mod_lt _ hN), ← pow_mul, psiOf_eq hw]
  obtain ⟨a, rfl⟩ := he
  rw [show (2 * a + 1 - 1) / 2 = a by omega]
  have h2N : (psi : ZMod op.p.p) ^ (2 * 2 ^ K) = 1 := by rw [mul_comm, pow_mul, hw.psi_pow]; ring
  have hdm := Nat.div_add_mod (a + reverseBits K j * (2 * a + 1)) (2 ^ K)
  generalize reverseBits K j = b at *
  have : (2 * b + 1) * (2 * a + 1) = 2 * 2 ^ K * ((a + b * (2 * a + 1)) / 2 ^ K) + (2 * ((a + b * (2 * a + 1)) % 2 ^ K) + 1) := by
    have key : ∀ n u w : Nat, n * u + w = a + b * (2 * a + 1) → (2 * b + 1) * (2 * a + 1) = 2 * n * u + (2 * w + 1) := by
      intro n u w hh; nlinarith
    exact key _ _ _ hdm
  rw [this, pow_add (psi : ZMod op.p.p) (2 * 2 ^ K * _), pow_mul (psi : ZMod op.p.p) (2 * 2 ^ K), h2N, one_pow, one_mul]

theorem and_pow_ne_zero (x : Nat) : (x &&& 2 ^ K ≠ 0) ↔ x / 2 ^ K % 2 = 1 := by
  rw [Nat.and_two_pow, Nat.testBit_eq_decide_div_mod_eq]
  by_cases h : x / 2 ^ K % 2 = 1 <;> simp [h]

theorem substRowPower_ok {m : Modulus} (hm : m.WF) (pr : Profile) (hK : K ≤ 31) (f : Rg (2 ^ K)) {e : Nat} (he : e < 2 * 2 ^ K) :
    substRowPower pr (2 ^ K) e (List.replicate (2 ^ K) 0) (rowP f m.p) m = .ok (rowP (sg e f) m.p) := by
  have hN : 0 < 2 ^ K := by positivity
  have hN2 : 2 ^ K ≤ 2 ^ 31 := Nat.pow_le_pow_right (by norm_num) hK
  have hp := hm.pos
  unfold substRowPower
  obtain ⟨s, hs, hlen, hpow, hinv⟩ := foldR_range_ok (n := 2 ^ K) (s := (List.replicate (2 ^ K) 0, 0))
    (f := substStep pr (2 ^ K) e m (rowP f m.p))
    (fun i st => st.1.length = 2 ^ K ∧ st.2 = i * e ∧ ∀ j, j < 2 ^ K → st.1.getD j 0 =
      ((∑ t ∈ Finset.range i, if t * e % 2 ^ K = j then cf f t * (-1) ^ (t * e / 2 ^ K) else 0) % (m.p : ℤ)).toNat)
    (by refine ⟨by simp, by simp, ?_⟩; intro j hj; simp [List.getD, hj]) (by
      rintro i ⟨row, power⟩ hi ⟨h1, h2, h3⟩
      simp only at h1 h2 h3
      subst h2
      have hlt : i * e % 2 ^ K < 2 ^ K := Nat.mod_lt _ hN
      have hadd : i * e + e < 2 ^ 64 := by
        have : (i + 1) * e ≤ 2 ^ 31 * 2 ^ 32 := Nat.mul_le_mul (by omega) (by omega)
        rw [Nat.add_mul, Nat.one_mul] at this
        omega
      set S := (∑ t ∈ Finset.range i, if t * e % 2 ^ K = i * e % 2 ^ K then cf f t * (-1) ^ (t * e / 2 ^ K) else 0) with hS
      have hv : substValue pr (2 ^ K) (i * e) m (S % (m.p : ℤ)).toNat (cf f i % (m.p : ℤ)).toNat =
          .ok ((S + cf f i * (-1) ^ (i * e / 2 ^ K)) % (m.p : ℤ)).toNat := by
        unfold substValue
        have l1 := emod_toNat_lt hp S
        have l2 := emod_toNat_lt hp (cf f i)
        have n1 := Int.emod_nonneg S (show (m.p : ℤ) ≠ 0 by omega)
        have n2 := Int.emod_nonneg (cf f i) (show (m.p : ℤ) ≠ 0 by omega)
        by_cases hb : i * e / 2 ^ K % 2 = 1
        · rw [if_pos ((and_pow_ne_zero _).mpr hb), Modulus.sub_ok hm pr l1 l2, (Nat.odd_iff.mpr hb).neg_one_pow, mul_neg_one,
            ← sub_eq_add_neg]
          congr 1
          zify
          rw [Nat.cast_sub l2.le, Int.toNat_of_nonneg n1, Int.toNat_of_nonneg n2,
            Int.toNat_of_nonneg (Int.emod_nonneg _ (by omega))]
          rw [show S % (m.p : ℤ) + (m.p - cf f i % (m.p : ℤ)) = S % (m.p : ℤ) - cf f i % (m.p : ℤ) + m.p by ring,
            Int.add_emod_right, ← Int.sub_emod]
        · rw [if_neg (fun h => hb ((and_pow_ne_zero _).mp h)), Modulus.add_ok hm pr l1 l2,
            (Nat.even_iff.mpr (by omega : i * e / 2 ^ K % 2 = 0)).neg_one_pow, mul_one]
          congr 1
          zify
          rw [Int.toNat_of_nonneg n1, Int.toNat_of_nonneg n2, Int.toNat_of_nonneg (Int.emod_nonneg _ (by omega)), ← Int.add_emod]
      refine ⟨(row.set (i * e % 2 ^ K) ((S + cf f i * (-1) ^ (i * e / 2 ^ K)) % (m.p : ℤ)).toNat, i * e + e), ?_, by simp [h1],
        by simp; ring, ?_⟩
      · unfold substStep
        simp only [Nat.and_two_pow_sub_one_eq_mod]
        rw [idx_getD 0 (by rw [length_rowP]; exact hi), res_ok_bind, getD_rowP f _ hi, idx_getD 0 (by rw [h1]; exact hlt),
          res_ok_bind, h3 _ hlt, ← hS, hv, res_ok_bind, addW_ok hadd]
        rfl
      · intro j hj
        simp only
        rw [getD_set (by rw [h1]; exact hj), Finset.sum_range_succ]
        split_ifs with heq
        · subst heq; rfl
        · rw [add_zero]; exact h3 j hj)
  rw [hs, res_ok_bind]
  congr 1
  apply List.ext_getElem (by rw [hlen, length_rowP])
  intro j hj hj'
  have hj2 : j < 2 ^ K := by rw [← hlen]; exact hj
  rw [← getD_eq_getElem' _ _ 0 hj, ← getD_eq_getElem' _ _ 0 hj', getD_rowP _ _ hj2, hinv j hj2, cf_sg hN]

/-- `substitute` acts as `f(X) ↦ f(X^e)` in both representations. -/
theorem substitute_enc (h : c.WF K) (pr : Profile) (hK : K ≤ 31) {e : Nat} (he : Odd e) {s : Substitution} {pr' : Profile}
    (hs : Substitution.new pr' c e = .ok s) (r : Representation) (f : Rg (2 ^ K)) :
    (enc c r f).substitute pr s = .ok (enc c r (sg e f)) := by
  have hN : 0 < 2 ^ K := by positivity
  rw [substitution_new_ok h pr' hK he] at hs
  cases hs
  have hlt : e % (2 * 2 ^ K) < 2 * 2 ^ K := Nat.mod_lt _ (by omega)
  have hodd : Odd (e % (2 * 2 ^ K)) := by
    rw [Nat.odd_iff, Nat.mod_mod_of_dvd _ (dvd_mul_right _ _)]; exact Nat.odd_iff.mp he
  have hz : ∀ r, (zero c r).coefficients = _ := zero_coeffs h
  have hrow : ∀ op ∈ c.nttOps, substRowNtt ((List.range (2 ^ K)).map
      (fun t => reverseBits K (((e % (2 * 2 ^ K) - 1) / 2 + t * (e % (2 * 2 ^ K))) % 2 ^ K)))
      c.bitrev (List.replicate (2 ^ K) 0) (rowN f op) = .ok (rowN (sg e f) op) := by
    intro op hop
    obtain ⟨_, _, hw⟩ := h.op_wf hop
    rw [h.core.br, substRowNtt_ok hw f hodd, sg_mod]
  cases r with
  | powerBasis =>
    simp only [substitute, enc]
    rw [h.core.deg, hz, h.moduli_eq]
    simp only [encRows]
    rw [zip3MutM_map (d := fun op => rowP (sg e f) op.p.p)]
    · rfl
    · intro op hop
      rw [substRowPower_ok (h.opp_wf hop) pr hK f hlt, sg_mod]
  | ntt =>
    simp only [substitute, enc]
    rw [hz]
    simp only [encRows]
    rw [zipMutM_map (d := fun op => rowN (sg e f) op) hrow]
    rfl
  | nttShoup =>
    simp only [substitute, enc]
    rw [hz]
    simp only [encRows]
    rw [zipMutM_map (d := fun op => rowN (sg e f) op) hrow]
    rfl

/-! ### Modulus switching -/

theorem zip3MutM_map_append {ι α β γ : Type _} {f : α → β → γ → Res α} {l : List ι} {a : ι → α} {b : ι → β} {c : ι → γ} {d : ι → α}
    (bs : List β) (h : ∀ x ∈ l, f (a x) (b x) (c x) = .ok (d x)) :
    zip3MutM f (l.map a) (l.map b ++ bs) (l.map c) = .ok (l.map d) := by
  induction l with
  | nil => cases bs <;> rfl
  | cons x l ih =>
    simp only [List.map_cons, List.cons_append, zip3MutM, h x (by simp), ih (fun y hy => h y (by simp [hy])), res_ok_bind]

/-- Rounded division by `q` (ties towards plus infinity for odd `q`; `q / 2` is rounded down). -/
def rdiv (x : ℤ) (q : Nat) : ℤ := (x + ((q / 2 : Nat) : ℤ)) / (q : ℤ)

theorem switchCoeff_ok {m : Modulus} (hm : m.WF) (hp : m.p.Prime) (pr : Profile) {qL : Nat} (hqL : qL < 2 ^ 62) (h0 : qL % m.p ≠ 0)
    (x : ℤ) :
    switchCoeff pr m ((qL % m.p) ^ (m.p - 2) % m.p) ((qL % m.p) ^ (m.p - 2) % m.p * 2 ^ 64 / m.p) (m.p - qL / 2 % m.p)
      (x % (m.p : ℤ)).toNat ((x + ((qL / 2 : Nat) : ℤ)) % (qL : ℤ)).toNat = .ok (rdiv x qL % (m.p : ℤ)).toNat := by
  have hpos := hm.pos
  have hlt := hm.lt
  have hqpos : 0 < qL := Nat.pos_of_ne_zero fun h => by rw [h, Nat.zero_mod] at h0; exact h0 rfl
  set last := ((x + ((qL / 2 : Nat) : ℤ)) % (qL : ℤ)).toNat with hlast
  have hl : last < qL := emod_toNat_lt hqpos _
  obtain ⟨v, e1, e2, e3⟩ := Modulus.lazyReduceCt_ok hm pr (show last < 2 ^ 64 by omega)
  have hx := emod_toNat_lt hpos x
  have hr := Nat.mod_lt (qL / 2) hpos
  unfold switchCoeff
  rw [e1, res_ok_bind, addW_ok (by omega), res_ok_bind, mulW_ok (by omega), res_ok_bind, subW_ok (by omega), res_ok_bind,
    addW_ok (by omega), res_ok_bind, Modulus.mulShoup_ok hm pr (by omega) (Nat.mod_lt _ hpos)]
  congr 1
  have hv : (v : ZMod m.p) = (last : ZMod m.p) := NttOperator.cast_of_mod e3
  have hh : ((qL / 2 % m.p : Nat) : ZMod m.p) = ((qL / 2 : Nat) : ZMod m.p) := NttOperator.cast_of_mod (Nat.mod_mod _ _)
  have hinv : (((qL % m.p) ^ (m.p - 2) % m.p : Nat) : ZMod m.p) * (qL : ZMod m.p) = 1 := by
    have := Modulus.inv_spec hp (Nat.mod_lt qL hpos) h0
    have h1 : (((qL % m.p) ^ (m.p - 2) % m.p * (qL % m.p) : Nat) : ZMod m.p) = ((1 : Nat) : ZMod m.p) :=
      NttOperator.cast_of_mod (by rw [this, Nat.mod_eq_of_lt hp.one_lt])
    rw [Nat.cast_mul, NttOperator.cast_of_mod (Nat.mod_mod qL m.p), Nat.cast_one] at h1
    exact h1
  have hlast2 : (last : ℤ) = x + ((qL / 2 : Nat) : ℤ) - qL * rdiv x qL := by
    have n1 := Int.emod_nonneg (x + ((qL / 2 : Nat) : ℤ)) (show (qL : ℤ) ≠ 0 by omega)
    rw [hlast, Int.toNat_of_nonneg n1, rdiv, Int.emod_def]
  have hlast3 : (last : ZMod m.p) = (x : ZMod m.p) + ((qL / 2 : Nat) : ZMod m.p) - qL * (rdiv x qL : ZMod m.p) := by
    have := congrArg (fun z : ℤ => (z : ZMod m.p)) hlast2
    simpa only [Int.cast_natCast, Int.cast_add, Int.cast_sub, Int.cast_mul] using this
  have key : ∀ A : Nat, A = (x % (m.p : ℤ)).toNat + (3 * m.p - (v + (m.p - qL / 2 % m.p))) →
      A * ((qL % m.p) ^ (m.p - 2) % m.p) % m.p = (rdiv x qL % (m.p : ℤ)).toNat := by
    intro A hA
    rw [← Nat.mod_eq_of_lt (emod_toNat_lt hpos (rdiv x qL))]
    apply (ZMod.natCast_eq_natCast_iff' _ _ m.p).mp
    rw [cast_emod_toNat hpos, Nat.cast_mul, hA, Nat.cast_add, Nat.cast_sub (by omega), Nat.cast_add, Nat.cast_sub (by omega),
      cast_emod_toNat hpos, hv, hh, hlast3, Nat.cast_mul, CharP.cast_eq_zero (ZMod m.p) m.p]
    linear_combination (rdiv x qL : ZMod m.p) * hinv
  exact key _ rfl

theorem modSwitch_enc (h : c.WF K) (pr : Profile) {c' : RqContext} (hn : c.nextCtx = some c') (f : Rg (2 ^ K)) :
    (enc c .powerBasis f).modSwitchDownNext pr =
      .ok (enc c' .powerBasis (ofCoeffs (2 ^ K) fun k => rdiv (cf f k) (c.moduli64.getLast h.core.ne))) := by
  have hN : 0 < 2 ^ K := by positivity
  obtain ⟨h', h64⟩ := h.next hn
  have hne := h.core.ne
  set qL := c.moduli64.getLast hne with hqL
  have hqmem : qL ∈ c.moduli64 := List.getLast_mem hne
  have hqb := h.bound hqmem
  have hps : c.moduli.map Modulus.p = c.moduli64 := by rw [h.core.mods, h.core.rns.ps, h.core.m64]
  have hmne : c.moduli ≠ [] := by
    intro h0; rw [h0] at hps; exact hne hps.symm
  have hlastp : (c.moduli.getLast hmne).p = qL := by
    have h1 : (c.moduli.map Modulus.p).getLast (by simpa using hmne) = (c.moduli.getLast hmne).p := by rw [List.getLast_map]
    rw [← h1, hqL]; congr 1
  have hdrop : c.moduli64.dropLast = c.moduli.dropLast.map Modulus.p := by rw [← hps, List.map_dropLast]
  have hlw := h.core.mod_wf (List.getLast_mem hmne)
  have hcoef : (enc c .powerBasis f).coefficients = c.moduli.map (fun m => rowP f m.p) := by
    rw [show (enc c .powerBasis f).coefficients = c.moduli64.map (rowP f) from encRows_power h f, ← hps, List.map_map]; rfl
  unfold modSwitchDownNext
  rw [show (enc c .powerBasis f).context = c from rfl, hn]
  simp only
  rw [rassert_ok (show (enc c .powerBasis f).representation = .powerBasis from rfl), res_ok_bind,
    List.getLast?_eq_some_getLast hmne, unwrapR, res_ok_bind, hcoef]
  have hlen : 0 < c.moduli.length := List.length_pos_iff.mpr hmne
  have hidx : idx (c.moduli.map (fun m => rowP f m.p)) (c.moduli.length - 1) = .ok (rowP f qL) := by
    rw [idx_ok (by simp; omega), List.getElem_map, ← List.getLast_eq_getElem hmne, hlastp]
  rw [hidx, res_ok_bind, hlastp]
  have hlast : mapR (fun c_1 => (c.moduli.getLast hmne).add pr c_1 (qL / 2)) (rowP f qL) =
      .ok ((List.range (2 ^ K)).map (fun k => ((cf f k + ((qL / 2 : Nat) : ℤ)) % (qL : ℤ)).toNat)) := by
    unfold rowP
    apply mapR_map
    intro k _
    have hb := emod_toNat_lt (show 0 < qL by omega) (cf f k)
    rw [Modulus.add_ok hlw pr (by rw [hlastp]; exact hb) (by rw [hlastp]; omega), hlastp]
    congr 1
    zify
    rw [Int.toNat_of_nonneg (Int.emod_nonneg _ (by omega)), Int.toNat_of_nonneg (Int.emod_nonneg _ (by omega)), Int.emod_add_emod]
  rw [hlast, res_ok_bind, ← List.map_take, ← List.dropLast_eq_take, h.core.inv, h.core.invs, List.zip_map', hdrop, List.map_map]
  have hmods : c.moduli = (c.moduli.dropLast.map id) ++ [c.moduli.getLast hmne] := by
    rw [List.map_id, List.dropLast_append_getLast]
  have hgl : ∀ p, (c.moduli64.getLast p) = qL := fun _ => rfl
  have hz : zip3MutM (switchRow pr ((List.range (2 ^ K)).map (fun k => ((cf f k + ((qL / 2 : Nat) : ℤ)) % (qL : ℤ)).toNat)) (qL / 2))
      (c.moduli.dropLast.map (fun m => rowP f m.p)) c.moduli
      (c.moduli.dropLast.map (fun m => ((qL % m.p) ^ (m.p - 2) % m.p, (qL % m.p) ^ (m.p - 2) % m.p * 2 ^ 64 / m.p))) =
      .ok (c.moduli.dropLast.map (fun m => rowP (ofCoeffs (2 ^ K) fun k => rdiv (cf f k) qL) m.p)) := by
    conv_lhs => arg 3; rw [hmods]
    apply zip3MutM_map_append
    intro m hm
    have hmm := List.dropLast_subset _ hm
    have hmw := h.core.mod_wf hmm
    have hmp : m.p.Prime := by
      rw [h.moduli_eq, List.mem_map] at hmm
      obtain ⟨op, hop, rfl⟩ := hmm
      obtain ⟨_, _, hw⟩ := h.op_wf hop
      exact hw.prime
    have h0 : qL % m.p ≠ 0 := RqContext.getLast_cop hne h.cop (fun q hq => (h.bound hq).1) (by
      rw [hdrop]; exact List.mem_map_of_mem hm)
    unfold switchRow
    have hmod := Nat.mod_lt (qL / 2) hmw.pos
    simp only [id]
    rw [Modulus.reduce_ok hmw pr (by omega), res_ok_bind, subW_ok (by omega), res_ok_bind]
    unfold rowP
    apply zipMutM_map
    intro k hk
    rw [switchCoeff_ok hmw hmp pr (by omega) h0, cf_ofCoeffs hN _ (List.mem_range.mp hk)]
  have : ∀ X : List (Nat × Nat), X = c.moduli.dropLast.map (fun m => ((qL % m.p) ^ (m.p - 2) % m.p,
      (qL % m.p) ^ (m.p - 2) % m.p * 2 ^ 64 / m.p)) → (do
        let rows ← zip3MutM (switchRow pr ((List.range (2 ^ K)).map
          (fun k => ((cf f k + ((qL / 2 : Nat) : ℤ)) % (qL : ℤ)).toNat)) (qL / 2)) (c.moduli.dropLast.map (fun m => rowP f m.p)) c.moduli X
        .ok { context := c', representation := (enc c .powerBasis f).representation, coefficients := rows } : Res Poly) =
      .ok (enc c' .powerBasis (ofCoeffs (2 ^ K) fun k => rdiv (cf f k) qL)) := by
    rintro X rfl
    have he : enc c' .powerBasis (ofCoeffs (2 ^ K) fun k => rdiv (cf f k) qL) =
        ⟨c', .powerBasis, c.moduli.dropLast.map (fun m => rowP (ofCoeffs (2 ^ K) fun k => rdiv (cf f k) qL) m.p)⟩ := by
      unfold enc
      rw [encRows_power h', h64, hdrop, List.map_map]
      rfl
    rw [hz, res_ok_bind, he]
    rfl
  exact this _ rfl

end Poly

/-! ### Chains of contexts -/

namespace RqContext
variable {K : Nat}

/-- The context `k` steps below. -/
def down (c : RqContext) : Nat → Option RqContext
  | 0 => some c
  | k + 1 => c.nextCtx.bind fun d => down d k

theorem down_moduli {c : RqContext} (h : c.WF K) {k : Nat} {d : RqContext} (hd : c.down k = some d) :
    d.WF K ∧ d.moduli64 = c.moduli64.take (c.moduli64.length - k) ∧ k < c.moduli64.length := by
  induction k generalizing c with
  | zero =>
    simp only [down, Option.some.injEq] at hd
    subst hd
    exact ⟨h, by simp, List.length_pos_iff.mpr h.core.ne⟩
  | succ k ih =>
    simp only [down, Option.bind_eq_some_iff] at hd
    obtain ⟨e, he, hd⟩ := hd
    obtain ⟨hw, hm⟩ := h.next he
    obtain ⟨i1, i2, i3⟩ := ih hw hd
    rw [hm, List.length_dropLast] at i3
    refine ⟨i1, ?_, by omega⟩
    rw [i2, hm, List.length_dropLast, List.dropLast_eq_take, List.take_take]
    congr 1; omega

theorem down_exists {c : RqContext} (h : c.WF K) {k : Nat} (hk : k < c.moduli64.length) : ∃ d, c.down k = some d := by
  induction k generalizing c with
  | zero => exact ⟨c, rfl⟩
  | succ k ih =>
    obtain ⟨e, he⟩ := Option.isSome_iff_exists.mp (h.next_isSome.mpr (by omega))
    obtain ⟨hw, hm⟩ := h.next he
    obtain ⟨d, hd⟩ := ih hw (by rw [hm, List.length_dropLast]; omega)
    exact ⟨d, by simp [down, he, hd]⟩

theorem switchLoop_eq (tgt : RqContext) (l : List RqCore) (a : Nat) :
    switchLoop tgt l a = (switchLoop tgt l 0).map (· + a) := by
  induction l generalizing a with
  | nil => rfl
  | cons d ds ih =>
    unfold switchLoop
    split_ifs
    · simp [Nat.add_comm]
    · rw [ih (a + 1), ih (0 + 1), Option.map_map]
      congr 1; funext x; simp; omega

theorem switchIterations_next {c tgt : RqContext} (hne : c ≠ tgt) :
    c.switchIterations tgt = (c.nextCtx.bind fun d => d.switchIterations tgt).map (· + 1) := by
  unfold switchIterations nextCtx
  rw [if_neg hne]
  cases hc : c.chain with
  | nil => simp [switchLoop]
  | cons d ds =>
    simp only [switchLoop, Option.bind_some]
    by_cases hd : ({ toRqCore := d, chain := ds } : RqContext) = tgt
    · rw [if_pos hd, if_pos hd]; rfl
    · rw [if_neg hd, if_neg hd, switchLoop_eq]

/-- `switch_iterations` finds the number of steps to the target. -/
theorem switchIterations_iff {c : RqContext} (h : c.WF K) (tgt : RqContext) (k : Nat) :
    c.switchIterations tgt = some k ↔ c.down k = some tgt := by
  induction k generalizing c with
  | zero =>
    by_cases hc : c = tgt
    · simp [switchIterations, hc, down]
    · rw [switchIterations_next hc]
      cases (c.nextCtx.bind fun d => d.switchIterations tgt) <;> simp [down, hc]
  | succ k ih =>
    by_cases hc : c = tgt
    · subst hc
      constructor
      · intro h'; simp [switchIterations] at h'
      · intro h'
        obtain ⟨-, h2, h3⟩ := down_moduli h h'
        have := congrArg List.length h2
        rw [List.length_take] at this
        omega
    · rw [switchIterations_next hc]
      cases hn : c.nextCtx with
      | none => simp [down, hn]
      | some d =>
        obtain ⟨hw, -⟩ := h.next hn
        simp only [down, hn, Option.bind_some, Option.map_eq_some_iff]
        rw [← ih hw]
        constructor
        · rintro ⟨a, ha, hk⟩
          have : a = k := by omega
          rw [← this]; exact ha
        · intro h'; exact ⟨k, h', rfl⟩

end RqContext
end OnionPIR
