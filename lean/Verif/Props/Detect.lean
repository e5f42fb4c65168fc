import Mathlib.Data.Fintype.BigOperators
import Verif.Spec.Detect
import Verif.Spec.PvwPrivacy
import Verif.Props.Pvw
import Verif.Props.Omr
/- Property C109: clues and the keys they were not made for. -/
namespace OnionPIR
open Spec

namespace Detect

theorem round_eq {q v : Nat} (hq : 2 ≤ q) (hv : v < q) : (v + q / 4) / (q / 2) % 2 = clueBit q v := by
  unfold clueBit
  obtain ⟨h, hh⟩ : ∃ x, q / 2 = x := ⟨_, rfl⟩
  obtain ⟨r, hr⟩ : ∃ x, q / 4 = x := ⟨_, rfl⟩
  have b0 : q = 2 * h ∨ q = 2 * h + 1 := by omega
  have b1 : h = 2 * r ∨ h = 2 * r + 1 := by omega
  rw [hh, hr]
  split_ifs with hc
  · have : (v + r) / h = 1 := by rw [Nat.div_eq_iff (by omega)]; constructor <;> omega
    rw [this]
  · rcases Nat.lt_or_ge v (h - r) with h1 | h1
    · rw [Nat.div_eq_of_lt (by omega)]
    · have : (v + r) / h = 2 := by rw [Nat.div_eq_iff (by omega)]; constructor <;> omega
      rw [this]

theorem vec {p n : Nat} {a : List Nat} (h : IsVec p n a) : Pvw.Vec p n a := by
  refine ⟨h.1, fun i hi => ?_⟩
  rw [List.getD_eq_getElem _ _ (by rw [h.1]; exact hi)]
  exact h.2 _ (List.getElem_mem _)

theorem phase_lt {q : Nat} (hq : 0 < q) (s a : List Nat) (b : Nat) : cluePhase q s a b < q := by
  unfold cluePhase
  have h1 := Int.emod_nonneg ((b : ℤ) - ∑ i ∈ Finset.range a.length, (s.getD i 0 : ℤ) * (a.getD i 0 : ℤ)) (show (q : ℤ) ≠ 0 by omega)
  have h2 := Int.emod_lt_of_pos ((b : ℤ) - ∑ i ∈ Finset.range a.length, (s.getD i 0 : ℤ) * (a.getD i 0 : ℤ)) (show (0 : ℤ) < q by omega)
  omega

/-- The number of values with the given decision. -/
theorem card_bit {q : Nat} (hq : 2 ≤ q) {x : Nat} (hx : x < 2) : (Finset.univ.filter fun v : Fin q => clueBit q v = x).card = clueWeight q x := by
  have h1 : (Finset.univ.filter fun v : Fin q => clueBit q v = 1).card = q / 2 := by
    have : (Finset.univ.filter fun v : Fin q => clueBit q v = 1).map Fin.valEmbedding = Finset.Ico (q / 2 - q / 4) (2 * (q / 2) - q / 4) := by
      ext v
      simp only [Finset.mem_map, Finset.mem_filter, Finset.mem_univ, true_and, Fin.valEmbedding_apply, Finset.mem_Ico]
      constructor
      · rintro ⟨w, hw, rfl⟩
        unfold clueBit at hw
        split_ifs at hw with hc
        exact hc
      · intro hc
        exact ⟨⟨v, by omega⟩, by unfold clueBit; rw [if_pos hc], rfl⟩
    rw [← Finset.card_map, this, Nat.card_Ico]
    omega
  unfold clueWeight
  split_ifs with hc
  · rw [hc, h1]
  · obtain rfl : x = 0 := by omega
    have h2 := Finset.card_filter_add_card_filter_not (s := (Finset.univ : Finset (Fin q))) (fun v : Fin q => clueBit q v = 1)
    rw [h1, Finset.card_univ, Fintype.card_fin] at h2
    have h3 : (Finset.univ.filter fun v : Fin q => ¬ clueBit q v = 1) = Finset.univ.filter fun v : Fin q => clueBit q v = 0 := by
      refine Finset.filter_congr fun v _ => ?_
      unfold clueBit
      split_ifs <;> simp
    rw [h3] at h2
    omega

/-- The values `b - ⟨s, a⟩` are equidistributed when some entry of `a` is a unit. -/
theorem card_phase {q n : Nat} (hq : 0 < q) {a : Fin n → Nat} {i0 : Fin n} (ha : (a i0).Coprime q) (b : ℤ) (p : Nat → Prop) [DecidablePred p] :
    (Finset.univ.filter fun s : Fin n → Fin q => p ((b - ∑ i, ((s i : Nat) : ℤ) * (a i : ℤ)) % (q : ℤ)).toNat).card * q =
      q ^ n * (Finset.univ.filter fun v : Fin q => p v).card := by
  have hlt : ∀ s : Fin n → Fin q, ((b - ∑ i, ((s i : Nat) : ℤ) * (a i : ℤ)) % (q : ℤ)).toNat < q := by
    intro s
    have h1 := Int.emod_nonneg (b - ∑ i, ((s i : Nat) : ℤ) * (a i : ℤ)) (show (q : ℤ) ≠ 0 by omega)
    have h2 := Int.emod_lt_of_pos (b - ∑ i, ((s i : Nat) : ℤ) * (a i : ℤ)) (show (0 : ℤ) < q by omega)
    omega
  let T : (Fin n → Fin q) → Fin n → Fin q := fun s => Function.update s i0 ⟨_, hlt s⟩
  have hT : Function.Injective T := by
    intro s s' h
    have hne : ∀ i, i ≠ i0 → s i = s' i := fun i hi => by
      have := congrFun h i
      simpa only [T, Function.update_of_ne hi] using this
    have h0 := congrFun h i0
    simp only [T, Function.update_self, Fin.mk.injEq] at h0
    have h1 : (b - ∑ i, ((s i : Nat) : ℤ) * (a i : ℤ)) % (q : ℤ) = (b - ∑ i, ((s' i : Nat) : ℤ) * (a i : ℤ)) % (q : ℤ) := by
      have g1 := Int.emod_nonneg (b - ∑ i, ((s i : Nat) : ℤ) * (a i : ℤ)) (show (q : ℤ) ≠ 0 by omega)
      have g2 := Int.emod_nonneg (b - ∑ i, ((s' i : Nat) : ℤ) * (a i : ℤ)) (show (q : ℤ) ≠ 0 by omega)
      omega
    rw [← Finset.add_sum_erase _ _ (Finset.mem_univ i0), ← Finset.add_sum_erase _ (fun i => ((s' i : Nat) : ℤ) * (a i : ℤ)) (Finset.mem_univ i0),
      Finset.sum_congr rfl fun i hi => by rw [hne i (Finset.ne_of_mem_erase hi)]] at h1
    have h3 : (q : ℤ) ∣ (((s i0 : Nat) : ℤ) - ((s' i0 : Nat) : ℤ)) * (a i0 : ℤ) := by
      have h5 : Int.ModEq q _ _ := h1
      have h6 := h5.dvd
      have e : (((s i0 : Nat) : ℤ) - ((s' i0 : Nat) : ℤ)) * (a i0 : ℤ) =
          b - (((s' i0 : Nat) : ℤ) * (a i0 : ℤ) + ∑ i ∈ Finset.univ.erase i0, ((s' i : Nat) : ℤ) * (a i : ℤ)) -
          (b - (((s i0 : Nat) : ℤ) * (a i0 : ℤ) + ∑ i ∈ Finset.univ.erase i0, ((s' i : Nat) : ℤ) * (a i : ℤ))) := by ring
      rw [e]; exact h6
    have h4 : (q : ℤ) ∣ ((s i0 : Nat) : ℤ) - ((s' i0 : Nat) : ℤ) :=
      IsCoprime.dvd_of_dvd_mul_right (Nat.isCoprime_iff_coprime.mpr ha.symm) h3
    have h5 : (s i0 : Nat) = (s' i0 : Nat) := by
      have l1 := (s i0).isLt
      have l2 := (s' i0).isLt
      obtain ⟨c, hc⟩ := h4
      have : c = 0 := by
        by_contra hne
        rcases lt_or_gt_of_ne hne with hlt | hlt
        · have : (q : ℤ) * c ≤ q * (-1) := mul_le_mul_of_nonneg_left (by omega) (by omega)
          omega
        · have : (q : ℤ) * 1 ≤ q * c := mul_le_mul_of_nonneg_left (by omega) (by omega)
          omega
      rw [this] at hc
      omega
    funext i
    by_cases hi : i = i0
    · rw [hi]; exact Fin.ext h5
    · exact hne i hi
  have hbij : Function.Bijective T := Finite.injective_iff_bijective.mp hT
  have e1 : (Finset.univ.filter fun s : Fin n → Fin q => p ((b - ∑ i, ((s i : Nat) : ℤ) * (a i : ℤ)) % (q : ℤ)).toNat).card =
      (Finset.univ.filter fun s : Fin n → Fin q => p (s i0)).card := by
    refine Finset.card_bijective T hbij fun s => ?_
    simp only [Finset.mem_filter, Finset.mem_univ, true_and, T, Function.update_self]
  have e2 : (Finset.univ.filter fun s : Fin n → Fin q => p (s i0)) =
      Fintype.piFinset fun i => if i = i0 then Finset.univ.filter fun v : Fin q => p v else Finset.univ := by
    ext s
    simp only [Finset.mem_filter, Finset.mem_univ, true_and, Fintype.mem_piFinset]
    constructor
    · intro hs i
      split_ifs with hi
      · rw [hi]; simpa using hs
      · simp
    · intro hs
      have := hs i0
      rw [if_pos rfl] at this
      simpa using this
  rw [e1, e2, Fintype.card_piFinset, ← Finset.mul_prod_erase _ _ (Finset.mem_univ i0), if_pos rfl,
    Finset.prod_congr rfl fun i hi => by rw [if_neg (Finset.ne_of_mem_erase hi)], Finset.prod_const, Finset.card_univ, Fintype.card_fin,
    Finset.card_erase_of_mem (Finset.mem_univ _), Finset.card_univ, Fintype.card_fin]
  obtain ⟨k, hk⟩ : ∃ k, n = k + 1 := ⟨n - 1, by have := i0.isLt; omega⟩
  have hk' : n - 1 = k := by omega
  rw [hk', hk, pow_succ]
  ring

end Detect

variable {params : PvwParams} {q : Modulus}

/-- C109: what decryption returns for any clue and any key of the parameters. -/
theorem c109_decrypt (hq : Modulus.new params.q = .ok q) (pr : Profile) {sk : PvwSk}
    (hsk : ∀ l, l < params.ell → ∃ s, sk[l]? = some s ∧ IsVec params.q params.n s) {ct : PvwCiphertext} (hc : IsClue params ct) :
    Pvw.decrypt pr sk params ct =
      .ok ((List.range params.ell).map fun l => clueBit params.q (cluePhase params.q (sk.getD l []) ct.a (ct.b.getD l 0))) := by
  obtain ⟨h2, -⟩ := Modulus.new_inv hq
  rw [Pvw.decrypt_ok hq pr (fun l hl => (hsk l hl).imp fun s hs => ⟨hs.1, Detect.vec hs.2⟩) (Detect.vec hc.2) (Detect.vec hc.1)
    (E := fun l => (ct.b.getD l 0 : ℤ) - ∑ i ∈ Finset.range params.n, (((sk.getD l []).getD i 0 : Nat) : ℤ) * ((ct.a.getD i 0 : Nat) : ℤ))
    (fun l _ => by push_cast; ring)]
  congr 1
  refine List.map_congr_left fun l _ => ?_
  rw [← Detect.round_eq h2 (Detect.phase_lt (by omega) _ _ _)]
  unfold cluePhase
  rw [hc.2.1]

/-- C109: how many keys make a clue with an invertible entry decrypt to `msg`. Multiplied by `q^ell`, it is the number of all keys times the number of
vectors of values that are decided as `msg`. -/
theorem c109_other_key (hq : Modulus.new params.q = .ok q) (pr : Profile) {ct : PvwCiphertext} (hc : IsClue params ct)
    (hu : ∃ x ∈ ct.a, x.Coprime params.q) {msg : List Nat} (hlen : msg.length = params.ell) (hbit : ∀ x ∈ msg, x < 2) :
    Nat.card {S : Fin params.ell → Fin params.n → Fin params.q // ∃ sk, Pvw.genSk params (tableTape S) = .ok sk ∧ Pvw.decrypt pr sk params ct = .ok msg} *
      params.q ^ params.ell = Nat.card (Fin params.ell → Fin params.n → Fin params.q) * (msg.map (clueWeight params.q)).prod := by
  classical
  obtain ⟨h2, -⟩ := Modulus.new_inv hq
  obtain ⟨x, hx, hx2⟩ := hu
  obtain ⟨i0, hi0, rfl⟩ := List.mem_iff_getElem.mp hx
  rw [hc.2.1] at hi0
  have key : ∀ S : Fin params.ell → Fin params.n → Fin params.q,
      (∃ sk, Pvw.genSk params (tableTape S) = .ok sk ∧ Pvw.decrypt pr sk params ct = .ok msg) ↔
      ∀ l : Fin params.ell, clueBit params.q ((((ct.b.getD l 0 : Nat) : ℤ) - ∑ i, ((S l i : Nat) : ℤ) * ((ct.a.getD i 0 : Nat) : ℤ)) % (params.q : ℤ)).toNat =
        msg.getD l 0 := by
    intro S
    have e : Pvw.genSk params (tableTape S) = .ok ((List.range params.ell).map fun l => Pvw.randomVec params.n (tableTape S l)) := by
      unfold Pvw.genSk; rw [hq]; rfl
    have hT : ∀ l i, tableTape S l i < params.q := by
      intro l i
      unfold tableTape
      split_ifs
      · exact Fin.isLt _
      · omega
    have hrow : ∀ l, l < params.ell → ((List.range params.ell).map fun l => Pvw.randomVec params.n (tableTape S l))[l]? =
        some (Pvw.randomVec params.n (tableTape S l)) := fun l hl => by rw [List.getElem?_map, List.getElem?_range hl]; rfl
    have hd := c109_decrypt hq pr (sk := (List.range params.ell).map fun l => Pvw.randomVec params.n (tableTape S l)) (fun l hl =>
      ⟨_, hrow l hl, by simp [Pvw.randomVec], fun y hy => by
        obtain ⟨i, -, rfl⟩ := List.mem_map.mp hy
        exact hT l i⟩) hc
    have hph : ∀ l : Fin params.ell, cluePhase params.q (((List.range params.ell).map fun l => Pvw.randomVec params.n (tableTape S l)).getD l []) ct.a
        (ct.b.getD l 0) = ((((ct.b.getD l 0 : Nat) : ℤ) - ∑ i, ((S l i : Nat) : ℤ) * ((ct.a.getD i 0 : Nat) : ℤ)) % (params.q : ℤ)).toNat := by
      intro l
      unfold cluePhase
      have hg : ((List.range params.ell).map fun l => Pvw.randomVec params.n (tableTape S l)).getD l [] = Pvw.randomVec params.n (tableTape S l) := by
        rw [List.getD_eq_getElem?_getD, hrow l l.isLt, Option.getD_some]
      rw [hc.2.1, hg, Finset.sum_range]
      congr 3
      refine Finset.sum_congr rfl fun i _ => ?_
      rw [Pvw.randomVec_getD i.isLt]
      unfold tableTape
      rw [dif_pos ⟨l.isLt, i.isLt⟩]
    constructor
    · rintro ⟨sk, h1, h3⟩ l
      obtain rfl := Except.ok.inj (e.symm.trans h1)
      rw [hd] at h3
      have := congrArg (fun z => z.getD (l : Nat) 0) (Except.ok.inj h3)
      rw [Pvw.getD_map_range 0 l.isLt] at this
      rw [← this, hph]
    · intro h
      refine ⟨_, e, hd.trans (congrArg _ (List.ext_getElem (by simp [hlen]) fun l h1 h3 => ?_))⟩
      have hl : l < params.ell := by omega
      rw [List.getElem_map, List.getElem_range]
      have := h ⟨l, hl⟩
      rw [← hph] at this
      rw [this, List.getD_eq_getElem _ _ h3]
  have hb : ∀ l : Fin params.ell, msg.getD l 0 < 2 := fun l => by
    rw [List.getD_eq_getElem _ _ (by rw [hlen]; exact l.isLt)]
    exact hbit _ (List.getElem_mem _)
  let A : Fin params.ell → Finset (Fin params.n → Fin params.q) := fun l => Finset.univ.filter fun s =>
    clueBit params.q ((((ct.b.getD l 0 : Nat) : ℤ) - ∑ i, ((s i : Nat) : ℤ) * ((ct.a.getD i 0 : Nat) : ℤ)) % (params.q : ℤ)).toNat = msg.getD l 0
  have hA : ∀ l, (A l).card * params.q = params.q ^ params.n * clueWeight params.q (msg.getD l 0) := fun l => by
    rw [← Detect.card_bit h2 (hb l)]
    exact Detect.card_phase (by omega) (a := fun i : Fin params.n => ct.a.getD i 0) (i0 := ⟨i0, hi0⟩) (by
      show (ct.a.getD i0 0).Coprime params.q
      rw [List.getD_eq_getElem _ _ (by rw [hc.2.1]; exact hi0)]
      exact hx2) _ fun v => clueBit params.q v = msg.getD l 0
  have e1 : Nat.card {S : Fin params.ell → Fin params.n → Fin params.q // ∃ sk, Pvw.genSk params (tableTape S) = .ok sk ∧
      Pvw.decrypt pr sk params ct = .ok msg} = (Fintype.piFinset A).card := by
    rw [Nat.card_congr (Equiv.subtypeEquivRight fun S => (key S).trans (by
      rw [Fintype.mem_piFinset]
      exact forall_congr' fun l => by simp only [A, Finset.mem_filter, Finset.mem_univ, true_and]) :
      _ ≃ {S // S ∈ Fintype.piFinset A}), Nat.card_eq_fintype_card, Fintype.card_coe]
  have e2 : (msg.map (clueWeight params.q)).prod = ∏ l : Fin params.ell, clueWeight params.q (msg.getD l 0) := by
    rw [← List.prod_ofFn]
    congr 1
    refine List.ext_getElem (by simp [hlen]) fun l h1 h3 => ?_
    simp only [List.length_map] at h1
    rw [List.getElem_map, List.getElem_ofFn, List.getD_eq_getElem _ _ h1]
  have e3 : params.q ^ params.ell = ∏ _l : Fin params.ell, params.q := by rw [Finset.prod_const, Finset.card_univ, Fintype.card_fin]
  rw [e1, e2, Fintype.card_piFinset, e3, ← Finset.prod_mul_distrib, Finset.prod_congr rfl fun l _ => hA l, Finset.prod_mul_distrib,
    Nat.card_eq_fintype_card, Fintype.card_pi, Finset.prod_const, Fintype.card_pi, Finset.prod_const]
  simp only [Finset.card_univ, Fintype.card_fin, Finset.prod_const]

/-- C109: with the default parameters a key that has nothing to do with a clue takes it for a clue of its own, four zeros, with probability
`(32769/65537)^4`, which is more than one in sixteen. -/
theorem c109_default (pr : Profile) {ct : PvwCiphertext} (hc : IsClue PvwParams.default ct) (hu : ∃ x ∈ ct.a, x ≠ 0) :
    Nat.card {S : Fin 4 → Fin 450 → Fin 65537 // ∃ sk, Pvw.genSk PvwParams.default (tableTape S) = .ok sk ∧
        Pvw.decrypt pr sk PvwParams.default ct = .ok [0, 0, 0, 0]} * 65537 ^ 4 = Nat.card (Fin 4 → Fin 450 → Fin 65537) * 32769 ^ 4 ∧
      65537 ^ 4 < 16 * 32769 ^ 4 := by
  refine ⟨?_, by norm_num⟩
  obtain ⟨q, hq, -⟩ := Modulus.new_ok (p := PvwParams.default.q) (by decide) (by decide)
  obtain ⟨x, hx, h0⟩ := hu
  have hlt : x < 65537 := hc.2.2 x hx
  have hp : Nat.Prime 65537 := by norm_num
  exact c109_other_key hq pr hc ⟨x, hx, (Nat.coprime_comm.mp ((Nat.Prime.coprime_iff_not_dvd hp).mpr fun hd => by
    have := Nat.le_of_dvd (by omega) hd; omega))⟩ (msg := [0, 0, 0, 0]) rfl (by simp)

/-- C109: a clue without a mask decrypts to its message under every key. -/
theorem c109_universal (hq : Modulus.new params.q = .ok q) (pr : Profile) {sk : PvwSk}
    (hsk : ∀ l, l < params.ell → ∃ s, sk[l]? = some s ∧ IsVec params.q params.n s) {msg : List Nat} (hlen : msg.length = params.ell)
    (hbit : ∀ x ∈ msg, x < 2) : IsClue params (bareClue params msg) ∧ Pvw.decrypt pr sk params (bareClue params msg) = .ok msg := by
  obtain ⟨h2, -⟩ := Modulus.new_inv hq
  have hc : IsClue params (bareClue params msg) := by
    refine ⟨⟨by simp [bareClue, hlen], fun y hy => ?_⟩, by simp [bareClue], fun y hy => ?_⟩
    · obtain ⟨x, hx, rfl⟩ := List.mem_map.mp hy
      have := hbit x hx
      have : params.q / 2 * x ≤ params.q / 2 * 1 := Nat.mul_le_mul_left _ (by omega)
      omega
    · rw [(List.mem_replicate.mp hy).2]; omega
  refine ⟨hc, ?_⟩
  rw [c109_decrypt hq pr hsk hc]
  congr 1
  refine List.ext_getElem (by simp [hlen]) fun l h1 h3 => ?_
  rw [List.getElem_map, List.getElem_range]
  have hm := hbit _ (List.getElem_mem h3)
  have e : cluePhase params.q (sk.getD l []) (bareClue params msg).a ((bareClue params msg).b.getD l 0) = params.q / 2 * msg[l] := by
    unfold cluePhase bareClue
    rw [Finset.sum_eq_zero fun i hi => by
      rw [Finset.mem_range, List.length_replicate] at hi
      have h0 : (List.replicate params.n 0).getD i 0 = 0 := by rw [List.getD_eq_getElem _ 0 (by simpa using hi), List.getElem_replicate]
      rw [h0, Nat.cast_zero, mul_zero], sub_zero,
      List.getD_eq_getElem _ _ (by simpa using h3), List.getElem_map]
    have : params.q / 2 * msg[l] ≤ params.q / 2 * 1 := Nat.mul_le_mul_left _ (by omega)
    rw [Int.emod_eq_of_lt (by positivity) (by exact_mod_cast (by omega : params.q / 2 * msg[l] < params.q)), Int.toNat_natCast]
  rw [e]
  unfold clueBit
  rcases (show msg[l] = 0 ∨ msg[l] = 1 by omega) with h | h <;> rw [h]
  · rw [if_neg (by omega)]
  · rw [if_pos (by omega)]

/-- C109: anyone can flip the bits of a clue without knowing the key. It works for every value of the phase
except one: for an odd `q` there is one more value decided as 0 than as 1. -/
theorem c109_shift (hq : Modulus.new params.q = .ok q) (pr : Profile) {sk : PvwSk}
    (hsk : ∀ l, l < params.ell → ∃ s, sk[l]? = some s ∧ IsVec params.q params.n s) {ct : PvwCiphertext} (hc : IsClue params ct)
    {d : List Nat} (hlen : d.length = params.ell) (hbit : ∀ x ∈ d, x < 2)
    (hedge : ∀ l, l < params.ell → cluePhase params.q (sk.getD l []) ct.a (ct.b.getD l 0) ≠ 2 * (params.q / 2) - params.q / 4) :
    ∃ out, Pvw.decrypt pr sk params ct = .ok out ∧ IsClue params (shiftClue params d ct) ∧
      Pvw.decrypt pr sk params (shiftClue params d ct) = .ok ((out.zip d).map fun x => (x.1 + x.2) % 2) := by
  obtain ⟨h2, -⟩ := Modulus.new_inv hq
  have hlb := hc.1.1
  have hc' : IsClue params (shiftClue params d ct) := by
    refine ⟨⟨by simp [shiftClue, hlb, hlen], fun y hy => ?_⟩, hc.2⟩
    obtain ⟨x, -, rfl⟩ := List.mem_map.mp hy
    exact Nat.mod_lt _ (by omega)
  refine ⟨_, c109_decrypt hq pr hsk hc, hc', ?_⟩
  rw [c109_decrypt hq pr hsk hc']
  congr 1
  refine List.ext_getElem (by simp [hlen]) fun l h1 h3 => ?_
  have hl : l < params.ell := by simpa using h1
  have hld : l < d.length := by omega
  have hm := hbit _ (List.getElem_mem hld)
  rw [List.getElem_map, List.getElem_range, List.getElem_map, List.getElem_zip, List.getElem_map, List.getElem_range]
  dsimp only
  have he := hedge l hl
  have hlt := Detect.phase_lt (q := params.q) (by omega) (sk.getD l []) ct.a (ct.b.getD l 0)
  have e : cluePhase params.q (sk.getD l []) (shiftClue params d ct).a ((shiftClue params d ct).b.getD l 0) =
      (cluePhase params.q (sk.getD l []) ct.a (ct.b.getD l 0) + params.q / 2 * d[l]) % params.q := by
    have hb : (shiftClue params d ct).b.getD l 0 = (ct.b.getD l 0 + params.q / 2 * d[l]) % params.q := by
      unfold shiftClue
      rw [List.getD_eq_getElem _ _ (by simp; omega), List.getElem_map, List.getElem_zip, List.getD_eq_getElem _ _ (by omega)]
    have ha : (shiftClue params d ct).a = ct.a := rfl
    rw [hb, ha]
    unfold cluePhase
    generalize ∑ i ∈ Finset.range ct.a.length, ((sk.getD l []).getD i 0 : ℤ) * (ct.a.getD i 0 : ℤ) = X
    have hq0 : (params.q : ℤ) ≠ 0 := by omega
    apply Int.natCast_inj.mp
    push_cast
    rw [Int.toNat_of_nonneg (Int.emod_nonneg _ hq0), Int.toNat_of_nonneg (Int.emod_nonneg _ hq0)]
    rw [Int.emod_add_emod, Int.emod_sub_emod]
    congr 1
    ring
  rw [e]
  generalize cluePhase params.q (sk.getD l []) ct.a (ct.b.getD l 0) = v at he hlt
  generalize params.q = p at *
  rcases (show d[l] = 0 ∨ d[l] = 1 by omega) with h | h <;> rw [h]
  · rw [Nat.mul_zero, Nat.add_zero, Nat.add_zero, Nat.mod_eq_of_lt hlt]
    unfold clueBit
    split_ifs <;> rfl
  · rw [Nat.mul_one]
    have hcase : (v + p / 2) % p = if v + p / 2 < p then v + p / 2 else v + p / 2 - p := by
      split_ifs with hlt'
      · exact Nat.mod_eq_of_lt hlt'
      · rw [Nat.mod_eq_sub_mod (by omega), Nat.mod_eq_of_lt (by omega)]
    rw [hcase]
    unfold clueBit
    split_ifs <;> omega

/-! Small parameters: two slots, two entries, modulus 17. -/

private def tiny : PvwParams := ⟨2, 2, 3, 17, 1⟩

private theorem tiny_clue : IsClue tiny ⟨[3, 5], [9, 16]⟩ := ⟨⟨rfl, by decide⟩, rfl, by decide⟩

private theorem tiny_key : ∀ l, l < tiny.ell → ∃ s, ([[1, 2], [16, 4]] : PvwSk)[l]? = some s ∧ IsVec tiny.q tiny.n s := by
  intro l hl
  have : l < 2 := hl
  interval_cases l
  · exact ⟨[1, 2], rfl, rfl, by decide⟩
  · exact ⟨[16, 4], rfl, rfl, by decide⟩

example (pr : Profile) : Pvw.decrypt pr [[1, 2], [16, 4]] tiny ⟨[3, 5], [9, 16]⟩ = .ok [0, 0] := by
  obtain ⟨q, hq, -⟩ := Modulus.new_ok (p := tiny.q) (by decide) (by decide)
  rw [c109_decrypt hq pr tiny_key tiny_clue]
  decide

example (pr : Profile) : Nat.card {S : Fin 2 → Fin 2 → Fin 17 // ∃ sk, Pvw.genSk tiny (tableTape S) = .ok sk ∧
    Pvw.decrypt pr sk tiny ⟨[3, 5], [9, 16]⟩ = .ok [1, 0]} * 17 ^ 2 = Nat.card (Fin 2 → Fin 2 → Fin 17) * (8 * 9) := by
  obtain ⟨q, hq, -⟩ := Modulus.new_ok (p := tiny.q) (by decide) (by decide)
  exact c109_other_key hq pr tiny_clue ⟨3, by simp, by show Nat.Coprime 3 17; norm_num⟩ (msg := [1, 0]) rfl (by simp)

example (pr : Profile) : Pvw.decrypt pr [[1, 2], [16, 4]] tiny ⟨[0, 0], [8, 0]⟩ = .ok [1, 0] := by
  obtain ⟨q, hq, -⟩ := Modulus.new_ok (p := tiny.q) (by decide) (by decide)
  exact (c109_universal hq pr tiny_key (msg := [1, 0]) rfl (by simp)).2

example (pr : Profile) : Pvw.decrypt pr [[1, 2], [16, 4]] tiny ⟨[3, 5], [0, 16]⟩ = .ok [1, 0] := by
  obtain ⟨q, hq, -⟩ := Modulus.new_ok (p := tiny.q) (by decide) (by decide)
  obtain ⟨out, h1, -, h2⟩ := c109_shift hq pr tiny_key tiny_clue (d := [1, 0]) rfl (by simp) (by
    intro l hl
    have : l < 2 := hl
    interval_cases l <;> decide)
  rw [c109_decrypt hq pr tiny_key tiny_clue] at h1
  obtain rfl := Except.ok.inj h1
  exact h2

example (pr : Profile) : IsClue PvwParams.default ⟨List.replicate 450 1, [1, 2, 3, 4]⟩ ∧
    0 < Nat.card {S : Fin 4 → Fin 450 → Fin 65537 // ∃ sk, Pvw.genSk PvwParams.default (tableTape S) = .ok sk ∧
      Pvw.decrypt pr sk PvwParams.default ⟨List.replicate 450 1, [1, 2, 3, 4]⟩ = .ok [0, 0, 0, 0]} := by
  have hc : IsClue PvwParams.default ⟨List.replicate 450 1, [1, 2, 3, 4]⟩ :=
    ⟨⟨rfl, by decide⟩, List.length_replicate, fun x hx => by rw [(List.mem_replicate.mp hx).2]; decide⟩
  refine ⟨hc, ?_⟩
  have h := (c109_default pr hc ⟨1, List.mem_replicate.mpr ⟨by decide, rfl⟩, by decide⟩).1
  rcases Nat.eq_zero_or_pos (Nat.card {S : Fin 4 → Fin 450 → Fin 65537 // ∃ sk, Pvw.genSk PvwParams.default (tableTape S) = .ok sk ∧
      Pvw.decrypt pr sk PvwParams.default ⟨List.replicate 450 1, [1, 2, 3, 4]⟩ = .ok [0, 0, 0, 0]}) with h0 | h0
  · rw [h0, Nat.zero_mul] at h
    have h2 : 0 < Nat.card (Fin 4 → Fin 450 → Fin 65537) := Nat.card_pos
    have h3 : 0 < Nat.card (Fin 4 → Fin 450 → Fin 65537) * 32769 ^ 4 := Nat.mul_pos h2 (by norm_num)
    exact absurd h h3.ne
  · exact h0

end OnionPIR
