import Verif.Spec.KeyFix
import Verif.Props.AddClue
/-
Property C140 (src/pvw.rs): a public key fixes its secret key.
-/
namespace OnionPIR
open Spec

variable {params : PvwParams} {q : Modulus}

namespace KeyFix

/-- At most `B` away from zero modulo `q`. -/
def Small (q B v : Nat) : Prop := v ≤ B ∨ q ≤ v + B

theorem card_small (q B : Nat) [DecidablePred (Small q B)] : (Finset.univ.filter fun v : Fin q => Small q B v).card ≤ 2 * B + 1 := by
  have h : (Finset.univ.filter fun v : Fin q => Small q B v).map Fin.valEmbedding ⊆ Finset.range (B + 1) ∪ Finset.Ico (q - B) q := by
    intro v hv
    obtain ⟨w, hw, rfl⟩ := Finset.mem_map.mp hv
    have h1 := (Finset.mem_filter.mp hw).2
    have h2 := w.isLt
    rw [Finset.mem_union, Finset.mem_range, Finset.mem_Ico, Fin.valEmbedding_apply]
    unfold Small at h1
    omega
  have h2 := (Finset.card_le_card h).trans (Finset.card_union_le _ _)
  rw [Finset.card_map, Finset.card_range, Nat.card_Ico] at h2
  omega

theorem small_of {q B : Nat} (hq : 0 < q) {x D : ℤ} (h : (x : ZMod q) = (D : ZMod q)) (h1 : -(B : ℤ) ≤ D) (h2 : D ≤ B) : Small q B (x % (q : ℤ)).toNat := by
  rw [show x % (q : ℤ) = D % (q : ℤ) from (ZMod.intCast_eq_intCast_iff' x D q).mp h]
  unfold Small
  have g1 := Int.emod_nonneg D (show (q : ℤ) ≠ 0 by omega)
  rcases le_or_gt q B with hB | hB
  · omega
  · rcases lt_or_ge D 0 with hD | hD
    · have : D % (q : ℤ) = D + q := by rw [← Int.add_emod_right, Int.emod_eq_of_lt (by omega) (by omega)]
      omega
    · rw [Int.emod_eq_of_lt hD (by omega)]
      omega

theorem tape_lt {a b q : Nat} (hq : 0 < q) (f : Fin a → Fin b → Fin q) (i j : Nat) : tableTape f i j < q := by
  unfold tableTape
  split_ifs
  · exact Fin.isLt _
  · exact hq

theorem sk_row {a b q : Nat} (hq : 0 < q) (f : Fin a → Fin b → Fin q) (l : Nat) (hl : l < a) :
    ∃ s, ((List.range a).map fun l => Pvw.randomVec b (tableTape f l))[l]? = some s ∧ Pvw.Vec q b s :=
  ⟨Pvw.randomVec b (tableTape f l), by rw [List.getElem?_map, List.getElem?_range hl]; rfl, Pvw.vec_randomVec (tape_lt hq f l)⟩

theorem getD_sk {a b q : Nat} (f : Fin a → Fin b → Fin q) (l : Fin a) (i : Fin b) :
    (((List.range a).map fun l => Pvw.randomVec b (tableTape f l)).getD l []).getD i 0 = f l i := by
  rw [Pvw.getD_map_range [] l.isLt, Pvw.randomVec_getD i.isLt]
  unfold tableTape
  rw [dif_pos ⟨l.isLt, i.isLt⟩]

/-- Two keys with one public key have a difference that the matrix maps to small values. -/
theorem difference (hn : Modulus.new params.q = .ok q) (pr : Profile) (hv1 : 1 ≤ params.variance) (hv2 : params.variance ≤ 16)
    {A : Fin params.m → Fin params.n → Fin params.q} (h : Ambiguous pr params A) : ∃ d : Fin params.n → Fin params.q, (∃ i, (d i : Nat) ≠ 0) ∧
      ∀ j, Small params.q (4 * params.variance) ((0 - ∑ i, ((A j i : Nat) : ℤ) * ((d i : Nat) : ℤ)) % (params.q : ℤ)).toNat := by
  obtain ⟨S, S', rng, rng', sk, sk', pk, hne, hr, hr', s1, s2, p1, p2⟩ := h
  obtain ⟨h2, -⟩ := Modulus.new_inv hn
  have hp : 0 < params.q := by omega
  have e1 : sk = (List.range params.ell).map fun l => Pvw.randomVec params.n (tableTape S l) := by
    rw [Pvw.genSk, hn] at s1; exact (Except.ok.inj s1).symm
  have e2 : sk' = (List.range params.ell).map fun l => Pvw.randomVec params.n (tableTape S' l) := by
    rw [Pvw.genSk, hn] at s2; exact (Except.ok.inj s2).symm
  subst e1 e2
  obtain ⟨pk1, a1, -, a3, a4⟩ := Pvw.genPk_exact hn pr hv1 hv2 (tape_lt hp A) hr (sk_row hp S)
  obtain ⟨pk2, b1, -, b3, b4⟩ := Pvw.genPk_exact hn pr hv1 hv2 (tape_lt hp A) hr' (sk_row hp S')
  obtain rfl := Except.ok.inj (a1.symm.trans p1)
  obtain rfl := Except.ok.inj (b1.symm.trans p2)
  obtain ⟨l, hl⟩ := Function.ne_iff.mp hne
  obtain ⟨i0, hi0⟩ := Function.ne_iff.mp hl
  have hlt : ∀ i, ((((S l i : Nat) : ℤ) - ((S' l i : Nat) : ℤ)) % (params.q : ℤ)).toNat < params.q := fun i => by
    have g1 := Int.emod_lt_of_pos (((S l i : Nat) : ℤ) - ((S' l i : Nat) : ℤ)) (show (0 : ℤ) < params.q by omega)
    omega
  refine ⟨fun i => ⟨_, hlt i⟩, ⟨i0, fun h0 => hi0 ?_⟩, fun j => ?_⟩
  · have h1 : ((((S l i0 : Nat) : ℤ) - ((S' l i0 : Nat) : ℤ) : ℤ) : ZMod params.q) = 0 := by
      rw [← Pvw.cast_emod hp]
      exact (congrArg (Nat.cast (R := ZMod params.q)) h0).trans Nat.cast_zero
    rw [Int.cast_sub, Int.cast_natCast, Int.cast_natCast, sub_eq_zero] at h1
    have h3 := (ZMod.natCast_eq_natCast_iff' _ _ _).mp h1
    rw [Nat.mod_eq_of_lt (S l i0).isLt, Nat.mod_eq_of_lt (S' l i0).isLt] at h3
    exact Fin.ext h3
  · obtain ⟨c, c1, -, -, c4⟩ := a4 j j.isLt
    obtain ⟨c', d1, -, -, d4⟩ := b4 j j.isLt
    obtain rfl := Option.some.inj (c1.symm.trans d1)
    have ha : c.a = Pvw.randomVec params.n (tableTape A j) := by
      have := a3 j j.isLt
      rw [c1] at this
      exact Option.some.inj this
    have hA : ∀ i : Fin params.n, c.a.getD i 0 = A j i := fun i => by
      rw [ha, Pvw.randomVec_getD i.isLt]
      unfold tableTape
      rw [dif_pos ⟨j.isLt, i.isLt⟩]
    have k1 := c4 l l.isLt
    have k2 := d4 l l.isLt
    rw [Finset.sum_range] at k1 k2
    simp only [getD_sk, hA] at k1 k2
    have b1 := cbdValue_bound (rng l) params.variance j
    have b2 := cbdValue_bound (rng' l) params.variance j
    refine small_of hp (D := cbdValue (rng l) params.variance j - cbdValue (rng' l) params.variance j) ?_ (by push_cast; omega) (by push_cast; omega)
    have k3 : ∑ i, ((A j i : Nat) : ZMod params.q) * (((((S l i : Nat) : ℤ) - ((S' l i : Nat) : ℤ)) % (params.q : ℤ)).toNat : ZMod params.q) =
        ∑ i, ((S l i : Nat) : ZMod params.q) * ((A j i : Nat) : ZMod params.q) - ∑ i, ((S' l i : Nat) : ZMod params.q) * ((A j i : Nat) : ZMod params.q) := by
      rw [← Finset.sum_sub_distrib]
      exact Finset.sum_congr rfl fun i _ => by rw [Pvw.cast_emod hp]; push_cast; ring
    rw [Int.cast_sub, Int.cast_sum, Int.cast_zero, Int.cast_sub]
    simp only [Int.cast_mul, Int.cast_natCast]
    rw [k3]
    linear_combination k1 - k2

theorem tail {x y q n m v k : Nat} (hq : q = 65537) (hv : v = 2) (hk : k + 17 * n + 5 * m ≤ 16 * m) (h : x * q ^ m ≤ y * (q ^ n * (8 * v + 1) ^ m)) :
    x * 2 ^ k ≤ y := by
  subst hq hv
  have h1 : 65537 ^ n ≤ 2 ^ (17 * n) := by rw [pow_mul]; exact Nat.pow_le_pow_left (by norm_num) _
  have h2 : (8 * 2 + 1) ^ m ≤ 2 ^ (5 * m) := by rw [pow_mul]; exact Nat.pow_le_pow_left (by norm_num) _
  have h3 : 2 ^ (16 * m) ≤ 65537 ^ m := by rw [pow_mul]; exact Nat.pow_le_pow_left (by norm_num) _
  have h4 : x * 2 ^ (16 * m) ≤ y * 2 ^ (17 * n + 5 * m) := by
    rw [pow_add]
    exact (Nat.mul_le_mul_left _ h3).trans (h.trans (Nat.mul_le_mul_left _ (Nat.mul_le_mul h1 h2)))
  have h5 : x * 2 ^ k * 2 ^ (17 * n + 5 * m) ≤ y * 2 ^ (17 * n + 5 * m) := by
    rw [mul_assoc, ← pow_add]
    exact (Nat.mul_le_mul_left _ (Nat.pow_le_pow_right (by norm_num) (by omega))).trans h4
  exact Nat.le_of_mul_le_mul_right h5 (Nat.pow_pos (by norm_num))

end KeyFix

/-- C140: for a prime `q`, the fraction of the public matrices with which some public key belongs to two secret keys is at most
`q^n ((8 variance + 1) / q)^m`. -/
theorem c140_key (hn : Modulus.new params.q = .ok q) (hprime : params.q.Prime) (pr : Profile) (hv1 : 1 ≤ params.variance) (hv2 : params.variance ≤ 16) :
    Nat.card {A : Fin params.m → Fin params.n → Fin params.q // Ambiguous pr params A} * params.q ^ params.m ≤
      Nat.card (Fin params.m → Fin params.n → Fin params.q) * (params.q ^ params.n * (8 * params.variance + 1) ^ params.m) := by
  classical
  have hp := hprime.pos
  let rows : (Fin params.n → Fin params.q) → Finset (Fin params.n → Fin params.q) := fun d => Finset.univ.filter fun a =>
    KeyFix.Small params.q (4 * params.variance) ((0 - ∑ i, ((a i : Nat) : ℤ) * ((d i : Nat) : ℤ)) % (params.q : ℤ)).toNat
  let D : Finset (Fin params.n → Fin params.q) := Finset.univ.filter fun d => ∃ i, (d i : Nat) ≠ 0
  have hrows : ∀ d ∈ D, (rows d).card * params.q ≤ params.q ^ params.n * (8 * params.variance + 1) := fun d hd => by
    obtain ⟨i0, hi0⟩ := (Finset.mem_filter.mp hd).2
    have hco : (d i0 : Nat).Coprime params.q :=
      Nat.coprime_comm.mp (hprime.coprime_iff_not_dvd.mpr (Nat.not_dvd_of_pos_of_lt (Nat.pos_of_ne_zero hi0) (d i0).isLt))
    have h1 := Detect.card_phase hp (a := fun i => (d i : Nat)) hco 0 (KeyFix.Small params.q (4 * params.variance))
    refine (le_of_eq h1).trans (Nat.mul_le_mul_left _ ?_)
    have := KeyFix.card_small params.q (4 * params.variance)
    omega
  have hsub : (Finset.univ.filter fun A => Ambiguous pr params A) ⊆ D.biUnion fun d => Fintype.piFinset fun _ : Fin params.m => rows d := by
    intro A hA
    obtain ⟨d, hd, hj⟩ := KeyFix.difference hn pr hv1 hv2 (Finset.mem_filter.mp hA).2
    exact Finset.mem_biUnion.mpr ⟨d, Finset.mem_filter.mpr ⟨Finset.mem_univ _, hd⟩, Fintype.mem_piFinset.mpr fun j =>
      Finset.mem_filter.mpr ⟨Finset.mem_univ _, hj j⟩⟩
  have hD : D.card ≤ params.q ^ params.n := by
    refine (Finset.card_le_univ _).trans (le_of_eq ?_)
    rw [Fintype.card_pi, Finset.prod_const, Finset.card_univ, Fintype.card_fin, Fintype.card_fin]
  rw [Nat.card_eq_fintype_card, Fintype.card_subtype, Nat.card_eq_fintype_card]
  have hall : Fintype.card (Fin params.m → Fin params.n → Fin params.q) = (params.q ^ params.n) ^ params.m := by
    simp only [Fintype.card_pi, Finset.prod_const, Finset.card_univ, Fintype.card_fin]
  calc _ ≤ (∑ d ∈ D, (Fintype.piFinset fun _ : Fin params.m => rows d).card) * params.q ^ params.m :=
        Nat.mul_le_mul_right _ ((Finset.card_le_card hsub).trans Finset.card_biUnion_le)
    _ = ∑ d ∈ D, ((rows d).card * params.q) ^ params.m := by
        rw [Finset.sum_mul]
        refine Finset.sum_congr rfl fun d _ => ?_
        rw [Fintype.card_piFinset, Finset.prod_const, Finset.card_univ, Fintype.card_fin, mul_pow]
    _ ≤ ∑ _d ∈ D, (params.q ^ params.n * (8 * params.variance + 1)) ^ params.m :=
        Finset.sum_le_sum fun d hd => Nat.pow_le_pow_left (hrows d hd) _
    _ ≤ params.q ^ params.n * (params.q ^ params.n * (8 * params.variance + 1)) ^ params.m := by
        rw [Finset.sum_const, smul_eq_mul]
        exact Nat.mul_le_mul_right _ hD
    _ = _ := by rw [hall, mul_pow]; ring

/-- C140: with the default parameters it is at most one in `2^160000`. -/
theorem c140_default (pr : Profile) : Nat.card {A : Fin 16000 → Fin 450 → Fin 65537 // Ambiguous pr PvwParams.default A} * 2 ^ 160000 ≤
    Nat.card (Fin 16000 → Fin 450 → Fin 65537) := by
  obtain ⟨q, hq, -⟩ := Modulus.new_ok (p := PvwParams.default.q) (by decide) (by decide)
  have h := c140_key hq (show Nat.Prime 65537 by norm_num) pr (by decide) (by decide)
  have h2 := KeyFix.tail (q := PvwParams.default.q) (n := PvwParams.default.n) (m := PvwParams.default.m) (v := PvwParams.default.variance) (k := 160000) rfl rfl
     (by show 160000 + 17 * 450 + 5 * 16000 ≤ 16 * 16000; norm_num) h
  exact h2

/-- C140: some matrices do leave the key open, for instance the zero matrix. -/
theorem c140_zero (hn : Modulus.new params.q = .ok q) (pr : Profile) (hv1 : 1 ≤ params.variance) (hv2 : params.variance ≤ 16) (hell : 0 < params.ell)
    (hnn : 0 < params.n) {A : Fin params.m → Fin params.n → Fin params.q} (hA : ∀ j i, (A j i : Nat) = 0) : Ambiguous pr params A := by
  obtain ⟨h2, -⟩ := Modulus.new_inv hn
  have hp : 0 < params.q := by omega
  let S : Fin params.ell → Fin params.n → Fin params.q := fun _ _ => ⟨0, hp⟩
  let S' : Fin params.ell → Fin params.n → Fin params.q := fun _ _ => ⟨1, by omega⟩
  have hr : ∀ l i : Nat, (fun _ _ => 0 : Nat → Nat → Nat) l i < 2 ^ 64 := fun _ _ => by norm_num
  obtain ⟨pk, a1, a2, a3, a4⟩ := Pvw.genPk_exact hn pr hv1 hv2 (KeyFix.tape_lt hp A) hr (KeyFix.sk_row hp S)
  obtain ⟨pk', b1, b2, b3, b4⟩ := Pvw.genPk_exact hn pr hv1 hv2 (KeyFix.tape_lt hp A) hr (KeyFix.sk_row hp S')
  refine ⟨S, S', _, _, _, _, pk, fun h => ?_, hr, hr, by rw [Pvw.genSk, hn]; rfl, by rw [Pvw.genSk, hn]; rfl, a1, b1.trans (congrArg _ ?_)⟩
  · have := congrArg Fin.val (congrFun (congrFun h ⟨0, hell⟩) ⟨0, hnn⟩)
    simp [S, S'] at this
  · refine List.ext_getElem? fun j => ?_
    rcases lt_or_ge j params.m with hj | hj
    · obtain ⟨c, c1, c2, c3, c4⟩ := a4 j hj
      obtain ⟨d, d1, d2, d3, d4⟩ := b4 j hj
      have ha := a3 j hj
      have hb := b3 j hj
      rw [c1] at ha
      rw [d1] at hb
      have ha' : c.a = _ := Option.some.inj ha
      have hb' : d.a = _ := Option.some.inj hb
      have hz : ∀ i, i < params.n → (Pvw.randomVec params.n (tableTape A j)).getD i 0 = 0 := fun i hi => by
        rw [Pvw.randomVec_getD hi]
        unfold tableTape
        rw [dif_pos ⟨hj, hi⟩, hA]
      have eb : d.b = c.b := AddClue.ext d3 c3 fun l hl => by
        rw [c4 l hl, d4 l hl, ha', hb', Finset.sum_eq_zero fun i hi => by rw [hz i (Finset.mem_range.mp hi), Nat.cast_zero, mul_zero],
          Finset.sum_eq_zero fun i hi => by rw [hz i (Finset.mem_range.mp hi), Nat.cast_zero, mul_zero]]
      rw [c1, d1]
      cases c
      cases d
      exact congrArg some (congrArg₂ PvwCiphertext.mk (hb'.trans ha'.symm) eb)
    · rw [List.getElem?_eq_none (by omega), List.getElem?_eq_none (by omega)]

/-- Three columns and one entry modulo 257: at most one matrix in ninety leaves the key open. The count is not zero. -/
example (pr : Profile) : 0 < Nat.card {A : Fin 3 → Fin 1 → Fin 257 // Ambiguous pr ⟨1, 2, 3, 257, 1⟩ A} ∧
    Nat.card {A : Fin 3 → Fin 1 → Fin 257 // Ambiguous pr ⟨1, 2, 3, 257, 1⟩ A} * 257 ^ 3 ≤ Nat.card (Fin 3 → Fin 1 → Fin 257) * (257 ^ 1 * 9 ^ 3) := by
  obtain ⟨q, hq, -⟩ := Modulus.new_ok (p := 257) (by decide) (by decide)
  refine ⟨?_, c140_key (params := ⟨1, 2, 3, 257, 1⟩) hq (show Nat.Prime 257 by norm_num) pr (by decide) (by decide)⟩
  have : Nonempty {A : Fin 3 → Fin 1 → Fin 257 // Ambiguous pr ⟨1, 2, 3, 257, 1⟩ A} :=
    ⟨⟨fun _ _ => 0, c140_zero (params := ⟨1, 2, 3, 257, 1⟩) hq pr (by decide) (by decide) (by decide) (by decide) fun _ _ => rfl⟩⟩
  exact Nat.card_pos

/-! ### What a clue fixes -/

/-- C140: a clue fixes its message, if the errors of its selectors are within the decision interval. -/
theorem c140_message (pr : Profile) {skTape aTape rng : Nat → Nat → Nat} {e e' : Nat → Nat} (h : PvwChoices params skTape aTape rng e) (he' : ∀ m, e' m < 2)
    {msg msg' : List Nat} (hlen : msg.length = params.ell) (hlen' : msg'.length = params.ell) (hbit : ∀ x ∈ msg, x < 2) (hbit' : ∀ x ∈ msg', x < 2)
    (herr : ∀ l, l < params.ell → ∀ f, f = e ∨ f = e' → -((params.q / 4 : Nat) : ℤ) ≤ pvwError params rng f l ∧
      pvwError params rng f l < ((params.q / 2 : Nat) : ℤ) - (params.q / 4 : Nat))
    {sk : PvwSk} (hsk : Pvw.genSk params skTape = .ok sk) {pk : PvwPk} (hpk : Pvw.genPk pr sk params aTape rng = .ok pk) {c : PvwCiphertext}
    (h1 : Pvw.encrypt pr pk params msg e = .ok c) (h2 : Pvw.encrypt pr pk params msg' e' = .ok c) : msg = msg' := by
  have r1 := c46_roundtrip pr h hlen hbit fun l hl => herr l hl e (.inl rfl)
  have r2 := c46_roundtrip pr (e := e') ⟨h.two_le, h.lt, h.var_pos, h.var_le, h.sk, h.a, h.rng, he'⟩ hlen' hbit' fun l hl => herr l hl e' (.inr rfl)
  unfold pvwRun at r1 r2
  rw [hsk, res_ok_bind, hpk, res_ok_bind, h1, res_ok_bind] at r1
  rw [hsk, res_ok_bind, hpk, res_ok_bind, h2, res_ok_bind] at r2
  exact Except.ok.inj (r1.symm.trans r2)

/-- C140: it does not fix its selector, if there are more selectors than clues: two of them make the same clue of every message. -/
theorem c140_selector (hn : Modulus.new params.q = .ok q) (pr : Profile) {pk : PvwPk} (hpk : ∀ m, m < params.m → ∃ c, pk[m]? = some c ∧ IsClue params c)
    (hm : params.q ^ (params.n + params.ell) < 2 ^ params.m) : ∃ e e' : Fin params.m → Fin 2, e ≠ e' ∧ ∀ msg : List Nat, msg.length = params.ell →
      (∀ x ∈ msg, x < 2) → ∃ c, Pvw.encrypt pr pk params msg (bitTape e) = .ok c ∧ Pvw.encrypt pr pk params msg (bitTape e') = .ok c := by
  obtain ⟨h2, -⟩ := Modulus.new_inv hn
  have hp : 0 < params.q := by omega
  haveI : NeZero params.q := ⟨by omega⟩
  have hpk' : ∀ m, m < params.m → ∃ c, pk[m]? = some c ∧ Pvw.Vec params.q params.n c.a ∧ Pvw.Vec params.q params.ell c.b := fun m hm =>
    (hpk m hm).imp fun c hc => ⟨hc.1, Detect.vec hc.2.2, Detect.vec hc.2.1⟩
  have hb : ∀ (e : Fin params.m → Fin 2) m, bitTape e m < 2 := fun e m => by
    unfold bitTape
    split_ifs
    · exact Fin.isLt _
    · omega
  let F : (Fin params.m → Fin 2) → (Fin params.n → ZMod params.q) × (Fin params.ell → ZMod params.q) := fun e =>
    (fun i => ∑ m ∈ Finset.range params.m, (((pk.getD m ⟨[], []⟩).a.getD i 0 : Nat) : ZMod params.q) * (bitTape e m : ZMod params.q),
      fun l => ∑ m ∈ Finset.range params.m, (((pk.getD m ⟨[], []⟩).b.getD l 0 : Nat) : ZMod params.q) * (bitTape e m : ZMod params.q))
  obtain ⟨e, e', hne, hF⟩ := Fintype.exists_ne_map_eq_of_card_lt F (by
    simp only [Fintype.card_prod, Fintype.card_pi, Finset.prod_const, Finset.card_univ, Fintype.card_fin, ZMod.card]
    rw [← pow_add]
    exact hm)
  refine ⟨e, e', hne, fun msg hlen hbit => ?_⟩
  obtain ⟨c, c1, c2, c3, c4, c5⟩ := Pvw.encrypt_exact hn pr hpk' hlen hbit (hb e)
  obtain ⟨d, d1, d2, d3, d4, d5⟩ := Pvw.encrypt_exact hn pr hpk' hlen hbit (hb e')
  refine ⟨c, c1, d1.trans (congrArg _ ?_)⟩
  have ea : d.a = c.a := AddClue.ext d2 c2 fun i hi => by
    rw [c4 i hi, d4 i hi]
    exact (congrFun (congrArg Prod.fst hF) ⟨i, hi⟩).symm
  have eb : d.b = c.b := AddClue.ext d3 c3 fun l hl => by
    rw [c5 l hl, d5 l hl]
    exact congrArg (· + _) (congrFun (congrArg Prod.snd hF) ⟨l, hl⟩).symm
  cases c
  cases d
  exact congrArg₂ PvwCiphertext.mk ea eb

/-- C140: so it is with the default parameters, for every public key. -/
theorem c140_selector_default (pr : Profile) {pk : PvwPk} (hpk : ∀ m, m < 16000 → ∃ c, pk[m]? = some c ∧ IsClue PvwParams.default c) :
    ∃ e e' : Fin 16000 → Fin 2, e ≠ e' ∧ ∀ msg : List Nat, msg.length = 4 → (∀ x ∈ msg, x < 2) →
      ∃ c, Pvw.encrypt pr pk PvwParams.default msg (bitTape e) = .ok c ∧ Pvw.encrypt pr pk PvwParams.default msg (bitTape e') = .ok c := by
  obtain ⟨q, hq, -⟩ := Modulus.new_ok (p := PvwParams.default.q) (by decide) (by decide)
  have key : ∀ {q n m : Nat}, q ≤ 2 ^ 17 → 17 * n < m → q ^ n < 2 ^ m := fun {q n m} h1 h2 =>
    (Nat.pow_le_pow_left h1 n).trans_lt (by rw [← pow_mul]; exact Nat.pow_lt_pow_right (by norm_num) h2)
  exact c140_selector hq pr hpk (key (q := PvwParams.default.q) (n := PvwParams.default.n + PvwParams.default.ell) (m := PvwParams.default.m)
    (by show 65537 ≤ 2 ^ 17; norm_num) (by show 17 * (450 + 4) < 16000; norm_num))

/-- Parameters with errors that are always small enough: two clues of different messages are different. -/
example (pr : Profile) {sk : PvwSk} {pk : PvwPk} {c : PvwCiphertext} (hsk : Pvw.genSk ⟨4, 2, 3, 1048583, 2⟩ (fun _ i => 7 + i % 10) = .ok sk)
    (hpk : Pvw.genPk pr sk ⟨4, 2, 3, 1048583, 2⟩ (fun m i => (m + i) % 1000) (fun _ i => 2 ^ 63 + i % 1000) = .ok pk)
    (h1 : Pvw.encrypt pr pk ⟨4, 2, 3, 1048583, 2⟩ [1, 0] (fun m => m % 2) = .ok c) :
    Pvw.encrypt pr pk ⟨4, 2, 3, 1048583, 2⟩ [1, 1] (fun m => m % 2) ≠ .ok c := by
  intro h2
  have hch : PvwChoices ⟨4, 2, 3, 1048583, 2⟩ (fun _ i => 7 + i % 10) (fun m i => (m + i) % 1000) (fun _ i => 2 ^ 63 + i % 1000) (fun m => m % 2) := by
    refine ⟨by decide, by decide, by decide, by decide, fun _ i => ?_, fun m i => ?_, fun _ i => ?_, fun m => ?_⟩ <;>
      show _ < (_ : Nat) <;> norm_num <;> omega
  have := c140_message pr hch hch.e (msg := [1, 0]) (msg' := [1, 1]) rfl rfl (by simp) (by simp) (fun l _ f hf => by
    obtain rfl : f = fun m => m % 2 := by rcases hf with hf | hf <;> exact hf
    obtain ⟨b1, b2⟩ := pvwError_bound (params := ⟨4, 2, 3, 1048583, 2⟩) (rng := fun _ i => 2 ^ 63 + i % 1000) (e := fun m => m % 2) (fun m => by omega) l
    have s1 : ∑ m ∈ Finset.range 3, m % 2 = 1 := by decide
    simp only [s1] at b1 b2
    norm_num at *
    omega) hsk hpk h1 h2
  simp at this

/-- Ten columns, one entry and one slot modulo 17. -/
example (pr : Profile) : ∃ e e' : Fin 10 → Fin 2, e ≠ e' ∧ ∀ msg : List Nat, msg.length = 1 → (∀ x ∈ msg, x < 2) →
    ∃ c, Pvw.encrypt pr (List.replicate 10 ⟨[3], [5]⟩) ⟨1, 1, 10, 17, 1⟩ msg (bitTape e) = .ok c ∧
      Pvw.encrypt pr (List.replicate 10 ⟨[3], [5]⟩) ⟨1, 1, 10, 17, 1⟩ msg (bitTape e') = .ok c := by
  obtain ⟨q, hq, -⟩ := Modulus.new_ok (p := 17) (by decide) (by decide)
  refine c140_selector (params := ⟨1, 1, 10, 17, 1⟩) hq pr (fun m hm => ⟨⟨[3], [5]⟩, ?_, ⟨rfl, by decide⟩, rfl, by decide⟩) (by norm_num)
  have : m < 10 := hm
  rw [List.getElem?_replicate, if_pos this]

/-- The hypothesis of `c140_selector_default`. -/
example : ∀ m, m < 16000 → ∃ c, (List.replicate 16000 (⟨List.replicate 450 7, [1, 2, 3, 4]⟩ : PvwCiphertext))[m]? = some c ∧ IsClue PvwParams.default c :=
  fun m hm => ⟨⟨List.replicate 450 7, [1, 2, 3, 4]⟩, by rw [List.getElem?_replicate, if_pos hm], ⟨rfl, by decide⟩, List.length_replicate,
    fun x hx => by rw [(List.mem_replicate.mp hx).2]; decide⟩

end OnionPIR
