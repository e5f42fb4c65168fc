import Verif.Spec.Oracle
import Verif.Props.Detect
/-
C115 (src/pvw.rs): who sees what chosen clues decrypt to can read the key, with almost the least possible number of clues.
-/
namespace OnionPIR
open Spec

namespace Oracle

theorem phase_unit {q n i b : Nat} {s : List Nat} (hi : i < n) :
    cluePhase q s ((List.range n).map fun j => if j = i then 1 else 0) b = (((b : ℤ) - (s.getD i 0 : ℤ)) % (q : ℤ)).toNat := by
  unfold cluePhase
  congr 3
  rw [List.length_map, List.length_range, Finset.sum_eq_single i]
  · rw [Pvw.getD_map_range 0 hi, if_pos rfl]; simp
  · intro j hj hne
    rw [Pvw.getD_map_range 0 (Finset.mem_range.mp hj), if_neg hne]; simp
  · intro h; exact absurd (Finset.mem_range.mpr hi) h

/-- The decision about the value asked for. -/
theorem bit_probe {q s lo L : Nat} (hq : 2 ≤ q) (hL : L ≤ q) (h1 : lo ≤ s) (h2 : s < lo + L) :
    clueBit q (((((lo + L / 2 + (q / 2 - q / 4 - 1)) % q : Nat) : ℤ) - (s : ℤ)) % (q : ℤ)).toNat = if s < lo + L / 2 then 1 else 0 := by
  have hq0 : (0 : ℤ) < q := by omega
  obtain ⟨h, hh⟩ : ∃ x, q / 2 = x := ⟨_, rfl⟩
  obtain ⟨f, hf⟩ : ∃ x, q / 4 = x := ⟨_, rfl⟩
  obtain ⟨d, hd⟩ : ∃ x, L / 2 = x := ⟨_, rfl⟩
  have e : ((((lo + L / 2 + (q / 2 - q / 4 - 1)) % q : Nat) : ℤ) - (s : ℤ)) % (q : ℤ) = ((lo + d + (h - f - 1) : Nat) - (s : ℤ)) % (q : ℤ) := by
    rw [hh, hf, hd, Int.natCast_mod, Int.emod_sub_emod]
  rw [e]
  unfold clueBit
  rw [hh, hf]
  by_cases hc : s < lo + d
  · have : ((lo + d + (h - f - 1) : Nat) - (s : ℤ)) % (q : ℤ) = ((lo + d + (h - f - 1) - s : Nat) : ℤ) := by
      rw [Nat.cast_sub (by omega)]
      refine Int.emod_eq_of_lt ?_ ?_ <;> push_cast <;> omega
    rw [this, Int.toNat_natCast, hd, if_pos hc, if_pos (by constructor <;> omega)]
  · rw [hd, if_neg hc]
    rcases Nat.lt_or_ge (lo + d + (h - f - 1)) s with h3 | h3
    · have : ((lo + d + (h - f - 1) : Nat) - (s : ℤ)) % (q : ℤ) = ((lo + d + (h - f - 1) + q - s : Nat) : ℤ) := by
        rw [← Int.add_emod_right, Nat.cast_sub (by omega)]
        push_cast
        have e2 : ((lo : ℤ) + d + ((h - f - 1 : Nat) : ℤ) - s + q) = (lo : ℤ) + d + ((h - f - 1 : Nat) : ℤ) + q - s := by ring
        rw [e2]
        refine Int.emod_eq_of_lt ?_ ?_ <;> omega
      rw [this, Int.toNat_natCast, if_neg (by omega)]
    · have : ((lo + d + (h - f - 1) : Nat) - (s : ℤ)) % (q : ℤ) = ((lo + d + (h - f - 1) - s : Nat) : ℤ) := by
        rw [Nat.cast_sub (by omega)]
        refine Int.emod_eq_of_lt ?_ ?_ <;> push_cast <;> omega
      rw [this, Int.toNat_natCast, if_neg (by omega)]

variable {params : PvwParams} {q : Modulus}

theorem probe_clue (hq : 2 ≤ params.q) (i L : Nat) {los : List Nat} (hlen : los.length = params.ell) : IsClue params (probe params i L los) := by
  refine ⟨⟨by simp [probe, hlen], fun y hy => ?_⟩, by simp [probe], fun y hy => ?_⟩
  · obtain ⟨x, -, rfl⟩ := List.mem_map.mp hy
    exact Nat.mod_lt _ (by omega)
  · obtain ⟨x, -, rfl⟩ := List.mem_map.mp hy
    split_ifs <;> omega

/-- The answer to a question and what is known afterwards. -/
theorem probe_answer (hq : Modulus.new params.q = .ok q) (pr : Profile) {sk : PvwSk} (hsk : IsPvwSk params sk) {i L : Nat} (hi : i < params.n)
    (hL : L ≤ params.q) {los : List Nat} (hlen : los.length = params.ell)
    (hlo : ∀ l, l < params.ell → los.getD l 0 ≤ (sk.getD l []).getD i 0 ∧ (sk.getD l []).getD i 0 < los.getD l 0 + L) :
    ∃ bits, Pvw.decrypt pr sk params (probe params i L los) = .ok bits ∧ (narrow L los bits).length = params.ell ∧
      ∀ l, l < params.ell → (narrow L los bits).getD l 0 ≤ (sk.getD l []).getD i 0 ∧
        (sk.getD l []).getD i 0 < (narrow L los bits).getD l 0 + (L - L / 2) := by
  obtain ⟨h2, -⟩ := Modulus.new_inv hq
  refine ⟨_, c109_decrypt hq pr hsk (probe_clue h2 i L hlen), by simp [narrow, hlen], fun l hl => ?_⟩
  obtain ⟨g1, g2⟩ := hlo l hl
  have e : (narrow L los ((List.range params.ell).map fun l => clueBit params.q (cluePhase params.q (sk.getD l []) (probe params i L los).a
      ((probe params i L los).b.getD l 0)))).getD l 0 = if (sk.getD l []).getD i 0 < los.getD l 0 + L / 2 then los.getD l 0 else los.getD l 0 + L / 2 := by
    have e1 : (probe params i L los).b.getD l 0 = (los.getD l 0 + L / 2 + (params.q / 2 - params.q / 4 - 1)) % params.q := by
      unfold probe
      rw [List.getD_eq_getElem _ _ (by simp [hlen, hl]), List.getElem_map, List.getD_eq_getElem _ _ (by omega)]
    unfold narrow
    rw [List.getD_eq_getElem _ _ (by simp [hlen, hl]), List.getElem_map, List.getElem_zip, List.getElem_map, List.getElem_range, e1]
    dsimp only
    rw [show (probe params i L los).a = (List.range params.n).map fun j => if j = i then 1 else 0 from rfl, phase_unit hi, bit_probe h2 hL g1 g2]
    rw [List.getD_eq_getElem los 0 (by omega)]
    split_ifs <;> simp_all
  rw [e]
  split_ifs <;> omega

/-- Searching one column. -/
theorem column {α : Type} (hq : Modulus.new params.q = .ok q) (pr : Profile) {sk : PvwSk} (hsk : IsPvwSk params sk) {i : Nat} (hi : i < params.n)
    {k : List Nat → Asks α} {a : α} {n : Nat} (hk : Plays pr params sk (k ((List.range params.ell).map fun l => (sk.getD l []).getD i 0)) a n) :
    ∀ (r L : Nat) (los : List Nat), L ≤ params.q → L ≤ 2 ^ r → los.length = params.ell →
      (∀ l, l < params.ell → los.getD l 0 ≤ (sk.getD l []).getD i 0 ∧ (sk.getD l []).getD i 0 < los.getD l 0 + L) →
      Plays pr params sk (readColumn params i k r L los) a (n + r)
  | 0, L, los, _, hr, hlen, hlo => by
      have e : los = (List.range params.ell).map fun l => (sk.getD l []).getD i 0 := by
        refine List.ext_getElem (by simp [hlen]) fun l h1 h2 => ?_
        have := hlo l (by omega)
        rw [List.getD_eq_getElem los 0 h1] at this
        rw [List.getElem_map, List.getElem_range]
        omega
      rw [e]
      exact hk
  | r + 1, L, los, hL, hr, hlen, hlo => by
      obtain ⟨bits, h1, h2, h3⟩ := probe_answer hq pr hsk hi hL hlen hlo
      rw [pow_succ] at hr
      exact .ask h1 (column hq pr hsk hi hk r (L - L / 2) _ (by omega) (by omega) h2 h3)

/-- Searching the remaining columns. -/
theorem columns (hq : Modulus.new params.q = .ok q) (pr : Profile) {sk : PvwSk} (hsk : IsPvwSk params sk) :
    ∀ (is : List Nat) (cols : List (List Nat)), (∀ i ∈ is, i < params.n) →
      Plays pr params sk (readColumns params is cols) ((List.range params.ell).map fun l => (cols.map fun col => col.getD l 0) ++
        is.map fun i => (sk.getD l []).getD i 0) (is.length * Nat.clog 2 params.q)
  | [], cols, _ => by
      simp only [List.map_nil, List.append_nil, List.length_nil, Nat.zero_mul]
      exact .ret _
  | i :: is, cols, h => by
      obtain ⟨h2, -⟩ := Modulus.new_inv hq
      have ih := columns hq pr hsk is (cols ++ [(List.range params.ell).map fun l => (sk.getD l []).getD i 0]) fun j hj => h j (List.mem_cons_of_mem _ hj)
      have e : ((List.range params.ell).map fun l => ((cols ++ [(List.range params.ell).map fun l => (sk.getD l []).getD i 0]).map fun col => col.getD l 0) ++
          is.map fun i => (sk.getD l []).getD i 0) =
          (List.range params.ell).map fun l => (cols.map fun col => col.getD l 0) ++ (i :: is).map fun i => (sk.getD l []).getD i 0 := by
        refine List.map_congr_left fun l hl => ?_
        rw [List.map_append, List.map_cons, List.map_nil, Pvw.getD_map_range 0 (List.mem_range.mp hl), List.append_assoc]
        rfl
      rw [e] at ih
      have := column (k := fun col => readColumns params is (cols ++ [col])) hq pr hsk (h i List.mem_cons_self) ih (Nat.clog 2 params.q) params.q
        (List.replicate params.ell 0) le_rfl (Nat.le_pow_clog (by decide) _) (by simp) fun l hl => by
          obtain ⟨s, hs, hv⟩ := hsk l hl
          have hx : (sk.getD l []).getD i 0 < params.q := by
            rw [List.getD_eq_getElem?_getD (l := sk), hs, Option.getD_some, List.getD_eq_getElem _ _ (by rw [hv.1]; exact h i List.mem_cons_self)]
            exact hv.2 _ (List.getElem_mem _)
          have h0 : (List.replicate params.ell 0).getD l 0 = 0 := by
            rw [List.getD_eq_getElem _ 0 (by simpa using hl), List.getElem_replicate]
          omega
      rw [List.length_cons, Nat.succ_mul]
      exact this

theorem clog_eq {x y : Nat} (h1 : 2 ^ y < x) (h2 : x ≤ 2 ^ (y + 1)) : Nat.clog 2 x = y + 1 := by
  refine le_antisymm ((Nat.clog_le_iff_le_pow (by decide)).mpr h2) ?_
  by_contra h
  have := (Nat.clog_le_iff_le_pow (b := 2) (x := x) (y := y) (by decide)).mp (by omega)
  omega

/-- The entries after the first `ell` ones are not touched. -/
theorem steps_inv {pr : Profile} {sk : PvwSk} {a : List Nat} : ∀ (ls : List Nat) (b b' : List Nat),
    foldR (Pvw.decryptStep pr params q sk a) b ls = .ok b' → b'.length = b.length ∧ ∀ j, j ∉ ls → b'[j]? = b[j]?
  | [], b, b', h => by obtain rfl := Except.ok.inj h; exact ⟨rfl, fun _ _ => rfl⟩
  | l :: ls, b, b', h => by
      obtain ⟨b1, h1, h2⟩ := (bind_eq_ok).mp h
      obtain ⟨g1, g2⟩ := steps_inv ls b1 b' h2
      unfold Pvw.decryptStep at h1
      obtain ⟨x1, -, h1⟩ := (bind_eq_ok).mp h1
      obtain ⟨x2, -, h1⟩ := (bind_eq_ok).mp h1
      obtain ⟨x3, -, h1⟩ := (bind_eq_ok).mp h1
      split_ifs at h1 with hc
      obtain rfl := Except.ok.inj h1
      refine ⟨by rw [g1, List.length_set], fun j hj => ?_⟩
      rw [g2 j fun h => hj (List.mem_cons_of_mem _ h)]
      exact List.getElem?_set_ne fun h => hj (by rw [h]; exact List.mem_cons_self)

/-- What an answer of any clue looks like. -/
theorem answer {pr : Profile} {c : PvwCiphertext} {sk : PvwSk} {r : List Nat} (h : Pvw.decrypt pr sk params c = .ok r) :
    r.length = c.b.length ∧ (∀ j, r.getD j 0 < 2) ∧ ∀ j, params.ell ≤ j → ∀ x, c.b[j]? = some x → ∃ y, r[j]? = some y ∧ Pvw.round pr params.q x = .ok y := by
  unfold Pvw.decrypt at h
  obtain ⟨q, -, h⟩ := (bind_eq_ok).mp h
  obtain ⟨b, h1, h⟩ := (bind_eq_ok).mp h
  obtain ⟨g1, g2⟩ := steps_inv _ _ _ h1
  obtain ⟨g3, g4⟩ := mapR_inv h
  refine ⟨g3.trans g1, fun j => ?_, fun j hj x hx => ?_⟩
  · rw [List.getD_eq_getElem?_getD]
    rcases hj : r[j]? with _ | y
    · simp
    · have hlt : j < b.length := by rw [← g3]; exact (List.getElem?_eq_some_iff.mp hj).1
      obtain ⟨y', e1, e2⟩ := g4 j _ (List.getElem?_eq_getElem hlt)
      rw [e1] at hj
      obtain rfl := Option.some.inj hj
      unfold Pvw.round at e2
      obtain ⟨u, -, e2⟩ := (bind_eq_ok).mp e2
      obtain ⟨v, -, e2⟩ := (bind_eq_ok).mp e2
      obtain rfl := Except.ok.inj e2
      exact Nat.mod_lt _ (by decide)
  · exact g4 j x (by rw [g2 j (by rw [List.mem_range]; omega), hx])

/-- The keys that a program with at most `k` questions finds out. -/
theorem count (pr : Profile) :
    ∀ (P : Asks PvwSk) (k : Nat) (S : Finset PvwSk), (∀ sk ∈ S, ∃ n, n ≤ k ∧ Plays pr params sk P sk n) →
      S.card ≤ (2 ^ params.ell) ^ k
  | .ret a, k, S, h => by
      have : S ⊆ {a} := by
        intro sk hs
        obtain ⟨n, -, hp⟩ := h sk hs
        cases hp
        simp
      calc S.card ≤ 1 := by simpa using Finset.card_le_card this
        _ ≤ _ := Nat.one_le_pow _ _ (by positivity)
  | .ask c f, 0, S, h => by
      have : S = ∅ := by
        refine Finset.eq_empty_of_forall_notMem fun sk hs => ?_
        obtain ⟨n, hn, hp⟩ := h sk hs
        cases hp
        omega
      rw [this]
      simp
  | .ask c f, k + 1, S, h => by
      classical
      let A : PvwSk → List Nat := fun sk => match Pvw.decrypt pr sk params c with
        | .ok r => r
        | .error _ => []
      have hA : ∀ sk ∈ S, Pvw.decrypt pr sk params c = .ok (A sk) ∧ ∃ n, n ≤ k ∧ Plays pr params sk (f (A sk)) sk n := by
        intro sk hs
        obtain ⟨n, hn, hp⟩ := h sk hs
        cases hp with
        | @ask _ _ r _ n h1 h2 =>
          have e : A sk = r := by simp only [A, h1]
          rw [e]
          exact ⟨h1, n, by omega, h2⟩
      have h1 : (S.image A).card ≤ 2 ^ params.ell := by
        have : (S.image A).card ≤ (Finset.univ : Finset (Fin params.ell → Fin 2)).card := by
          refine Finset.card_le_card_of_injOn (fun r l => ⟨r.getD l 0 % 2, Nat.mod_lt _ (by decide)⟩) (fun _ _ => Finset.mem_coe.mpr (Finset.mem_univ _)) ?_
          intro r hr r' hr' he
          obtain ⟨sk, hs, rfl⟩ := Finset.mem_image.mp (Finset.mem_coe.mp hr)
          obtain ⟨sk', hs', rfl⟩ := Finset.mem_image.mp (Finset.mem_coe.mp hr')
          obtain ⟨a1, a2, a3⟩ := answer (hA sk hs).1
          obtain ⟨b1, b2, b3⟩ := answer (hA sk' hs').1
          refine List.ext_getElem (a1.trans b1.symm) fun j l1 l2 => ?_
          by_cases hj : j < params.ell
          · have e1 := congrArg Fin.val (congrFun he ⟨j, hj⟩)
            simp only [Nat.mod_eq_of_lt (a2 j), Nat.mod_eq_of_lt (b2 j)] at e1
            rwa [List.getD_eq_getElem _ _ l1, List.getD_eq_getElem _ _ l2] at e1
          · have hlt : j < c.b.length := by omega
            obtain ⟨y, e1, e2⟩ := a3 j (by omega) _ (List.getElem?_eq_getElem hlt)
            obtain ⟨z, e3, e4⟩ := b3 j (by omega) _ (List.getElem?_eq_getElem hlt)
            rw [List.getElem?_eq_getElem l1] at e1
            rw [List.getElem?_eq_getElem l2] at e3
            rw [Option.some.inj e1, Option.some.inj e3]
            exact Except.ok.inj (e2.symm.trans e4)
        simpa using this
      have h2 := Finset.card_le_mul_card_image (f := A) S ((2 ^ params.ell) ^ k) fun r hr =>
        count pr (f r) k _ fun sk hs => by
          obtain ⟨hs', rfl⟩ := Finset.mem_filter.mp hs
          exact (hA sk hs').2
      calc S.card ≤ (2 ^ params.ell) ^ k * (S.image A).card := h2
        _ ≤ (2 ^ params.ell) ^ k * 2 ^ params.ell := Nat.mul_le_mul_left _ h1
        _ = _ := (pow_succ _ _).symm

end Oracle

variable {params : PvwParams} {q : Modulus}

/-- C115: a program that depends on the parameters only finds out every key with `n ⌈log₂ q⌉` questions. -/
theorem c115_read (hq : Modulus.new params.q = .ok q) (pr : Profile) {sk : PvwSk} (hlen : sk.length = params.ell) (hsk : IsPvwSk params sk) :
    Plays pr params sk (readKey params) sk (params.n * Nat.clog 2 params.q) := by
  have h := Oracle.columns hq pr hsk (List.range params.n) [] fun i hi => List.mem_range.mp hi
  rw [List.length_range] at h
  have e : ((List.range params.ell).map fun l => (([] : List (List Nat)).map fun col => col.getD l 0) ++
      (List.range params.n).map fun i => (sk.getD l []).getD i 0) = sk := by
    refine List.ext_getElem (by simp [hlen]) fun l h1 h2 => ?_
    obtain ⟨s, hs, hv⟩ := hsk l (by omega)
    rw [List.getElem_map, List.getElem_range, List.map_nil, List.nil_append]
    rw [List.getElem?_eq_getElem h2] at hs
    obtain rfl := Option.some.inj hs
    refine List.ext_getElem (by simp [hv.1]) fun i g1 g2 => ?_
    rw [List.getElem_map, List.getElem_range, List.getD_eq_getElem sk _ h2, List.getD_eq_getElem _ _ g2]
  rw [e] at h
  exact h

/-- C115: the same for the keys of `gen_sk` with the default parameters: 7650 questions. -/
theorem c115_default (pr : Profile) (S : Fin 4 → Fin 450 → Fin 65537) :
    ∃ sk, Pvw.genSk PvwParams.default (tableTape S) = .ok sk ∧ Plays pr PvwParams.default sk (readKey PvwParams.default) sk 7650 := by
  obtain ⟨q, hq, -⟩ := Modulus.new_ok (p := PvwParams.default.q) (by decide) (by decide)
  refine ⟨(List.range PvwParams.default.ell).map fun l => Pvw.randomVec PvwParams.default.n (tableTape S l), ?_, ?_⟩
  · unfold Pvw.genSk; rw [hq]; rfl
  · have h := c115_read hq pr (sk := (List.range PvwParams.default.ell).map fun l => Pvw.randomVec PvwParams.default.n (tableTape S l)) (by simp)
      fun l hl => ⟨Pvw.randomVec PvwParams.default.n (tableTape S l), by rw [List.getElem?_map, List.getElem?_range hl]; rfl, by simp [Pvw.randomVec],
        fun y hy => by
          obtain ⟨i, -, rfl⟩ := List.mem_map.mp hy
          unfold tableTape
          split_ifs
          · exact Fin.isLt _
          · decide⟩
    have e : PvwParams.default.n * Nat.clog 2 PvwParams.default.q = 7650 := by
      show 450 * Nat.clog 2 65537 = 7650
      rw [show Nat.clog 2 65537 = 17 from Oracle.clog_eq (by norm_num) (by norm_num)]
    rw [e] at h
    exact h

/-- C115: no program finds out every key with less than `n log₂ q` questions. -/
theorem c115_optimal (hq : Modulus.new params.q = .ok q) (pr : Profile) (hell : 0 < params.ell) {P : Asks PvwSk} {k : Nat}
    (hP : ∀ S : Fin params.ell → Fin params.n → Fin params.q, ∃ sk n, Pvw.genSk params (tableTape S) = .ok sk ∧ n ≤ k ∧ Plays pr params sk P sk n) :
    params.q ^ params.n ≤ 2 ^ k := by
  classical
  let g : (Fin params.ell → Fin params.n → Fin params.q) → PvwSk := fun S => (List.range params.ell).map fun l => Pvw.randomVec params.n (tableTape S l)
  have hg : ∀ S, Pvw.genSk params (tableTape S) = .ok (g S) := fun S => by unfold Pvw.genSk; rw [hq]; rfl
  have hinj : Function.Injective g := by
    intro S S' h
    funext l i
    have e : ∀ T : Fin params.ell → Fin params.n → Fin params.q, ((g T).getD l []).getD i 0 = T l i := fun T => by
      simp only [g]
      rw [Pvw.getD_map_range [] l.isLt, Pvw.randomVec_getD i.isLt]
      unfold tableTape
      rw [dif_pos ⟨l.isLt, i.isLt⟩]
    exact Fin.ext (by rw [← e S, ← e S', h])
  have h := Oracle.count (params := params) pr P k (Finset.univ.image g) fun sk hs => by
    obtain ⟨S, -, rfl⟩ := Finset.mem_image.mp hs
    obtain ⟨sk, n, h1, h2, h3⟩ := hP S
    obtain rfl := Except.ok.inj ((hg S).symm.trans h1)
    exact ⟨n, h2, h3⟩
  rw [Finset.card_image_of_injective _ hinj, Finset.card_univ, Fintype.card_pi, Finset.prod_const, Fintype.card_pi, Finset.prod_const] at h
  simp only [Finset.card_univ, Fintype.card_fin] at h
  rw [← pow_mul 2, Nat.mul_comm params.ell k, pow_mul 2] at h
  exact (Nat.pow_le_pow_iff_left (by omega)).mp h

/-- Reading a key with the default parameters takes 7650 questions; no program needs less than 7200. -/
example : (∃ sk, Pvw.genSk PvwParams.default (tableTape fun (l : Fin 4) (i : Fin 450) => (⟨100 * l + i, by omega⟩ : Fin 65537)) = .ok sk ∧
      Plays .debug PvwParams.default sk (readKey PvwParams.default) sk 7650) ∧
    ∀ (P : Asks PvwSk) (k : Nat), (∀ S : Fin 4 → Fin 450 → Fin 65537, ∃ sk n, Pvw.genSk PvwParams.default (tableTape S) = .ok sk ∧ n ≤ k ∧
      Plays .release PvwParams.default sk P sk n) → 7200 ≤ k := by
  refine ⟨c115_default .debug _, fun P k h => ?_⟩
  obtain ⟨q, hq, -⟩ := Modulus.new_ok (p := PvwParams.default.q) (by decide) (by decide)
  have h1 : 65537 ^ 450 ≤ 2 ^ k := c115_optimal hq .release (by decide) h
  have h2 : 2 ^ 7200 ≤ 65537 ^ 450 := by
    calc 2 ^ 7200 = (2 ^ 16) ^ 450 := by rw [← pow_mul]
      _ ≤ _ := Nat.pow_le_pow_left (by norm_num) _
  exact (Nat.pow_le_pow_iff_right (by decide)).mp (h2.trans h1)

/-- A small key is read. -/
example : Plays .debug ⟨2, 2, 4, 97, 1⟩ [[5, 96], [0, 48]] (readKey ⟨2, 2, 4, 97, 1⟩) [[5, 96], [0, 48]] 14 := by
  obtain ⟨q, hq, -⟩ := Modulus.new_ok (p := 97) (by decide) (by decide)
  have h := c115_read (params := ⟨2, 2, 4, 97, 1⟩) hq .debug (sk := [[5, 96], [0, 48]]) rfl fun l hl => by
    rcases (show l = 0 ∨ l = 1 from by have : l < 2 := hl; omega) with rfl | rfl
    · exact ⟨_, rfl, rfl, by simp⟩
    · exact ⟨_, rfl, rfl, by simp⟩
  rwa [show (2 : Nat) * Nat.clog 2 97 = 14 from by rw [Oracle.clog_eq (y := 6) (by norm_num) (by norm_num)]] at h

end OnionPIR
