import Verif.Spec.Reaction
import Verif.Props.Oracle
/-
C118 (src/pvw.rs): who sees only which clues a recipient accepts can read the key too.
-/
namespace OnionPIR
open Spec

namespace Reaction

/-- The bit that entry `s` of the key gives for the value `b`. -/
def bit (q s b : Nat) : Nat := clueBit q (((b : ℤ) - (s : ℤ)) % (q : ℤ)).toNat

theorem bit_lt (q s b : Nat) : bit q s b < 2 := by
  unfold bit clueBit
  split_ifs <;> omega

/-- For every entry and every bit, one of the three shifts gives the bit. -/
theorem exists_shift {q s x : Nat} (hq : 2 ≤ q) (hs : s < q) (hx : x < 2) : ∃ b ∈ [0, q / 2, 2 * (q / 2) % q], bit q s b = x := by
  obtain ⟨h, hh⟩ : ∃ h, q / 2 = h := ⟨_, rfl⟩
  obtain ⟨f, hf⟩ : ∃ f, q / 4 = f := ⟨_, rfl⟩
  have key : ∀ b : Nat, b ≤ q → bit q s (b % q) = if h - f ≤ (if s ≤ b ∧ ¬ b = s + q then b - s else if s ≤ b then 0 else b + q - s) ∧
      (if s ≤ b ∧ ¬ b = s + q then b - s else if s ≤ b then 0 else b + q - s) < 2 * h - f then 1 else 0 := by
    intro b hb
    have e : ((((b % q : Nat) : ℤ) - (s : ℤ)) % (q : ℤ)).toNat = if s ≤ b ∧ ¬ b = s + q then b - s else if s ≤ b then 0 else b + q - s := by
      rw [Int.natCast_mod, Int.emod_sub_emod]
      by_cases h1 : s ≤ b
      · by_cases h2 : b = s + q
        · rw [if_neg (by tauto), if_pos h1, h2]
          push_cast
          simp
        · rw [if_pos ⟨h1, h2⟩, ← Nat.cast_sub h1, ← Int.natCast_mod, Int.toNat_natCast]
          exact Nat.mod_eq_of_lt (by omega)
      · rw [if_neg (by tauto), if_neg h1, ← Int.add_emod_right,
          show (b : ℤ) - s + q = ((b + q - s : Nat) : ℤ) by rw [Nat.cast_sub (by omega)]; push_cast; ring, ← Int.natCast_mod, Int.toNat_natCast]
        exact Nat.mod_eq_of_lt (by omega)
    unfold bit clueBit
    rw [e, hh, hf]
  have k0 := key 0 (by omega)
  have k1 := key h (by omega)
  have k2 := key (2 * h) (by omega)
  rw [Nat.zero_mod] at k0
  rw [Nat.mod_eq_of_lt (by omega)] at k1
  rw [hh]
  have hcase : bit q s 0 = x ∨ bit q s h = x ∨ bit q s (2 * h % q) = x := by
    rw [k0, k1, k2]
    rcases (show x = 0 ∨ x = 1 by omega) with rfl | rfl
    · split_ifs <;> omega
    · split_ifs <;> omega
  rcases hcase with e | e | e
  · exact ⟨0, by simp, e⟩
  · exact ⟨h, by simp, e⟩
  · exact ⟨_, by simp, e⟩

theorem shifts_length (q : Nat) : ∀ n, (shifts q n).length = 3 ^ n
  | 0 => rfl
  | n + 1 => by
      simp only [shifts, List.flatMap_cons, List.flatMap_nil, List.length_append, List.length_map, List.length_nil, shifts_length q n]
      rw [pow_succ]; omega

theorem mem_shifts {q : Nat} (hq : 2 ≤ q) : ∀ {n : Nat} {b : List Nat}, b ∈ shifts q n → b.length = n ∧ ∀ y ∈ b, y < q
  | 0, b, h => by
      simp only [shifts, List.mem_singleton] at h
      subst h
      simp
  | n + 1, b, h => by
      simp only [shifts, List.mem_flatMap, List.mem_map] at h
      obtain ⟨x, hx, b', hb', rfl⟩ := h
      obtain ⟨h1, h2⟩ := mem_shifts hq hb'
      refine ⟨by simp [h1], fun y hy => ?_⟩
      rcases List.mem_cons.mp hy with rfl | hy
      · simp only [List.mem_cons, List.not_mem_nil, or_false] at hx
        rcases hx with rfl | rfl | rfl
        · omega
        · omega
        · exact Nat.mod_lt _ (by omega)
      · exact h2 y hy

/-- One of the vectors gives the bits wanted. -/
theorem exists_shifts {q : Nat} (hq : 2 ≤ q) : ∀ (n : Nat) (s x : Nat → Nat), (∀ l, l < n → s l < q) → (∀ l, l < n → x l < 2) →
    ∃ b ∈ shifts q n, ∀ l, l < n → bit q (s l) (b.getD l 0) = x l
  | 0, s, x, _, _ => ⟨[], by simp [shifts], fun l hl => absurd hl (by omega)⟩
  | n + 1, s, x, hs, hx => by
      obtain ⟨y, y1, y2⟩ := exists_shift hq (hs 0 (by omega)) (hx 0 (by omega))
      obtain ⟨b, b1, b2⟩ := exists_shifts hq n (fun l => s (l + 1)) (fun l => x (l + 1)) (fun l hl => hs _ (by omega)) fun l hl => hx _ (by omega)
      refine ⟨y :: b, ?_, fun l hl => ?_⟩
      · simp only [shifts, List.mem_flatMap, List.mem_map]
        exact ⟨y, y1, b, b1, rfl⟩
      · cases l with
        | zero => simpa using y2
        | succ l => simpa using b2 l (by omega)

variable {params : PvwParams} {q : Modulus}

/-- What the key makes of a clue with a unit vector. -/
theorem decrypt_unit (hq : Modulus.new params.q = .ok q) (pr : Profile) {sk : PvwSk} (hsk : IsPvwSk params sk) {i : Nat} (hi : i < params.n)
    {b : List Nat} (hb : b.length = params.ell) (hlt : ∀ y ∈ b, y < params.q) :
    Pvw.decrypt pr sk params (unitClue params i b) =
      .ok ((List.range params.ell).map fun l => bit params.q ((sk.getD l []).getD i 0) (b.getD l 0)) := by
  obtain ⟨h2, -⟩ := Modulus.new_inv hq
  have hc : IsClue params (unitClue params i b) := by
    refine ⟨⟨hb, hlt⟩, by simp [unitClue], fun y hy => ?_⟩
    obtain ⟨x, -, rfl⟩ := List.mem_map.mp hy
    split_ifs <;> omega
  rw [c109_decrypt hq pr hsk hc]
  congr 1
  refine List.map_congr_left fun l _ => ?_
  unfold bit
  rw [show (unitClue params i b).a = (List.range params.n).map fun j => if j = i then 1 else 0 from rfl, Oracle.phase_unit hi]
  rfl

/-- The clue with the second part `b` is accepted. -/
def Good (params : PvwParams) (msg : List Nat) (sk : PvwSk) (i : Nat) (b : List Nat) : Prop :=
  ∀ l, l < params.ell → bit params.q ((sk.getD l []).getD i 0) (b.getD l 0) = msg.getD l 0

theorem eq_msg_iff {msg : List Nat} (hm : msg.length = params.ell) (sk : PvwSk) (i : Nat) (b : List Nat) :
    ((List.range params.ell).map fun l => bit params.q ((sk.getD l []).getD i 0) (b.getD l 0)) = msg ↔ Good params msg sk i b := by
  constructor
  · intro h l hl
    rw [← h, Pvw.getD_map_range 0 hl]
  · intro h
    refine List.ext_getElem (by simp [hm]) fun l h1 h2 => ?_
    rw [List.getElem_map, List.getElem_range, h l (by omega), List.getD_eq_getElem _ _ h2]

section
variable {α : Type} {msg : List Nat} {sk : PvwSk} {i : Nat} {pr : Profile}

/-- Trying until one is accepted. -/
theorem all (hq : Modulus.new params.q = .ok q) (hsk : IsPvwSk params sk) (hm : msg.length = params.ell) (hi : i < params.n)
    {k : List Nat → Tries α} {a : α} {M : Nat} (hk : ∀ b, b.length = params.ell → (∀ y ∈ b, y < params.q) → Good params msg sk i b →
      ∃ m, m ≤ M ∧ Reacts pr params msg sk (k b) a m) :
    ∀ bs : List (List Nat), (∀ b ∈ bs, b.length = params.ell ∧ ∀ y ∈ b, y < params.q) → (∃ b ∈ bs, Good params msg sk i b) →
      ∃ m, m ≤ M + bs.length ∧ Reacts pr params msg sk (tryAll params i k bs) a m
  | [], _, h => by obtain ⟨b, hb, -⟩ := h; simp at hb
  | b :: bs, hbs, h => by
      obtain ⟨h1, h2⟩ := hbs b List.mem_cons_self
      have hd := decrypt_unit hq pr hsk hi h1 h2
      by_cases hg : Good params msg sk i b
      · obtain ⟨m, m1, m2⟩ := hk b h1 h2 hg
        rw [(eq_msg_iff hm sk i b).mpr hg] at hd
        exact ⟨m + 1, by rw [List.length_cons]; omega, .yes hd m2⟩
      · obtain ⟨m, m1, m2⟩ := all hq hsk hm hi hk bs (fun b' hb' => hbs b' (List.mem_cons_of_mem _ hb')) (by
          obtain ⟨b', hb', g⟩ := h
          rcases List.mem_cons.mp hb' with rfl | hb'
          · exact absurd g hg
          · exact ⟨b', hb', g⟩)
        exact ⟨m + 1, by rw [List.length_cons]; omega, .no hd (fun e => hg ((eq_msg_iff hm sk i b).mp e)) m2⟩

/-- Bisection of one entry. -/
theorem entry (hq : Modulus.new params.q = .ok q) (hsk : IsPvwSk params sk) (hm : msg.length = params.ell) (hmb : ∀ x ∈ msg, x < 2)
    (hi : i < params.n) {b : List Nat} (hb : b.length = params.ell) (hlt : ∀ y ∈ b, y < params.q) (hg : Good params msg sk i b) {l : Nat}
    (hl : l < params.ell) {k : Nat → Tries α} {a : α} {n : Nat} (hk : Reacts pr params msg sk (k ((sk.getD l []).getD i 0)) a n) :
    ∀ r L lo, L ≤ params.q → L ≤ 2 ^ r → lo ≤ (sk.getD l []).getD i 0 → (sk.getD l []).getD i 0 < lo + L →
      Reacts pr params msg sk (tryEntry params i l (msg.getD l 0) b k r L lo) a (n + r)
  | 0, L, lo, _, hr, h1, h2 => by
      have : lo = (sk.getD l []).getD i 0 := by omega
      rw [this]
      exact hk
  | r + 1, L, lo, hL, hr, h1, h2 => by
      obtain ⟨hq2, -⟩ := Modulus.new_inv hq
      obtain ⟨v, hv⟩ : ∃ v, (lo + L / 2 + (params.q / 2 - params.q / 4 - 1)) % params.q = v := ⟨_, rfl⟩
      have hvq : v < params.q := by rw [← hv]; exact Nat.mod_lt _ (by omega)
      have hd := decrypt_unit hq pr hsk hi (b := b.set l v) (by simpa using hb) (fun y hy => by
        rcases List.mem_or_eq_of_mem_set hy with hy | rfl
        · exact hlt y hy
        · exact hvq)
      have hbit : bit params.q ((sk.getD l []).getD i 0) v = if (sk.getD l []).getD i 0 < lo + L / 2 then 1 else 0 := by
        unfold bit
        rw [← hv]
        exact Oracle.bit_probe hq2 hL h1 h2
      have hgood : Good params msg sk i (b.set l v) ↔ (if (sk.getD l []).getD i 0 < lo + L / 2 then 1 else 0) = msg.getD l 0 := by
        constructor
        · intro h
          have := h l hl
          rwa [List.getD_eq_getElem?_getD (l := b.set l v), List.getElem?_set_self (by omega), Option.getD_some, hbit] at this
        · intro h l' hl'
          by_cases e : l' = l
          · subst e
            rw [List.getD_eq_getElem?_getD (l := b.set l' v), List.getElem?_set_self (by omega), Option.getD_some, hbit, h]
          · rw [List.getD_eq_getElem?_getD (l := b.set l v), List.getElem?_set_ne (fun h => e h.symm), ← List.getD_eq_getElem?_getD]
            exact hg l' hl'
      have hx : msg.getD l 0 < 2 := by
        rw [List.getD_eq_getElem _ _ (by omega)]
        exact hmb _ (List.getElem_mem _)
      rw [pow_succ] at hr
      have go : ∀ lo', lo' ≤ (sk.getD l []).getD i 0 → (sk.getD l []).getD i 0 < lo' + (L - L / 2) →
          Reacts pr params msg sk (tryEntry params i l (msg.getD l 0) b k r (L - L / 2) lo') a (n + r) :=
        fun lo' g1 g2 => entry hq hsk hm hmb hi hb hlt hg hl hk r (L - L / 2) lo' (by omega) (by omega) g1 g2
      rw [tryEntry, hv]
      by_cases hG : Good params msg sk i (b.set l v)
      · have e := hgood.mp hG
        rw [(eq_msg_iff hm sk i _).mpr hG] at hd
        refine .yes hd (go _ ?_ ?_) <;> split_ifs at e ⊢ <;> omega
      · have e : ¬ (if (sk.getD l []).getD i 0 < lo + L / 2 then 1 else 0) = msg.getD l 0 := fun h => hG (hgood.mpr h)
        refine .no hd (fun h => hG ((eq_msg_iff hm sk i _).mp h)) (go _ ?_ ?_) <;> split_ifs at e ⊢ <;> omega

/-- One column. -/
theorem rows (hq : Modulus.new params.q = .ok q) (hsk : IsPvwSk params sk) (hm : msg.length = params.ell) (hmb : ∀ x ∈ msg, x < 2)
    (hi : i < params.n) {b : List Nat} (hb : b.length = params.ell) (hlt : ∀ y ∈ b, y < params.q) (hg : Good params msg sk i b)
    {k : List Nat → Tries α} {a : α} {n : Nat} :
    ∀ (ls : List Nat) (col : List Nat), (∀ l ∈ ls, l < params.ell) →
      Reacts pr params msg sk (k (col ++ ls.map fun l => (sk.getD l []).getD i 0)) a n →
      Reacts pr params msg sk (tryRows params msg i b k ls col) a (n + ls.length * Nat.clog 2 params.q)
  | [], col, _, h => by simpa [tryRows] using h
  | l :: ls, col, hls, h => by
      have hl := hls l List.mem_cons_self
      have ih := rows hq hsk hm hmb hi hb hlt hg ls (col ++ [(sk.getD l []).getD i 0])
        (fun l' h' => hls l' (List.mem_cons_of_mem _ h')) (by simpa using h)
      have hx : (sk.getD l []).getD i 0 < params.q := by
        obtain ⟨s, hs, hv⟩ := hsk l hl
        rw [List.getD_eq_getElem?_getD (l := sk), hs, Option.getD_some, List.getD_eq_getElem _ _ (by rw [hv.1]; exact hi)]
        exact hv.2 _ (List.getElem_mem _)
      have := entry hq hsk hm hmb hi hb hlt hg hl (k := fun s => tryRows params msg i b k ls (col ++ [s])) ih (Nat.clog 2 params.q) params.q 0 le_rfl
        (Nat.le_pow_clog (by decide) _) (Nat.zero_le _) (by omega)
      rw [List.length_cons, Nat.succ_mul, ← Nat.add_assoc]
      exact this

end

theorem columns (hq : Modulus.new params.q = .ok q) (pr : Profile) {sk : PvwSk} (hsk : IsPvwSk params sk) {msg : List Nat}
    (hm : msg.length = params.ell) (hmb : ∀ x ∈ msg, x < 2) :
    ∀ (is : List Nat) (cols : List (List Nat)), (∀ i ∈ is, i < params.n) →
      ∃ n, n ≤ is.length * (3 ^ params.ell + params.ell * Nat.clog 2 params.q) ∧ Reacts pr params msg sk (tryColumns params msg is cols)
        ((List.range params.ell).map fun l => (cols.map fun col => col.getD l 0) ++ is.map fun i => (sk.getD l []).getD i 0) n
  | [], cols, _ => by
      simp only [List.map_nil, List.append_nil, List.length_nil, Nat.zero_mul]
      exact ⟨0, le_rfl, .ret _⟩
  | i :: is, cols, h => by
      obtain ⟨h2, -⟩ := Modulus.new_inv hq
      have hi := h i List.mem_cons_self
      obtain ⟨m, m1, m2⟩ := columns hq pr hsk hm hmb is (cols ++ [(List.range params.ell).map fun l => (sk.getD l []).getD i 0])
        fun j hj => h j (List.mem_cons_of_mem _ hj)
      have e : ((List.range params.ell).map fun l => ((cols ++ [(List.range params.ell).map fun l => (sk.getD l []).getD i 0]).map fun col => col.getD l 0) ++
          is.map fun i => (sk.getD l []).getD i 0) =
          (List.range params.ell).map fun l => (cols.map fun col => col.getD l 0) ++ (i :: is).map fun i => (sk.getD l []).getD i 0 := by
        refine List.map_congr_left fun l hl => ?_
        rw [List.map_append, List.map_cons, List.map_nil, Pvw.getD_map_range 0 (List.mem_range.mp hl), List.append_assoc]
        rfl
      rw [e] at m2
      obtain ⟨b, b1, b2⟩ := exists_shifts h2 params.ell (fun l => (sk.getD l []).getD i 0) (fun l => msg.getD l 0) (fun l hl => by
          obtain ⟨s, hs, hv⟩ := hsk l hl
          rw [List.getD_eq_getElem?_getD (l := sk), hs, Option.getD_some, List.getD_eq_getElem _ _ (by rw [hv.1]; exact hi)]
          exact hv.2 _ (List.getElem_mem _))
        fun l hl => by
          rw [List.getD_eq_getElem _ _ (by omega)]
          exact hmb _ (List.getElem_mem _)
      obtain ⟨n, n1, n2⟩ := all (pr := pr) hq hsk hm hi (M := m + params.ell * Nat.clog 2 params.q)
        (k := fun b => tryRows params msg i b (fun col => tryColumns params msg is (cols ++ [col])) (List.range params.ell) [])
        (fun b hb hlt hg => by
          have := rows (pr := pr) hq hsk hm hmb hi hb hlt hg (k := fun col => tryColumns params msg is (cols ++ [col])) (List.range params.ell) []
            (fun l hl => List.mem_range.mp hl) (by simpa using m2)
          rw [List.length_range] at this
          exact ⟨_, le_rfl, this⟩)
        (shifts params.q params.ell) (fun b hb => mem_shifts h2 hb) ⟨b, b1, b2⟩
      refine ⟨n, ?_, n2⟩
      rw [shifts_length] at n1
      rw [List.length_cons, Nat.succ_mul]
      omega

/-- The keys that a program finds out with at most `k` clues. -/
theorem count (pr : Profile) (msg : List Nat) :
    ∀ (P : Tries PvwSk) (k : Nat) (S : Finset PvwSk), (∀ sk ∈ S, ∃ n, n ≤ k ∧ Reacts pr params msg sk P sk n) → S.card ≤ 2 ^ k
  | .ret a, k, S, h => by
      have : S ⊆ {a} := by
        intro sk hs
        obtain ⟨n, -, hp⟩ := h sk hs
        cases hp
        simp
      calc S.card ≤ 1 := by simpa using Finset.card_le_card this
        _ ≤ _ := Nat.one_le_pow _ _ (by positivity)
  | .show c u v, 0, S, h => by
      have : S = ∅ := by
        refine Finset.eq_empty_of_forall_notMem fun sk hs => ?_
        obtain ⟨n, hn, hp⟩ := h sk hs
        cases hp <;> omega
      rw [this]
      simp
  | .show c u v, k + 1, S, h => by
      classical
      have h1 := count pr msg u k (S.filter fun sk => Pvw.decrypt pr sk params c = .ok msg) fun sk hs => by
        obtain ⟨hs', hd⟩ := Finset.mem_filter.mp hs
        obtain ⟨n, hn, hp⟩ := h sk hs'
        cases hp with
        | yes _ hp => exact ⟨_, by omega, hp⟩
        | no hd' hne _ => exact absurd (Except.ok.inj (hd'.symm.trans hd)) hne
      have h2 := count pr msg v k (S.filter fun sk => ¬ Pvw.decrypt pr sk params c = .ok msg) fun sk hs => by
        obtain ⟨hs', hd⟩ := Finset.mem_filter.mp hs
        obtain ⟨n, hn, hp⟩ := h sk hs'
        cases hp with
        | yes hd' _ => exact absurd hd' hd
        | no _ _ hp => exact ⟨_, by omega, hp⟩
      have h3 := Finset.card_filter_add_card_filter_not (s := S) fun sk => Pvw.decrypt pr sk params c = .ok msg
      rw [pow_succ]
      omega

end Reaction

variable {params : PvwParams} {q : Modulus}

/-- C118: a program that depends only on the parameters and the accepted message, and sees only which clues are accepted, finds out every key
with at most `n (3^ell + ell ⌈log₂ q⌉)` clues. -/
theorem c118_read (hq : Modulus.new params.q = .ok q) (pr : Profile) {msg : List Nat} (hm : msg.length = params.ell) (hmb : ∀ x ∈ msg, x < 2)
    {sk : PvwSk} (hlen : sk.length = params.ell) (hsk : IsPvwSk params sk) :
    ∃ n, n ≤ params.n * (3 ^ params.ell + params.ell * Nat.clog 2 params.q) ∧ Reacts pr params msg sk (reactKey params msg) sk n := by
  obtain ⟨n, n1, n2⟩ := Reaction.columns hq pr hsk hm hmb (List.range params.n) [] fun i hi => List.mem_range.mp hi
  rw [List.length_range] at n1
  refine ⟨n, n1, ?_⟩
  have e : ((List.range params.ell).map fun l => (([] : List (List Nat)).map fun col => col.getD l 0) ++
      (List.range params.n).map fun i => (sk.getD l []).getD i 0) = sk := by
    refine List.ext_getElem (by simp [hlen]) fun l h1 h2 => ?_
    obtain ⟨s, hs, hv⟩ := hsk l (by omega)
    rw [List.getElem_map, List.getElem_range, List.map_nil, List.nil_append]
    rw [List.getElem?_eq_getElem h2] at hs
    obtain rfl := Option.some.inj hs
    refine List.ext_getElem (by simp [hv.1]) fun i g1 g2 => ?_
    rw [List.getElem_map, List.getElem_range, List.getD_eq_getElem sk _ h2, List.getD_eq_getElem _ _ g2]
  rw [e] at n2
  exact n2

/-- C118: the same for the keys of `gen_sk` with the default parameters: at most 67050 clues. -/
theorem c118_default (pr : Profile) {msg : List Nat} (hm : msg.length = 4) (hmb : ∀ x ∈ msg, x < 2) (S : Fin 4 → Fin 450 → Fin 65537) :
    ∃ sk n, Pvw.genSk PvwParams.default (tableTape S) = .ok sk ∧ n ≤ 67050 ∧
      Reacts pr PvwParams.default msg sk (reactKey PvwParams.default msg) sk n := by
  obtain ⟨q, hq, -⟩ := Modulus.new_ok (p := PvwParams.default.q) (by decide) (by decide)
  obtain ⟨n, n1, n2⟩ := c118_read hq pr hm hmb (sk := (List.range PvwParams.default.ell).map fun l => Pvw.randomVec PvwParams.default.n (tableTape S l))
    (by simp) fun l hl => ⟨Pvw.randomVec PvwParams.default.n (tableTape S l), by rw [List.getElem?_map, List.getElem?_range hl]; rfl, by simp [Pvw.randomVec],
      fun y hy => by
        obtain ⟨i, -, rfl⟩ := List.mem_map.mp hy
        unfold tableTape
        split_ifs
        · exact Fin.isLt _
        · decide⟩
  refine ⟨_, n, by unfold Pvw.genSk; rw [hq]; rfl, ?_, n2⟩
  have e : PvwParams.default.n * (3 ^ PvwParams.default.ell + PvwParams.default.ell * Nat.clog 2 PvwParams.default.q) = 67050 := by
    show 450 * (3 ^ 4 + 4 * Nat.clog 2 65537) = 67050
    rw [show Nat.clog 2 65537 = 17 from Oracle.clog_eq (by norm_num) (by norm_num)]
    norm_num
  omega

/-- C118: no program finds out every key with less than `n ell log₂ q` clues. -/
theorem c118_optimal (hq : Modulus.new params.q = .ok q) (pr : Profile) {msg : List Nat} {P : Tries PvwSk} {k : Nat}
    (hP : ∀ S : Fin params.ell → Fin params.n → Fin params.q, ∃ sk n, Pvw.genSk params (tableTape S) = .ok sk ∧ n ≤ k ∧
      Reacts pr params msg sk P sk n) :
    params.q ^ (params.n * params.ell) ≤ 2 ^ k := by
  classical
  let g : (Fin params.ell → Fin params.n → Fin params.q) → PvwSk := fun S => (List.range params.ell).map fun l => Pvw.randomVec params.n (tableTape S l)
  have hg : ∀ S, Pvw.genSk params (tableTape S) = .ok (g S) := fun S => by unfold Pvw.genSk; rw [hq]; rfl
  have hinj : Function.Injective g := by
    intro S S' h
    funext l i
    have e : ∀ T : Fin params.ell → Fin params.n → Fin params.q, ((g T).getD l []).getD i 0 = T l i := fun T => by
      simp only [g]
      rw [Pvw.getD_map_range [] l.isLt, Pvw.randomVec_getD i.isLt]
      unfold tableTape
      rw [dif_pos ⟨l.isLt, i.isLt⟩]
    exact Fin.ext (by rw [← e S, ← e S', h])
  have h := Reaction.count (params := params) pr msg P k (Finset.univ.image g) fun sk hs => by
    obtain ⟨S, -, rfl⟩ := Finset.mem_image.mp hs
    obtain ⟨sk, n, h1, h2, h3⟩ := hP S
    obtain rfl := Except.ok.inj ((hg S).symm.trans h1)
    exact ⟨n, h2, h3⟩
  rw [Finset.card_image_of_injective _ hinj, Finset.card_univ, Fintype.card_pi, Finset.prod_const, Fintype.card_pi, Finset.prod_const] at h
  simp only [Finset.card_univ, Fintype.card_fin] at h
  rwa [pow_mul]

/-- With the default parameters at most 67050 clues are needed and no program needs less than 28800. -/
example : (∃ sk n, Pvw.genSk PvwParams.default (tableTape fun (l : Fin 4) (i : Fin 450) => (⟨100 * l + i, by omega⟩ : Fin 65537)) = .ok sk ∧ n ≤ 67050 ∧
      Reacts .debug PvwParams.default [0, 1, 1, 0] sk (reactKey PvwParams.default [0, 1, 1, 0]) sk n) ∧
    ∀ (P : Tries PvwSk) (k : Nat), (∀ S : Fin 4 → Fin 450 → Fin 65537, ∃ sk n, Pvw.genSk PvwParams.default (tableTape S) = .ok sk ∧ n ≤ k ∧
      Reacts .release PvwParams.default [0, 0, 0, 0] sk P sk n) → 28800 ≤ k := by
  refine ⟨c118_default .debug rfl (by decide) _, fun P k h => ?_⟩
  obtain ⟨q, hq, -⟩ := Modulus.new_ok (p := PvwParams.default.q) (by decide) (by decide)
  have h1 : 65537 ^ (450 * 4) ≤ 2 ^ k := c118_optimal hq .release h
  have h2 : 2 ^ 28800 ≤ 65537 ^ (450 * 4) := by
    calc 2 ^ 28800 = (2 ^ 16) ^ (450 * 4) := by rw [← pow_mul]
      _ ≤ _ := Nat.pow_le_pow_left (by norm_num) _
  exact (Nat.pow_le_pow_iff_right (by decide)).mp (h2.trans h1)

/-- A small key is read. -/
example : ∃ n, n ≤ 46 ∧ Reacts .debug ⟨2, 2, 4, 97, 1⟩ [1, 0] [[5, 96], [0, 48]] (reactKey ⟨2, 2, 4, 97, 1⟩ [1, 0]) [[5, 96], [0, 48]] n := by
  obtain ⟨q, hq, -⟩ := Modulus.new_ok (p := 97) (by decide) (by decide)
  obtain ⟨n, n1, n2⟩ := c118_read (params := ⟨2, 2, 4, 97, 1⟩) hq .debug (msg := [1, 0]) rfl (by decide) (sk := [[5, 96], [0, 48]]) rfl fun l hl => by
    rcases (show l = 0 ∨ l = 1 from by have : l < 2 := hl; omega) with rfl | rfl
    · exact ⟨_, rfl, rfl, by simp⟩
    · exact ⟨_, rfl, rfl, by simp⟩
  refine ⟨n, n1.trans ?_, n2⟩
  show 2 * (3 ^ 2 + 2 * Nat.clog 2 97) ≤ 46
  rw [Oracle.clog_eq (y := 6) (by norm_num) (by norm_num)]
  norm_num

end OnionPIR
