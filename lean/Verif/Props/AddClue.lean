import Verif.Spec.AddClue
import Verif.Props.Detect
/-
Property C139 (src/pvw.rs): sums of clues, and what random clues decrypt to.
-/
namespace OnionPIR
open Spec

variable {params : PvwParams} {q : Modulus}

namespace AddClue

theorem getD_zip {p n : Nat} {x y : List Nat} (hx : x.length = n) (hy : y.length = n) {i : Nat} (hi : i < n) :
    (List.zipWith (fun x y => (x + y) % p) x y).getD i 0 = (x.getD i 0 + y.getD i 0) % p := by
  rw [List.getD_eq_getElem _ _ (by rw [List.length_zipWith]; omega), List.getElem_zipWith, List.getD_eq_getElem _ _ (by omega),
    List.getD_eq_getElem _ _ (by omega)]

theorem vec {p n : Nat} (hp : 0 < p) {x y : List Nat} (hx : x.length = n) (hy : y.length = n) :
    Pvw.Vec p n (List.zipWith (fun x y => (x + y) % p) x y) :=
  ⟨by rw [List.length_zipWith]; omega, fun i hi => by rw [getD_zip hx hy hi]; exact Nat.mod_lt _ hp⟩

theorem isVec {p n : Nat} {x : List Nat} (h : Pvw.Vec p n x) : IsVec p n x := ⟨h.1, h.mem⟩

theorem ext {p n : Nat} {x y : List Nat} (hx : Pvw.Vec p n x) (hy : Pvw.Vec p n y)
    (h : ∀ i, i < n → (x.getD i 0 : ZMod p) = (y.getD i 0 : ZMod p)) : x = y := by
  refine List.ext_getElem (hx.1.trans hy.1.symm) fun i h1 h2 => ?_
  have hi : i < n := by rw [← hx.1]; exact h1
  have h3 := (ZMod.natCast_eq_natCast_iff' _ _ _).mp (h i hi)
  rw [Nat.mod_eq_of_lt (hx.2 i hi), Nat.mod_eq_of_lt (hy.2 i hi), List.getD_eq_getElem _ _ h1, List.getD_eq_getElem _ _ h2] at h3
  exact h3

theorem sum {p n : Nat} {x y : List Nat} (hx : x.length = n) (hy : y.length = n) (s : List Nat) :
    ∑ i ∈ Finset.range n, (s.getD i 0 : ZMod p) * ((List.zipWith (fun x y => (x + y) % p) x y).getD i 0 : ZMod p) =
      ∑ i ∈ Finset.range n, (s.getD i 0 : ZMod p) * (x.getD i 0 : ZMod p) + ∑ i ∈ Finset.range n, (s.getD i 0 : ZMod p) * (y.getD i 0 : ZMod p) := by
  rw [← Finset.sum_add_distrib]
  exact Finset.sum_congr rfl fun i hi => by
    rw [getD_zip hx hy (Finset.mem_range.mp hi), ZMod.natCast_mod, Nat.cast_add, mul_add]

/-- The decision about an error and up to two halves of the modulus. -/
theorem round_sum {q k : Nat} (hq : 2 ≤ q) {E : ℤ} (hk : k ≤ 2) (h1 : -((q / 4 : Nat) : ℤ) < E) (h2 : E < ((q / 2 : Nat) : ℤ) - (q / 4 : Nat)) :
    (((E + ((q / 2 * k : Nat) : ℤ)) % (q : ℤ)).toNat + q / 4) / (q / 2) % 2 = k % 2 := by
  obtain ⟨h, hh⟩ : ∃ x, q / 2 = x := ⟨_, rfl⟩
  obtain ⟨r, hr⟩ : ∃ x, q / 4 = x := ⟨_, rfl⟩
  have b0 : q = 2 * h ∨ q = 2 * h + 1 := by omega
  have b1 : h = 2 * r ∨ h = 2 * r + 1 := by omega
  rw [hh, hr] at h2 ⊢
  rw [hr] at h1
  have zero : ∀ F : ℤ, -(r : ℤ) ≤ F → F < (h : ℤ) - r → ((F % (q : ℤ)).toNat + r) / h % 2 = 0 := by
    intro F f1 f2
    rcases lt_or_ge F 0 with hF | hF
    · have : F % (q : ℤ) = F + q := by rw [← Int.add_emod_right, Int.emod_eq_of_lt (by omega) (by omega)]
      rw [this]
      have : ((F + q).toNat + r) / h = 2 := by rw [Nat.div_eq_iff (by omega)]; constructor <;> omega
      rw [this]
    · rw [Int.emod_eq_of_lt hF (by omega), Nat.div_eq_of_lt (by omega)]
  rcases (show k = 0 ∨ k = 1 ∨ k = 2 by omega) with rfl | rfl | rfl
  · rw [Nat.mul_zero, Nat.cast_zero, add_zero]; exact zero E h1.le h2
  · rw [Nat.mul_one, Int.emod_eq_of_lt (by omega) (by omega)]
    have : ((E + h).toNat + r) / h = 1 := by rw [Nat.div_eq_iff (by omega)]; constructor <;> omega
    rw [this]
  · have e : (E + ((h * 2 : Nat) : ℤ)) % (q : ℤ) = (E + ((h * 2 : Nat) : ℤ) - q) % (q : ℤ) := (Int.sub_emod_right _ _).symm
    rw [e]; exact zero _ (by omega) (by omega)

end AddClue

/-- C139: the sum of two clues is a clue, and for every key its values are the sums of the values of the two, whoever made them. -/
theorem c139_phase (hq : Modulus.new params.q = .ok q) {c d : PvwCiphertext} (hc : IsClue params c) (hd : IsClue params d) (s : List Nat) {l : Nat}
    (hl : l < params.ell) : IsClue params (addClue params c d) ∧ cluePhase params.q s (addClue params c d).a ((addClue params c d).b.getD l 0) =
      (cluePhase params.q s c.a (c.b.getD l 0) + cluePhase params.q s d.a (d.b.getD l 0)) % params.q := by
  obtain ⟨h2, -⟩ := Modulus.new_inv hq
  have hp : 0 < params.q := by omega
  have ha := AddClue.vec (p := params.q) hp hc.2.1 hd.2.1
  refine ⟨⟨AddClue.isVec (AddClue.vec hp hc.1.1 hd.1.1), AddClue.isVec ha⟩, ?_⟩
  have hlt := Nat.mod_lt (cluePhase params.q s c.a (c.b.getD l 0) + cluePhase params.q s d.a (d.b.getD l 0)) hp
  rw [← Nat.mod_eq_of_lt (Detect.phase_lt hp s (addClue params c d).a _), ← Nat.mod_eq_of_lt hlt]
  apply (ZMod.natCast_eq_natCast_iff' _ _ _).mp
  rw [ZMod.natCast_mod, Nat.cast_add]
  unfold cluePhase addClue
  rw [Pvw.cast_emod hp, Pvw.cast_emod hp, Pvw.cast_emod hp, AddClue.getD_zip hc.1.1 hd.1.1 hl, ha.1, hc.2.1, hd.2.1]
  push_cast
  rw [AddClue.sum hc.2.1 hd.2.1]
  ring

variable {skTape aTape rng : Nat → Nat → Nat} {e e' : Nat → Nat}

/-- C139: the sum of two clues for one key is a clue for the exclusive or of their messages, if the sums of their errors are small. -/
theorem c139_add (pr : Profile) (h : PvwChoices params skTape aTape rng e) (he' : ∀ m, e' m < 2) {msg msg' : List Nat}
    (hlen : msg.length = params.ell) (hlen' : msg'.length = params.ell) (hbit : ∀ x ∈ msg, x < 2) (hbit' : ∀ x ∈ msg', x < 2)
    (herr : ∀ l, l < params.ell → -((params.q / 4 : Nat) : ℤ) < pvwError params rng e l + pvwError params rng e' l ∧
      pvwError params rng e l + pvwError params rng e' l < ((params.q / 2 : Nat) : ℤ) - (params.q / 4 : Nat)) :
    ∃ sk pk c d, Pvw.genSk params skTape = .ok sk ∧ Pvw.genPk pr sk params aTape rng = .ok pk ∧ Pvw.encrypt pr pk params msg e = .ok c ∧
      Pvw.encrypt pr pk params msg' e' = .ok d ∧ IsClue params (addClue params c d) ∧
      Pvw.decrypt pr sk params (addClue params c d) = .ok (xorBits msg msg') := by
  obtain ⟨q, hq, -⟩ := Modulus.new_ok h.two_le h.lt
  have hp : 0 < params.q := by have := h.two_le; omega
  have hsk : ∀ l, l < params.ell → ∃ s, ((List.range params.ell).map fun l => Pvw.randomVec params.n (skTape l))[l]? = some s ∧
      Pvw.Vec params.q params.n s := fun l hl =>
    ⟨Pvw.randomVec params.n (skTape l), by rw [List.getElem?_map, List.getElem?_range hl]; rfl, Pvw.vec_randomVec (h.sk l)⟩
  obtain ⟨pk, h1, -, h2⟩ := Pvw.genPk_ok hq pr h.var_pos h.var_le h.a h.rng hsk
  obtain ⟨c, c1, c2, c3, c4⟩ := Pvw.encrypt_ok hq pr h2 hlen hbit h.e
  obtain ⟨d, d1, d2, d3, d4⟩ := Pvw.encrypt_ok hq pr h2 hlen' hbit' he'
  have ha := AddClue.vec (p := params.q) hp c2.1 d2.1
  have hb := AddClue.vec (p := params.q) hp c3.1 d3.1
  refine ⟨_, pk, c, d, by rw [Pvw.genSk, hq]; rfl, h1, c1, d1, ⟨AddClue.isVec hb, AddClue.isVec ha⟩, ?_⟩
  rw [Pvw.decrypt_ok hq pr hsk (ct := addClue params c d) ha hb
    (E := fun l => pvwError params rng e l + pvwError params rng e' l + ((params.q / 2 * (msg.getD l 0 + msg'.getD l 0) : Nat) : ℤ)) fun l hl => ?_]
  · congr 1
    unfold xorBits
    refine List.ext_getElem (by simp [hlen, hlen']) fun l g1 g2 => ?_
    have hl : l < params.ell := by simpa using g1
    have m1 : l < msg.length := by omega
    have m2 : l < msg'.length := by omega
    have b1 := hbit _ (List.getElem_mem m1)
    have b2 := hbit' _ (List.getElem_mem m2)
    rw [List.getElem_map, List.getElem_range, List.getElem_zipWith, List.getD_eq_getElem _ _ m1, List.getD_eq_getElem _ _ m2]
    exact AddClue.round_sum h.two_le (by omega) (herr l hl).1 (herr l hl).2
  · unfold addClue
    rw [AddClue.getD_zip c3.1 d3.1 hl, ZMod.natCast_mod, Nat.cast_add, c4 l hl, d4 l hl, AddClue.sum c2.1 d2.1]
    have e1 : ∀ f : Nat → Nat, ∑ m ∈ Finset.range params.m, cbdValue (rng l) params.variance m * (f m : ℤ) = pvwError params rng f l := fun _ => rfl
    rw [e1, e1]
    push_cast
    ring

/-- C139: adding a clue of zeros made with other columns of the public key gives word for word the clue that `encrypt` makes with the columns of both:
whoever relays a clue can draw its selector anew, without knowing the message. -/
theorem c139_refresh (hq : Modulus.new params.q = .ok q) (pr : Profile) {pk : PvwPk}
    (hpk : ∀ m, m < params.m → ∃ c, pk[m]? = some c ∧ IsClue params c) {msg : List Nat} (hlen : msg.length = params.ell) (hbit : ∀ x ∈ msg, x < 2)
    (he : ∀ m, e m + e' m < 2) :
    ∃ c d, Pvw.encrypt pr pk params msg e = .ok c ∧ Pvw.encrypt pr pk params (List.replicate params.ell 0) e' = .ok d ∧
      Pvw.encrypt pr pk params msg (fun m => e m + e' m) = .ok (addClue params c d) := by
  obtain ⟨h2, -⟩ := Modulus.new_inv hq
  have hp : 0 < params.q := by omega
  have hpk' : ∀ m, m < params.m → ∃ c, pk[m]? = some c ∧ Pvw.Vec params.q params.n c.a ∧ Pvw.Vec params.q params.ell c.b := fun m hm =>
    (hpk m hm).imp fun c hc => ⟨hc.1, Detect.vec hc.2.2, Detect.vec hc.2.1⟩
  obtain ⟨c, c1, c2, c3, c4, c5⟩ := Pvw.encrypt_exact hq pr hpk' hlen hbit (e := e) fun m => by have := he m; omega
  obtain ⟨d, d1, d2, d3, d4, d5⟩ := Pvw.encrypt_exact hq pr hpk' (msg := List.replicate params.ell 0) (by simp)
    (fun x hx => by rw [(List.mem_replicate.mp hx).2]; omega) (e := e') fun m => by have := he m; omega
  obtain ⟨f, f1, f2, f3, f4, f5⟩ := Pvw.encrypt_exact hq pr hpk' hlen hbit (e := fun m => e m + e' m) he
  refine ⟨c, d, c1, d1, f1.trans (congrArg _ ?_)⟩
  have gz : ∀ l, (List.replicate params.ell 0).getD l 0 = 0 := fun l => by
    simp only [List.getD, List.getElem?_replicate]; split_ifs <;> rfl
  have ea : f.a = (addClue params c d).a := AddClue.ext f2 (AddClue.vec hp c2.1 d2.1) fun i hi => by
    unfold addClue
    rw [AddClue.getD_zip c2.1 d2.1 hi, ZMod.natCast_mod, Nat.cast_add, f4 i hi, c4 i hi, d4 i hi, ← Finset.sum_add_distrib]
    exact Finset.sum_congr rfl fun m _ => by push_cast; ring
  have eb : f.b = (addClue params c d).b := AddClue.ext f3 (AddClue.vec hp c3.1 d3.1) fun l hl => by
    unfold addClue
    rw [AddClue.getD_zip c3.1 d3.1 hl, ZMod.natCast_mod, Nat.cast_add, f5 l hl, c5 l hl, d5 l hl, gz l, Nat.mul_zero, Nat.cast_zero, add_zero,
      add_right_comm, ← Finset.sum_add_distrib]
    exact congrArg (· + _) (Finset.sum_congr rfl fun m _ => by push_cast; ring)
  cases f
  exact congrArg₂ PvwCiphertext.mk ea eb

/-- C139: how many second parts make a clue that decrypts to `msg`, for every key and every first part. For an even `q` all messages are equally likely;
for an odd `q` a zero bit has one value more than a one bit. -/
theorem c139_random (hq : Modulus.new params.q = .ok q) (pr : Profile) {sk : PvwSk}
    (hsk : ∀ l, l < params.ell → ∃ s, sk[l]? = some s ∧ IsVec params.q params.n s) {a : List Nat} (ha : IsVec params.q params.n a) {msg : List Nat}
    (hlen : msg.length = params.ell) (hbit : ∀ x ∈ msg, x < 2) :
    Nat.card {b : Fin params.ell → Fin params.q // Pvw.decrypt pr sk params ⟨a, List.ofFn fun l => (b l : Nat)⟩ = .ok msg} =
      (msg.map (clueWeight params.q)).prod := by
  classical
  obtain ⟨h2, -⟩ := Modulus.new_inv hq
  have hp : 0 < params.q := by omega
  have key : ∀ b : Fin params.ell → Fin params.q, Pvw.decrypt pr sk params ⟨a, List.ofFn fun l => (b l : Nat)⟩ = .ok msg ↔
      ∀ l : Fin params.ell, clueBit params.q (cluePhase params.q (sk.getD l []) a (b l)) = msg.getD l 0 := by
    intro b
    have hc : IsClue params ⟨a, List.ofFn fun l => (b l : Nat)⟩ := ⟨⟨by simp, fun x hx => by
      obtain ⟨l, rfl⟩ := (List.mem_ofFn' _ _).mp hx
      exact (b l).isLt⟩, ha⟩
    have hg : ∀ l : Fin params.ell, (List.ofFn fun l => (b l : Nat)).getD l 0 = b l := fun l => by
      rw [List.getD_eq_getElem _ _ (by simp), List.getElem_ofFn]
    rw [c109_decrypt hq pr hsk hc]
    constructor
    · intro h l
      have := congrArg (fun z => z.getD (l : Nat) 0) (Except.ok.inj h)
      rw [Pvw.getD_map_range 0 l.isLt, hg] at this
      exact this
    · intro h
      refine congrArg _ (List.ext_getElem (by simp [hlen]) fun l h1 h3 => ?_)
      have hl : l < params.ell := by omega
      rw [List.getElem_map, List.getElem_range, ← List.getD_eq_getElem _ 0 h3, ← h ⟨l, hl⟩, ← hg ⟨l, hl⟩]
  have hb : ∀ l : Fin params.ell, msg.getD l 0 < 2 := fun l => by
    rw [List.getD_eq_getElem _ _ (by rw [hlen]; exact l.isLt)]
    exact hbit _ (List.getElem_mem _)
  let A : Fin params.ell → Finset (Fin params.q) := fun l => Finset.univ.filter fun b : Fin params.q =>
    clueBit params.q (cluePhase params.q (sk.getD l []) a b) = msg.getD l 0
  have hA : ∀ l, (A l).card = clueWeight params.q (msg.getD l 0) := fun l => by
    rw [← Detect.card_bit h2 (hb l)]
    let T : Fin params.q → Fin params.q := fun b => ⟨cluePhase params.q (sk.getD l []) a b, Detect.phase_lt hp _ _ _⟩
    have hT : Function.Injective T := by
      intro x y hxy
      have h1 := congrArg (fun z : Fin params.q => ((z : Nat) : ZMod params.q)) hxy
      simp only [T] at h1
      unfold cluePhase at h1
      rw [Pvw.cast_emod hp, Pvw.cast_emod hp, Int.cast_sub, Int.cast_sub, sub_left_inj, Int.cast_natCast, Int.cast_natCast] at h1
      have h3 := (ZMod.natCast_eq_natCast_iff' _ _ _).mp h1
      rw [Nat.mod_eq_of_lt x.isLt, Nat.mod_eq_of_lt y.isLt] at h3
      exact Fin.ext h3
    refine Finset.card_bijective T (Finite.injective_iff_bijective.mp hT) fun s => ?_
    simp only [A, Finset.mem_filter, Finset.mem_univ, true_and, T]
  rw [Nat.card_congr (Equiv.subtypeEquivRight fun b => (key b).trans (by
      rw [Fintype.mem_piFinset]
      exact forall_congr' fun l => by simp only [A, Finset.mem_filter, Finset.mem_univ, true_and]) :
      _ ≃ {b // b ∈ Fintype.piFinset A}), Nat.card_eq_fintype_card, Fintype.card_coe, Fintype.card_piFinset, Finset.prod_congr rfl fun l _ => hA l,
    ← List.prod_ofFn]
  congr 1
  refine List.ext_getElem (by simp [hlen]) fun l h1 h3 => ?_
  simp only [List.length_map] at h3
  rw [List.getElem_map, List.getElem_ofFn, List.getD_eq_getElem _ _ h3]

/-! Small parameters: two slots, three columns. -/

private def small : PvwParams := ⟨4, 2, 3, 1048583, 2⟩

/-- The hypotheses of `c139_add` for selectors that overlap. -/
example (pr : Profile) : ∃ sk pk c d, Pvw.genSk small (fun _ i => 7 + i % 10) = .ok sk ∧
    Pvw.genPk pr sk small (fun m i => (m + i) % 1000) (fun _ i => 2 ^ 63 + i % 1000) = .ok pk ∧
    Pvw.encrypt pr pk small [1, 0] (fun m => m % 2) = .ok c ∧ Pvw.encrypt pr pk small [1, 1] (fun _ => 1) = .ok d ∧
    IsClue small (addClue small c d) ∧ Pvw.decrypt pr sk small (addClue small c d) = .ok [0, 1] := by
  have hch : PvwChoices small (fun _ i => 7 + i % 10) (fun m i => (m + i) % 1000) (fun _ i => 2 ^ 63 + i % 1000) (fun m => m % 2) := by
    refine ⟨by decide, by decide, by decide, by decide, fun _ i => ?_, fun m i => ?_, fun _ i => ?_, fun m => ?_⟩ <;>
      show _ < (_ : Nat) <;> norm_num [small] <;> omega
  refine c139_add pr hch (e' := fun _ => 1) (fun _ => by omega) (msg := [1, 0]) (msg' := [1, 1]) rfl rfl (by simp) (by simp) fun l _ => ?_
  obtain ⟨b1, b2⟩ := pvwError_bound (params := small) (rng := fun _ i => 2 ^ 63 + i % 1000) (e := fun m => m % 2) (fun m => by omega) l
  obtain ⟨b3, b4⟩ := pvwError_bound (params := small) (rng := fun _ i => 2 ^ 63 + i % 1000) (e := fun _ => 1) (fun m => by omega) l
  have s1 : ∑ m ∈ Finset.range small.m, m % 2 = 1 := by decide
  have s2 : ∑ m ∈ Finset.range small.m, 1 = 3 := by decide
  rw [s1] at b1 b2
  rw [s2] at b3 b4
  simp only [small] at *
  norm_num at *
  omega

private def tiny : PvwParams := ⟨2, 2, 3, 17, 1⟩

private theorem tiny_key : ∀ l, l < tiny.ell → ∃ s, ([[1, 2], [16, 4]] : PvwSk)[l]? = some s ∧ IsVec tiny.q tiny.n s := by
  intro l hl
  have : l < 2 := hl
  interval_cases l
  · exact ⟨[1, 2], rfl, rfl, by decide⟩
  · exact ⟨[16, 4], rfl, rfl, by decide⟩

example : cluePhase 17 [1, 2] [5, 5] 2 = (cluePhase 17 [1, 2] [3, 5] 9 + cluePhase 17 [1, 2] [2, 0] 10) % 17 := by
  obtain ⟨q, hq, -⟩ := Modulus.new_ok (p := tiny.q) (by decide) (by decide)
  exact (c139_phase hq (params := tiny) (c := ⟨[3, 5], [9, 16]⟩) (d := ⟨[2, 0], [10, 3]⟩) ⟨⟨rfl, by decide⟩, rfl, by decide⟩
    ⟨⟨rfl, by decide⟩, rfl, by decide⟩ [1, 2] (l := 0) (by decide)).2

/-- Any public key of canonical words, with selectors of different columns. -/
example (pr : Profile) : ∃ c d, Pvw.encrypt pr [⟨[3, 5], [9, 16]⟩, ⟨[2, 0], [10, 3]⟩, ⟨[1, 7], [4, 4]⟩] tiny [1, 0] (fun m => m % 2) = .ok c ∧
    Pvw.encrypt pr [⟨[3, 5], [9, 16]⟩, ⟨[2, 0], [10, 3]⟩, ⟨[1, 7], [4, 4]⟩] tiny [0, 0] (fun m => 1 - m % 2) = .ok d ∧
    Pvw.encrypt pr [⟨[3, 5], [9, 16]⟩, ⟨[2, 0], [10, 3]⟩, ⟨[1, 7], [4, 4]⟩] tiny [1, 0] (fun m => m % 2 + (1 - m % 2)) = .ok (addClue tiny c d) := by
  obtain ⟨q, hq, -⟩ := Modulus.new_ok (p := tiny.q) (by decide) (by decide)
  refine c139_refresh hq pr (e := fun m => m % 2) (e' := fun m => 1 - m % 2) (fun m hm => ?_) (msg := [1, 0]) rfl (by simp) (fun m => by omega)
  have : m < 3 := hm
  interval_cases m
  · exact ⟨_, rfl, ⟨rfl, by decide⟩, rfl, by decide⟩
  · exact ⟨_, rfl, ⟨rfl, by decide⟩, rfl, by decide⟩
  · exact ⟨_, rfl, ⟨rfl, by decide⟩, rfl, by decide⟩

example (pr : Profile) : Nat.card {b : Fin 2 → Fin 17 // Pvw.decrypt pr [[1, 2], [16, 4]] tiny ⟨[3, 5], List.ofFn fun l => (b l : Nat)⟩ = .ok [1, 0]} =
    8 * 9 := by
  obtain ⟨q, hq, -⟩ := Modulus.new_ok (p := tiny.q) (by decide) (by decide)
  exact c139_random hq pr tiny_key (a := [3, 5]) ⟨rfl, by decide⟩ (msg := [1, 0]) rfl (by simp)

end OnionPIR
