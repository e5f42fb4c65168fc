import Verif.Proofs.Random
import Verif.Props.Rlwe
/-
C88: the random values drawn by the library are exactly uniform when the words of the generator are.
-/
namespace OnionPIR
open Rg Poly Spec
variable {N t : Nat} {l : List Nat} {variance : Nat} {P : BfvParameters}

namespace RandP
open Rand

theorem ways_eq {α : Type} {S : Sampler α} {ns vs : List Nat} {z c : Nat → Nat} {x : α} (h : Zones (2 ^ 64) z c ns)
    (hv : List.Forall₂ (· < ·) vs ns)
    (hS : ∀ ws, S ws = .ok (x, []) ↔ drawAll z ns ws = .ok (vs, [])) (L : Nat) : ways S L x = count (2 ^ 64) c ns L := by
  rw [← card_drawAll rfl L h hv]
  unfold ways
  congr 1
  ext w
  simp only [Finset.mem_filter, Finset.mem_univ, true_and]
  exact hS _

theorem stuck_eq {α : Type} {S : Sampler α} {ns : List Nat} {z c : Nat → Nat} (h : Zones (2 ^ 64) z c ns)
    (hS : ∀ ws, S ws = .error .diverge ↔ drawAll z ns ws = .error .diverge) (L : Nat) : stuck S L = countStuck (2 ^ 64) c ns L := by
  rw [← card_stuck rfl L h]
  unfold stuck
  congr 1
  ext w
  simp only [Finset.mem_filter, Finset.mem_univ, true_and]
  exact hS _

theorem single_map (z : Nat → Nat) (n : Nat) (ws : List Nat) : (fun y : Nat × List Nat => ([y.1], y.2)) <$> draw n (z n) ws = drawAll z [n] ws := by
  rw [drawAll_cons]
  cases draw n (z n) ws with
  | error e => rfl
  | ok x => rfl

theorem single_ok (z : Nat → Nat) (n v : Nat) (ws : List Nat) : draw n (z n) ws = .ok (v, []) ↔ drawAll z [n] ws = .ok ([v], []) := by
  rw [← single_map]
  cases draw n (z n) ws with
  | error e => simp [Functor.map, Except.map]
  | ok x => obtain ⟨x, r⟩ := x; simp

theorem single_stuck (z : Nat → Nat) (n : Nat) (ws : List Nat) : draw n (z n) ws = .error .diverge ↔ drawAll z [n] ws = .error .diverge := by
  rw [← single_map]
  cases draw n (z n) ws with
  | error e => simp [Functor.map, Except.map]
  | ok x => simp

theorem single {z c : Nat → Nat} {n : Nat} (h : Zones (2 ^ 64) z c [n]) :
    Fair (draw n (z n)) {x | x < n} ∧ (∀ L x, x < n → ways (draw n (z n)) (L + 1) x = c n * (2 ^ 64 - c n * n) ^ L) ∧
      ∀ L, stuck (draw n (z n)) L = (2 ^ 64 - c n * n) ^ L := by
  obtain ⟨hn, h1, h2⟩ := h n List.mem_cons_self
  refine ⟨fair_of_drawAll h (draw_reads _ _) (fun x => [x]) (single_map z n) (fun x _ y _ e => by simpa using e)
    (fun ws x r hw hx => (draw_lt hn hw hx).1) (fun x hx => .cons hx .nil), fun L x hx => ?_, fun L => ?_⟩
  · rw [ways_eq h (.cons hx .nil) (single_ok z n x)]
    have := count_replicate (M := 2 ^ 64) (n := n) (c := c) 0 L
    rw [show List.replicate (0 + 1) n = [n] from rfl] at this
    rw [this, Nat.choose_zero_right, Nat.one_mul, Nat.zero_add, pow_one, Nat.sub_zero]
  · rw [stuck_eq h (single_stuck z n)]
    have := countStuck_replicate (M := 2 ^ 64) (n := n) (c := c) 1 L
    rw [show List.replicate 1 n = [n] from rfl] at this
    rw [this, Finset.sum_range_one, Nat.choose_zero_right, Nat.one_mul, pow_zero, Nat.one_mul, Nat.sub_zero]

theorem rest {n : Nat} : 2 ^ 64 - 2 ^ 64 / n * n = 2 ^ 64 % n := by
  have := Nat.div_add_mod (2 ^ 64) n
  rw [Nat.mul_comm] at this
  omega

theorem vector {z c : Nat → Nat} {n k : Nat} (h : Zones (2 ^ 64) z c [n]) :
    Fair (times (draw n (z n)) k) {xs | xs.length = k ∧ ∀ x ∈ xs, x < n} ∧
      (∀ L xs, xs.length = k → (∀ x ∈ xs, x < n) → 0 < k →
        ways (times (draw n (z n)) k) (L + 1) xs = L.choose (k - 1) * c n ^ k * (2 ^ 64 - c n * n) ^ (L + 1 - k)) ∧
      ∀ L, stuck (times (draw n (z n)) k) L = ∑ j ∈ Finset.range k, L.choose j * (c n * n) ^ j * (2 ^ 64 - c n * n) ^ (L - j) := by
  have hz : Zones (2 ^ 64) z c (List.replicate k n) := fun m hm => by
    rw [(List.mem_replicate.mp hm).2]; exact h n List.mem_cons_self
  have hn : ∀ m ∈ List.replicate k n, 0 < m := fun m hm => (hz m hm).1
  rw [times_eq]
  refine ⟨fair_of_drawAll hz (each_reads fun b _ => draw_reads _ _) id (fun ws => ?_) (fun x _ y _ e => e)
    (fun ws x r hw hx => forall_replicate.mp (drawAll_lt hn hw hx).1) (fun x hx => forall_replicate.mpr hx), fun L xs h1 h2 hk => ?_, fun L => ?_⟩
  · cases drawAll z (List.replicate k n) ws <;> rfl
  · rw [ways_eq hz (forall_replicate.mpr ⟨h1, h2⟩) (fun ws => Iff.rfl)]
    obtain ⟨k, rfl⟩ : ∃ j, k = j + 1 := ⟨k - 1, by omega⟩
    rw [count_replicate, Nat.add_sub_cancel, Nat.add_sub_add_right]
  · rw [stuck_eq hz (fun ws => Iff.rfl), countStuck_replicate]

theorem map_ok {α β : Type} {S : Sampler α} {S' : Sampler β} {f : α → β} (hS : ∀ ws, S' ws = (fun y => (f y.1, y.2)) <$> S ws)
    {ws : List Nat} {y : β} {r : List Nat} : S' ws = .ok (y, r) ↔ ∃ x, S ws = .ok (x, r) ∧ f x = y := by
  rw [hS]
  cases S ws with
  | error e => simp [Functor.map, Except.map]
  | ok x =>
    obtain ⟨x, r'⟩ := x
    simp only [res_map_ok, Except.ok.injEq, Prod.mk.injEq]
    constructor
    · rintro ⟨h1, h2⟩; exact ⟨x, ⟨rfl, h2⟩, h1⟩
    · rintro ⟨_, ⟨rfl, h2⟩, h1⟩; exact ⟨h1, h2⟩

theorem fair_map {α β : Type} {S : Sampler α} {S' : Sampler β} {A : Set α} {f : α → β} (h : Fair S A) (hf : Function.Injective f)
    (hS : ∀ ws, S' ws = (fun y => (f y.1, y.2)) <$> S ws) : Fair S' (f '' A) := by
  have hways : ∀ L x, ways S' L (f x) = ways S L x := by
    intro L x
    unfold ways
    congr 1
    ext w
    simp only [Finset.mem_filter, Finset.mem_univ, true_and, map_ok hS]
    constructor
    · rintro ⟨y, h1, h2⟩; rwa [hf h2] at h1
    · intro h1; exact ⟨x, h1, rfl⟩
  refine ⟨?_, ?_, ?_, ?_⟩
  · intro ws y r hw hy
    obtain ⟨x, hx, rfl⟩ := (map_ok hS).mp hy
    obtain ⟨h1, u, h2, h3⟩ := h.reads ws x r hw hx
    exact ⟨⟨x, h1, rfl⟩, u, h2, fun r' => (map_ok hS).mpr ⟨x, h3 r', rfl⟩⟩
  · intro ws e hw he
    rw [hS] at he
    cases hx : S ws with
    | error e' =>
      rw [hx] at he
      have : e' = e := by simpa [Functor.map, Except.map] using he
      exact this ▸ h.total ws e' hw hx
    | ok x => rw [hx] at he; cases he
  · rintro _ ⟨x, hx, rfl⟩
    obtain ⟨L, hL⟩ := h.all x hx
    exact ⟨L, by rwa [hways]⟩
  · rintro L _ ⟨x, hx, rfl⟩ _ ⟨y, hy, rfl⟩
    rw [hways, hways]
    exact h.equal L x hx y hy

theorem each_congr {α β γ : Type} {f : β → Sampler α} {g : γ → Sampler α} {h : β → γ} {bs : List β} (hb : ∀ b ∈ bs, f b = g (h b)) :
    each f bs = each g (bs.map h) := by
  induction bs with
  | nil => rfl
  | cons b bs ih =>
    funext ws
    rw [List.map_cons, each, each, hb b List.mem_cons_self, ih (fun b' hb' => hb b' (List.mem_cons_of_mem _ hb'))]

theorem randomVec_eq {m : Modulus} (hw : m.WF) (k : Nat) : m.randomVec k = drawAll uniformZone (List.replicate k m.p) := by
  funext ws
  unfold Modulus.randomVec
  rw [rassert_ok hw.pos, res_ok_bind, uniform_eq hw.pos, times_eq]

theorem rows_valid {K : Nat} {c : RqContext} (hw : c.WF K) (rows : List (List Nat)) :
    List.Forall₂ (fun (row : List Nat) (b : Nat × Nat) => row.length = b.2 ∧ ∀ x ∈ row, x < b.1) rows (c.moduli.map fun q => (q.p, c.degree)) ↔
      ValidRows c rows := by
  have hm : c.moduli64 = c.moduli.map Modulus.p := by rw [hw.core.m64, hw.core.mods, hw.core.rns.ps]
  rw [List.forall₂_map_right_iff, List.forall₂_iff_get]
  unfold ValidRows IsVec
  rw [hm, List.length_map]
  constructor
  · rintro ⟨h1, h2⟩
    refine ⟨h1, fun i hi => ?_⟩
    have := h2 i (h1 ▸ hi) hi
    simpa [List.getD, h1, hi] using this
  · rintro ⟨h1, h2⟩
    refine ⟨h1, fun i hi hi' => ?_⟩
    have := h2 i hi'
    simpa [List.getD, h1, hi'] using this

/-- The tape that lists the rows. -/
def rowTape (rows : List (List Nat)) (i j : Nat) : Nat := (rows.getD i []).getD j 0

theorem rowTape_eq {rows : List (List Nat)} {m k : Nat} (h1 : rows.length = m) (h2 : ∀ row ∈ rows, row.length = k) :
    ((List.range m).map fun i => (List.range k).map fun j => rowTape rows i j) = rows := by
  refine List.ext_getElem (by simp [h1]) fun i hi hi' => ?_
  have hlen := h2 _ (List.getElem_mem hi')
  rw [List.getElem_map, List.getElem_range]
  refine List.ext_getElem (by simp [hlen]) fun j hj hj' => ?_
  simp [rowTape, List.getD, hi', hj']

end RandP

/-- C88: `rng.sample(Uniform::from(0..n))` returns each value below `n` for equally many sequences of words: exactly `2^64/n` words are
accepted for each, the others (`2^64 mod n`) are rejected. -/
theorem c88_uniform {n : Nat} (hn : 0 < n) (hn2 : n < 2 ^ 64) :
    Fair (Rand.uniform n) {x | x < n} ∧ (∀ L x, x < n → ways (Rand.uniform n) (L + 1) x = 2 ^ 64 / n * (2 ^ 64 % n) ^ L) ∧
      ∀ L, stuck (Rand.uniform n) L = (2 ^ 64 % n) ^ L := by
  have := RandP.single (Rand.uniform_zones (ns := [n]) (by simpa using ⟨hn, hn2⟩))
  rw [Rand.uniform_eq hn]
  rwa [RandP.rest] at this

example : ways (Rand.uniform 3) 1 2 = 6148914691236517205 ∧ stuck (Rand.uniform 3) 1 = 1 ∧ Rand.uniform 10 [2 ^ 63] = .ok (5, []) ∧
    Rand.uniform 3 [6148914691236517205, 2 ^ 63] = .ok (1, []) ∧ Rand.uniform 3 [6148914691236517205] = .error .diverge := by
  refine ⟨?_, ?_, by decide, by decide, by decide⟩
  · rw [(c88_uniform (n := 3) (by norm_num) (by norm_num)).2.1 0 2 (by norm_num)]
    norm_num
  · rw [(c88_uniform (n := 3) (by norm_num) (by norm_num)).2.2 1]
    norm_num

/-- C88: `rng.gen_range(0..n)` is exactly uniform as well; at least half of the words are accepted. -/
theorem c88_gen_range {n : Nat} (hn : 0 < n) (hn2 : n < 2 ^ 64) :
    Fair (Rand.genRange n) {x | x < n} ∧ ∃ c, 2 ^ 63 ≤ c * n ∧ c * n ≤ 2 ^ 64 ∧
      (∀ L x, x < n → ways (Rand.genRange n) (L + 1) x = c * (2 ^ 64 - c * n) ^ L) ∧
      ∀ L, stuck (Rand.genRange n) L = (2 ^ 64 - c * n) ^ L := by
  have h := RandP.single (Rand.single_zones (ns := [n]) (by simpa using ⟨hn, hn2⟩))
  obtain ⟨-, h2, h3⟩ := Rand.singleZone_eq hn hn2
  rw [Rand.genRange_eq hn]
  exact ⟨h.1, _, h2, h3.le, h.2.1, h.2.2⟩

example : ways (Rand.genRange 1153) 5 0 = ways (Rand.genRange 1153) 5 1152 ∧ Rand.genRange 1153 [0xb585f767a79a3b6c, 0x7746a55fbad8c037] = .ok (537, []) :=
  ⟨(c88_gen_range (n := 1153) (by norm_num) (by norm_num)).1.equal 5 0 (by simp) 1152 (by simp), by decide⟩

/-- C88: `Modulus::random` is exactly uniform modulo `q`, and the chance that `L` words do not suffice is at most `4^-L`. -/
theorem c88_random {q : Nat} {m : Modulus} (hm : Modulus.new q = .ok m) :
    Fair m.random {x | x < q} ∧ (∀ L x, x < q → ways m.random (L + 1) x = 2 ^ 64 / q * (2 ^ 64 % q) ^ L) ∧
      (∀ L, stuck m.random L = (2 ^ 64 % q) ^ L) ∧ ∀ L, stuck m.random L * 4 ^ L ≤ (2 ^ 64) ^ L := by
  obtain ⟨h2, hlt, rfl, hw⟩ := Modulus.new_inv hm
  have h62 : m.p < 2 ^ 64 := by omega
  obtain ⟨a, b, c⟩ := c88_uniform hw.pos h62
  refine ⟨a, b, c, fun L => ?_⟩
  show stuck (Rand.uniform m.p) L * 4 ^ L ≤ _
  rw [c, ← Nat.mul_pow]
  refine Nat.pow_le_pow_left ?_ _
  have := Nat.mod_lt (2 ^ 64) hw.pos
  omega

example : ∃ m, Modulus.new 1048609 = .ok m ∧ ways m.random 2 7 = 17591632413711 * 473617 ∧ m.random [2 ^ 63] = .ok (524304, []) := by
  obtain ⟨m, hm⟩ : ∃ m, Modulus.new 1048609 = .ok m := ⟨_, rfl⟩
  refine ⟨m, hm, ?_, ?_⟩
  · rw [(c88_random hm).2.1 1 7 (by norm_num)]
    norm_num
  · cases hm
    decide

/-- C88: `Modulus::random_vec` is exactly uniform on vectors: every vector of `k` residues is returned after `L + 1` words for the same
number of sequences of words. -/
theorem c88_random_vec {q : Nat} {m : Modulus} (hm : Modulus.new q = .ok m) (k : Nat) :
    Fair (m.randomVec k) {xs | xs.length = k ∧ ∀ x ∈ xs, x < q} ∧
      (∀ L xs, xs.length = k → (∀ x ∈ xs, x < q) → 0 < k →
        ways (m.randomVec k) (L + 1) xs = L.choose (k - 1) * (2 ^ 64 / q) ^ k * (2 ^ 64 % q) ^ (L + 1 - k)) ∧
      ∀ L, stuck (m.randomVec k) L = ∑ j ∈ Finset.range k, L.choose j * (2 ^ 64 - 2 ^ 64 % q) ^ j * (2 ^ 64 % q) ^ (L - j) := by
  obtain ⟨h2, hlt, rfl, hw⟩ := Modulus.new_inv hm
  have h62 : m.p < 2 ^ 64 := by omega
  have h := RandP.vector (k := k) (Rand.uniform_zones (ns := [m.p]) (by simpa using ⟨hw.pos, h62⟩))
  have e : m.randomVec k = Rand.times (Rand.draw m.p (Rand.uniformZone m.p)) k := by
    funext ws
    unfold Modulus.randomVec
    rw [rassert_ok hw.pos, res_ok_bind, Rand.uniform_eq hw.pos]
  have e2 : 2 ^ 64 - 2 ^ 64 % m.p = 2 ^ 64 / m.p * m.p := by
    have := Nat.div_add_mod (2 ^ 64) m.p
    rw [Nat.mul_comm] at this
    omega
  rw [RandP.rest, ← e] at h
  rwa [e2]

example : ∃ m, Modulus.new 17 = .ok m ∧ ways (m.randomVec 2) 2 [3, 16] = (2 ^ 64 / 17) ^ 2 ∧ m.randomVec 2 [2 ^ 63, 2 ^ 64 - 2] = .ok ([8, 16], []) := by
  obtain ⟨m, hm⟩ : ∃ m, Modulus.new 17 = .ok m := ⟨_, rfl⟩
  refine ⟨m, hm, ?_, ?_⟩
  · rw [(c88_random_vec hm 2).2.1 1 [3, 16] rfl (by decide) (by norm_num)]
    norm_num
  · cases hm
    decide

/-- C88: `Poly::random` (and `random_from_seed`, for the words of its generator) draws every polynomial with canonical rows equally often;
each result is one of the polynomials that the theorems about tapes speak of. -/
theorem c88_poly {c : RqContext} (hc : IsContext N l c) (rep : Representation) :
    Fair (Poly.randomWords c rep) {p | p.context = c ∧ p.representation = rep ∧ ValidRows c p.coefficients} ∧
      ∀ ws p r, (∀ w ∈ ws, w < 2 ^ 64) → Poly.randomWords c rep ws = .ok (p, r) →
        ∃ tape : Nat → Nat → Nat, (∀ i j, i < l.length → tape i j < l.getD i 1) ∧ p = Poly.random c tape rep := by
  obtain ⟨K, rfl, hw, rfl⟩ := RqP.ctx hc
  have hwf : ∀ q ∈ c.moduli, q.WF := fun q hq => hw.core.mod_wf hq
  have hz : Rand.Zones (2 ^ 64) Rand.uniformZone (fun n => 2 ^ 64 / n) ((c.moduli.map fun q => (q.p, c.degree)).map Prod.fst) := by
    refine Rand.uniform_zones fun n hn => ?_
    rw [List.map_map] at hn
    obtain ⟨q, hq, rfl⟩ := List.mem_map.mp hn
    have h1 := (hwf q hq).pos
    have h2 := (hwf q hq).lt
    exact ⟨h1, lt_trans h2 (by norm_num)⟩
  have hf : Fair (Poly.randomWords c rep) {p | p.context = c ∧ p.representation = rep ∧ ValidRows c p.coefficients} := by
    have h := RandP.fair_map (f := fun rows => ({ context := c, representation := rep, coefficients := rows } : Poly))
      (S' := Poly.randomWords c rep) (Rand.fair_rows hz) (fun a b e => by simpa using e) (fun ws => by
        unfold Poly.randomWords
        rw [RandP.each_congr (g := fun b : Nat × Nat => Rand.drawAll Rand.uniformZone (List.replicate b.2 b.1))
          (h := fun q : Modulus => (q.p, c.degree)) (fun q hq => RandP.randomVec_eq (hwf q hq) _)]
        cases Rand.each (fun b : Nat × Nat => Rand.drawAll Rand.uniformZone (List.replicate b.2 b.1))
            (c.moduli.map fun q => (q.p, c.degree)) ws with
        | error e => rfl
        | ok x => rfl)
    convert h using 1
    ext p
    constructor
    · rintro ⟨rfl, rfl, h3⟩
      exact ⟨p.coefficients, (RandP.rows_valid hw _).mpr h3, rfl⟩
    · rintro ⟨rows, h3, rfl⟩
      exact ⟨rfl, rfl, (RandP.rows_valid hw _).mp h3⟩
  refine ⟨hf, fun ws p r hws hp => ?_⟩
  obtain ⟨⟨h1, h2, h3⟩, -⟩ := hf.reads ws p r hws hp
  have hlen : c.moduli.length = c.moduli64.length := by rw [hw.core.m64, hw.core.mods, ← hw.core.rns.ps, List.length_map]
  refine ⟨RandP.rowTape p.coefficients, fun i j hi => ?_, ?_⟩
  · obtain ⟨h4, h5⟩ := h3.2 i hi
    unfold RandP.rowTape
    by_cases hj : j < (p.coefficients.getD i []).length
    · rw [List.getD_eq_getElem _ _ hj]
      exact h5 _ (List.getElem_mem hj)
    · rw [List.getD_eq_default _ _ (by omega)]
      have : 0 < (p.coefficients.getD i []).length := by rw [h4, hw.core.deg]; positivity
      have := h5 _ (List.getElem_mem this)
      omega
  · have hk : ∀ row ∈ p.coefficients, row.length = c.degree := by
      intro row hrow
      obtain ⟨i, hi, rfl⟩ := List.mem_iff_getElem.mp hrow
      have := (h3.2 i (by rw [← h3.1]; exact hi)).1
      rwa [List.getD_eq_getElem _ _ hi] at this
    unfold Poly.random
    rw [RandP.rowTape_eq (by rw [h3.1, hlen]) hk]
    obtain ⟨a, b, d⟩ := p
    simp only at h1 h2
    rw [h1, h2]

example : ∃ c p p', IsContext 8 [17, 97] c ∧ p ≠ p' ∧ (∃ L, 0 < ways (Poly.randomWords c .ntt) L p) ∧
    ∀ L, ways (Poly.randomWords c .ntt) L p = ways (Poly.randomWords c .ntt) L p' := by
  obtain ⟨c, hc⟩ := exists_context
  obtain ⟨h1, -⟩ := c88_poly hc .ntt
  obtain ⟨K, hN, hw, hm⟩ := RqP.ctx hc
  have hd : c.degree = 8 := by rw [hw.core.deg, ← hN]
  have hv : ∀ x, x < 17 → (⟨c, .ntt, List.replicate 2 (List.replicate 8 x)⟩ : Poly) ∈
      {p : Poly | p.context = c ∧ p.representation = .ntt ∧ ValidRows c p.coefficients} := by
    intro x hx
    refine ⟨rfl, rfl, by rw [hm]; rfl, fun i hi => ?_⟩
    rw [hm] at hi ⊢
    rw [hd]
    have : i = 0 ∨ i = 1 := by simp at hi; omega
    rcases this with rfl | rfl <;> exact ⟨rfl, fun y hy => by rw [(List.mem_replicate.mp hy).2]; show x < _; simp; omega⟩
  exact ⟨c, _, _, hc, fun e => by simp at e, h1.all _ (hv 16 (by norm_num)), fun L => h1.equal L _ (hv 16 (by norm_num)) _ (hv 2 (by norm_num))⟩

/-- C88: the mask of an encryption or key-switching key is uniform on `R_Q`: every element of the ring is drawn for the same number of
sequences of words, of any length. -/
theorem c88_mask (h : IsParams N t l variance P) {i : Nat} {c : RqContext} (hi : P.qCtxs[i]? = some c) :
    (∀ L (a b : Rg N) (pa pb : Poly), PolyAt P i a pa → PolyAt P i b pb →
      ways (Poly.randomWords c .ntt) L pa = ways (Poly.randomWords c .ntt) L pb) ∧
    (∀ (a : Rg N) (pa : Poly), PolyAt P i a pa → ∃ L, 0 < ways (Poly.randomWords c .ntt) L pa) ∧
    ∀ ws p r, (∀ w ∈ ws, w < 2 ^ 64) → Poly.randomWords c .ntt ws = .ok (p, r) → ∃ a : Rg N, PolyAt P i a p := by
  obtain ⟨-, -, -, -, hlen, -, -, ext, -, -, h3⟩ := c51_levels h
  have hil : i < l.length := by rw [← hlen]; exact (List.getElem?_eq_some_iff.mp hi).1
  obtain ⟨c', e, hc', -, hctx, -⟩ := h3 i hil
  obtain rfl : c' = c := Option.some.inj (hc'.symm.trans hi)
  obtain ⟨hf, ht⟩ := c88_poly hctx .ntt
  have hmem : ∀ (a : Rg N) (pa : Poly), PolyAt P i a pa →
      pa ∈ {p : Poly | p.context = c' ∧ p.representation = .ntt ∧ ValidRows c' p.coefficients} := by
    rintro a pa ⟨d, hd, h1, h2, h3, -⟩
    obtain rfl : d = c' := Option.some.inj (hd.symm.trans hi)
    exact ⟨h1, h2, h3⟩
  refine ⟨fun L a b pa pb ha hb => hf.equal L _ (hmem a pa ha) _ (hmem b pb hb), fun a pa ha => hf.all _ (hmem a pa ha), ?_⟩
  intro ws p r hws hp
  obtain ⟨tape, h1, rfl⟩ := ht ws p r hws hp
  obtain ⟨⟨a, d, hd, ha⟩, -⟩ := c77_mask h hil (tape := tape) (fun k j hk => h1 k j hk)
  obtain rfl : d = c' := Option.some.inj (hd.symm.trans hi)
  exact ⟨a, ha⟩

example : ∃ P c, IsParams 8 17 Ex.mods 10 P ∧ P.qCtxs[0]? = some c ∧ ∀ (a : Rg 8) (pa : Poly), PolyAt P 0 a pa → ∃ L, 0 < ways (Poly.randomWords c .ntt) L pa := by
  obtain ⟨P, h⟩ := Ex.exists_params
  obtain ⟨-, -, -, -, hlen, -⟩ := c51_levels h
  have hi : P.qCtxs[0]? = some (P.qCtxs[0]'(by rw [hlen]; decide)) := List.getElem?_eq_getElem _
  exact ⟨P, _, h, hi, (c88_mask h hi).2.1⟩

/-- C88: `PvwSk::gen_sk` draws every matrix of residues equally often, and its results are those of the model reading a tape. -/
theorem c88_gen_sk {params : PvwParams} {m : Modulus} (hm : Modulus.new params.q = .ok m) :
    Fair (Pvw.genSkWords params) {sk | sk.length = params.ell ∧ ∀ row ∈ sk, row.length = params.n ∧ ∀ x ∈ row, x < params.q} ∧
      ∀ ws sk r, (∀ w ∈ ws, w < 2 ^ 64) → Pvw.genSkWords params ws = .ok (sk, r) →
        ∃ tape : Nat → Nat → Nat, (∀ i j, tape i j < params.q) ∧ Pvw.genSk params tape = .ok sk := by
  obtain ⟨h2, hlt, hq, hw⟩ := Modulus.new_inv hm
  have hz : Rand.Zones (2 ^ 64) Rand.uniformZone (fun n => 2 ^ 64 / n) ((List.replicate params.ell (params.q, params.n)).map Prod.fst) := by
    refine Rand.uniform_zones fun n hn => ?_
    rw [List.map_replicate] at hn
    rw [(List.mem_replicate.mp hn).2]
    omega
  have hf : Fair (Pvw.genSkWords params) {sk | sk.length = params.ell ∧ ∀ row ∈ sk, row.length = params.n ∧ ∀ x ∈ row, x < params.q} := by
    have h := Rand.fair_rows hz
    convert h using 1
    · funext ws
      unfold Pvw.genSkWords
      rw [hm, res_ok_bind, Rand.times_each _ _ (params.q, params.n), RandP.randomVec_eq hw, hq]
      have : ∀ k, Rand.each (fun _ : Nat × Nat => Rand.drawAll Rand.uniformZone (List.replicate params.n params.q)) (List.replicate k (params.q, params.n)) =
          Rand.each (fun b : Nat × Nat => Rand.drawAll Rand.uniformZone (List.replicate b.2 b.1)) (List.replicate k (params.q, params.n)) := by
        intro k
        rw [RandP.each_congr (g := fun b : Nat × Nat => Rand.drawAll Rand.uniformZone (List.replicate b.2 b.1)) (h := id), List.map_id]
        intro b hb
        rw [(List.mem_replicate.mp hb).2]
        rfl
      rw [this]
    · ext sk
      simp only [Set.mem_ofPred_eq]
      generalize params.ell = k
      induction k generalizing sk with
      | zero => cases sk <;> simp
      | succ k ih =>
        cases sk with
        | nil => simp
        | cons row sk =>
          rw [List.replicate_succ, List.forall₂_cons, ← ih]
          simp only [List.length_cons, List.mem_cons, forall_eq_or_imp, Nat.add_right_cancel_iff]
          tauto
  refine ⟨hf, fun ws sk r hws hsk => ?_⟩
  obtain ⟨⟨h3, h4⟩, -⟩ := hf.reads ws sk r hws hsk
  refine ⟨RandP.rowTape sk, fun i j => ?_, ?_⟩
  · unfold RandP.rowTape
    by_cases hi : i < sk.length
    · rw [List.getD_eq_getElem _ _ hi]
      by_cases hj : j < sk[i].length
      · rw [List.getD_eq_getElem _ _ hj]
        exact (h4 _ (List.getElem_mem hi)).2 _ (List.getElem_mem hj)
      · rw [List.getD_eq_default _ _ (by omega)]; omega
    · rw [List.getD_eq_default sk _ (by omega), List.getD_nil]; omega
  · unfold Pvw.genSk Pvw.randomVec
    rw [hm, res_ok_bind, RandP.rowTape_eq h3 (fun row hrow => (h4 row hrow).1)]

example : ∃ m, Modulus.new PvwParams.default.q = .ok m ∧ (∃ L, 0 < ways (Pvw.genSkWords PvwParams.default) L (List.replicate 4 (List.replicate 450 65536))) ∧
    Pvw.genSkWords { PvwParams.default with n := 2, ell := 2 } [0, 2 ^ 63, 2 ^ 62, 2 ^ 60] = .ok ([[0, 32768], [16384, 4096]], []) := by
  obtain ⟨m, hm⟩ : ∃ m, Modulus.new PvwParams.default.q = .ok m := ⟨_, rfl⟩
  refine ⟨m, hm, (c88_gen_sk hm).1.all _ ⟨rfl, fun row hr => ?_⟩, by decide +kernel⟩
  rw [(List.mem_replicate.mp hr).2]
  exact ⟨List.length_replicate, fun x hx => by rw [(List.mem_replicate.mp hx).2]; decide⟩

namespace RandP

theorem loop_words {m : Modulus} (hw : m.WF) (pr : Profile) {n lam : Nat} {sample : Nat → Nat} (fuel i : Nat) {ws : List Nat}
    (h : ∀ j xs r, Rand.times (Rand.genRange m.p) (j + 1) ws = .ok (xs, r) → sample (i + j) = xs.getD j 0) :
    primitiveRootLoopWords pr m n lam fuel ws = .error .diverge ∨
      primitiveRootLoopWords pr m n lam fuel ws = primitiveRootLoop pr m n lam sample fuel i := by
  induction fuel generalizing i ws with
  | zero => exact Or.inr rfl
  | succ f ih =>
    rw [primitiveRootLoopWords, primitiveRootLoop]
    cases hg : Rand.genRange m.p ws with
    | error e =>
      left
      rw [Rand.genRange_eq hw.pos] at hg
      rw [Rand.draw_total hg, res_error_bind]
    | ok x =>
      obtain ⟨x, ws'⟩ := x
      have hx : sample i = x := by
        have := h 0 [x] ws' (by simp [Rand.times, hg])
        simpa using this
      simp only [res_ok_bind, hx]
      cases m.pow pr x lam with
      | error e => exact Or.inr rfl
      | ok root =>
        simp only [res_ok_bind]
        cases mulW 64 pr 2 n with
        | error e => exact Or.inr rfl
        | ok n2 =>
          simp only [res_ok_bind]
          cases isPrimitiveRoot pr root n2 m with
          | error e => exact Or.inr rfl
          | ok b =>
            simp only [res_ok_bind]
            cases b with
            | true => exact Or.inr rfl
            | false =>
              simp only [Bool.false_eq_true, if_false]
              refine ih (i + 1) fun j xs r hj => ?_
              have := h (j + 1) (x :: xs) r (by rw [Rand.times, hg, res_ok_bind]; simp only [hj, res_ok_bind])
              rw [List.getD_cons_succ] at this
              rw [← this]
              congr 1
              omega

end RandP

/-- C88: `primitive_root` reading the words of its generator is the model's `primitiveRoot` with the values drawn by `gen_range` from these
words (unless the words run out). -/
theorem c88_primitive_root {q : Nat} {m : Modulus} (hm : Modulus.new q = .ok m) (pr : Profile) (n : Nat) {ws : List Nat}
    (hw : ∀ w ∈ ws, w < 2 ^ 64) :
    primitiveRootWords pr n m ws = .error .diverge ∨ ∃ sample : Nat → Nat, (∀ i, sample i < q) ∧
      (∀ k xs r, Rand.times (Rand.genRange q) k ws = .ok (xs, r) → ∀ i, i < k → xs[i]? = some (sample i)) ∧
      primitiveRootWords pr n m ws = primitiveRoot pr n m sample := by
  obtain ⟨h2, hlt, rfl, hwf⟩ := Modulus.new_inv hm
  let sample : Nat → Nat := fun i => match Rand.times (Rand.genRange m.p) (i + 1) ws with
    | .ok (xs, _) => xs.getD i 0
    | .error _ => 0
  have hpre : ∀ (k : Nat) (ws xs r : List Nat), Rand.times (Rand.genRange m.p) k ws = .ok (xs, r) → xs.length = k ∧
      ∀ i, i < k → ∃ r', Rand.times (Rand.genRange m.p) (i + 1) ws = .ok (xs.take (i + 1), r') := by
    intro k
    induction k with
    | zero =>
      intro ws xs r h
      simp only [Rand.times, Except.ok.injEq, Prod.mk.injEq] at h
      rw [← h.1]
      exact ⟨rfl, fun i hi => by omega⟩
    | succ k ih =>
      intro ws xs r h
      simp only [Rand.times, bind_eq_ok] at h
      obtain ⟨⟨y, r1⟩, h1, ⟨ys, r2⟩, h2, h3⟩ := h
      simp only [Except.ok.injEq, Prod.mk.injEq] at h3
      obtain ⟨rfl, rfl⟩ := h3
      obtain ⟨hl, hi⟩ := ih r1 ys r2 h2
      refine ⟨by simp [hl], fun i hik => ?_⟩
      cases i with
      | zero => exact ⟨r1, by simp [Rand.times, h1]⟩
      | succ i =>
        obtain ⟨r', hr'⟩ := hi i (by omega)
        exact ⟨r', by rw [Rand.times, h1, res_ok_bind]; simp only [hr', res_ok_bind, List.take_succ_cons]⟩
  have hs : ∀ i, sample i < m.p := by
    intro i
    have hp := hwf.pos
    show (match Rand.times (Rand.genRange m.p) (i + 1) ws with
      | .ok (xs, _) => xs.getD i 0
      | .error _ => 0) < m.p
    cases ht : Rand.times (Rand.genRange m.p) (i + 1) ws with
    | error e => exact hp
    | ok x =>
      obtain ⟨xs, r⟩ := x
      have hlen := (hpre _ _ _ _ ht).1
      rw [Rand.genRange_eq hp, Rand.times_eq Rand.singleZone] at ht
      have hlt := (Rand.forall_replicate.mp (Rand.drawAll_lt (fun n hn => by rw [(List.mem_replicate.mp hn).2]; exact hp) hw ht).1).2
      show xs.getD i 0 < m.p
      rw [List.getD_eq_getElem _ _ (by omega)]
      exact hlt _ (List.getElem_mem _)
  have key : ∀ j xs r, Rand.times (Rand.genRange m.p) (j + 1) ws = .ok (xs, r) → sample (0 + j) = xs.getD j 0 := by
    intro j xs r hj
    show (match Rand.times (Rand.genRange m.p) (0 + j + 1) ws with
      | .ok (xs, _) => xs.getD (0 + j) 0
      | .error _ => 0) = _
    rw [Nat.zero_add, hj]
  have hlink : ∀ k xs r, Rand.times (Rand.genRange m.p) k ws = .ok (xs, r) → ∀ i, i < k → xs[i]? = some (sample i) := by
    intro k xs r hk i hi
    obtain ⟨hl, hp⟩ := hpre k ws xs r hk
    obtain ⟨r', hr'⟩ := hp i hi
    have := key i _ r' hr'
    rw [Nat.zero_add] at this
    rw [this, List.getD_eq_getElem _ _ (by rw [List.length_take]; omega), List.getElem_take]
    exact List.getElem?_eq_getElem _
  unfold primitiveRootWords primitiveRoot
  cases subW 64 pr m.p 1 with
  | error e => exact Or.inr ⟨sample, hs, hlink, rfl⟩
  | ok a =>
    cases mulW 64 pr 2 n with
    | error e => exact Or.inr ⟨sample, hs, hlink, rfl⟩
    | ok b =>
      simp only [res_ok_bind]
      cases divR a b with
      | error e => exact Or.inr ⟨sample, hs, hlink, rfl⟩
      | ok lam =>
        rcases RandP.loop_words hwf pr (n := n) (lam := lam) 100 0 key with h | h
        · exact Or.inl h
        · exact Or.inr ⟨sample, hs, hlink, h⟩

/-- The block function agrees with the published test vector for ChaCha with 8 rounds, key 0 and nonce 0. -/
example : ChaCha8.block (List.replicate 8 0) 0 = [0x2fef003e, 0xd6405f89, 0xe8b85b7f, 0xa1a5091f, 0xc30e842c, 0x3b7f9ace, 0x88e11b18, 0x1e1a71ef,
    0x72e14c98, 0x416f21b9, 0x6753449f, 0x19566d45, 0xa3424a31, 0x01b086da, 0xb8fd7b38, 0x42fe0c0e] := by decide +kernel

/-- A counter above `2^32` uses both counter words (value computed by an independent implementation). -/
example : ChaCha8.block [1, 2, 3, 4, 5, 6, 7, 8] (3 * 2 ^ 32 + 5) = [0x8c9c004b, 0xaf56bf28, 0xd834308b, 0x34daea4f, 0x115a5918, 0x0b409f77,
    0x039041e5, 0x05edc83f, 0x67ee77c8, 0x863d9c15, 0x64ed06b8, 0x36ca13b6, 0xa63cf62d, 0x7cb55175, 0x82be2af6, 0xb3506f68] := by decide +kernel

example : (ChaCha8.seeded 0 1).take 2 = [0xb585f767a79a3b6c, 0x7746a55fbad8c037] := by decide +kernel

example : ∃ m, Modulus.new 1153 = .ok m ∧ (∀ w ∈ ChaCha8.seeded 0 1, w < 2 ^ 64) ∧
    primitiveRootWords .debug 64 m (ChaCha8.seeded 0 1) = primitiveRootWords .release 64 m (ChaCha8.seeded 0 1) ∧
    primitiveRootWords .debug 64 m (ChaCha8.seeded 0 1) ≠ .error .diverge := by
  refine ⟨_, rfl, by decide +kernel, by decide +kernel, by decide +kernel⟩

end OnionPIR
