import Verif.Spec.SimdExact
import Verif.Props.SimdCapacity
import Verif.Props.NttContracts
import Verif.Proofs.Scatter
/-
C132: which vectors `Plaintext::new` with `Encoding::SIMD` and `decode` accept, and what comes back for every vector.
-/
namespace OnionPIR
open Rg Poly Spec

variable {N t : Nat} {l : List Nat} {variance : Nat} {P : BfvParameters}

namespace SimdExact

theorem last_lt {i : Nat} (hi : i < N) : lastSlot N i < N := by
  unfold lastSlot
  have := Nat.findGreatest_le (P := fun j => slotExp N j = slotExp N i) (N - 1)
  omega

theorem last_slot {i : Nat} (hi : i < N) : slotExp N (lastSlot N i) = slotExp N i :=
  Nat.findGreatest_spec (P := fun j => slotExp N j = slotExp N i) (m := i) (by omega) rfl

theorem last_max {i j : Nat} (hj : j < N) (h : lastSlot N i < j) : slotExp N j ≠ slotExp N i :=
  Nat.findGreatest_is_greatest (P := fun j => slotExp N j = slotExp N i) h (by omega)

variable {K : Nat} {ext : List Nat}

/-- What the scatter loop writes. -/
theorem scatter (hw : P.WF K ext) {values : List Nat} (hv : 2 ^ K ≤ values.length) : ∃ e, Plaintext.scatter P values (List.replicate P.degree 0) = .ok e ∧
    e.length = 2 ^ K ∧ (∀ i, i < 2 ^ K → e.getD (P.matrixRepsIndexMap.getD i 0) 0 = values.getD (lastSlot (2 ^ K) i) 0) ∧
    ∀ k, k < 2 ^ K → (∀ i, i < 2 ^ K → P.matrixRepsIndexMap.getD i 0 ≠ k) → e.getD k 0 = 0 := by
  have hs := Plaintext.simdWF hw
  obtain ⟨e, e1, e2, -, e4⟩ := Plaintext.scatter_ok hs hv (t := values.sum + 1) (by omega) fun v hv => Nat.lt_succ_of_le (List.le_sum_of_mem hv)
  refine ⟨e, e1, e2, fun i hi => ?_, fun k hk hu => Plaintext.scatter_unused hs hv e1 hk hu⟩
  have h1 := (Simd.slotExp_inj_iff hw (last_lt hi) hi).mpr (last_slot hi)
  rw [← h1]
  refine e4 _ (last_lt hi) fun i' a b hc => last_max b a ?_
  exact ((Simd.slotExp_inj_iff hw b (last_lt hi)).mp hc).trans (last_slot hi)

/-- Scattering residues. -/
theorem scatter_mod (hw : P.WF K ext) {values e : List Nat} (hv : 2 ^ K ≤ values.length) (t : Nat)
    (he : Plaintext.scatter P values (List.replicate P.degree 0) = .ok e) :
    Plaintext.scatter P (values.map (· % t)) (List.replicate P.degree 0) = .ok (e.map (· % t)) := by
  obtain ⟨e', a1, a2, a3, a4⟩ := scatter hw hv
  obtain rfl := Except.ok.inj (he.symm.trans a1)
  obtain ⟨f, b1, b2, b3, b4⟩ := scatter hw (values := values.map (· % t)) (by simpa using hv)
  rw [b1]
  congr 1
  refine List.ext_getElem (by simp [a2, b2]) fun k h1 h2 => ?_
  have hk : k < 2 ^ K := by omega
  rw [List.getElem_map, ← List.getD_eq_getElem f 0 h1, ← List.getD_eq_getElem e 0 (by omega)]
  by_cases hu : ∃ i, i < 2 ^ K ∧ P.matrixRepsIndexMap.getD i 0 = k
  · obtain ⟨i, hi, rfl⟩ := hu
    rw [a3 i hi, b3 i hi]
    have hl : lastSlot (2 ^ K) i < values.length := (last_lt hi).trans_le hv
    rw [List.getD_eq_getElem _ _ (by simpa using hl), List.getD_eq_getElem _ _ hl, List.getElem_map]
  · push Not at hu
    rw [a4 k hk hu, b4 k hk hu, Nat.zero_mod]

/-- The vector that is transformed has an entry outside of a range exactly if a value that stays is outside of it. -/
theorem scatter_bad (hw : P.WF K ext) {values e : List Nat} (hv : 2 ^ K ≤ values.length) {B : Nat} (hB : 0 < B)
    (he : Plaintext.scatter P values (List.replicate P.degree 0) = .ok e) :
    (∃ x ∈ e, ¬ x < B) ↔ ∃ i, i < 2 ^ K ∧ ¬ values.getD (lastSlot (2 ^ K) i) 0 < B := by
  obtain ⟨e', a1, a2, a3, a4⟩ := scatter hw hv
  obtain rfl := Except.ok.inj (he.symm.trans a1)
  have hmap := (Plaintext.simdWF hw).map
  constructor
  · intro hb
    obtain ⟨k, hk, hx⟩ := NttContracts.bad_index hb
    rw [a2] at hk
    by_cases hu : ∃ i, i < 2 ^ K ∧ P.matrixRepsIndexMap.getD i 0 = k
    · obtain ⟨i, hi, rfl⟩ := hu
      exact ⟨i, hi, by rwa [← a3 i hi]⟩
    · push Not at hu
      rw [a4 k hk hu] at hx
      exact absurd hB hx
  · rintro ⟨i, hi, hx⟩
    have hk := hmap.2 i hi
    refine ⟨e.getD (P.matrixRepsIndexMap.getD i 0) 0, ?_, by rwa [a3 i hi]⟩
    rw [List.getD_eq_getElem _ _ (by omega)]
    exact List.getElem_mem _

end SimdExact

/-- C132: fewer values than slots panic. -/
theorem c132_short (h : IsParams N t l variance P) (pr : Profile) {values : List Nat} (hv : values.length < N) (level : Nat) :
    Plaintext.new pr P values level .simd = .error .bounds := by
  obtain ⟨K, ext, rfl, hw, rfl, -, -⟩ := BfvP.params h
  have hs := Plaintext.simdWF hw
  obtain ⟨m1, m2⟩ := hs.map
  suffices hsc : Plaintext.scatter P values (List.replicate P.degree 0) = .error .bounds by
    unfold Plaintext.new Plaintext.encode
    simp only
    rw [hsc]; rfl
  unfold Plaintext.scatter
  rw [hs.deg]
  refine NttContracts.fold_refuses (fun _ (e : List Nat) => e.length = 2 ^ K) (fun i _ => i < values.length) ?_ ?_ (by simp) ⟨_, hv, lt_irrefl _⟩
  · intro j e hj he hg
    rw [Plaintext.idx_getD (by omega), res_ok_bind, Plaintext.idx_getD hg, res_ok_bind, setR_ok (by rw [he]; exact m2 j hj)]
    exact ⟨_, rfl, by simp [he], fun _ _ _ => Iff.rfl⟩
  · intro j e hj he hg
    rw [Plaintext.idx_getD (by omega), res_ok_bind]
    have : idx values j = .error .bounds := by
      unfold idx
      rw [List.getElem?_eq_none (by omega)]
    rw [this]; rfl

/-- C132: more values than slots are ignored without a panic, whatever they are. -/
theorem c132_long (h : IsParams N t l variance P) (pr : Profile) {values : List Nat} (hv : values.length = N) (extra : List Nat) (level : Nat) :
    Plaintext.new pr P (values ++ extra) level .simd = Plaintext.new pr P values level .simd := by
  obtain ⟨K, ext, rfl, hw, rfl, -, -⟩ := BfvP.params h
  have hs := Plaintext.simdWF hw
  unfold Plaintext.new Plaintext.encode
  simp only
  obtain ⟨e, a1, a2, a3, a4⟩ := SimdExact.scatter hw hv.ge
  obtain ⟨f, b1, b2, b3, b4⟩ := SimdExact.scatter hw (values := values ++ extra) (by rw [List.length_append]; omega)
  rw [a1, b1, show f = e from ?_]
  refine List.ext_getElem (by omega) fun k h1 h2 => ?_
  have hk : k < 2 ^ K := by omega
  rw [← List.getD_eq_getElem f 0 h1, ← List.getD_eq_getElem e 0 h2]
  by_cases hu : ∃ i, i < 2 ^ K ∧ P.matrixRepsIndexMap.getD i 0 = k
  · obtain ⟨i, hi, rfl⟩ := hu
    rw [a3 i hi, b3 i hi, List.getD_append _ _ _ _ (by rw [hv]; exact SimdExact.last_lt hi)]
  · push Not at hu
    rw [a4 k hk hu, b4 k hk hu]

/-- C132: what comes back for every vector whose values are below twice the plaintext modulus, in both builds: position `i` holds the residue of the value at the last
position with the same evaluation point. -/
theorem c132_round_trip (h : IsParams N t l variance P) (pr pr' : Profile) {values : List Nat} (hl : N ≤ values.length) (hv : ∀ v ∈ values, v < 2 * t) (level : Nat) :
    ∃ pt, Plaintext.new pr P values level .simd = .ok pt ∧ pt.decode pr' = .ok ((List.range N).map fun i => values.getD (lastSlot N i) 0 % t) := by
  obtain ⟨K, ext, rfl, hw, rfl, -, -⟩ := BfvP.params h
  have hs := Plaintext.simdWF hw
  have hmod : Plaintext.new pr P values level .simd = Plaintext.new pr P (values.map (· % P.plaintextModulus)) level .simd := by
    obtain ⟨e, e1, e2, e3, e4⟩ := SimdExact.scatter hw hl
    obtain ⟨op, psi, psiInv, hop, hopw, hp⟩ := hs.ntt
    unfold Plaintext.new Plaintext.encode
    simp only
    rw [e1, SimdExact.scatter_mod hw hl _ e1, hop]
    have he : ∀ x ∈ e, x < 2 * op.p.p := by
      by_contra hc
      push Not at hc
      obtain ⟨x, hx, hx'⟩ := hc
      obtain ⟨i, hi, hb⟩ := (SimdExact.scatter_bad hw hl (B := 2 * op.p.p) (by have := hs.t_pos; omega) e1).mp ⟨x, hx, by omega⟩
      rw [hp, List.getD_eq_getElem _ _ ((SimdExact.last_lt hi).trans_le hl)] at hb
      exact hb (hv _ (List.getElem_mem _))
    obtain ⟨b, b1, b2, b3, b4⟩ := NttOperator.backward_ok hopw pr e2 he
    obtain ⟨c, c1, c2, c3, c4⟩ := NttOperator.backward_ok hopw pr (a := e.map (· % op.p.p)) (by simpa using e2) (fun x hx => by
      obtain ⟨y, -, rfl⟩ := List.mem_map.mp hx
      have := Nat.mod_lt y hopw.mod.pos
      omega)
    have : b = c := NttContracts.eq_of_vals hopw.mod.pos b2 c2 b3 c3 fun x hx => by rw [b4 x hx, c4 x hx, NttContracts.vals_mod]
    subst this
    rw [← hp]
    simp only [res_ok_bind, show unwrapR (some op) = .ok op from rfl, b1, c1]
  rw [hmod]
  have hl' : 2 ^ K ≤ (values.map (· % P.plaintextModulus)).length := by simpa using hl
  obtain ⟨pt, e, h1, h2, h3⟩ := Plaintext.simd_ok hs pr pr' hl' (fun v hv => by
    obtain ⟨y, -, rfl⟩ := List.mem_map.mp hv
    exact Nat.mod_lt _ hs.t_pos) level
  refine ⟨pt, h1, h2.trans ?_⟩
  congr 1
  refine List.map_congr_left fun i hi => ?_
  have hi := List.mem_range.mp hi
  have hL := SimdExact.last_lt hi
  have h4 := h3 (lastSlot (2 ^ K) i) hL fun i' a b hc => SimdExact.last_max b a (((Simd.slotExp_inj_iff hw b hL).mp hc).trans (SimdExact.last_slot hi))
  rw [(Simd.slotExp_inj_iff hw hL hi).mpr (SimdExact.last_slot hi)] at h4
  rw [h4, List.getD_eq_getElem _ _ (by omega), List.getD_eq_getElem _ _ (by omega), List.getElem_map]

/-- C132: the debug build accepts a vector exactly if the values that stay are below twice the plaintext modulus. -/
theorem c132_debug (h : IsParams N t l variance P) {values : List Nat} (hl : N ≤ values.length) (level : Nat) :
    ((∀ i, i < N → values.getD (lastSlot N i) 0 < 2 * t) → ∃ pt, Plaintext.new .debug P values level .simd = .ok pt) ∧
    ((∃ i, i < N ∧ ¬ values.getD (lastSlot N i) 0 < 2 * t) → Plaintext.new .debug P values level .simd = .error .debugAssert) := by
  obtain ⟨K, ext, rfl, hw, rfl, -, -⟩ := BfvP.params h
  have hs := Plaintext.simdWF hw
  obtain ⟨e, e1, e2, e3, e4⟩ := SimdExact.scatter hw hl
  obtain ⟨op, psi, psiInv, hop, hopw, hp⟩ := hs.ntt
  have hbad := SimdExact.scatter_bad hw hl (B := 2 * P.plaintextModulus) (by have := hs.t_pos; omega) e1
  unfold Plaintext.new Plaintext.encode
  simp only
  rw [e1, hop]
  simp only [res_ok_bind, show unwrapR (some op) = .ok op from rfl]
  constructor
  · intro hg
    obtain ⟨b, b1, -⟩ := NttOperator.backward_ok hopw .debug e2 (by
      by_contra hc
      push Not at hc
      obtain ⟨x, hx, hx'⟩ := hc
      obtain ⟨i, hi, hb⟩ := hbad.mp ⟨x, hx, by rw [hp] at hx'; omega⟩
      exact hb (hg i hi))
    rw [b1]
    exact ⟨_, rfl⟩
  · intro hb
    rw [NttContracts.backward_refuses hopw e2 (by rw [hp]; exact hbad.mpr hb)]
    rfl

/-- C132: `decode` of a plaintext with one value for every coefficient: the debug build accepts exactly values below four times the plaintext modulus; the result is that
of the residues in both builds. -/
theorem c132_decode (h : IsParams N t l variance P) {p : Plaintext} (hp : p.params = P) (he : p.encoding = .simd) (hl : p.values.length = N) :
    ((∀ x ∈ p.values, x < 4 * t) → ∀ pr, ∃ out, p.decode pr = .ok out ∧ Plaintext.decode pr { p with values := p.values.map (· % t) } = .ok out) ∧
    ((∃ x ∈ p.values, ¬ x < 4 * t) → p.decode .debug = .error .debugAssert) := by
  obtain ⟨K, ext, rfl, hw, rfl, -, -⟩ := BfvP.params h
  have hs := Plaintext.simdWF hw
  obtain ⟨op, psi, psiInv, hop, hopw, hpp⟩ := hs.ntt
  constructor
  · intro hg pr
    obtain ⟨b, b1, b2, b3, b4⟩ := NttOperator.forward_ok hopw pr hl (by rw [hpp]; exact hg)
    obtain ⟨c, c1, c2, c3, c4⟩ := NttOperator.forward_ok hopw pr (a := p.values.map (· % op.p.p)) (by simpa using hl) (fun x hx => by
      obtain ⟨y, -, rfl⟩ := List.mem_map.mp hx
      have := Nat.mod_lt y hopw.mod.pos
      omega)
    have : b = c := NttContracts.eq_of_vals hopw.mod.pos b2 c2 b3 c3 fun x hx => by rw [b4 x hx, c4 x hx, NttContracts.vals_mod]
    subst this
    rw [hpp] at c1
    unfold Plaintext.decode
    simp only [he, hp, hop, res_ok_bind, show unwrapR (some op) = .ok op from rfl, b1, c1, Plaintext.gather_ok hs b2]
    exact ⟨_, rfl, rfl⟩
  · intro hb
    unfold Plaintext.decode
    simp only [he, hp, hop, res_ok_bind, show unwrapR (some op) = .ok op from rfl]
    rw [NttContracts.forward_refuses hopw hl (by rw [hpp]; exact hb)]
    rfl

/-- Degree 8 and plaintext modulus 17: the values at positions 2, 4 and 5 are lost, and the value 30 comes back as 13. -/
example : ∃ (P : BfvParameters) (pt : Plaintext), IsParams 8 17 Ex.mods 10 P ∧ Plaintext.new .debug P [1, 2, 3, 4, 5, 6, 7, 30] 0 .simd = .ok pt ∧
    (List.range 8).map (lastSlot 8) = [0, 1, 7, 3, 6, 7, 6, 7] ∧
    pt.decode .release = .ok [1, 2, 13, 4, 7, 13, 7, 13] ∧ Plaintext.new .release P [1, 2, 3, 4, 5, 6, 7, 30, 99] 0 .simd = Plaintext.new .release P [1, 2, 3, 4, 5, 6, 7, 30] 0 .simd ∧
    Plaintext.new .debug P [1, 2, 3, 4, 5, 6, 7] 0 .simd = .error .bounds := by
  obtain ⟨P, h⟩ := Ex.exists_params
  obtain ⟨pt, h1, h2⟩ := c132_round_trip h .debug .release (values := [1, 2, 3, 4, 5, 6, 7, 30]) (by simp) (by simp) 0
  exact ⟨P, pt, h, h1, by decide +kernel, h2.trans (by decide +kernel), c132_long h .release (values := [1, 2, 3, 4, 5, 6, 7, 30]) rfl [99] 0, c132_short h .debug (by simp) 0⟩

end OnionPIR
