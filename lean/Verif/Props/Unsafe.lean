/-
C66: the `unsafe` blocks. The crate has three: the unchecked loads and the pointer arithmetic of the transforms
(src/ntt.rs:88-112 and 134-147) and the `get_unchecked` accesses of `RnsScaler::scale` (src/rns.rs:395-430). The model
evaluates every such access with a bounds check that fails with `Panic.bounds`, so "the result is not `.error .bounds`"
says that no access is out of bounds. In the functions below these accesses are the only source of `Panic.bounds`.
-/
import Verif.Proofs.Unsafe
import Verif.Props.Ntt
import Verif.Props.Rns

namespace OnionPIR
open Spec

/-- C66: the forward transform of any operator stays in bounds for every slice, whatever its length and whatever words it
holds (canonical or not), in both profiles. -/
theorem c66_forward {q : Nat} {p : Modulus} (hp : Modulus.new q = .ok p) (pr pr' : Profile) {n : Nat} (hn : n < 2 ^ 64)
    {sample : Nat → Nat} (hs : ∀ i, sample i < q) {op : NttOperator} (hop : NttOperator.new pr sample p n = .ok op)
    (a : List Nat) : op.forward pr' a ≠ .error .bounds := by
  obtain ⟨K, psi, -, rfl, -, -, -, hsize, -, -, ho, -, -, hos, -⟩ := c14_new hp pr hn hs hop
  exact (NttOperator.sat_forward pr' op hsize ho hos a).ne

/-- C66: the same for the backward transform. -/
theorem c66_backward {q : Nat} {p : Modulus} (hp : Modulus.new q = .ok p) (pr pr' : Profile) {n : Nat} (hn : n < 2 ^ 64)
    {sample : Nat → Nat} (hs : ∀ i, sample i < q) {op : NttOperator} (hop : NttOperator.new pr sample p n = .ok op)
    (a : List Nat) : op.backward pr' a ≠ .error .bounds := by
  obtain ⟨K, psi, -, rfl, -, -, -, hsize, -, -, -, -, hz, -, hzs, -⟩ := c14_new hp pr hn hs hop
  exact (NttOperator.sat_backward pr' op hsize hz hzs a).ne

namespace RnsScaler
theorem WF.shape {s : RnsScaler} (h : s.WF) : s.Shape := by
  have hg : s.src.garner.length = s.src.moduliU64.length := h.src.g_len
  refine ⟨?_, by simp [h.gamma], by simp [h.gammaShoup], by simp [h.omega], by simp [h.omegaShoup], ?_, ?_⟩
  · rw [← h.dst.ps, List.length_map]
  · intro r hr
    rw [h.omega] at hr
    obtain ⟨q, -, rfl⟩ := List.mem_map.1 hr
    simp [hg]
  · intro r hr
    rw [h.omegaShoup] at hr
    obtain ⟨q, -, rfl⟩ := List.mem_map.1 hr
    simp [hg]

theorem new_shape {pr : Profile} {ls ld : List Nat} {src dst : RnsContext} (hs : RnsContext.new ls = .ok src)
    (hd : RnsContext.new ld = .ok dst) (hne : ls ≠ []) (hlen : ls.length < 2 ^ 62) {num den : Nat} {sf : ScalingFactor}
    (hsf : ScalingFactor.new num den = .ok sf) {s : RnsScaler} (hn : RnsScaler.new pr src dst sf = .ok s) :
    s.Shape ∧ s.src.moduliU64 = ls ∧ s.dst.moduliU64 = ld := by
  obtain ⟨h1, rfl⟩ := RnsContext.new_wf hs
  obtain ⟨h2, rfl⟩ := RnsContext.new_wf hd
  unfold ScalingFactor.new at hsf
  simp only [bind_eq_ok, rassert_eq_ok] at hsf
  obtain ⟨_, hden, hsf⟩ := hsf
  cases hsf
  obtain ⟨s', e, hw, e1, e2, e3⟩ := RnsScaler.new_ok pr h1 h2 hne hlen
    (sf := ⟨num, den, decide (num = den)⟩) (by simp only; omega)
  rw [e] at hn
  cases hn
  subst e1 e2
  exact ⟨hw.shape, rfl, rfl⟩
end RnsScaler

section
variable {pr : Profile} {ls ld : List Nat} {src dst : RnsContext} {num den : Nat} {sf : ScalingFactor} {s : RnsScaler}

/-- C66 for `RnsScaler::scale`: no access is out of bounds if the rests and the output fit the bases. What is missing:
`scale` is a safe public function, but for other arguments it is only protected by `debug_assert!`; in the release
profile it then reads out of bounds (`c66_scale_release`). -/
theorem c66_scale_partial (pr' : Profile) (hs : RnsContext.new ls = .ok src) (hd : RnsContext.new ld = .ok dst)
    (hne : ls ≠ []) (hlen : ls.length < 2 ^ 62) (hsf : ScalingFactor.new num den = .ok sf)
    (hn : RnsScaler.new pr src dst sf = .ok s) {rests : List Nat} (hr : rests.length ≤ ls.length) {outLen start : Nat}
    (ho : start + outLen ≤ ld.length) : s.scale pr' rests outLen start ≠ .error .bounds := by
  obtain ⟨h, rfl, rfl⟩ := RnsScaler.new_shape hs hd hne hlen hsf hn
  exact (RnsScaler.free_scale pr' h hr ho).ne

/-- In the debug profile no access is out of bounds, whatever the arguments. -/
theorem c66_scale_debug (hs : RnsContext.new ls = .ok src) (hd : RnsContext.new ld = .ok dst)
    (hne : ls ≠ []) (hlen : ls.length < 2 ^ 62) (hsf : ScalingFactor.new num den = .ok sf)
    (hn : RnsScaler.new pr src dst sf = .ok s) (rests : List Nat) (outLen start : Nat) :
    s.scale .debug rests outLen start ≠ .error .bounds := by
  obtain ⟨h, rfl, rfl⟩ := RnsScaler.new_shape hs hd hne hlen hsf hn
  exact (RnsScaler.scale_debug h rests outLen start).ne

/-- The violation: in the release profile `scale` accesses memory out of bounds exactly if the output is nonempty and it
extends past the target basis or there are more rests than source moduli. -/
theorem c66_scale_release (hs : RnsContext.new ls = .ok src) (hd : RnsContext.new ld = .ok dst)
    (hne : ls ≠ []) (hlen : ls.length < 2 ^ 62) (hsf : ScalingFactor.new num den = .ok sf)
    (hn : RnsScaler.new pr src dst sf = .ok s) (rests : List Nat) (outLen start : Nat) :
    s.scale .release rests outLen start = .error .bounds ↔
      0 < outLen ∧ (ld.length < start + outLen ∨ ls.length < rests.length) := by
  obtain ⟨h, rfl, rfl⟩ := RnsScaler.new_shape hs hd hne hlen hsf hn
  exact RnsScaler.scale_release h rests outLen start
end

/-- Non-vacuity: a scaler from three moduli into two; the accesses are in bounds for two outputs, out of bounds in a
release build for three outputs and for four rests. -/
example : ∃ src dst sf s, RnsContext.new [17, 97, 113] = .ok src ∧ RnsContext.new [193, 241] = .ok dst ∧
    ScalingFactor.new 3 186337 = .ok sf ∧ RnsScaler.new .release src dst sf = .ok s ∧
    s.scale .release [1, 2, 3] 2 0 ≠ .error .bounds ∧ s.scale .release [1, 2, 3] 3 0 = .error .bounds ∧
    s.scale .release [1, 2, 3, 4] 2 0 = .error .bounds := by
  obtain ⟨src, hs⟩ := (c18_new_iff [17, 97, 113]).mpr ⟨by decide, by decide +kernel⟩
  obtain ⟨dst, hd⟩ := (c18_new_iff [193, 241]).mpr ⟨by decide, by decide +kernel⟩
  obtain ⟨sf, s, h1, h2⟩ := c19_new_succeeds .release hs hd (by simp) (by simp) (num := 3) (den := 186337) (by norm_num)
  exact ⟨src, dst, sf, s, hs, hd, h1, h2, c66_scale_partial .release hs hd (by simp) (by simp) h1 h2 (by simp) (by simp),
    (c66_scale_release hs hd (by simp) (by simp) h1 h2 _ _ _).mpr (by simp),
    (c66_scale_release hs hd (by simp) (by simp) h1 h2 _ _ _).mpr (by simp)⟩

/-- An operator of size 8 modulo 17 applied to `a`. -/
def Ex.forwardRun (pr : Profile) (a : List Nat) : Res (List Nat) := do
  let p ← Modulus.new 17
  let op ← NttOperator.new .debug (fun _ => 3) p 8
  op.forward pr a

/-- Non-vacuity for the transforms: words that are not residues. The debug build fails a debug assertion, the release build
returns words; neither leaves the slice. A slice of the wrong length is rejected. -/
example : Ex.forwardRun .debug (List.replicate 8 (2 ^ 64 - 1)) = .error .debugAssert ∧
    (∃ b, Ex.forwardRun .release (List.replicate 8 (2 ^ 64 - 1)) = .ok b ∧ b.length = 8) ∧
    Ex.forwardRun .release [1, 2, 3] = .error .assert := by
  refine ⟨by decide +kernel, ?_, by decide +kernel⟩
  have h : (match Ex.forwardRun .release (List.replicate 8 (2 ^ 64 - 1)) with
    | .ok b => decide (b.length = 8) | .error _ => false) = true := by decide +kernel
  revert h
  cases Ex.forwardRun .release (List.replicate 8 (2 ^ 64 - 1)) with
  | ok b => exact fun h => ⟨b, rfl, of_decide_eq_true h⟩
  | error e => exact fun h => absurd h Bool.false_ne_true

/-- `c66_forward`, `c66_backward` and `c66_scale_debug`. -/
example : ∃ src dst sf s, ∃ op : NttOperator, RnsContext.new [17, 97, 113] = .ok src ∧ RnsContext.new [193, 241] = .ok dst ∧
    ScalingFactor.new 3 186337 = .ok sf ∧ RnsScaler.new .release src dst sf = .ok s ∧ s.scale .debug [1, 2, 3, 4] 9 7 ≠ .error .bounds ∧
    (∀ a, op.forward .release a ≠ .error .bounds) ∧ ∀ a, op.backward .release a ≠ .error .bounds := by
  obtain ⟨src, hs⟩ := (c18_new_iff [17, 97, 113]).mpr ⟨by decide, by decide +kernel⟩
  obtain ⟨dst, hd⟩ := (c18_new_iff [193, 241]).mpr ⟨by decide, by decide +kernel⟩
  obtain ⟨sf, s, h1, h2⟩ := c19_new_succeeds .release hs hd (by simp) (by simp) (num := 3) (den := 186337) (by norm_num)
  obtain ⟨p, op, hp, hop⟩ := Ex.ntt17
  exact ⟨src, dst, sf, s, op, hs, hd, h1, h2, c66_scale_debug hs hd (by simp) (by simp) h1 h2 _ _ _,
    c66_forward hp .debug .release (n := 8) (by norm_num) (sample := fun _ => 3) (fun _ => by norm_num) hop,
    c66_backward hp .debug .release (n := 8) (by norm_num) (sample := fun _ => 3) (fun _ => by norm_num) hop⟩

end OnionPIR
