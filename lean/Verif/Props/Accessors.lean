import Verif.Model.Accessors
import Verif.Props.Pir
import Verif.Props.Utils
import Mathlib.Data.Rat.Lemmas
import Mathlib.Tactic.FieldSimp
/-
C70, continued: the functions that only copy fields.
-/
namespace OnionPIR
open Spec

/-- C70: a scaling factor is built exactly for nonzero denominators, and says whether the fraction is one. -/
theorem c70_scaling_factor (n d : Nat) : (d = 0 → ScalingFactor.new n d = .error .assert) ∧
    (d ≠ 0 → ∃ f, ScalingFactor.new n d = .ok f ∧ f.numerator = n ∧ f.denominator = d ∧ (f.getIsOne = true ↔ (n : ℚ) / d = 1)) := by
  constructor
  · rintro rfl; rfl
  · intro hd
    refine ⟨_, by unfold ScalingFactor.new; rw [rassert_ok hd]; rfl, rfl, rfl, ?_⟩
    have hd' : (d : ℚ) ≠ 0 := by exact_mod_cast hd
    rw [div_eq_one_iff_eq hd']
    simp [ScalingFactor.getIsOne]

example : ∃ f, ScalingFactor.new 6 6 = .ok f ∧ f.getIsOne = true ∧ ∃ g, ScalingFactor.new 6 3 = .ok g ∧ g.getIsOne = false :=
  ⟨_, rfl, rfl, _, rfl, rfl⟩

/-- C70: the limbs of a `U256`, least significant first, in both directions. -/
theorem c70_u64s (x : U256) : ∃ a b c d, x.toU64s = [a, b, c, d] ∧ U256.ofU64s a b c d = x ∧
    x.val = a + 2 ^ 64 * b + 2 ^ 128 * c + 2 ^ 192 * d :=
  ⟨_, _, _, _, rfl, rfl, by unfold U256.val; ring⟩

/-- C70: `>>` on a `U256` is division by a power of two. -/
theorem c70_shr (pr : Profile) {x : U256} (hx : x.WF) {k : Nat} (hk : k < 256) : ∃ y, x.shrCopy pr k = .ok y ∧ y.WF ∧ y.val = x.val / 2 ^ k := by
  obtain ⟨y, h, h2⟩ := c12_shr pr hx hk
  exact ⟨y, by unfold U256.shrCopy; simp only [h]; rfl, h2⟩

example : (U256.toU64s ⟨1, 2, 3, 4⟩ = [1, 2, 3, 4]) ∧ U256.shrCopy .debug ⟨0, 2, 0, 0⟩ 65 = .ok ⟨1, 0, 0, 0⟩ := by decide +kernel

/-- C70: a client made with `Client::new` addresses a cube with the given sides. -/
theorem c70_client_new (pr : Profile) {f d i0 : Nat} {rest : List Nat} (h0 : i0 < f) (hr : ∀ i ∈ rest, i < d) (hd : d ^ rest.length < 2 ^ 64)
    (hl : rest.length < 2 ^ 32) : ∃ v, (Client.new f d).encode pr (i0 :: rest) (f * d ^ rest.length) = .ok v ∧ v.length = f + d * rest.length ∧
      OneHotAt v 0 f i0 ∧ ∀ j < rest.length, OneHotAt v (f + j * d) d (rest.getD j 0) := by
  obtain ⟨v, a, b, c, e⟩ := c42_encode pr (Client.new f d) (i0 := i0) (rest := rest) h0 hr hd hl rfl
  exact ⟨v, a, b, c, e⟩

example : ∃ v, (Client.new 3 2).encode .debug [2, 1] 6 = .ok v ∧ v.length = 5 :=
  (c70_client_new .debug (f := 3) (d := 2) (i0 := 2) (rest := [1]) (by norm_num) (by simp) (by norm_num) (by simp)).imp fun _ h => ⟨h.1, h.2.1⟩

/-- C70: the remaining accessors return what is stored, the constructors store what they are given. -/
theorem c70_accessors (p : Poly) (base l : Nat) : p.getCoefficients = p.coefficients ∧ (BitDecomposition.new base l).base = base ∧
    (BitDecomposition.new base l).l = l := ⟨rfl, rfl, rfl⟩

/-- C70: `decode` of a plaintext with `Encoding::Poly` returns its values if there is one for every coefficient and panics if there are more or fewer. -/
theorem c70_decode_poly (pr : Profile) {p : Plaintext} (he : p.encoding = .poly) : (p.values.length = p.params.degree → p.decode pr = .ok p.values) ∧
    (p.values.length ≠ p.params.degree → p.decode pr = .error .bounds) := by
  unfold Plaintext.decode copyFromSlice
  rw [he]
  simp only [List.length_replicate]
  exact ⟨fun h => if_pos h.symm, fun h => if_neg (Ne.symm h)⟩

/-- Three values for degree 8, and nine. -/
example (P : BfvParameters) (hP : P.degree = 8) : Plaintext.decode .debug ⟨P, 0, .poly, [3, 1, 16]⟩ = .error .bounds ∧
    Plaintext.decode .debug ⟨P, 0, .poly, [3, 1, 16, 0, 0, 0, 0, 5]⟩ = .ok [3, 1, 16, 0, 0, 0, 0, 5] ∧
    Plaintext.decode .release ⟨P, 0, .poly, [3, 1, 16, 0, 0, 0, 0, 5, 5]⟩ = .error .bounds :=
  ⟨(c70_decode_poly .debug rfl).2 (by simp [hP]), (c70_decode_poly .debug rfl).1 (by simp [hP]), (c70_decode_poly .release rfl).2 (by simp [hP])⟩

/-- `ilog2(0)`: an overflow in the debug build, the largest word in the release build. -/
theorem c13_ilog2_zero {w : Nat} (hw : 1 ≤ w) : ilog2 w .debug 0 = .error .overflow ∧ ilog2 w .release 0 = .ok (2 ^ 64 - 1) := by
  have h1 : leadingZeros w 0 = w := by simp [leadingZeros]
  have h : ¬ w ≤ w - 1 := by omega
  unfold ilog2 subW
  rw [h1, if_neg h, if_neg h]
  refine ⟨rfl, congrArg Except.ok ?_⟩
  omega

example : ilog2 64 .release 0 = .ok 18446744073709551615 := (c13_ilog2_zero (by decide)).2

end OnionPIR
