import Verif.Spec.Circuit
import Mathlib.Data.ZMod.Basic
/- Specification vocabulary for C72 and C73: the slots of a SIMD plaintext. -/
namespace OnionPIR.Spec
open Rg

variable {N : Nat}

/-- The exponent of the root of unity at which slot `k` evaluates a polynomial: `3^k` in the first row, `-(2 * 3^i + 1)` at position `i` of
the second row (an intended layout would have `-3^i` there), modulo `2 N`. -/
def slotExp (N k : Nat) : Nat :=
  if k < N / 2 then 3 ^ k % (2 * N) else (4 * N - 2 * (3 ^ (k - N / 2) % (2 * N)) - 1) % (2 * N)

/-- The vector `out` holds the values of `m` at the points of the slots. -/
def SlotsOf (t : Nat) (psi : ZMod t) (m : Rg N) (out : List Nat) : Prop :=
  out.length = N ∧ ∀ k, k < N → out.getD k 0 < t ∧ (out.getD k 0 : ZMod t) = ev (psi ^ slotExp N k) m

/-- The value of a circuit at a point, computed from the values of its inputs: all gates act on one point, except Galois gates, which move
to another point. -/
noncomputable def Circuit.atPoint {t : Nat} (m : Nat → Rg N) (e : Nat → Nat) (r : Nat → Rg N) : Circuit → ZMod t → ZMod t
  | .input k, z => ev z (m k)
  | .add a b, z => a.atPoint m e r z + b.atPoint m e r z
  | .sub a b, z => a.atPoint m e r z - b.atPoint m e r z
  | .mulPlain a v, z => a.atPoint m e r z * ev z (msgRing N v)
  | .mulBig a n, z => a.atPoint m e r z * (n : ZMod t)
  | .mul a b, z => a.atPoint m e r z * b.atPoint m e r z
  | .galois a j, z => a.atPoint m e r (z ^ e j)
  | .external a j, z => a.atPoint m e r z * ev z (r j)

end OnionPIR.Spec
