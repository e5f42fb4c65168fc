import Verif.Spec.Simd
import Mathlib.Data.Nat.Find
/-
Specification vocabulary for C132: the last position that shares a slot.
-/
namespace OnionPIR.Spec

/-- The last position below `N` whose slot has the same evaluation point as slot `i`. -/
def lastSlot (N i : Nat) : Nat := Nat.findGreatest (fun j => slotExp N j = slotExp N i) (N - 1)

end OnionPIR.Spec
