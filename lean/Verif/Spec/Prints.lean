import Verif.Spec.Simd
/- Specification vocabulary for C90: what SIMD encoding stores. -/
namespace OnionPIR.Spec

/-- What SIMD encoding of `vals` stores for the root of unity with exponent `x`: the value of the last slot with this exponent, or 0 if no
slot has it. -/
def slotValue (N : Nat) (vals : List Nat) (x : Nat) : Nat :=
  match (List.range N).reverse.find? (fun k => slotExp N k == x) with
  | some k => vals.getD k 0
  | none => 0

end OnionPIR.Spec
