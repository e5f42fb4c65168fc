/-
Specification vocabulary for residue number systems.
-/
namespace OnionPIR.Spec

/-- `rs` is a vector of canonical residues for the moduli `qs`. -/
def Canonical (qs rs : List Nat) : Prop := rs.length = qs.length ∧ ∀ i, i < qs.length → rs.getD i 0 < qs.getD i 1

/-- The integer `x` has residues `rs` modulo the moduli `qs`. -/
def HasResidues (qs rs : List Nat) (x : Int) : Prop :=
  ∀ i, i < qs.length → x % (qs.getD i 1 : Int) = (rs.getD i 0 : Int) % (qs.getD i 1 : Int)

/-- The residues of the integer `y` modulo the moduli `qs`. -/
def residuesOf (qs : List Nat) (y : Int) : List Nat := qs.map (fun (q : Nat) => (y % (q : Int)).toNat)

end OnionPIR.Spec
