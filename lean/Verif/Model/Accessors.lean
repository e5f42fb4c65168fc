import Verif.Model.Pir
/-
The constructors, accessors and conversions that only copy fields. The rest of the model uses the fields directly.
-/
namespace OnionPIR

/-- `From<U256> for [u64; 4]` (src/utils.rs:214-218). -/
def U256.toU64s (x : U256) : List Nat := [x.l0, x.l1, x.l2, x.l3]

/-- `Shr<usize> for U256` (src/utils.rs:244-252): a copy, then `>>=`. -/
def U256.shrCopy (pr : Profile) (x : U256) (rhs : Nat) : Res U256 := do
  let r := x
  let r ← r.shr pr rhs
  .ok r

/-- `ScalingFactor::is_one` (src/rns.rs:109-111). -/
def ScalingFactor.getIsOne (f : ScalingFactor) : Bool := f.isOne

/-- `BitDecomposition::new` (src/rq.rs:69-73). -/
def BitDecomposition.new (base l : Nat) : BitDecomposition := { base := base, l := l }

/-- `Poly::coefficients` (src/rq.rs:268-270). -/
def Poly.getCoefficients (p : Poly) : List (List Nat) := p.coefficients

/-- `Client::new` (src/evaluations.rs:32-34). -/
def Client.new (firstDim dim : Nat) : Client := { firstDim := firstDim, dim := dim }

end OnionPIR
