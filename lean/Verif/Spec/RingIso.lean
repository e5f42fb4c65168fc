import Mathlib.Data.ZMod.Basic
import Mathlib.RingTheory.AdjoinRoot
import Verif.Spec.Rq
/- Specification vocabulary for C85: the ring `(Z/Q)[X]/(X^N + 1)`, stored polynomials, and expressions over them. -/
namespace OnionPIR.Spec
open Polynomial

/-- The ring `(Z/Q)[X]/(X^N + 1)`. -/
abbrev ModRing (N Q : Nat) : Type := AdjoinRoot (X ^ N + 1 : (ZMod Q)[X])

/-- The element with the given coefficients. -/
noncomputable def ModRing.of (N Q : Nat) (a : List Nat) : ModRing N Q :=
  ∑ k ∈ Finset.range N, (a.getD k 0 : ModRing N Q) * AdjoinRoot.root (X ^ N + 1 : (ZMod Q)[X]) ^ k

/-- The polynomials in NTT form that can be stored for the context `c`. -/
abbrev NttPoly (c : RqContext) : Type := {p : Poly // p.context = c ∧ p.representation = .ntt ∧ ValidRows c p.coefficients}

/-- Expressions over imported polynomials. -/
inductive PolyExpr
  | input (k : Nat)
  | zero
  | add (a b : PolyExpr)
  | sub (a b : PolyExpr)
  | mul (a b : PolyExpr)
  | neg (a : PolyExpr)
  | mulBig (a : PolyExpr) (n : Nat)
  | subst (a : PolyExpr) (k : Nat)

namespace PolyExpr

/-- All substitutions are `X ↦ X^k` with odd `k`. -/
def Fits : PolyExpr → Prop
  | input _ | zero => True
  | add a b | sub a b | mul a b => a.Fits ∧ b.Fits
  | neg a | mulBig a _ => a.Fits
  | subst a k => a.Fits ∧ Odd k

/-- The calls a caller of the library would make for the expression: import with `try_convert_from` a vector of `BigUint`, change to NTT form, then the operators. -/
def run (pr : Profile) (c : RqContext) (ins : Nat → List Nat) : PolyExpr → Res Poly
  | input k => do let p ← Poly.tryFromBigint c (ins k); p.changeRepresentation pr .ntt
  | zero => .ok (Poly.zero c .ntt)
  | add a b => do let x ← a.run pr c ins; let y ← b.run pr c ins; x.add pr y
  | sub a b => do let x ← a.run pr c ins; let y ← b.run pr c ins; x.sub pr y
  | mul a b => do let x ← a.run pr c ins; let y ← b.run pr c ins; x.mul pr y
  | neg a => do let x ← a.run pr c ins; x.neg pr
  | mulBig a n => do let x ← a.run pr c ins; x.mulBig pr n
  | subst a k => do let x ← a.run pr c ins; let s ← Substitution.new pr c k; x.substitute pr s

/-- The expression computed and exported to integers. -/
def compute (pr : Profile) (c : RqContext) (ins : Nat → List Nat) (e : PolyExpr) : Res (List Nat) := do
  let p ← e.run pr c ins
  let q ← p.changeRepresentation pr .powerBasis
  q.toBigUints

/-- The value in a ring with the maps `aut k` for `X ↦ X^k`. -/
def value {R : Type*} [CommRing R] (aut : Nat → R → R) (v : Nat → R) : PolyExpr → R
  | input k => v k
  | zero => 0
  | add a b => a.value aut v + b.value aut v
  | sub a b => a.value aut v - b.value aut v
  | mul a b => a.value aut v * b.value aut v
  | neg a => -a.value aut v
  | mulBig a n => n * a.value aut v
  | subst a k => aut k (a.value aut v)

end PolyExpr
end OnionPIR.Spec
