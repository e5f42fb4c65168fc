import Verif.Spec.Pir
/- The procedures that Readme.md describes, written down from its text (Readme.md:7-67 for the expansion, :69-102 for the query). -/
namespace OnionPIR.Spec
open Rg

/-- Readme.md:74-78: the index of the current dimension is the last query index modulo it, the next query index is the quotient. -/
def coordinates : List Nat → Nat → List Nat
  | [], _ => []
  | d :: ds, x => x % d :: coordinates ds (x / d)

/-- Readme.md:86-97: an index of one dimension of `len` entries as zeros and a single 1. -/
def oneHot (len i : Nat) : List Nat := List.replicate i 0 ++ 1 :: List.replicate (len - i - 1) 0

/-- Readme.md:80-101: all of them one after another. -/
def queryVector (dims idxs : List Nat) : List Nat := (List.zipWith oneHot dims idxs).flatten

/-- Readme.md:54-64: the node `[x_j, x_(j+2^i), x_(j+2·2^i), …]` at depth `i`: the coefficients of `M` at every `2^i`-th position from `j` on,
at the powers `X^0, X^(2^i), X^(2·2^i), …`. -/
noncomputable def stride (N i j : Nat) (M : Rg N) : Rg N := ofCoeffs N fun k => if 2 ^ i ∣ k then cf M (j + k) else 0

end OnionPIR.Spec
