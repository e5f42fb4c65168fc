import Mathlib.Algebra.BigOperators.Group.Finset.Basic
import Verif.Model.Pvw
/- Specification vocabulary for C109: what a PVW key makes of a clue. -/
namespace OnionPIR.Spec

/-- The value `b - ⟨s, a⟩` modulo `q`. -/
def cluePhase (q : Nat) (s a : List Nat) (b : Nat) : Nat :=
  (((b : ℤ) - ∑ i ∈ Finset.range a.length, (s.getD i 0 : ℤ) * (a.getD i 0 : ℤ)) % (q : ℤ)).toNat

/-- The decision about such a value: whether it lies in the interval of length `⌊q/2⌋` around `⌊q/2⌋`. -/
def clueBit (q v : Nat) : Nat := if q / 2 - q / 4 ≤ v ∧ v < 2 * (q / 2) - q / 4 then 1 else 0

/-- The number of values modulo `q` with the given decision. -/
def clueWeight (q x : Nat) : Nat := if x = 1 then q / 2 else q - q / 2

/-- The clue without a mask for `msg`. -/
def bareClue (params : PvwParams) (msg : List Nat) : PvwCiphertext := ⟨List.replicate params.n 0, msg.map fun x => params.q / 2 * x⟩

/-- The clue with `⌊q/2⌋ d` added to its second part. -/
def shiftClue (params : PvwParams) (d : List Nat) (ct : PvwCiphertext) : PvwCiphertext :=
  ⟨ct.a, (ct.b.zip d).map fun x => (x.1 + params.q / 2 * x.2) % params.q⟩

end OnionPIR.Spec
