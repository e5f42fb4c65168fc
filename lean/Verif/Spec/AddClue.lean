import Verif.Model.Pvw
/- Specification vocabulary for C139: the sum of two clues. -/
namespace OnionPIR.Spec

/-- The clue whose entries are the sums modulo `q` of the entries of two clues. -/
def addClue (params : PvwParams) (c d : PvwCiphertext) : PvwCiphertext :=
  ⟨List.zipWith (fun x y => (x + y) % params.q) c.a d.a, List.zipWith (fun x y => (x + y) % params.q) c.b d.b⟩

/-- The exclusive or of two lists of bits. -/
def xorBits (x y : List Nat) : List Nat := List.zipWith (fun a b => (a + b) % 2) x y

end OnionPIR.Spec
