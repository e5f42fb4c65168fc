import Mathlib.Data.Nat.Log
import Verif.Spec.ClueLength
import Verif.Spec.PvwPrivacy
/- Specification vocabulary for C115: programs that may ask for the decryption of clues. -/
namespace OnionPIR.Spec

/-- A program that ends with a result or asks for the decryption of a clue and goes on depending on the answer. -/
inductive Asks (α : Type) where
  | ret (a : α)
  | ask (c : PvwCiphertext) (k : List Nat → Asks α)

/-- The program, answered by `PvwSk::decrypt` with the key `sk`, ends with the result after the given number of questions. -/
inductive Plays {α : Type} (pr : Profile) (params : PvwParams) (sk : PvwSk) : Asks α → α → Nat → Prop where
  | ret (a : α) : Plays pr params sk (.ret a) a 0
  | ask {c : PvwCiphertext} {k : List Nat → Asks α} {r : List Nat} {a : α} {n : Nat} : Pvw.decrypt pr sk params c = .ok r →
      Plays pr params sk (k r) a n → Plays pr params sk (.ask c k) a (n + 1)

/-- The clue that asks, for each row of the key, if entry `i` is below `lo + L/2`, where it is known to be in `[lo, lo + L)`. -/
def probe (params : PvwParams) (i L : Nat) (los : List Nat) : PvwCiphertext :=
  ⟨(List.range params.n).map fun j => if j = i then 1 else 0, los.map fun lo => (lo + L / 2 + (params.q / 2 - params.q / 4 - 1)) % params.q⟩

/-- What is known after the answer. -/
def narrow (L : Nat) (los bits : List Nat) : List Nat := (los.zip bits).map fun x => if x.2 = 1 then x.1 else x.1 + L / 2

/-- Searching entry `i` of all rows by bisection. -/
def readColumn {α : Type} (params : PvwParams) (i : Nat) (k : List Nat → Asks α) : (rounds L : Nat) → (los : List Nat) → Asks α
  | 0, _, los => k los
  | r + 1, L, los => .ask (probe params i L los) fun bits => readColumn params i k r (L - L / 2) (narrow L los bits)

/-- Searching the given columns after the known ones. -/
def readColumns (params : PvwParams) : List Nat → List (List Nat) → Asks PvwSk
  | [], cols => .ret ((List.range params.ell).map fun l => cols.map fun col => col.getD l 0)
  | i :: is, cols => readColumn params i (fun col => readColumns params is (cols ++ [col])) (Nat.clog 2 params.q) params.q (List.replicate params.ell 0)

/-- The program that searches all columns. -/
def readKey (params : PvwParams) : Asks PvwSk := readColumns params (List.range params.n) []

end OnionPIR.Spec
