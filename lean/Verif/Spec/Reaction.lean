import Mathlib.Data.Nat.Log
import Verif.Spec.ClueLength
import Verif.Spec.PvwPrivacy
/- Specification vocabulary for C118: programs that see only whether clues are accepted. -/
namespace OnionPIR.Spec

/-- A program that ends with a result or shows a clue to the recipient and goes on depending on whether it is accepted. -/
inductive Tries (α : Type) where
  | ret (a : α)
  | show (c : PvwCiphertext) (yes no : Tries α)

/-- The recipient with the key `sk` accepts the clues that decrypt to `msg`; the program ends with the result after showing the given number of clues. -/
inductive Reacts {α : Type} (pr : Profile) (params : PvwParams) (msg : List Nat) (sk : PvwSk) : Tries α → α → Nat → Prop where
  | ret (a : α) : Reacts pr params msg sk (.ret a) a 0
  | yes {c : PvwCiphertext} {u v : Tries α} {a : α} {n : Nat} : Pvw.decrypt pr sk params c = .ok msg →
      Reacts pr params msg sk u a n → Reacts pr params msg sk (.show c u v) a (n + 1)
  | no {c : PvwCiphertext} {u v : Tries α} {r : List Nat} {a : α} {n : Nat} : Pvw.decrypt pr sk params c = .ok r → r ≠ msg →
      Reacts pr params msg sk v a n → Reacts pr params msg sk (.show c u v) a (n + 1)

/-- The clue whose first part is the `i`-th unit vector. -/
def unitClue (params : PvwParams) (i : Nat) (b : List Nat) : PvwCiphertext := ⟨(List.range params.n).map fun j => if j = i then 1 else 0, b⟩

/-- The vectors with entries `0`, `⌊q/2⌋` and `2 ⌊q/2⌋`. -/
def shifts (q : Nat) : Nat → List (List Nat)
  | 0 => [[]]
  | n + 1 => [0, q / 2, 2 * (q / 2) % q].flatMap fun x => (shifts q n).map (x :: ·)

/-- Showing the clues with the given second parts until one is accepted. -/
def tryAll {α : Type} (params : PvwParams) (i : Nat) (k : List Nat → Tries α) : List (List Nat) → Tries α
  | [] => k []
  | b :: bs => .show (unitClue params i b) (k b) (tryAll params i k bs)

/-- Searching entry `i` of row `l` by bisection, where the clue with the second part `b` is accepted and `x` is the bit of the accepted message. -/
def tryEntry {α : Type} (params : PvwParams) (i l x : Nat) (b : List Nat) (k : Nat → Tries α) : (rounds L lo : Nat) → Tries α
  | 0, _, lo => k lo
  | r + 1, L, lo => .show (unitClue params i (b.set l ((lo + L / 2 + (params.q / 2 - params.q / 4 - 1)) % params.q)))
      (tryEntry params i l x b k r (L - L / 2) (if x = 1 then lo else lo + L / 2))
      (tryEntry params i l x b k r (L - L / 2) (if x = 1 then lo + L / 2 else lo))

/-- Searching entry `i` of the given rows. -/
def tryRows {α : Type} (params : PvwParams) (msg : List Nat) (i : Nat) (b : List Nat) (k : List Nat → Tries α) : List Nat → List Nat → Tries α
  | [], col => k col
  | l :: ls, col => tryEntry params i l (msg.getD l 0) b (fun s => tryRows params msg i b k ls (col ++ [s])) (Nat.clog 2 params.q) params.q 0

/-- Searching the given columns after the known ones. -/
def tryColumns (params : PvwParams) (msg : List Nat) : List Nat → List (List Nat) → Tries PvwSk
  | [], cols => .ret ((List.range params.ell).map fun l => cols.map fun col => col.getD l 0)
  | i :: is, cols => tryAll params i (fun b => tryRows params msg i b (fun col => tryColumns params msg is (cols ++ [col])) (List.range params.ell) [])
      (shifts params.q params.ell)

/-- The program that searches all columns. -/
def reactKey (params : PvwParams) (msg : List Nat) : Tries PvwSk := tryColumns params msg (List.range params.n) []

end OnionPIR.Spec
