import Mathlib.Data.Fintype.BigOperators
import Mathlib.Data.Fintype.Pi
import Verif.Model.Machine
/-
Counting random words, for C88.
-/
namespace OnionPIR.Spec

/-- A computation that reads random words and returns a value and the words it has not used. -/
abbrev Sampler (α : Type) := List Nat → Res (α × List Nat)

/-- The list of the words `w`. -/
def wordList {L : Nat} (w : Fin L → Fin (2 ^ 64)) : List Nat := List.ofFn fun i => (w i : Nat)

open Classical in
/-- The number of sequences of `L` words on which the sampler returns `x` and uses exactly these words. -/
noncomputable def ways {α : Type} (S : Sampler α) (L : Nat) (x : α) : Nat :=
  (Finset.univ.filter fun w : Fin L → Fin (2 ^ 64) => S (wordList w) = .ok (x, [])).card

open Classical in
/-- The number of sequences of `L` words that are not enough for the sampler to return. -/
noncomputable def stuck {α : Type} (S : Sampler α) (L : Nat) : Nat :=
  (Finset.univ.filter fun w : Fin L → Fin (2 ^ 64) => S (wordList w) = .error .diverge).card

/-- The sampler reads words in order and depends only on those it uses; it returns exactly the values in `A`, each for equally many
sequences of words of any given length, and never panics. -/
structure Fair {α : Type} (S : Sampler α) (A : Set α) : Prop where
  /-- a result belongs to `A`, and does not depend on the words after those used -/
  reads : ∀ ws x r, (∀ w ∈ ws, w < 2 ^ 64) → S ws = .ok (x, r) → x ∈ A ∧ ∃ used, ws = used ++ r ∧ ∀ r', S (used ++ r') = .ok (x, r')
  /-- it returns a value or runs out of words -/
  total : ∀ ws e, (∀ w ∈ ws, w < 2 ^ 64) → S ws = .error e → e = .diverge
  /-- every value of `A` is possible -/
  all : ∀ x ∈ A, ∃ L, 0 < ways S L x
  /-- and all are equally likely -/
  equal : ∀ L, ∀ x ∈ A, ∀ y ∈ A, ways S L x = ways S L y

end OnionPIR.Spec
