import Verif.Model.Tests
import Verif.Spec.Privacy
/- Specification vocabulary for C100: encryptions and queries that are chosen one after the other. -/
namespace OnionPIR.Spec
open Rg

/-- Encrypts `p []`, then `p [c₁]`, then `p [c₁, c₂]` and so on, where `c₁`, `c₂`, … are the ciphertexts so far; one encryption for every
element of the list of coins. -/
def adaptiveEnc {N : Nat} {l : List Nat} {W : Nat} (pr : Profile) (sk : SecretKey) (p : List BfvCipherText → Poly)
    (coins : List (Rows N l 0 × Words W)) : Res (List BfvCipherText) :=
  foldR (fun h c => do
    let ct ← sk.encryptPoly pr (p h) c.1.tape (stream c.2)
    .ok (h ++ [ct])) [] coins

/-- Makes the query for the encoded coordinates `v []`, then for `v [q₁]`, then for `v [q₁, q₂]` and so on, where `q₁`, `q₂`, … are the queries
so far; one query for every element of the list of coins. -/
def adaptiveQueries {N : Nat} {l : List Nat} {W : Nat} (pr : Profile) (P : BfvParameters) (sk : SecretKey) (v : List (List BfvCipherText) → List Nat)
    (coins : List (EncCoins N l (l.length + 1) W)) : Res (List (List BfvCipherText)) :=
  foldR (fun h c => do
    let q ← Tests.queryCts pr P sk (v h) (c.tape 0) (c.words 0) (fun j => c.tape (j + 1)) (fun j => c.words (j + 1))
    .ok (h ++ [q])) [] coins

/-- The distinguisher that adds `(M, 0)` to every pair, where `M` may depend on the ciphertexts made from the pairs before, and asks `D` about
the resulting ciphertexts. -/
def shiftedChosen {Aux : Type} {N Q k : Nat} (P : BfvParameters) (M : Aux → List BfvCipherText → Rg N) (D : Aux → List BfvCipherText → Prop) (z : Aux)
    (x : Fin k → Rq N Q × Rq N Q) : Prop :=
  ∃ cts : List BfvCipherText, cts.length = k ∧
    (∀ j : Fin k, ∃ ct, cts[(j : Nat)]? = some ct ∧ Stored P (x j + (toRq Q (M z (cts.take j)), 0)) ct) ∧ D z cts

/-- A list cut into pieces of `n` elements. -/
def pieces {α : Type} (n : Nat) (xs : List α) : List (List α) := (List.range (xs.length / n)).map fun i => (xs.drop (i * n)).take n

end OnionPIR.Spec
