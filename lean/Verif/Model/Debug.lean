import Verif.Model.Bfv
import Verif.Model.Pvw
/-
Model of the `Debug` implementations (format `{:?}`) of /repo: the three written by hand (src/bfv.rs:253-270,
src/rns.rs:24-37, src/rq.rs:169-183) and those derived by the compiler for types whose fields are integers, booleans,
vectors of these, unit enums and other such types. A text is the list of its characters.
The standard library is modelled: `Formatter::debug_struct`, `debug_tuple`, `debug_list`, decimal integers.
`Arc<T>`, `Box<[T]>`, `Vec<T>` print as `T` and as slices; `BigUint` prints as decimal integer.
Not modelled: the indented format `{:#?}` (the same tokens on separate lines), and the types with an `ndarray` field
(`Poly`, `BfvCipherText`, `Ksk`, `RgswCt`, the scalers and keys): `ndarray` abbreviates long arrays.
-/
namespace OnionPIR
namespace Dbg

/-- The characters of a literal. -/
abbrev lit (s : String) : List Char := s.toList

/-- `Debug` of an unsigned integer or a `BigUint` (`{:?}` in /repo: src/evaluations.rs:585). -/
def nat (n : Nat) : List Char := Nat.toDigits 10 n

/-- `Debug` of an `i64` (field `coeffs`, src/bfv.rs:275). -/
def int (z : Int) : List Char :=
  if z < 0 then '-' :: nat z.natAbs else nat z.natAbs

/-- `Debug` of a `bool` (field `is_one`, src/rns.rs:98). -/
def bool (b : Bool) : List Char := if b then lit "true" else lit "false"

/-- The elements after the first one and the closing bracket of `debug_list`. -/
def listTail {α : Type} (f : α → List Char) : List α → List Char
  | [] => lit "]"
  | x :: xs => lit ", " ++ f x ++ listTail f xs

/-- `Debug` of a slice (src/evaluations.rs:585-586). -/
def list {α : Type} (f : α → List Char) : List α → List Char
  | [] => lit "[]"
  | x :: xs => lit "[" ++ f x ++ listTail f xs

/-- The fields after the first one and the closing brace of `debug_struct`. -/
def fieldsTail : List (String × List Char) → List Char
  | [] => lit " }"
  | (k, v) :: fs => lit ", " ++ lit k ++ lit ": " ++ v ++ fieldsTail fs

/-- `f.debug_struct(name).field(k, v)….finish()` (src/bfv.rs:255-268). -/
def struct (name : String) : List (String × List Char) → List Char
  | [] => lit name
  | (k, v) :: fs => lit name ++ lit " { " ++ lit k ++ lit ": " ++ v ++ fieldsTail fs

/-- The components after the first one and the closing parenthesis of `debug_tuple`. -/
def tupleTail : List (List Char) → List Char
  | [] => lit ")"
  | v :: vs => lit ", " ++ v ++ tupleTail vs

/-- `f.debug_tuple(name).field(v)….finish()` (derived for src/utils.rs:153). -/
def tuple (name : String) : List (List Char) → List Char
  | [] => lit name
  | v :: vs => lit name ++ lit "(" ++ v ++ tupleTail vs

/-- `Debug for BfvParameters` (src/bfv.rs:253-270). -/
def params (P : BfvParameters) : List Char :=
  struct "BfvParameters" [("polynomial_degree", nat P.degree), ("moduli", list nat P.ciphertextModuli)]

/-- `Debug for RnsContext` (src/rns.rs:24-37). -/
def rnsContext (c : RnsContext) : List Char :=
  struct "RnsContext" [("moduli_u64", list nat c.moduliU64), ("product", nat c.product)]

/-- `Debug for RqContext` (src/rq.rs:169-183). -/
def rqContext (c : RqContext) : List Char :=
  struct "Context" [("moduli", list nat c.moduli64)]

/-- `derive(Debug)` of `SecretKey` (src/bfv.rs:272-276). -/
def secretKey (sk : SecretKey) : List Char :=
  struct "SecretKey" [("params", params sk.params), ("coeffs", list int sk.coeffs)]

/-- `derive(Debug)` of `Encoding` (src/bfv.rs:567-572). -/
def encoding : Encoding → List Char
  | .poly => lit "Poly"
  | .simd => lit "SIMD"
  | .none => lit "None"

/-- `derive(Debug)` of `Plaintext` (src/bfv.rs:574-580). -/
def plaintext (pt : Plaintext) : List Char :=
  struct "Plaintext" [("params", params pt.params), ("level", nat pt.level), ("encoding", encoding pt.encoding),
    ("values", list nat pt.values)]

/-- `derive(Debug)` of `Modulus` (src/modulus.rs:6-11). -/
def modulus (m : Modulus) : List Char :=
  struct "Modulus" [("p", nat m.p), ("barret_hi", nat m.barretHi), ("barret_lo", nat m.barretLo)]

/-- `derive(Debug)` of `ScalingFactor` (src/rns.rs:94-99). -/
def scalingFactor (s : ScalingFactor) : List Char :=
  struct "ScalingFactor" [("numerator", nat s.numerator), ("denominator", nat s.denominator), ("is_one", bool s.isOne)]

/-- `derive(Debug)` of `BitDecomposition` (src/rq.rs:63-67). -/
def bitDecomposition (b : BitDecomposition) : List Char :=
  struct "BitDecomposition" [("base", nat b.base), ("l", nat b.l)]

/-- `derive(Debug)` of `Substitution` (src/rq.rs:30-34). -/
def substitution (s : Substitution) : List Char :=
  struct "Substitution" [("exponent", nat s.exponent), ("powers_bitrev", list nat s.powersBitrev)]

/-- `derive(Debug)` of `Representation` (src/rq.rs:252-257). -/
def representation : Representation → List Char
  | .powerBasis => lit "PowerBasis"
  | .ntt => lit "Ntt"
  | .nttShoup => lit "NttShoup"

/-- `derive(Debug)` of the tuple struct `U256` (src/utils.rs:152-153). -/
def u256 (u : U256) : List Char :=
  tuple "U256" [nat u.l0, nat u.l1, nat u.l2, nat u.l3]

/-- `derive(Debug)` of `PvwParams` (src/pvw.rs:10-17). -/
def pvwParams (p : PvwParams) : List Char :=
  struct "PvwParams" [("n", nat p.n), ("ell", nat p.ell), ("m", nat p.m), ("q", nat p.q), ("variance", nat p.variance)]

/-- `derive(Debug)` of `PvwCiphertext` (src/pvw.rs:151-157). -/
def pvwCiphertext (c : PvwCiphertext) : List Char :=
  struct "PvwCiphertext" [("a", list nat c.a), ("b", list nat c.b)]

/-- `derive(Debug)` of `NttOperator` (src/ntt.rs:6-18). -/
def nttOperator (o : NttOperator) : List Char :=
  struct "NttOperator" [("p", modulus o.p), ("p_twice", nat o.pTwice), ("omegas", list nat o.omegas),
    ("omegas_inv", list nat o.omegasInv), ("omegas_shoup", list nat o.omegasShoup), ("zetas_inv", list nat o.zetasInv),
    ("zetas_inv_shoup", list nat o.zetasInvShoup), ("size", nat o.size), ("size_inv", nat o.sizeInv),
    ("size_inv_shoup", nat o.sizeInvShoup)]

/-- The two lines printed by the test `unpack` (src/evaluations.rs:585-586) for its values. -/
def unpackLines (values rValues : List Nat) : List (List Char) := [list nat values, list nat rValues]

end Dbg
end OnionPIR
