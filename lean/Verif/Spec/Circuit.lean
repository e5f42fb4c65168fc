import Verif.Spec.Pir
/- Specification vocabulary for C60: arithmetic circuits over ciphertexts. -/
namespace OnionPIR.Spec
open Rg

variable {N : Nat}

/-- A circuit over the ciphertext operations of the library: `mulPlain` multiplies by a plaintext vector, `mulBig` by an integer,
`galois j` applies the `j`-th Galois key, `external j` multiplies by the `j`-th RGSW ciphertext. -/
inductive Circuit
  | input (k : Nat)
  | add (a b : Circuit)
  | sub (a b : Circuit)
  | mulPlain (a : Circuit) (v : List Nat)
  | mulBig (a : Circuit) (n : Nat)
  | mul (a b : Circuit)
  | galois (a : Circuit) (j : Nat)
  | external (a : Circuit) (j : Nat)

/-- Input ciphertexts and evaluation keys. -/
structure CircuitEnv where
  params : BfvParameters
  level : Nat
  inputs : Nat → BfvCipherText
  rlk : RelinearizationKey
  gk : Nat → GaliosKey
  rgsw : Nat → RgswCt

/-- Evaluation of a circuit with the operations of the library: `Add`, `Sub`, `Mul<&Plaintext>`, `Mul<&BigUint>` of
`BfvCipherText` (src/bfv.rs:424-565), `multiply_with_strategy`, `GaliosKey::relinearize`, `RgswCt::external_product`. -/
def Circuit.run (pr : Profile) (E : CircuitEnv) : Circuit → Res BfvCipherText
  | .input k => .ok (E.inputs k)
  | .add a b => do
    let x ← a.run pr E
    let y ← b.run pr E
    x.add pr y
  | .sub a b => do
    let x ← a.run pr E
    let y ← b.run pr E
    x.sub pr y
  | .mulPlain a v => do
    let x ← a.run pr E
    x.mulPlain pr ⟨E.params, E.level, .poly, v⟩
  | .mulBig a n => do
    let x ← a.run pr E
    x.mulBig pr n
  | .mul a b => do
    let x ← a.run pr E
    let y ← b.run pr E
    multiplyWithStrategy pr x y E.rlk
  | .galois a j => do
    let x ← a.run pr E
    (E.gk j).relinearize pr x
  | .external a j => do
    let x ← a.run pr E
    let p ← (E.rgsw j).externalProduct pr x
    return ⟨E.params, [p.1, p.2], E.level⟩

/-- The value of a circuit on ring elements: inputs `m`, exponents `e` of the Galois keys, messages `r` of the RGSW ciphertexts. -/
noncomputable def Circuit.value (m : Nat → Rg N) (e : Nat → Nat) (r : Nat → Rg N) : Circuit → Rg N
  | .input k => m k
  | .add a b => a.value m e r + b.value m e r
  | .sub a b => a.value m e r - b.value m e r
  | .mulPlain a v => a.value m e r * msgRing N v
  | .mulBig a n => a.value m e r * ((n : ℤ) : Rg N)
  | .mul a b => a.value m e r * b.value m e r
  | .galois a j => sg (e j) (a.value m e r)
  | .external a j => a.value m e r * r j

/-- Bounds on the sizes involved in a circuit. -/
structure CircuitBounds where
  /-- noise of the inputs -/
  input : Nat → ℤ
  /-- coefficients of the secret key -/
  key : ℤ
  /-- errors of the relinearization key -/
  rlk : ℤ
  /-- error added by the Galois keys -/
  gk : Nat → ℤ
  /-- coefficients of the messages of the RGSW ciphertexts -/
  rgswMsg : Nat → ℤ
  /-- errors of the RGSW ciphertexts (both halves together) -/
  rgsw : Nat → ℤ

/-- Worst-case noise of the result of a circuit at level `i`. -/
def Circuit.noise (N t : Nat) (l : List Nat) (i : Nat) (B : CircuitBounds) : Circuit → ℤ
  | .input k => B.input k
  | .add a b => a.noise N t l i B + b.noise N t l i B
  | .sub a b => a.noise N t l i B + b.noise N t l i B
  | .mulPlain a v => N * a.noise N t l i B * (v.foldr max 1 : Nat)
  | .mulBig a n => (max 1 n : Nat) * a.noise N t l i B
  | .mul a b => productNoise N t l i B.key (a.noise N t l i B) (b.noise N t l i B) B.rlk
  | .galois a j => a.noise N t l i B + t * B.gk j
  | .external a j => N * a.noise N t l i B * max 1 (B.rgswMsg j) + t * (switchNoise N l i * B.rgsw j)

/-- The plaintext vectors of a circuit fit the degree and consist of machine words. -/
def Circuit.Fits (N : Nat) : Circuit → Prop
  | .input _ => True
  | .add a b => a.Fits N ∧ b.Fits N
  | .sub a b => a.Fits N ∧ b.Fits N
  | .mulPlain a v => a.Fits N ∧ v.length ≤ N ∧ ∀ x ∈ v, x < 2 ^ 64
  | .mulBig a _ => a.Fits N
  | .mul a b => a.Fits N ∧ b.Fits N
  | .galois a _ => a.Fits N
  | .external a _ => a.Fits N

/-- The inputs are two-component ciphertexts of the level encoding the messages `m` under the key `s`, the keys are keys for `s`, the
RGSW ciphertexts hold `r`, all within the bounds `B`. -/
structure CircuitEnv.Good (t : Nat) (l : List Nat) (s : Rg N) (m : Nat → Rg N) (e : Nat → Nat) (r : Nat → Rg N) (B : CircuitBounds)
    (E : CircuitEnv) : Prop where
  inputs : ∀ k, ∃ f0 f1 : Rg N, IsCt E.params E.level [f0, f1] (E.inputs k) ∧
    Encodes t (levelQ l E.level) (m k) (phase s [f0, f1]) (B.input k)
  key : Bdd B.key s
  rlkParams : E.rlk.params = E.params
  rlk : IsKsk E.params l E.level s (s ^ 2) B.rlk E.rlk.ksk
  odd : ∀ j, Odd (e j)
  gk : ∀ j, GaloisFor E.params l E.level s (e j) (B.gk j) (E.gk j)
  msg : ∀ j, Bdd (B.rgswMsg j) (r j)
  rgsw : ∀ j, ∃ B0 B1, B0 + B1 = B.rgsw j ∧ IsRgsw E.params l E.level s (r j) B0 B1 (E.rgsw j)

end OnionPIR.Spec
