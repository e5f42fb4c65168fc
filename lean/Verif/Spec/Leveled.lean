import Verif.Spec.Circuit
import Verif.Spec.Switch
/- Specification vocabulary for C74: programs that lower the level of their ciphertexts between circuits. -/
namespace OnionPIR.Spec
open Rg

variable {N : Nat}

/-- Evaluation keys of one level. -/
structure LevelKeys where
  rlk : RelinearizationKey
  gk : Nat → GaliosKey
  rgsw : Nat → RgswCt

/-- One stage of a program: all wires are switched to `level`, then the `k`-th new wire is the result of the circuit `out k`. -/
structure Stage where
  level : Nat
  out : Nat → Circuit

/-- The circuit environment of a stage with the given inputs. -/
def Stage.env (P : BfvParameters) (keys : Nat → LevelKeys) (st : Stage) (ins : Nat → BfvCipherText) : CircuitEnv :=
  ⟨P, st.level, ins, (keys st.level).rlk, (keys st.level).gk, (keys st.level).rgsw⟩

/-- The library operations succeed on every wire and turn `ins` into `outs`. -/
def runs (pr : Profile) (P : BfvParameters) (keys : Nat → LevelKeys) : List Stage → (ins outs : Nat → BfvCipherText) → Prop
  | [], ins, outs => ∀ k, outs k = ins k
  | st :: sts, ins, outs => ∃ low mid : Nat → BfvCipherText, (∀ k, switchCt pr (ins k) st.level = .ok (low k)) ∧
      (∀ k, (st.out k).run pr (st.env P keys low) = .ok (mid k)) ∧ runs pr P keys sts mid outs

/-- The values of the wires after a program. -/
noncomputable def values (e : Nat → Nat) (r : Nat → Rg N) : List Stage → (Nat → Rg N) → Nat → Rg N
  | [], m => m
  | st :: sts, m => values e r sts fun k => (st.out k).value m e r

/-- Noise of the wires of level `i` after switching to level `j`. -/
def loweredNoise (N t : Nat) (l : List Nat) (S : ℤ) (i j : Nat) (V : Nat → ℤ) (k : Nat) : ℤ :=
  V k / (missing l i j : ℤ) + t * roundingNoise N S 2

/-- Bounds of a stage whose switched inputs have noise `V`. -/
def CircuitBounds.withInput (B : CircuitBounds) (V : Nat → ℤ) : CircuitBounds := { B with input := V }

/-- Noise of the wires after one stage, from wires of level `i` and noise `V`. -/
def Stage.noise (N t : Nat) (l : List Nat) (S : ℤ) (B : Nat → CircuitBounds) (i : Nat) (st : Stage) (V : Nat → ℤ) (k : Nat) : ℤ :=
  (st.out k).noise N t l st.level ((B st.level).withInput (loweredNoise N t l S i st.level V))

/-- Level of the wires after a program. -/
def lastLevel (i : Nat) : List Stage → Nat
  | [] => i
  | st :: sts => lastLevel st.level sts

/-- Noise of the wires after a program. -/
def finalNoise (N t : Nat) (l : List Nat) (S : ℤ) (B : Nat → CircuitBounds) (i : Nat) : List Stage → (Nat → ℤ) → Nat → ℤ
  | [], V => V
  | st :: sts, V => finalNoise N t l S B st.level sts (st.noise N t l S B i V)

/-- The levels never rise and exist, the plaintexts fit, and after every stage every noise is at most a quarter of the modulus. -/
def Admissible (N t : Nat) (l : List Nat) (S : ℤ) (B : Nat → CircuitBounds) (i : Nat) : List Stage → (Nat → ℤ) → Prop
  | [], _ => True
  | st :: sts, V => i ≤ st.level ∧ st.level < l.length ∧ (∀ k, (st.out k).Fits N) ∧
      (∀ k, 4 * st.noise N t l S B i V k ≤ levelQ l st.level) ∧ Admissible N t l S B st.level sts (st.noise N t l S B i V)

/-- Keys for the secret `s` at level `i`, RGSW ciphertexts of `r`, within the bounds `B`. -/
structure LevelKeys.Good (P : BfvParameters) (t : Nat) (l : List Nat) (s : Rg N) (e : Nat → Nat) (r : Nat → Rg N) (i : Nat) (B : CircuitBounds)
    (K : LevelKeys) : Prop where
  key : Bdd B.key s
  rlkParams : K.rlk.params = P
  rlk : IsKsk P l i s (s ^ 2) B.rlk K.rlk.ksk
  odd : ∀ j, Odd (e j)
  gk : ∀ j, GaloisFor P l i s (e j) (B.gk j) (K.gk j)
  msg : ∀ j, Bdd (B.rgswMsg j) (r j)
  rgsw : ∀ j, ∃ B0 B1, B0 + B1 = B.rgsw j ∧ IsRgsw P l i s (r j) B0 B1 (K.rgsw j)

end OnionPIR.Spec
