import Verif.Spec.Circuit
/-
Specification vocabulary for C99: data of the right shape. Nothing is said about the contents: the residues are arbitrary.
-/
namespace OnionPIR.Spec

/-- An NTT polynomial of level `i`: one row for every modulus, with as many words below the modulus as the degree says. -/
def Shaped (P : BfvParameters) (i : Nat) (p : Poly) : Prop :=
  P.qCtxs[i]? = some p.context ∧ p.representation = .ntt ∧ ValidRows p.context p.coefficients

/-- A ciphertext of level `i` with `n` components. -/
def ShapedCt (P : BfvParameters) (i n : Nat) (ct : BfvCipherText) : Prop :=
  ct.params = P ∧ ct.level = i ∧ ct.cts.length = n ∧ ∀ p ∈ ct.cts, Shaped P i p

/-- A key-switching key of level `i`: a pair of polynomials for every modulus. -/
def ShapedKsk (P : BfvParameters) (i : Nat) (k : Ksk) : Prop :=
  P.qCtxs[i]? = some k.ctContext ∧ k.kskContext = k.ctContext ∧ k.c0.length = k.ctContext.moduli64.length ∧
    k.c1.length = k.ctContext.moduli64.length ∧ ∀ p ∈ k.c0 ++ k.c1, Shaped P i p

/-- A Galois key of level `i` for the exponent `e`. -/
def ShapedGk (P : BfvParameters) (i e : Nat) (g : GaliosKey) : Prop :=
  g.level = i ∧ Substitution.new .debug g.gk.ctContext e = .ok g.substitution ∧ ShapedKsk P i g.gk

/-- An RGSW ciphertext of level `i`. -/
def ShapedRgsw (P : BfvParameters) (i : Nat) (g : RgswCt) : Prop := ShapedKsk P i g.ksk0 ∧ ShapedKsk P i g.ksk1

/-- Evaluation keys: a Galois key for every exponent that expansion uses and an RGSW ciphertext. -/
def ShapedEval (N : Nat) (P : BfvParameters) (ev : Evaluation) : Prop :=
  (∀ i, 2 ^ i < N → ∃ g, ev.gk.lookup (N / 2 ^ i + 1) = some g ∧ ShapedGk P 0 (N / 2 ^ i + 1) g) ∧ ShapedRgsw P 0 ev.skRgsw

/-- Inputs and keys of a circuit. -/
def ShapedEnv (e : Nat → Nat) (E : CircuitEnv) : Prop :=
  (∀ k, ShapedCt E.params E.level 2 (E.inputs k)) ∧ E.rlk.params = E.params ∧ ShapedKsk E.params E.level E.rlk.ksk ∧
    (∀ j, ShapedGk E.params E.level (e j) (E.gk j)) ∧ ∀ j, ShapedRgsw E.params E.level (E.rgsw j)

end OnionPIR.Spec
