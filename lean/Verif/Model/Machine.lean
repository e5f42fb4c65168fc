/-
Machine-level conventions used by the model: build profiles, panics, checked machine arithmetic.
Rust semantics modelled here (language reference, not repository code):
* debug profile: integer overflow panics, `debug_assert!` is checked;
* release profile: integer overflow wraps, `debug_assert!` is skipped.
-/
namespace OnionPIR

/-- Cargo build profile. -/
inductive Profile where
  | debug
  | release
  deriving DecidableEq, Repr

/-- The ways a Rust function of this crate can panic. -/
inductive Panic where
  /-- `assert!` / `assert_eq!` -/
  | assert
  /-- `debug_assert!` (debug profile only) -/
  | debugAssert
  /-- arithmetic overflow (debug profile only) -/
  | overflow
  /-- slice or array index out of bounds, or slice length mismatch -/
  | bounds
  /-- `unwrap()` on `None` -/
  | unwrap
  /-- division by zero -/
  | divZero
  /-- `todo!()` -/
  | todo
  /-- allocation larger than `isize::MAX` bytes -/
  | capacity
  /-- not a panic: the loop does not terminate (used where the model runs a loop with explicit fuel) -/
  | diverge
  deriving DecidableEq, Repr

/-- A Rust computation: a value or a panic. -/
abbrev Res (α : Type _) := Except Panic α

@[simp] theorem res_ok_bind {α β : Type _} (a : α) (f : α → Res β) :
    ((Except.ok a : Res α) >>= f) = f a := rfl
@[simp] theorem res_pure {α : Type _} (a : α) : (pure a : Res α) = Except.ok a := rfl
@[simp] theorem res_error_bind {α β : Type _} (e : Panic) (f : α → Res β) :
    ((Except.error e : Res α) >>= f) = Except.error e := rfl
@[simp] theorem res_map_ok {α β : Type _} (a : α) (f : α → β) :
    (f <$> (Except.ok a : Res α)) = Except.ok (f a) := rfl

/-- Result of an unsigned `w`-bit operation whose exact result is `x`: panic or wrap if it does not fit. -/
def fit (w : Nat) (pr : Profile) (x : Nat) : Res Nat :=
  if x < 2 ^ w then .ok x
  else match pr with
    | .debug => .error .overflow
    | .release => .ok (x % 2 ^ w)

/-- `a + b` on unsigned `w`-bit integers. -/
def addW (w : Nat) (pr : Profile) (a b : Nat) : Res Nat := fit w pr (a + b)
/-- `a * b` on unsigned `w`-bit integers. -/
def mulW (w : Nat) (pr : Profile) (a b : Nat) : Res Nat := fit w pr (a * b)
/-- `a - b` on unsigned `w`-bit integers. -/
def subW (w : Nat) (pr : Profile) (a b : Nat) : Res Nat :=
  if b ≤ a then .ok (a - b)
  else match pr with
    | .debug => .error .overflow
    | .release => .ok ((a + 2 ^ w - b) % 2 ^ w)
/-- `a / b` on unsigned integers (and `BigUint`). -/
def divR (a b : Nat) : Res Nat := if b = 0 then .error .divZero else .ok (a / b)
/-- `a % b` on unsigned integers (and `BigUint`). -/
def modR (a b : Nat) : Res Nat := if b = 0 then .error .divZero else .ok (a % b)

/-- `assert!(c)`. -/
def rassert (c : Prop) [Decidable c] : Res Unit := if c then .ok () else .error .assert
/-- `debug_assert!(c)`. -/
def dassert (pr : Profile) (c : Prop) [Decidable c] : Res Unit :=
  match pr with
  | .debug => if c then .ok () else .error .debugAssert
  | .release => .ok ()

/-- `debug_assert!(x == y())` where evaluating `y()` can itself panic (evaluated in the debug profile only). -/
def dassertEqR (pr : Profile) (x : Nat) (y : Res Nat) : Res Unit :=
  match pr with
  | .debug => do
      let v ← y
      dassert pr (x = v)
  | .release => .ok ()

/-- Indexing `v[i]` of a slice or `Vec`. -/
def idx {α : Type _} (l : List α) (i : Nat) : Res α :=
  match l[i]? with
  | some x => .ok x
  | none => .error .bounds

/-- `Option::unwrap`. -/
def unwrapR {α : Type _} : Option α → Res α
  | some a => .ok a
  | none => .error .unwrap

/-- `x.leading_zeros()` for an unsigned `w`-bit integer. -/
def leadingZeros (w x : Nat) : Nat := if x = 0 then w else w - 1 - x.log2

/-- `x.reverse_bits()` for an unsigned `w`-bit integer. -/
def reverseBits : (w : Nat) → (x : Nat) → Nat
  | 0, _ => 0
  | w + 1, x => (x % 2) * 2 ^ w + reverseBits w (x / 2)

/-- `x.count_ones()` for an unsigned `w`-bit integer. -/
def countOnes : (w : Nat) → (x : Nat) → Nat
  | 0, _ => 0
  | w + 1, x => x % 2 + countOnes w (x / 2)

/-- `for (a, b) in izip!(dst.iter_mut(), src)` : `*a = f(*a, b)?` (stops at the shorter, tail of `dst` kept). -/
def zipMutM {α β : Type _} (f : α → β → Res α) : List α → List β → Res (List α)
  | [], _ => .ok []
  | as, [] => .ok as
  | a :: as, b :: bs => do
      let x ← f a b
      let r ← zipMutM f as bs
      .ok (x :: r)

/-- `iter().map(f).collect()` where `f` can panic. -/
def mapR {α β : Type _} (f : α → Res β) : List α → Res (List β)
  | [] => .ok []
  | a :: as => do
      let x ← f a
      let r ← mapR f as
      .ok (x :: r)

/-- `izip!(as, bs).map(f).collect()` where `f` can panic (stops at the shorter list). -/
def zipR {α β γ : Type _} (f : α → β → Res γ) : List α → List β → Res (List γ)
  | a :: as, b :: bs => do
      let x ← f a b
      let r ← zipR f as bs
      .ok (x :: r)
  | _, _ => .ok []

/-- A `for` loop over a list of indices with state `s`. -/
def foldR {α σ : Type _} (f : σ → α → Res σ) : σ → List α → Res σ
  | s, [] => .ok s
  | s, a :: as => do
      let s' ← f s a
      foldR f s' as

end OnionPIR
