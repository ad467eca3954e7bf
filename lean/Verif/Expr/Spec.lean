import Verif.Expr.Model
/-
Specification vocabulary for the expression properties.
-/
namespace AmpGen.Expr

variable {K : Type}

/-- Every constant written in the expression satisfies `P`, and division nodes
occur only if `D` holds (take `D := True` to allow division, `D := False` for
division-free expressions). -/
def ConstsIn (P : K → Prop) (D : Prop) : Ex K → Prop
  | .const v => P v
  | .param _ => True
  | .cparam _ _ => True
  | .lambda _ => True
  | .func _ => True
  | .un _ e => ConstsIn P D e
  | .bin op l r => (op = .div → D) ∧ ConstsIn P D l ∧ ConstsIn P D r
  | .ternary c a b => ConstsIn P D c ∧ ConstsIn P D a ∧ ConstsIn P D b
  | .subtree _ e => ConstsIn P D e

/-- A set `P` of constants on which the numerical tests of the operators are
exact, closed under the operations the operators perform on constants.
Closure under inverses is needed only when divisions are present (`D`).
For tests that are exact everywhere `P` can be everything; for the code's
comparison with `numeric_limits<double>::epsilon()` and without division `P` can
be the integers. -/
structure ExactOn [Field K] (T : Tests K) (P : K → Prop) (D : Prop) : Prop where
  zero : P 0
  one : P 1
  add : ∀ {a b}, P a → P b → P (a + b)
  neg : ∀ {a}, P a → P (-a)
  mul : ∀ {a b}, P a → P b → P (a * b)
  inv : D → ∀ {a}, P a → P a⁻¹
  isZero : ∀ {a}, P a → T.isZero a = true → a = 0
  isOne : ∀ {a}, P a → T.isOne a = true → a = 1
  isZeroAbs : ∀ {a}, P a → T.isZeroAbs a = true → a = 0

/-- What the user writes: a formula over already built expressions. -/
inductive Formula (K : Type) where
  | leaf (e : Ex K)
  | add (f g : Formula K)
  | sub (f g : Formula K)
  | mul (f g : Formula K)
  | div (f g : Formula K)
  | neg (f : Formula K)

/-- The number the formula stands for; division by zero has none. -/
def Formula.value [Field K] [DecidableEq K] (S : Sem K) : Formula K → Option K
  | .leaf e => eval S e
  | .add f g => do return (← f.value S) + (← g.value S)
  | .sub f g => do return (← f.value S) - (← g.value S)
  | .mul f g => do return (← f.value S) * (← g.value S)
  | .div f g => do
      let a ← f.value S
      let b ← g.value S
      if b = 0 then none else some (a / b)
  | .neg f => do return - (← f.value S)

/-- The leaves use constants of `P` only; divisions occur only if `D`. -/
def Formula.ConstsIn (P : K → Prop) (D : Prop) : Formula K → Prop
  | .leaf e => AmpGen.Expr.ConstsIn P D e
  | .add f g => f.ConstsIn P D ∧ g.ConstsIn P D
  | .sub f g => f.ConstsIn P D ∧ g.ConstsIn P D
  | .mul f g => f.ConstsIn P D ∧ g.ConstsIn P D
  | .div f g => D ∧ f.ConstsIn P D ∧ g.ConstsIn P D
  | .neg f => f.ConstsIn P D

/-- Running the C++ operators bottom-up over the formula. -/
def Formula.build [Field K] (T : Tests K) (fuel : Nat) : Formula K → Option (Ex K)
  | .leaf e => some e
  | .add f g => do addF T fuel (← f.build T fuel) (← g.build T fuel)
  | .sub f g => do subF T fuel (← f.build T fuel) (← g.build T fuel)
  | .mul f g => do mulF T fuel (← f.build T fuel) (← g.build T fuel)
  | .div f g => do divF T fuel (← f.build T fuel) (← g.build T fuel)
  | .neg f => do negF T fuel (← f.build T fuel)

end AmpGen.Expr
