import Verif.Expr.Model
/-
Vocabulary for the properties of the algebraic simplification.
-/
namespace AmpGen.Simplify.Spec

open AmpGen.Expr

variable {K : Type}

/-- No quotient is reached from the root through sums, differences and products
(and through common sub-expressions, if `subs`). -/
def NoQuotient (subs : Bool) : Ex K → Prop
  | .bin .div _ _ => False
  | .bin .sum l r => NoQuotient subs l ∧ NoQuotient subs r
  | .bin .sub l r => NoQuotient subs l ∧ NoQuotient subs r
  | .bin .prod l r => NoQuotient subs l ∧ NoQuotient subs r
  | .subtree _ e => subs = true → NoQuotient subs e
  | _ => True

/-- The four arithmetic operations, applied to constants, variables, function
calls, conditionals and common sub-expressions; no operand is a power, a
comparison or another binary operation, and no divisor contains a quotient.
Anything may stand inside a function call or a conditional. -/
def Arithmetic (subs : Bool) : Ex K → Prop
  | .bin .sum l r => Arithmetic subs l ∧ Arithmetic subs r
  | .bin .sub l r => Arithmetic subs l ∧ Arithmetic subs r
  | .bin .prod l r => Arithmetic subs l ∧ Arithmetic subs r
  | .bin .div l r => Arithmetic subs l ∧ Arithmetic subs r ∧ NoQuotient subs r
  | .bin _ _ _ => False
  | .subtree _ e => subs = true → Arithmetic subs e
  | _ => True

end AmpGen.Simplify.Spec
