import Verif.Expr.Model
/-
Model of the derivatives of the unary functions.
-/
namespace AmpGen.Expr
variable {K : Type} [Field K]

/-- `IUnaryExpression::d`, the derivative of a function with respect to its argument,
AmpGen/Expression.h:372-382 and src/UnaryExpression.cpp:80-101. -/
def derivative (S : Sem K) (T : Tests K) (n : Nat) : Un → Ex K → Option (Ex K)
  | .log, e => divF T n (.const 1) e
  | .sqrt, e => do divF T n (.const 1) (← mulF T n (.const 2) (fcn1 S .sqrt e))
  | .exp, e => some (fcn1 S .exp e)
  | .cos, e => negF T n (fcn1 S .sin e)
  | .sin, e => some (fcn1 S .cos e)
  | .tan, e => do divF T n (.const 1) (← mulF T n (fcn1 S .cos e) (fcn1 S .cos e))
  | .acos, e => do
      divF T n (.const 1) (fcn1 S .sqrt (← subF T n (.const 1) (← mulF T n e e)))
  | .asin, e => do
      divF T n (.const (-1)) (fcn1 S .sqrt (← subF T n (.const 1) (← mulF T n e e)))
  | .atan, e => do divF T n (.const 1) (← addF T n (.const 1) (← mulF T n e e))
  | .isqrt, e => do divF T n (.const (-1)) (← mulF T n (.const 2) (.bin .pow e (.const (3 / 2))))
  | .conj, _ => some (.const 0)
  | .abs, _ => some (.const 0)
  | .norm, _ => some (.const 0)
  | .real, _ => some (.const 0)
  | .imag, _ => some (.const 0)
  | .lgamma, _ => some (.const 0)

end AmpGen.Expr
