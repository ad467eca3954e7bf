import Mathlib.Algebra.Field.Basic
/-
Model of the expression trees of AmpGen and of the operators that build them
(AmpGen/Expression.h, src/Expression.cpp, src/BinaryExpression.cpp,
src/UnaryExpression.cpp).

Numbers (`complex_t`) are elements of an arbitrary field `K`; rounding is not
modelled.  Elementary functions are arbitrary functions on `K`, collected in a
`Sem K`, so every theorem holds whatever they compute.
-/
namespace AmpGen.Expr

/-- The unary node classes, AmpGen/Expression.h:363-436. -/
inductive Un
  | log | sqrt | exp | sin | cos | tan | asin | acos | atan
  | norm | real | imag | isqrt | conj | abs | lgamma
  deriving DecidableEq, Repr

/-- The binary node classes, AmpGen/Expression.h:285-362. -/
inductive Bin
  | sum | sub | prod | div
  | and | or | gt | lt | ge | le | eq | pow | fmod | atan2
  deriving DecidableEq, Repr

/-- Expression nodes (AmpGen/Expression.h:156-268, 285-436).  `ExpressionPack`
and the argument list of `Function` are not modelled; a `Function` node is a
leaf. Sharing through `shared_ptr` is not modelled: nodes are immutable, so a
shared node behaves like a copy. -/
inductive Ex (K : Type) where
  | const (v : K)
  | param (name : String)
  | cparam (re im : String)
  | lambda (name : String)
  | func (name : String)
  | un (f : Un) (e : Ex K)
  | bin (op : Bin) (l r : Ex K)
  | ternary (c a b : Ex K)
  | subtree (key : Nat) (e : Ex K)
  deriving DecidableEq, Repr

/-- What the leaves and the non-arithmetic operations compute. -/
structure Sem (K : Type) where
  /-- value of `Parameter` (a real number embedded in `K`) -/
  param : String → K
  /-- value of `LambdaExpression` -/
  lambda : String → K
  /-- the imaginary unit -/
  I : K
  un : Un → K → K
  /-- comparisons, logical operators, pow, atan2 -/
  bin : Bin → K → K → K
  /-- `std::real( x ) != 0`, the test of `Ternary` -/
  truth : K → Bool

variable {K : Type}

/-- `IExpression::operator()`: src/BinaryExpression.cpp:30-43,
AmpGen/Expression.h:55-64 (unary macros), 169,189,239 (Constant, Parameter,
Ternary), 252 (SubTree), 265 (Function), src/Expression.cpp:345-348
(ComplexParameter), 351-354 (LambdaExpression).  `ISqrt` is `1. / sqrt( x )`
(src/UnaryExpression.cpp:14-15).  Division by zero has no value (`none`). -/
def eval [Field K] [DecidableEq K] (S : Sem K) : Ex K → Option K
  | .const v => some v
  | .param n => some (S.param n)
  | .cparam re im => some (S.param re + S.I * S.param im)
  | .lambda n => some (S.lambda n)
  | .func _ => some 0
  | .un .isqrt e => do
      let x ← eval S e
      if S.un .sqrt x = 0 then none else some (1 / S.un .sqrt x)
  | .un f e => (eval S e).map (S.un f)
  | .bin .sum l r => do return (← eval S l) + (← eval S r)
  | .bin .sub l r => do return (← eval S l) - (← eval S r)
  | .bin .prod l r => do return (← eval S l) * (← eval S r)
  | .bin .div l r => do
      let a ← eval S l
      let b ← eval S r
      if b = 0 then none else some (a / b)
  | .bin .fmod _ _ => some 0
  | .bin op l r => do return S.bin op (← eval S l) (← eval S r)
  | .ternary c a b => do
      let v ← eval S c
      if S.truth v then eval S a else eval S b
  | .subtree _ e => eval S e

/-- The numerical tests applied to constants while building trees:
`isZero` (src/Expression.cpp:51-54), `isEqual( ., 1 )` and `isEqual( ., 0 )`
(src/Expression.cpp:46-49), `std::real( . ) < 0.` (src/Expression.cpp:82). -/
structure Tests (K : Type) where
  isZero : K → Bool
  isOne : K → Bool
  isZeroAbs : K → Bool
  isNeg : K → Bool

/-- `is<Sum>(e) || is<Sub>(e)`, src/Expression.cpp:144. -/
def isSumOrSub : Ex K → Bool
  | .bin .sum _ _ => true
  | .bin .sub _ _ => true
  | _ => false

/-- `is<Constant>(A) && isEqual( A(), 0 )`, src/Expression.cpp:150. -/
def isZeroConst (T : Tests K) : Ex K → Bool
  | .const a => T.isZeroAbs a
  | _ => false

section
variable [Field K]

mutual
/-- `simplify_multiplication( constant, expression )`, src/Expression.cpp:114-126.
The mutually recursive functions take an iteration budget; `none` means it was
exhausted. -/
def simplifyMul (T : Tests K) : Nat → K → Ex K → Option (Ex K)
  | 0, _, _ => none
  | n + 1, c, e =>
    match e with
    | .const v => some (.const (c * v))
    | e =>
      if T.isOne c then some e
      else if T.isZero c then some (.const 0)
      else match e with
        | .bin .prod l r => do mulF T n (← simplifyMul T n c l) r
        | e => some (.bin .prod (.const c) e)

/-- `operator*`, src/Expression.cpp:138-146. -/
def mulF (T : Tests K) : Nat → Ex K → Ex K → Option (Ex K)
  | 0, _, _ => none
  | n + 1, A, B =>
    match A, B with
    | .const a, B => simplifyMul T n a B
    | A, .const b => simplifyMul T n b A
    | .bin .div l d, B => do divF T n (← mulF T n l B) d
    | A, .bin .div l d => do divF T n (← mulF T n A l) d
    | A, B => if isSumOrSub A then some (.bin .prod B A) else some (.bin .prod A B)

/-- `operator/`, src/Expression.cpp:148-164.  (Line 155 is unreachable: a
constant `B` was dealt with before.)  A product denominator without a constant
factor falls through to line 163. -/
def divF (T : Tests K) : Nat → Ex K → Ex K → Option (Ex K)
  | 0, _, _ => none
  | n + 1, A, B =>
    if isZeroConst T A then some (.const 0)
    else match B with
      | .const b => if T.isOne b then some A else mulF T n A (.const (1 / b))
      | .bin .prod (.const c) r => do divF T n (← mulF T n (.const (1 / c)) A) r
      | .bin .prod l (.const c) => do divF T n (← mulF T n (.const (1 / c)) A) l
      | .bin .div p q => do divF T n (← mulF T n A q) p
      | B => some (.bin .div A B)
end

/-- `Expression::operator-()`, src/Expression.cpp:193. -/
def negF (T : Tests K) (n : Nat) (A : Ex K) : Option (Ex K) := mulF T n (.const (-1)) A

/-- `operator-`, src/Expression.cpp:103-112. -/
def subF (T : Tests K) (n : Nat) (A B : Ex K) : Option (Ex K) :=
  match A, B with
  | .const a, .const b =>
      if T.isZero a then negF T n (.const b)
      else if T.isZero b then some (.const a)
      else some (.const (a - b))
  | .const a, B => if T.isZero a then negF T n B else some (.bin .sub (.const a) B)
  | A, .const b => if T.isZero b then some A else some (.bin .sub A (.const b))
  | A, B => some (.bin .sub A B)

/-- `simplify_product_addition( prod, expression, status )`,
src/Expression.cpp:80-86, for the product `l * r`; `status` is never cleared. -/
def simplifyProdAdd (T : Tests K) (n : Nat) (l r e : Ex K) : Option (Ex K) :=
  match l with
  | .const c =>
      if T.isNeg c then do subF T n e (← mulF T n (.const (-1 * c)) r)
      else some (.bin .sum e (.bin .prod (.const c) r))
  | l => some (.bin .sum e (.bin .prod l r))

mutual
/-- `simplify_constant_addition( constant, expression )`, src/Expression.cpp:72-78. -/
def simplifyAdd (T : Tests K) : Nat → K → Ex K → Option (Ex K)
  | 0, _, _ => none
  | n + 1, c, e =>
    if T.isZero c then some e
    else match e with
      | .const v => some (.const (c + v))
      | .bin .sum l r => do addF T n (← simplifyAdd T n c l) r
      | e => some (.bin .sum (.const c) e)

/-- `operator+`, src/Expression.cpp:88-101. -/
def addF (T : Tests K) : Nat → Ex K → Ex K → Option (Ex K)
  | 0, _, _ => none
  | n + 1, A, B =>
    match A, B with
    | .const a, B => simplifyAdd T n a B
    | A, .const b => simplifyAdd T n b A
    | .bin .prod l r, B => simplifyProdAdd T n l r B
    | A, .bin .prod l r => simplifyProdAdd T n l r A
    | A, B => some (.bin .sum A B)
end

/-- `simplify_constant_unary<TYPE>( arg )` and the `fcn::` wrappers built on it
(`sqrt, abs, sin, cos, tan, acos, asin, atan, norm, exp, log`),
src/Expression.cpp:275-294. -/
def fcn1 (S : Sem K) (f : Un) (e : Ex K) : Ex K :=
  match e with
  | .const v => .const (S.un f v)
  | e => .un f e

/-- `fcn::conj`, src/Expression.cpp:291: parameters are real. -/
def fcnConj (S : Sem K) (e : Ex K) : Ex K :=
  match e with
  | .param n => .param n
  | e => fcn1 S .conj e

/-- `fcn::pow`, src/Expression.cpp:301-307. -/
def fcnPow (T : Tests K) (e co : Ex K) : Ex K :=
  match co with
  | .const v => if T.isZeroAbs v then .const 1 else if T.isOne v then e else .bin .pow e (.const v)
  | co => .bin .pow e co

/-- `fcn::safe_sqrt`, src/Expression.cpp:296-299.  `x > 0` builds
`GreaterThan( x, Constant(0) )`. -/
def fcnSafeSqrt (S : Sem K) (e : Ex K) : Ex K :=
  .ternary (.bin .gt e (.const 0)) (fcn1 S .sqrt e) (.const 0)

/-- `fcn::isqrt`, src/Expression.cpp:316-320.  For a constant the reciprocal is
taken at once; a zero square root has no value and is not modelled (`none`). -/
def fcnIsqrt [DecidableEq K] (S : Sem K) (e : Ex K) : Option (Ex K) :=
  match e with
  | .const v => if S.un .sqrt v = 0 then none else some (.const (1 / S.un .sqrt v))
  | e => some (.un .isqrt e)

/-- `make_cse( A )` without simplification, src/Expression.cpp:260-268; `key` is
the value of the hash. -/
def makeCse (key : Ex K → Nat) (A : Ex K) : Ex K :=
  match A with
  | .const v => .const v
  | .param n => .param n
  | .subtree k e => .subtree k e
  | A => .subtree (key A) A

/-- `fcn::complex_sqrt`, src/Expression.cpp:309-314. -/
def fcnComplexSqrt (S : Sem K) (T : Tests K) (fuel : Nat) (key : Ex K → Nat) (e : Ex K) :
    Option (Ex K) :=
  match e with
  | .const v => some (.const (S.un .sqrt v))
  | e => do
    let st := makeCse key e
    let m ← negF T fuel st
    let im ← mulF T fuel (.const S.I) (.un .sqrt m)
    some (.ternary (.bin .gt st (.const 0)) (.un .sqrt st) im)

/-- Loop of `fcn::fpow` for non-negative powers, src/Expression.cpp:324-326. -/
def fpowLoop (T : Tests K) (fuel : Nat) (x : Ex K) : Nat → Option (Ex K)
  | 0 => some (.const 1)
  | k + 1 => do mulF T fuel (← fpowLoop T fuel x k) x

/-- `fcn::fpow( x, n )`, src/Expression.cpp:322-327. -/
def fpow (T : Tests K) (fuel : Nat) (x : Ex K) (n : Int) : Option (Ex K) :=
  if n < 0 then do divF T fuel (.const 1) (← fpowLoop T fuel x n.natAbs)
  else fpowLoop T fuel x n.natAbs

end
end AmpGen.Expr
