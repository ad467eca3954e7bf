import Verif.Expr.Model
/-
Model of `to_string`: the C++ source text an expression is turned into
(src/BinaryExpression.cpp:45-77, src/UnaryExpression.cpp:17-77,
src/Expression.cpp:56-69, 173-257, 332-353, AmpGen/Expression.h:55-59).

The text is modelled after tokenisation.  A numeric literal, including its sign,
is one token; the code prints literals only in brackets, as arguments or as the
`1.` of `1./sqrt(`, so a leading sign cannot merge with a preceding operator.
-/
namespace AmpGen.Expr

/-- Tokens of the generated C++ source. -/
inductive Tok (K : Type) where
  | num (v : K)
  | ident (s : String)
  | lpar | rpar | comma
  | plus | minus | star | slash
  | lt | gt | le | ge | eqeq | andand | oror
  | quest | colon
  deriving DecidableEq, Repr

/-- How constants are decomposed and rounded when printed: `std::imag(z) == 0`,
`std::real`, `std::imag` and the effect of `"%g"`. -/
structure Lit (K : Type) where
  isReal : K → Bool
  re : K → K
  im : K → K
  /-- the number denoted by the `"%g"` rendering of a real number -/
  round : K → K

/-- Name of the function printed for a unary node
(src/UnaryExpression.cpp:17-77). `ISqrt` prints `1./sqrt(x)`, dealt with in
`print`. `avx` is `resolver->enableAVX()`. -/
def unName (avx : Bool) : Un → String
  | .log => "log" | .sqrt => "sqrt" | .exp => "exp"
  | .sin => "sin" | .cos => "cos" | .tan => "tan"
  | .asin => "asin" | .acos => "acos" | .atan => "atan"
  | .norm => if avx then "norm" else "std::norm"
  | .real => if avx then "real" else "std::real"
  | .imag => if avx then "imag" else "std::imag"
  | .conj => if avx then "conj" else "std::conj"
  | .abs => if avx then "abs" else "std::abs"
  | .isqrt => "sqrt"
  | .lgamma => "std::lgamma"

/-- `type_string<complex_t>()` or `type_string<complex_v>()`,
src/Expression.cpp:61-67, 334-336. -/
def complexName (avx : Bool) : String := if avx then "AmpGen::complex_v" else "std::complex<double>"

/-- Name of a `SubTree` with the given key, src/Expression.cpp:250-253. -/
def subName (key : Nat) : String := "v" ++ toString key

/-- `bracketed( expression, use_brackets )`, src/BinaryExpression.cpp:25-28, with
the condition `is<Sum> || is<Sub>` used throughout. -/
def bracketed {K : Type} (e : Ex K) (ts : List (Tok K)) : List (Tok K) :=
  if isSumOrSub e then [.lpar] ++ ts ++ [.rpar] else ts

/-- `Constant::to_string`, src/Expression.cpp:56-69. -/
def printConst {K : Type} (L : Lit K) (avx : Bool) (v : K) : List (Tok K) :=
  if L.isReal v then [.lpar, .num (L.round (L.re v)), .rpar]
  else [.ident (complexName avx), .lpar, .num (L.round (L.re v)), .comma, .num (L.round (L.im v)), .rpar]

/-- `Expression::to_string( resolver )`. Parameters and lambdas are printed by
name: the name of the C++ variable the resolver assigned to them. -/
def print {K : Type} [One K] (L : Lit K) (avx : Bool) : Ex K → List (Tok K)
  | .const v => printConst L avx v
  | .param n => [.ident n]
  | .cparam re im => [.ident (complexName avx), .lpar, .ident re, .comma, .ident im, .rpar]
  | .lambda n => [.ident n]
  | .func n => [.ident n, .lpar, .rpar]
  | .un .isqrt e => [.num 1, .slash, .ident "sqrt", .lpar] ++ print L avx e ++ [.rpar]
  | .un f e => [.ident (unName avx f), .lpar] ++ print L avx e ++ [.rpar]
  | .bin .sum l r => print L avx l ++ [.plus] ++ print L avx r
  | .bin .sub l r => print L avx l ++ [.minus] ++ bracketed r (print L avx r)
  | .bin .prod l r => bracketed l (print L avx l) ++ [.star] ++ bracketed r (print L avx r)
  | .bin .div l r => [.lpar] ++ print L avx l ++ [.rpar, .slash, .lpar] ++ print L avx r ++ [.rpar]
  | .bin .and l r => [.lpar] ++ print L avx l ++ [.andand] ++ print L avx r ++ [.rpar]
  | .bin .or l r => [.lpar] ++ print L avx l ++ [.oror] ++ print L avx r ++ [.rpar]
  | .bin .gt l r => [.lpar] ++ print L avx l ++ [.gt] ++ print L avx r ++ [.rpar]
  | .bin .lt l r => [.lpar] ++ print L avx l ++ [.lt] ++ print L avx r ++ [.rpar]
  | .bin .ge l r => [.lpar] ++ print L avx l ++ [.ge] ++ print L avx r ++ [.rpar]
  | .bin .le l r => [.lpar] ++ print L avx l ++ [.le] ++ print L avx r ++ [.rpar]
  | .bin .eq l r => [.lpar] ++ print L avx l ++ [.eqeq] ++ print L avx r ++ [.rpar]
  | .bin .pow l r => [.ident "pow", .lpar] ++ print L avx l ++ [.comma] ++ print L avx r ++ [.rpar]
  | .bin .fmod l r => [.ident "fmod", .lpar] ++ print L avx l ++ [.comma] ++ print L avx r ++ [.rpar]
  | .bin .atan2 l r => [.ident "atan2", .lpar] ++ print L avx l ++ [.comma] ++ print L avx r ++ [.rpar]
  | .ternary c a b =>
      if avx then
        [.ident "select", .lpar] ++ print L avx c ++ [.comma] ++ print L avx a ++ [.comma]
          ++ print L avx b ++ [.rpar]
      else [.lpar] ++ print L avx c ++ [.quest] ++ print L avx a ++ [.colon] ++ print L avx b ++ [.rpar]
  | .subtree key _ => [.ident (subName key)]

/-- `"%g"` for a non-negative integer: six significant decimal digits, ties to
even (src/Expression.cpp:58). -/
def roundG (n : Nat) : Nat :=
  if n < 10 ^ 6 then n
  else
    let p := 10 ^ ((Nat.toDigits 10 n).length - 6)
    let q := n / p
    let r := n % p
    if 2 * r < p then q * p
    else if p < 2 * r then (q + 1) * p
    else (if q % 2 = 0 then q else q + 1) * p

end AmpGen.Expr
