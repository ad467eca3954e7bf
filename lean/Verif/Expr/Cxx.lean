import Mathlib.Algebra.Field.Basic
import Verif.Expr.Print
/-
Specification: the meaning of a C++ expression, as far as the generated source
uses it.  `Derives` is the expression grammar of the C++ standard ([expr.mul],
[expr.add], [expr.rel], [expr.eq], [expr.log.and], [expr.log.or], [expr.cond]),
`ceval` the value of a syntax tree.  Nothing here refers to AmpGen's trees.
-/
namespace AmpGen.Expr

/-- Binary operators of the generated source. -/
inductive COp
  | add | sub | mul | div | lt | gt | le | ge | eq | and | or
  deriving DecidableEq, Repr

/-- Syntax trees of C++ expressions. -/
inductive CAst (K : Type) where
  | num (v : K)
  | var (s : String)
  | call0 (f : String)
  | call1 (f : String) (a : CAst K)
  | call2 (f : String) (a b : CAst K)
  | call3 (f : String) (a b c : CAst K)
  | bin (op : COp) (a b : CAst K)
  | cond (c a b : CAst K)
  deriving DecidableEq, Repr

/-- The operator a token stands for, and its precedence: 1 multiplicative,
2 additive, 3 relational, 4 equality, 5 logical and, 6 logical or. -/
def Tok.op {K : Type} : Tok K → Option (COp × Nat)
  | .star => some (.mul, 1)
  | .slash => some (.div, 1)
  | .plus => some (.add, 2)
  | .minus => some (.sub, 2)
  | .lt => some (.lt, 3)
  | .gt => some (.gt, 3)
  | .le => some (.le, 3)
  | .ge => some (.ge, 3)
  | .eqeq => some (.eq, 4)
  | .andand => some (.and, 5)
  | .oror => some (.or, 6)
  | _ => none

/-- The grammar.  Level 0 is a primary or postfix expression, levels 1-6 the
binary operators (each grouping to the left), level 7 the conditional operator. -/
inductive Derives {K : Type} : Nat → List (Tok K) → CAst K → Prop
  | num (v) : Derives 0 [.num v] (.num v)
  | var (s) : Derives 0 [.ident s] (.var s)
  | paren {ts a} : Derives 7 ts a → Derives 0 ([.lpar] ++ ts ++ [.rpar]) a
  | call0 (f) : Derives 0 [.ident f, .lpar, .rpar] (.call0 f)
  | call1 (f) {ts a} : Derives 7 ts a → Derives 0 ([.ident f, .lpar] ++ ts ++ [.rpar]) (.call1 f a)
  | call2 (f) {ts us a b} : Derives 7 ts a → Derives 7 us b →
      Derives 0 ([.ident f, .lpar] ++ ts ++ [.comma] ++ us ++ [.rpar]) (.call2 f a b)
  | call3 (f) {ts us ws a b c} : Derives 7 ts a → Derives 7 us b → Derives 7 ws c →
      Derives 0 ([.ident f, .lpar] ++ ts ++ [.comma] ++ us ++ [.comma] ++ ws ++ [.rpar]) (.call3 f a b c)
  | up {i ts a} : i < 7 → Derives i ts a → Derives (i + 1) ts a
  | bin {i ts us a b t op} : Tok.op t = some (op, i + 1) → Derives (i + 1) ts a → Derives i us b →
      Derives (i + 1) (ts ++ [t] ++ us) (.bin op a b)
  | cond {ts us ws c a b} : Derives 6 ts c → Derives 7 us a → Derives 7 ws b →
      Derives 7 (ts ++ [.quest] ++ us ++ [.colon] ++ ws) (.cond c a b)

/-- What the identifiers of the generated source mean: variables, library
functions, comparisons. -/
structure Cxx (K : Type) where
  var : String → Option K
  call0 : String → Option K
  call1 : String → K → Option K
  call2 : String → K → K → Option K
  /-- comparison and logical operators -/
  rel : COp → K → K → K
  truth : K → Bool

/-- Value of a syntax tree; division by zero, unknown identifiers: none.
`select` chooses lane-wise and floating-point division does not trap, so an
unselected operand without a value is harmless there too. -/
def ceval {K : Type} [Field K] [DecidableEq K] (C : Cxx K) : CAst K → Option K
  | .num v => some v
  | .var s => C.var s
  | .call0 f => C.call0 f
  | .call1 f a => do C.call1 f (← ceval C a)
  | .call2 f a b => do C.call2 f (← ceval C a) (← ceval C b)
  | .call3 f c a b =>
      if f = "select" then do
        if C.truth (← ceval C c) then ceval C a else ceval C b
      else none
  | .bin .add a b => do return (← ceval C a) + (← ceval C b)
  | .bin .sub a b => do return (← ceval C a) - (← ceval C b)
  | .bin .mul a b => do return (← ceval C a) * (← ceval C b)
  | .bin .div a b => do
      let x ← ceval C a
      let y ← ceval C b
      if y = 0 then none else some (x / y)
  | .bin op a b => do return C.rel op (← ceval C a) (← ceval C b)
  | .cond c a b => do
      if C.truth (← ceval C c) then ceval C a else ceval C b

/-- Comparison and logical nodes and the operator they print. -/
def relOf : Bin → Option COp
  | .and => some .and | .or => some .or | .gt => some .gt | .lt => some .lt
  | .ge => some .ge | .le => some .le | .eq => some .eq
  | _ => none

/-- The C++ side `C` gives every identifier, function and literal occurring in
`e` the meaning that node has on the AmpGen side `S`.  Excluded (`False`):
`Function` nodes and `fmod`, which evaluate to 0 on the AmpGen side, and
`lgamma`, which takes the modulus of its argument on the AmpGen side only. -/
def Agrees {K : Type} [Field K] [DecidableEq K] (C : Cxx K) (S : Sem K) (L : Lit K) (avx : Bool) :
    Ex K → Prop
  | .const v => if L.isReal v then L.round (L.re v) = v
      else (∀ x y, C.call2 (complexName avx) x y = some (x + S.I * y)) ∧
        L.round (L.re v) + S.I * L.round (L.im v) = v
  | .param n => C.var n = some (S.param n)
  | .cparam re im => C.var re = some (S.param re) ∧ C.var im = some (S.param im) ∧
      ∀ x y, C.call2 (complexName avx) x y = some (x + S.I * y)
  | .lambda n => C.var n = some (S.lambda n)
  | .func _ => False
  | .un .lgamma _ => False
  | .un .isqrt e => (∀ x, C.call1 "sqrt" x = some (S.un .sqrt x)) ∧ Agrees C S L avx e
  | .un f e => (∀ x, C.call1 (unName avx f) x = some (S.un f x)) ∧ Agrees C S L avx e
  | .bin .fmod _ _ => False
  | .bin .pow l r => (∀ x y, C.call2 "pow" x y = some (S.bin .pow x y)) ∧
      Agrees C S L avx l ∧ Agrees C S L avx r
  | .bin .atan2 l r => (∀ x y, C.call2 "atan2" x y = some (S.bin .atan2 x y)) ∧
      Agrees C S L avx l ∧ Agrees C S L avx r
  | .bin op l r => (∀ o, relOf op = some o → ∀ x y, C.rel o x y = S.bin op x y) ∧
      Agrees C S L avx l ∧ Agrees C S L avx r
  | .ternary c a b => (∀ x, C.truth x = S.truth x) ∧
      Agrees C S L avx c ∧ Agrees C S L avx a ∧ Agrees C S L avx b
  | .subtree key e => ∀ v, eval S e = some v → C.var (subName key) = some v

end AmpGen.Expr
