import Verif.Expr.Cxx
/-
Specification vocabulary for the resolution of common sub-expressions.
-/
namespace AmpGen.Resolve
open AmpGen.Expr

variable {K : Type}

/-- `Occurs k b e`: somewhere inside `e`, at any depth, there is a common
sub-expression with key `k` standing for `b`. -/
inductive Occurs (k : Nat) (b : Ex K) : Ex K → Prop
  | here : Occurs k b (.subtree k b)
  | inside {k' e} : Occurs k b e → Occurs k b (.subtree k' e)
  | un {f e} : Occurs k b e → Occurs k b (.un f e)
  | binl {op l r} : Occurs k b l → Occurs k b (.bin op l r)
  | binr {op l r} : Occurs k b r → Occurs k b (.bin op l r)
  | cond {c x y} : Occurs k b c → Occurs k b (.ternary c x y)
  | yes {c x y} : Occurs k b x → Occurs k b (.ternary c x y)
  | no {c x y} : Occurs k b y → Occurs k b (.ternary c x y)

/-- `Mentions k e`: the source line printed for `e` refers to the variable of the
common sub-expression `k`; sub-expressions of sub-expressions are not printed. -/
inductive Mentions (k : Nat) : Ex K → Prop
  | here {b} : Mentions k (.subtree k b)
  | un {f e} : Mentions k e → Mentions k (.un f e)
  | binl {op l r} : Mentions k l → Mentions k (.bin op l r)
  | binr {op l r} : Mentions k r → Mentions k (.bin op l r)
  | cond {c x y} : Mentions k c → Mentions k (.ternary c x y)
  | yes {c x y} : Mentions k x → Mentions k (.ternary c x y)
  | no {c x y} : Mentions k y → Mentions k (.ternary c x y)

/-- Keys identify expressions: no two different common sub-expressions of `e`
have the same key (no hash collision). -/
def KeysFaithful (e : Ex K) : Prop :=
  ∀ k b b', Occurs k b e → Occurs k b' e → b = b'

/-- The expression with every common sub-expression written out in place. -/
def expand : Ex K → Ex K
  | .un f e => .un f (expand e)
  | .bin op l r => .bin op (expand l) (expand r)
  | .ternary c x y => .ternary (expand c) (expand x) (expand y)
  | .subtree _ e => expand e
  | e => e

/-- Names of the C++ variables that stand for the parameters of an expression. -/
def leafNames : Ex K → List String
  | .const _ => []
  | .param n => [n]
  | .cparam re im => [re, im]
  | .lambda n => [n]
  | .func _ => []
  | .un _ e => leafNames e
  | .bin _ l r => leafNames l ++ leafNames r
  | .ternary c x y => leafNames c ++ leafNames x ++ leafNames y
  | .subtree _ e => leafNames e

/-- The declarations executed in order: each line `const auto v<key> = <text>;`
is evaluated with the variables declared before it, then stored.  The value of a
line is that of its unique reading as a C++ expression. -/
inductive Runs [Field K] [DecidableEq K] (L : Lit K) (avx : Bool) :
    Cxx K → List (Nat × Ex K) → Cxx K → Prop
  | nil {C} : Runs L avx C [] C
  | cons {C C' k b ast rest} : Derives 7 (print L avx b) ast →
      Runs L avx { C with var := fun s => if s = subName k then ceval C ast else C.var s } rest C' →
      Runs L avx C ((k, b) :: rest) C'

end AmpGen.Resolve
