import Verif.Expr.Model
/-
Model of the resolution of common sub-expressions and of external parameters
(src/ASTResolver.cpp, AmpGen/ASTResolver.h, src/CompiledExpressionBase.cpp,
AmpGen/CompiledExpression.h, src/CacheTransfer.cpp).
-/
namespace AmpGen.Resolve
open AmpGen.Expr

variable {K : Type}

/-- A common sub-expression: its key and the expression behind it. -/
abbrev Sub (K : Type) := Nat × Ex K

/-- The sub-trees that `expression.resolve( resolver )` puts into `m_tempTrees`
(src/ASTResolver.cpp:67-75; recursion over nodes: src/BinaryExpression.cpp:79-83,
src/UnaryExpression.cpp:100, src/Expression.cpp:225-230, 248 and 255-258).
`m_tempTrees` is keyed by node address and hence iterated in address order;
addresses are not modelled, the order here is that of insertion.  `Function`
nodes do not resolve their arguments. -/
def subtreesOf : Ex K → List (Sub K)
  | .const _ => []
  | .param _ => []
  | .cparam _ _ => []
  | .lambda _ => []
  | .func _ => []
  | .un _ e => subtreesOf e
  | .bin _ l r => subtreesOf l ++ subtreesOf r
  | .ternary c a b => subtreesOf c ++ subtreesOf a ++ subtreesOf b
  | .subtree k e => subtreesOf e ++ [(k, e)]

/-- Insertion into `std::map<uint64_t, Expression> subTrees` if the key is absent
(src/ASTResolver.cpp:38). -/
def mapInsert (s : Sub K) : List (Sub K) → List (Sub K)
  | [] => [s]
  | t :: ts => if s.1 < t.1 then s :: t :: ts else if s.1 = t.1 then t :: ts else t :: mapInsert s ts

/-- The map `subTrees` built from `m_tempTrees`, in iteration order
(src/ASTResolver.cpp:33-44). -/
def keyMap (l : List (Sub K)) : List (Sub K) := l.foldl (fun m s => mapInsert s m) []

/-- `subexpressions` and `used_functions` (src/ASTResolver.cpp:29-31).  The map
from keys to positions is a function. -/
structure State (K : Type) where
  subs : List (Sub K)
  used : Nat → Option Nat

/-- Body of the loop over `subTrees`, src/ASTResolver.cpp:45-61: a new key is
appended; a known one is rotated to the end and the positions are updated. -/
def process (st : State K) (s : Sub K) : State K :=
  match st.used s.1 with
  | none =>
    { subs := st.subs ++ [s],
      used := fun k => if k = s.1 then some st.subs.length else st.used k }
  | some oldPos =>
    if oldPos + 1 = st.subs.length then st
    else
      { subs := st.subs.take oldPos ++ st.subs.drop (oldPos + 1) ++ (st.subs.drop oldPos).take 1,
        used := fun k =>
          if k = s.1 then some (st.subs.length - 1)
          else (st.used k).map (fun p => if oldPos ≤ p then p - 1 else p) }

/-- The `do ... while` loop, src/ASTResolver.cpp:33-62, with an iteration budget.
`tmp` is the content of `m_tempTrees`. -/
def loop : Nat → List (Sub K) → State K → Option (State K)
  | 0, _, _ => none
  | n + 1, tmp, st =>
    let m := keyMap tmp
    let st' := m.foldl process st
    if m.isEmpty then some st' else loop n (m.flatMap fun s => subtreesOf s.2) st'

/-- `ASTResolver::getOrderedSubExpressions`, src/ASTResolver.cpp:26-65. -/
def getOrderedSubExpressions (fuel : Nat) (e : Ex K) : Option (List (Sub K)) :=
  (loop fuel (subtreesOf e) ⟨[], fun _ => none⟩).map fun st => st.subs.reverse

end AmpGen.Resolve
