import Verif.Expr.Model
/-
Model of the algebraic simplification of expressions (src/Simplify.cpp,
AmpGen/Simplify.h).

Expression trees, their evaluation and the operators that build them are those
of `Verif.Expr.Model`.  As there, the operators take an iteration budget and
`none` means that it was exhausted.  `Expression::to_string()` is an arbitrary
function `text`; the two calls of `std::sort` are arbitrary functions, because
`std::sort` leaves the order of entries with equal texts open.
-/
namespace AmpGen.Simplify

open AmpGen.Expr

variable {K : Type} {τ : Type}

/-- `NormalOrderedExpression::Term`, AmpGen/Simplify.h:16-25, without
`m_markForRemoval` (see `group`). -/
structure Term (K τ : Type) where
  prefactor : K
  terms : List (Ex K × τ)
  divisor : Ex K
  text : τ

/-- The members written by `Term::addExpression`. -/
structure Parts (K τ : Type) where
  prefactor : K
  terms : List (Ex K × τ)
  divisor : Ex K

/-- What the simplification takes from outside: `Expression::to_string()`, and
the two `std::sort` calls of src/Simplify.cpp:40 and 63. -/
structure Lib (K τ : Type) where
  text : Ex K → τ
  sortFactors : List (Ex K × τ) → List (Ex K × τ)
  sortTerms : List (Term K τ) → List (Term K τ)

section
variable [Field K]

/-- `Term::addExpression`, src/Simplify.cpp:14-32.  A binary node that is
neither a product nor a quotient leaves the term unchanged: sums and differences
after an error message, all others silently. -/
def addExpression (L : Lib K τ) (T : Tests K) (n : Nat) : Ex K → Parts K τ → Option (Parts K τ)
  | .bin .prod l r, t => do addExpression L T n r (← addExpression L T n l t)
  | .bin .div l r, t => do
      let t ← addExpression L T n l t
      let d ← mulF T n t.divisor r
      some { t with divisor := d }
  | .bin _ _ _, t => some t
  | .const v, t => some { t with prefactor := t.prefactor * v }
  | e, t => some { t with terms := t.terms ++ [(e, L.text e)] }

/-- The product of the factors, starting from `start`: the `std::accumulate` of
src/Simplify.cpp:43 and the loop of line 53. -/
def timesAll (T : Tests K) (n : Nat) (start : Ex K) (fs : List (Ex K × τ)) : Option (Ex K) :=
  fs.foldlM (fun (A : Ex K) (B : Ex K × τ) => mulF T n A B.1) start

/-- The constructor of `Term`, src/Simplify.cpp:34-48. -/
def mkTerm (L : Lib K τ) (T : Tests K) (n : Nat) (e : Ex K) : Option (Term K τ) := do
  let p ← addExpression L T n e ⟨1, [], .const 1⟩
  let fs := L.sortFactors p.terms
  let t ← timesAll T n (.const 1) fs
  let q ← divF T n t p.divisor
  some ⟨p.prefactor, fs, p.divisor, L.text q⟩

/-- `Term::operator Expression`, src/Simplify.cpp:50-55. -/
def Term.toEx (T : Tests K) (n : Nat) (t : Term K τ) : Option (Ex K) := do
  let pf ← timesAll T n (.const t.prefactor) t.terms
  divF T n pf t.divisor

/-- `groupExpressions`, src/Simplify.cpp:68-78.  The entry `i` absorbs the
prefactors of the entries directly behind it that have the same text; those are
marked, skipped by the outer loop and erased at the end.  Simplification: the
marks are replaced by continuing behind the absorbed entries.  (With no entries
the bound `m_terms.size() - 1` wraps around; `expand_ne_nil` shows that there
always is one.) -/
def group [DecidableEq τ] : List (Term K τ) → List (Term K τ)
  | [] => []
  | t :: rest =>
    let same := rest.takeWhile fun u => decide (u.text = t.text)
    { t with prefactor := same.foldl (fun (s : K) u => s + u.prefactor) t.prefactor } ::
      group (rest.drop same.length)
termination_by l => l.length
decreasing_by simp only [List.length_drop, List.length_cons]; omega

/-- The sum of a list of expressions starting from zero, src/Simplify.cpp:81-83
and 118-119. -/
def plusAll (T : Tests K) (n : Nat) (es : List (Ex K)) : Option (Ex K) :=
  es.foldlM (fun (A : Ex K) (B : Ex K) => addF T n A B) (.const 0)

/-- `ExpandBrackets`, src/Simplify.cpp:86-134; `subs` is `m_expandSubTrees`.
`fcn::conj` folds constants with the conjugation of `S`. -/
def expand (S : Sem K) (T : Tests K) (n : Nat) (subs : Bool) : Ex K → Option (List (Ex K))
  | .bin .sum l r => do
      let left ← expand S T n subs l
      let right ← expand S T n subs r
      some (left ++ right)
  | .bin .sub l r => do
      let left ← expand S T n subs l
      let right ← expand S T n subs r
      let neg ← right.mapM fun x => mulF T n (.const (-1)) x
      some (left ++ neg)
  | .bin .prod l r => do
      let left ← expand S T n subs l
      let right ← expand S T n subs r
      (left.flatMap fun x => right.map fun y => (x, y)).mapM fun p => mulF T n p.1 p.2
  | .bin .div l r => do
      let left ← expand S T n subs l
      let right ← expand S T n subs r
      let sum ← plusAll T n right
      left.mapM fun x => divF T n x sum
  | .subtree k e => if subs then expand S T n subs e else some [.subtree k e]
  | .un .conj e => do
      let terms ← expand S T n subs e
      some (terms.map (fcnConj S))
  | e => some [e]

/-- The constructor of `NormalOrderedExpression`, src/Simplify.cpp:57-66. -/
def normalOrder [DecidableEq τ] (L : Lib K τ) (S : Sem K) (T : Tests K) (n : Nat) (subs : Bool)
    (e : Ex K) : Option (List (Term K τ)) := do
  let expanded ← expand S T n subs e
  let ts ← expanded.mapM fun x => mkTerm L T n x
  some (group (L.sortTerms ts))

/-- `NormalOrderedExpression::operator Expression`, src/Simplify.cpp:80-84, of a
normal ordered expression; with `subs` false this is `Simplify`,
src/Simplify.cpp:136. -/
def simplify [DecidableEq τ] (L : Lib K τ) (S : Sem K) (T : Tests K) (n : Nat) (subs : Bool)
    (e : Ex K) : Option (Ex K) := do
  let ts ← normalOrder L S T n subs e
  let es ← ts.mapM fun t => t.toEx T n
  plusAll T n es

/-- `make_cse( A, true )`, src/Expression.cpp:260-269: the key of the common
sub-expression is the hash of the text of the simplified expression. -/
def makeCseSimplified [DecidableEq τ] (L : Lib K τ) (S : Sem K) (T : Tests K) (n : Nat)
    (hash : τ → Nat) (A : Ex K) : Option (Ex K) :=
  match A with
  | .const v => some (.const v)
  | .param s => some (.param s)
  | .subtree k e => some (.subtree k e)
  | A => do
    let ordered ← simplify L S T n false A
    some (.subtree (hash (L.text ordered)) A)

end
end AmpGen.Simplify
