import Verif.External.Model
import Mathlib.Data.Rat.Floor
/-
Model of how the symbols of an expression are bound to storage (src/ASTResolver.cpp:77-145,153-171, src/Expression.cpp:182-212, src/CompiledExpressionBase.cpp:49-76).  The
registration of entries and the transfer of values are those of `Verif/External/Model.lean`.
-/
namespace AmpGen.Symbols
open External

/-- `MinuitParameter`: which one it is, whether its flag is `CompileTimeConstant`, and its mean value when the expression is resolved. -/
structure Par where
  id : Nat
  compileTime : Bool
  mean : ℚ
  deriving DecidableEq

/-- The objects of an expression that are resolved: `Parameter` (name and default value), `MinuitParameterLink`, `LambdaExpression` (which function), and `Spline` (name, which knots, and
their number). -/
inductive Node where
  | parameter (name : String) (dflt : ℚ)
  | link (name : String)
  | lambda (f : Nat)
  | spline (name : String) (knots nKnots : Nat)
  deriving DecidableEq

/-- The members of `ASTResolver` that do not change: `m_evtMap`, `m_mps` (`none`: the null pointer) and `m_enable_compileTimeConstants`.  Code for graphics cards is left out. -/
structure Env where
  evt : String → Option Nat
  mps : Option (String → Option Par)
  constants : Bool

/-- `CacheTransfer`, `ParameterTransfer`, `LambdaTransfer` and `SplineTransfer`: where the values come from. -/
inductive Source where
  | const (v : ℚ)
  | par (id : Nat)
  | fn (f : Nat)
  | knots (s nKnots : Nat)
  deriving DecidableEq

/-- `size()`: one, src/CacheTransfer.cpp:35-37,47-49, or twice the number of knots, src/Spline.cpp. -/
def Source.size : Source → Nat
  | .knots _ n => 2 * n
  | _ => 1

/-- The text put in place of a node: an element of the event `x1[k]`, of the external buffer `x0[a]`, or a number. -/
inductive Text where
  | event (k : Nat)
  | cache (a : Nat)
  | number (v : ℚ)
  deriving DecidableEq

/-- The members that change: `m_cacheFunctions` with `m_nParameters` (and the sources by name), and `m_resolvedParameters`, by the addresses of the nodes, the latest first. -/
structure Res where
  reg : Reg
  sources : List (String × Source)
  bound : List (Nat × Text)

/-- A new resolver, src/ASTResolver.cpp:15-24. -/
def Res.empty : Res := ⟨.empty, [], []⟩

/-- `addCacheFunction<TYPE>( name, ... )`, AmpGen/ASTResolver.h:35-42. -/
def addCache (R : Res) (name : String) (src : Source) : Res × Nat :=
  let r := addCacheFunction R.reg name src.size
  (⟨r.1, if (R.reg.find name).isSome then R.sources else R.sources ++ [(name, src)], R.bound⟩, r.2)

/-- `addResolvedParameter`, src/ASTResolver.cpp:153-161. -/
def bind (R : Res) (ptr : Nat) (t : Text) : Res := { R with bound := (ptr, t) :: R.bound }

/-- `addResolvedParameter( node, addCacheFunction( name, source ) )`. -/
def bindCache (R : Res) (ptr : Nat) (name : String) (src : Source) : Res :=
  let r := addCache R name src
  bind r.1 ptr (.cache r.2)

/-- `std::to_string` of a `double`: six decimals.  Halves are rounded up here. -/
def toString6 (v : ℚ) : ℚ := ⌊v * 10 ^ 6 + 1 / 2⌋ / 10 ^ 6

/-- `resolve<Parameter>`, `resolve<MinuitParameterLink>`, `resolve<LambdaExpression>` and `resolve<Spline>`, src/ASTResolver.cpp:77-145.  The node is found at the address `ptr`.  The
parameters of the knots are part of the source. -/
def resolve (env : Env) (R : Res) (ptr : Nat) (node : Node) : Res :=
  if (R.bound.lookup ptr).isSome then R
  else match node with
    | .parameter name dflt =>
      match env.evt name with
      | some k => bind R ptr (.event k)
      | none =>
        match env.mps with
        | some find =>
          match find name with
          | some p => if env.constants = true ∧ p.compileTime = true then bind R ptr (.number (toString6 p.mean)) else bindCache R ptr name (.par p.id)
          | none => bindCache R ptr name (.const dflt)
        | none => if env.constants = true then bind R ptr (.number (toString6 dflt)) else bindCache R ptr name (.const dflt)
    | .link name =>
      match env.mps with
      | none => R
      | some find =>
        match find name with
        | none => R
        | some p => bindCache R ptr name (.par p.id)
    | .lambda f => bindCache R ptr ("lxpr_" ++ toString R.reg.n) (.fn f)
    | .spline name s n => bindCache R ptr name (.knots s n)

/-- All nodes of an expression, in the order in which they are visited. -/
def resolveAll (env : Env) (nodes : List (Nat × Node)) : Res := nodes.foldl (fun R n => resolve env R n.1 n.2) .empty

/-- The current values: of the parameters, the functions, and the knots and curvatures of the splines. -/
structure Values where
  par : Nat → ℚ
  fn : Nat → ℚ
  knots : Nat → Nat → ℚ

/-- The values that `transfer` writes, src/CacheTransfer.cpp:20-57, src/Spline.cpp:141-149. -/
def Source.values (v : Values) : Source → List ℚ
  | .const c => [c]
  | .par p => [v.par p]
  | .fn f => [v.fn f]
  | .knots s n => (List.range (2 * n)).map (v.knots s)

/-- `resizeExternalCache( nParams() )` and `prepare()`, src/CompiledExpressionBase.cpp:62-76: the external buffer. -/
def externals (R : Res) (v : Values) (x : Ext ℚ) : List ℚ :=
  (prepare (resizeExternalCache x R.reg.n) R.reg.entries fun name => ((R.sources.lookup name).map (Source.values v)).getD []).buf

/-- The values that the compiled expression reads for a node: one number, or those from its address on.  `none`: the node has no text (`ERROR`), or reads outside the arrays. -/
def read (R : Res) (event buffer : List ℚ) (ptr : Nat) (i : Nat) : Option ℚ :=
  match R.bound.lookup ptr with
  | none => none
  | some (.event k) => event[k + i]?
  | some (.cache a) => buffer[a + i]?
  | some (.number v) => if i = 0 then some v else none

end AmpGen.Symbols
