import Mathlib.Algebra.Notation.Defs
/-
Model of the external parameter buffer of a compiled expression: registration of
cache entries with the resolver and transfer of current values
(AmpGen/ASTResolver.h:35-42, src/CompiledExpressionBase.cpp:49-76,
AmpGen/CompiledExpression.h:130-143, src/CacheTransfer.cpp:20-60,
src/Spline.cpp:127-149).
-/
namespace AmpGen.External

/-- `CacheTransfer`: address and size, AmpGen/CacheTransfer.h:16-40. -/
structure Entry where
  addr : Nat
  size : Nat
  deriving DecidableEq, Repr

/-- `m_cacheFunctions` and `m_nParameters` of `ASTResolver`.  The map is an
association list in order of insertion. -/
structure Reg where
  entries : List (String × Entry)
  n : Nat
  deriving DecidableEq, Repr

/-- An empty resolver, src/ASTResolver.cpp:15-20. -/
def Reg.empty : Reg := ⟨[], 0⟩

/-- `m_cacheFunctions.find( name )`. -/
def Reg.find (R : Reg) (name : String) : Option Entry := R.entries.lookup name

/-- `addCacheFunction<TYPE>( name, ... )`, AmpGen/ASTResolver.h:35-42, where
`size` is the `size()` of the object that would be made.  Returns the address. -/
def addCacheFunction (R : Reg) (name : String) (size : Nat) : Reg × Nat :=
  match R.find name with
  | some e => (R, e.addr)
  | none => (⟨R.entries ++ [(name, ⟨R.n, size⟩)], R.n + size⟩, R.n + size - size)

/-- A sequence of registrations. -/
def register (R : Reg) (ops : List (String × Nat)) : Reg :=
  ops.foldl (fun R op => (addCacheFunction R op.1 op.2).1) R

/-- `m_externals` and `m_hasExternalsChanged`, AmpGen/CompiledExpression.h:44-45. -/
structure Ext (K : Type) where
  buf : List K
  changed : Bool
  deriving DecidableEq, Repr

variable {K : Type} [DecidableEq K]

/-- `setExternal( value, address )`, AmpGen/CompiledExpression.h:130-136. -/
def setExternal (x : Ext K) (v : K) (a : Nat) : Ext K :=
  if x.buf[a]? = some v then x else ⟨x.buf.set a v, true⟩

/-- `transfer( destination )` of one entry: the current values are written to
consecutive addresses (src/CacheTransfer.cpp:20-23, 30-33, 54-57: one value;
src/Spline.cpp:141-149: knot values and curvatures, `2 * m_nKnots` values, written
there alternately). -/
def transfer (x : Ext K) (addr : Nat) : List K → Ext K
  | [] => x
  | v :: vs => transfer (setExternal x v addr) (addr + 1) vs

/-- `CompiledExpressionBase::prepare()`, src/CompiledExpressionBase.cpp:73-76.
`cur name` are the current values of the entry. -/
def prepare (x : Ext K) (ts : List (String × Entry)) (cur : String → List K) : Ext K :=
  ts.foldl (fun x t => transfer x t.2.addr (cur t.1)) x

/-- `resizeExternalCache( N )`, AmpGen/CompiledExpression.h:137-140. -/
def resizeExternalCache [Zero K] (x : Ext K) (n : Nat) : Ext K :=
  if x.buf.length < n then { x with buf := x.buf ++ List.replicate (n - x.buf.length) 0 } else x

end AmpGen.External
