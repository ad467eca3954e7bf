import Verif.Store.Model
/-
Specification side of the function cache: a table from functor, component and block
to the value last stored there.
-/
namespace AmpGen.Store

variable {V : Type}

/-- The first size with which each name is registered. -/
def sizeOf (functors : List (String × Nat)) (name : String) : Option Nat := functors.lookup name

/-- One `update`: the name of the functor, its values and the order in which the
blocks were visited. -/
structure Update (V : Type) where
  name : String
  fcn : Nat → List V
  order : List Nat

/-- The value that component `c` of `name` should hold for `block` after a sequence
of updates: that of the last update of that name, or the initial value. -/
def expected (init : V) (us : List (Update V)) (name : String) (block c : Nat) : Option V :=
  match us.reverse.find? (fun u => u.name == name) with
  | some u => (u.fcn block)[c]?
  | none => some init

/-- A history of updates as the program runs it. -/
def runUpdates (a : Alignment) (s : Store V) : List (Update V) → Option (Store V)
  | [] => some s
  | u :: us => (s.update a u.name u.fcn u.order).bind fun s' => runUpdates a s' us

end AmpGen.Store
