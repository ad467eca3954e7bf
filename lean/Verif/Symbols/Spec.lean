import Verif.Symbols.Model
/-
What a symbol of an expression stands for.
-/
namespace AmpGen.Symbols.Spec

/-- The values that a node stands for: a parameter is the variable of the event with its name, or else the current value of the fit parameter with its name, or else its default value; a
link is the current value of the fit parameter with its name, and nothing if there is none; a function is its current value; a spline is the list of the values at its knots. -/
def meaning (env : Env) (event : List ℚ) (v : Values) : Node → Nat → Option ℚ
  | .parameter name dflt, i =>
    match env.evt name with
    | some k => event[k + i]?
    | none =>
      match env.mps.bind fun find => find name with
      | some p => if i = 0 then some (v.par p.id) else none
      | none => if i = 0 then some dflt else none
  | .link name, i =>
    match env.mps.bind fun find => find name with
    | some p => if i = 0 then some (v.par p.id) else none
    | none => none
  | .lambda f, i => if i = 0 then some (v.fn f) else none
  | .spline _ s n, i => if i < 2 * n then some (v.knots s i) else none

/-- The number of values of a node. -/
def width : Node → Nat
  | .spline _ _ n => 2 * n
  | _ => 1

/-- The name under which a node asks for a place in the external buffer. -/
def nameOf : Node → Option String
  | .parameter name _ => some name
  | .link name => some name
  | .lambda _ => none
  | .spline name _ _ => some name

/-- The node is a variable of the event. -/
def IsEventVariable (env : Env) : Node → Prop
  | .parameter name _ => env.evt name ≠ none
  | _ => False

/-- The nodes do not get in each other's way: an address belongs to one node, nodes with the same name that are not variables of the event have the same meaning, and none has a name that
the program makes up for a function. -/
structure Consistent (env : Env) (event : List ℚ) (v : Values) (nodes : List (Nat × Node)) : Prop where
  ptr : ∀ p n n', (p, n) ∈ nodes → (p, n') ∈ nodes → n = n'
  name : ∀ a ∈ nodes, ∀ b ∈ nodes, nameOf a.2 ≠ none → nameOf a.2 = nameOf b.2 → ¬ IsEventVariable env a.2 → ¬ IsEventVariable env b.2 → meaning env event v a.2 = meaning env event v b.2
  lxpr : ∀ a ∈ nodes, ∀ k : Nat, nameOf a.2 ≠ some ("lxpr_" ++ toString k)

end AmpGen.Symbols.Spec
