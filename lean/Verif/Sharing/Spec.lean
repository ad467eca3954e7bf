import Verif.Sharing.Model
/-
What decay chains in memory stand for.
-/
namespace AmpGen.Sharing
open AmpGen.Strings (Str)

/-- A list of decay chains: the first with its daughters, and the rest. -/
inductive Forest where
  | nil
  | node (name : Str) (kids : Forest) (rest : Forest)
  deriving DecidableEq

/-- The number of particles. -/
def Forest.size : Forest → Nat
  | nil => 0
  | node _ k r => k.size + r.size + 1

/-- The names of the particles that have no daughters, in order. -/
def Forest.stable : Forest → List Str
  | nil => []
  | node n nil r => n :: r.stable
  | node _ (node n k s) r => (node n k s).stable ++ r.stable

/-- The addresses in the memory stand for the decay chains; the last argument lists all addresses that are used. -/
inductive Owns (h : Heap) : List Nat → Forest → List Nat → Prop
  | nil : Owns h [] .nil []
  | node {a : Nat} {as : List Nat} {d : Cell} {k r : Forest} {s t : List Nat} : h[a]? = some d → Owns h d.kids k s → Owns h as r t →
      Owns h (a :: as) (.node d.name k r) (a :: (s ++ t))

/-- The daughters of a particle are these decay chains. -/
def Shows (h : Heap) (c : Cell) (f : Forest) : Prop := ∃ s, Owns h c.kids f s

/-- The second list of decay chains is the first one with the first stable particle of the given name replaced by a particle of this name with the given
daughters. -/
inductive ReplacesFirst (name : Str) (kids : Forest) : Forest → Forest → Prop
  | here {r : Forest} : ReplacesFirst name kids (.node name .nil r) (.node name kids r)
  | inside {n : Str} {k k' r : Forest} : ReplacesFirst name kids k k' → ReplacesFirst name kids (.node n k r) (.node n k' r)
  | later {n : Str} {k r r' : Forest} : name ∉ (Forest.node n k .nil).stable → ReplacesFirst name kids r r' →
      ReplacesFirst name kids (.node n k r) (.node n k r')

end AmpGen.Sharing
