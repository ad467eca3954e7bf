import Verif.Binning.Model
/-
What the binning properties assume about the library and the sample.
-/
namespace AmpGen.Binning

/-- Reasonable parameters and a library that sorts: at least one coordinate, at least one event per bin, orders of the coordinates that
contain each coordinate once, and a sort that rearranges a list in increasing order (of the events with equal values, in any order). -/
structure Good {E : Type} (c : Config E) : Prop where
  dim : 0 < c.dim
  minEvents : 0 < c.minEvents
  ordering : c.ordering.Perm (List.range c.dim)
  variance : ∀ l, (c.byVariance l).Perm (List.range c.dim)
  perm : ∀ i l, (c.sort i l).Perm l
  sorted : ∀ i l, (c.sort i l).Pairwise fun a b => c.x a i ≤ c.x b i

/-- No two events of the sample agree in any coordinate. -/
def Distinct {E : Type} (c : Config E) (evts : List E) : Prop :=
  evts.Pairwise fun a b => ∀ i, i < c.dim → c.x a i ≠ c.x b i

/-- A word that can stand in a line: not empty, and without blanks and ends of lines. -/
structure Token (w : AmpGen.Strings.Str) : Prop where
  nonempty : w ≠ []
  blank : ' ' ∉ w
  eol : '\n' ∉ w
  tab : w ≠ ['\t']

/-- The addresses of the nodes of a tree. -/
def ATree.addrs : ATree → List Nat
  | .leaf a _ _ => [a]
  | .node a _ _ l r => a :: (l.addrs ++ r.addrs)

/-- The cut values of a tree. -/
def ATree.values : ATree → List ℚ
  | .leaf _ _ _ => []
  | .node _ _ v l r => v :: (l.values ++ r.values)

/-- The end nodes of a tree in the order they are written. -/
def ATree.ends : ATree → List (Nat × Nat)
  | .leaf _ vox bin => [(vox, bin)]
  | .node _ _ _ l r => l.ends ++ r.ends

end AmpGen.Binning
