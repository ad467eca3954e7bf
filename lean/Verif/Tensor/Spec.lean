import Verif.Tensor.Model
import Mathlib.Algebra.BigOperators.Group.Finset.Basic
/-
What the tensor properties say, without reference to how tensors are stored.
-/
namespace AmpGen.Tensor

/-- Coordinates inside a shape. -/
def Valid (co dim : List Nat) : Prop := List.Forall₂ (· < ·) co dim

/-- The names of some indices. -/
def names (is : List Index) : List Nat := is.map Index.name

/-- Sum over all values of the listed index names (each with its dimension), the other names keeping their
values in `f`. -/
def sumOver {K : Type} [CommRing K] : List (Nat × Nat) → (Nat → Nat) → ((Nat → Nat) → K) → K
  | [], f, F => F f
  | (x, d) :: rest, f, F => ∑ v ∈ Finset.range d, sumOver rest (Function.update f x v) F

/-- The metric: a repeated index, once up and once down, takes a sign for each value other than 3. -/
def metric (x : Nat) (i1 i2 : List Index) (v : Nat) : Int :=
  if v ≠ 3 ∧ (∃ a ∈ i1, ∃ b ∈ i2, a.name = x ∧ b.name = x ∧ a.upper ≠ b.upper) then -1 else 1

/-- The tensor stores the coordinates `co` and `co'` in the same place. -/
def SamePlace {K : Type} (t : Tensor K) (co co' : List Nat) : Prop :=
  t.sym[coordinatesToIndex co t.dim]? = t.sym[coordinatesToIndex co' t.dim]?

/-- A tensor in working order: every position has a place, the places in use are exactly those listed, each of them being
its own place and having an element. -/
structure Sound {K : Type} (t : Tensor K) : Prop where
  size : t.sym.length = t.dim.prod
  listed : ∀ i ∈ t.sym, i ∈ t.unique
  once : t.unique.Nodup
  own : ∀ i ∈ t.unique, t.sym[i]? = some i
  stored : ∀ i ∈ t.unique, i < t.elements.length

end AmpGen.Tensor
