import Verif.Spline.Model
import Mathlib.Algebra.BigOperators.Group.Finset.Basic
/-
What the linear algebra library finds, and what a cubic is.
-/
namespace AmpGen.Spline
open Finset

/-- `T` is an inverse of the square matrix `M` of the given size. -/
def Inverse (size : Nat) (M T : Nat → Nat → ℝ) : Prop := ∀ i k, i < size → k < size → ∑ j ∈ range size, M i j * T j k = if i = k then 1 else 0

/-- The position of knot `i` of `n` equally spaced knots between `min` and `max`. -/
noncomputable def knot (n : Nat) (min max : ℝ) (i : Nat) : ℝ := min + i * ((max - min) / ((n : ℝ) - 1))

/-- `f` is a polynomial of degree three or less on `s`. -/
def IsCubicOn (f : ℝ → ℝ) (s : Set ℝ) : Prop := ∃ a b c d : ℝ, ∀ x ∈ s, f x = a + b * x + c * x ^ 2 + d * x ^ 3

end AmpGen.Spline
