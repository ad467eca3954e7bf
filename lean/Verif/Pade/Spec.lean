import Verif.Pade.Model
/-
What the linear algebra library finds.
-/
namespace AmpGen.Pade
open Finset

/-- The inverse that the library finds: the product of the matrix of the linear system and `inverse` is the unit matrix. -/
def Inverse (fcn : ℝ → ℝ) (min max : ℝ) (N strat : Nat) (inverse : Nat → Nat → ℝ) : Prop :=
  ∀ i k, i < 2 * N + 1 → k < 2 * N + 1 → ∑ j ∈ range (2 * N + 1), solver fcn min max N strat i j * inverse j k = if i = k then 1 else 0

end AmpGen.Pade
