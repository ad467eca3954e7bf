import Mathlib.Algebra.Order.Field.Rat
import Mathlib.Algebra.Order.Field.Power
/-
Specification side: binary floating point numbers of precision `p` and rounding to
nearest.
-/
namespace AmpGen.Kahan

/-- `x` is a binary floating point number with a `p` bit significand (the exponent is
unbounded: neither overflow nor underflow). -/
def IsFloat (p : Nat) (x : ℚ) : Prop := ∃ m e : ℤ, |m| ≤ 2 ^ p ∧ x = m * 2 ^ e

/-- `fl` rounds to a nearest floating point number; ties are broken arbitrarily. -/
structure Nearest (p : Nat) (fl : ℚ → ℚ) : Prop where
  float : ∀ x, IsFloat p (fl x)
  nearest : ∀ x f, IsFloat p f → |x - fl x| ≤ |x - f|

end AmpGen.Kahan
