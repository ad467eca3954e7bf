import Mathlib.Analysis.Real.Sqrt
import Mathlib.Data.Nat.Factorial.Basic
import Mathlib.Algebra.BigOperators.Group.Finset.Basic
/-
What the words in the properties of the lineshapes mean, independent of the code.
-/
namespace AmpGen.Lineshapes.Spec

/-- The polynomial `z^{L+1} |h_L(√z)|²` of the spherical Hankel function of order `L`, from its closed form: the denominator of
the Blatt-Weisskopf penetration factor. -/
noncomputable def hankel (L : ℕ) (z : ℝ) : ℝ :=
  ∑ k ∈ Finset.range (L + 1),
    (((2 * L - k).factorial * (2 * L - 2 * k).factorial : ℕ) : ℝ) /
      ((k.factorial * (L - k).factorial ^ 2 : ℕ) * 4 ^ (L - k)) * z ^ k

/-- The Blatt-Weisskopf penetration factor, up to its normalisation. -/
noncomputable def penetration (L : ℕ) (z : ℝ) : ℝ := z ^ L / hankel L z

/-- `p` is the momentum of two bodies of masses `m1`, `m2` in the rest frame of a system of mass `√s`. -/
def IsMomentum (p s m1 m2 : ℝ) : Prop := 0 ≤ p ∧ √(p ^ 2 + m1 ^ 2) + √(p ^ 2 + m2 ^ 2) = √s

end AmpGen.Lineshapes.Spec
