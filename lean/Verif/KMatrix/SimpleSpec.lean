import Mathlib.Data.Complex.Basic
import Mathlib.Analysis.Real.Sqrt
/-
What the words in the properties of the lineshape `kMatrixSimple` mean.
-/
namespace AmpGen.KMatrix.Spec

/-- The phase space of two particles of masses `m0` and `m1` at the squared energy `s`. -/
noncomputable def phase (m0 m1 s : ℝ) : ℝ := Real.sqrt (1 - (m0 + m1) ^ 2 / s)

/-- A resonance: its mass and its widths to each channel. -/
structure Resonance where
  mass : ℝ
  width : Nat → ℝ

/-- The coupling of a resonance to a channel, for which the width is that at the mass of the resonance. -/
noncomputable def coupling (masses : Nat → ℝ × ℝ) (r : Resonance) (c : Nat) : ℝ := Real.sqrt (r.mass * r.width c / phase (masses c).1 (masses c).2 (r.mass ^ 2))

/-- The amplitudes `F` to `n` channels after the production of a resonance `r`: each is the production through `r`, and the rescattering of the amplitude to every channel, with all
the resonances in between. -/
def Rescattered (n : Nat) (masses : Nat → ℝ × ℝ) (all : List Resonance) (r : Resonance) (s : ℝ) (F : Nat → ℂ) : Prop :=
  ∀ i, i < n → F i = coupling masses r i / (r.mass ^ 2 - s) +
    Complex.I * ∑ j ∈ Finset.range n, (all.map fun q => (coupling masses q i * coupling masses q j / (q.mass ^ 2 - s) : ℂ)).sum * phase (masses j).1 (masses j).2 s * F j

end AmpGen.KMatrix.Spec
