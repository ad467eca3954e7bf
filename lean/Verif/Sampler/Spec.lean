import Verif.Sampler.Model
import Mathlib.MeasureTheory.Integral.Lebesgue.Basic
import Mathlib.MeasureTheory.Measure.Lebesgue.Basic
/-
Averages over independent random numbers.
-/
namespace AmpGen.Sampler
open MeasureTheory ENNReal

variable {ι : Type} [Fintype ι]

/-- The average of a function of `n` independent draws, each of a point with density `φ` and of a number that is uniform between zero and one. -/
noncomputable def average (φ : (ι → ℝ) → ℝ≥0∞) : Nat → (List ((ι → ℝ) × ℝ) → ℝ≥0∞) → ℝ≥0∞
  | 0, F => F []
  | n + 1, F => ∫⁻ g, φ g * ∫⁻ u in Set.Ico (0 : ℝ) 1, average φ n fun draws => F ((g, u) :: draws)

end AmpGen.Sampler
