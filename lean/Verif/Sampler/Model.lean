import Mathlib.Data.Real.Basic
/-
Model of the sampler of parameters for the propagation of large errors, src/ErrorPropagator.cpp:262-285.

Simplifications: real numbers instead of floating-point ones; the random numbers are arguments.
-/
namespace AmpGen.Sampler

variable {ι : Type}

/-- The point that is tried, src/ErrorPropagator.cpp:277; `g` holds the normal random numbers. -/
noncomputable def propose (errors x g : ι → ℝ) : ι → ℝ := fun i => x i + errors i * g i

/-- `r > u`, src/ErrorPropagator.cpp:278-279, where `r` is `tryTarget / target`: if the denominator is zero, the quotient is infinite or not a number. -/
def Accept (target tryTarget u : ℝ) : Prop := if target = 0 then 0 < tryTarget else tryTarget / target > u

open Classical in
/-- One turn of the loop, src/ErrorPropagator.cpp:275-279; `u` is the uniform random number. -/
noncomputable def step (target : (ι → ℝ) → ℝ) (errors x g : ι → ℝ) (u : ℝ) : ι → ℝ :=
  if Accept (target x) (target (propose errors x g)) u then propose errors x g else x

/-- The loop, src/ErrorPropagator.cpp:273-280, with the random numbers of each turn; there are 500 turns. -/
noncomputable def run (target : (ι → ℝ) → ℝ) (errors : ι → ℝ) : List ((ι → ℝ) × ℝ) → (ι → ℝ) → ι → ℝ
  | [], x => x
  | (g, u) :: draws, x => run target errors draws (step target errors x g u)

end AmpGen.Sampler
