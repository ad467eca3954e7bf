import Mathlib.Analysis.Real.Sqrt
import Mathlib.Analysis.SpecialFunctions.Log.Basic
import Mathlib.Analysis.Calculus.Deriv.Basic
import Mathlib.Analysis.SpecialFunctions.Trigonometric.Arctan
import Mathlib.Analysis.Complex.Trigonometric
import Mathlib.Analysis.SpecialFunctions.Trigonometric.Basic
/-
What the words in the properties of the other lineshapes mean, independent of the code.
-/
namespace AmpGen.Shapes.Spec

/-- The phase space of two bodies, twice their momentum over the mass of the system, and zero if they are heavier than the system. -/
noncomputable def phsp (s m1 m2 : ℝ) : ℝ := if (m1 + m2) ^ 2 < s then √((s - (m1 + m2) ^ 2) * (s - (m1 - m2) ^ 2)) / s else 0

/-- The momentum of two pions in their rest frame. -/
noncomputable def k (mpi s : ℝ) : ℝ := √(s / 4 - mpi ^ 2)

/-- The loop function of Gounaris and Sakurai. -/
noncomputable def h (mpi s : ℝ) : ℝ := 2 / Real.pi * (k mpi s / √s) * Real.log ((√s + 2 * k mpi s) / (2 * mpi))

/-- The real part of the self energy of Gounaris and Sakurai, Phys. Rev. Lett. 21, 244. -/
noncomputable def f (mpi mass width s : ℝ) : ℝ :=
  width * mass ^ 2 / k mpi (mass ^ 2) ^ 3 *
    (k mpi s ^ 2 * (h mpi s - h mpi (mass ^ 2)) + (mass ^ 2 - s) * k mpi (mass ^ 2) ^ 2 * deriv (h mpi) (mass ^ 2))

/-- The distribution of Cauchy, Breit and Wigner. -/
noncomputable def cauchy (mass width m : ℝ) : ℝ := width / (2 * Real.pi) / ((m - mass) ^ 2 + width ^ 2 / 4)

/-- The phase of a resonance with the width `gamma`. -/
noncomputable def resonancePhase (mass gamma s : ℝ) : ℝ := Real.arctan (mass * gamma / (mass ^ 2 - s))

/-- The width of a resonance that decays to a pair with momentum `q`, `q0` at its mass. -/
noncomputable def swaveWidth (mass width s q q0 : ℝ) : ℝ := width * (q / √s) * (mass / q0)

/-- The phase of the effective range. -/
noncomputable def effectivePhase (a r q : ℝ) : ℝ := Real.arctan (2 * a * q / (2 + a * r * q ^ 2))

/-- The amplitude of the documentation of GLASS. -/
noncomputable def glass (R F deltaR deltaF : ℝ) : ℂ :=
  R * Real.sin deltaR * Complex.exp (Complex.I * (deltaR + 2 * deltaF)) + F * Real.sin deltaF * Complex.exp (Complex.I * deltaF)

/-- The product of two momenta, given as `(x, y, z, E)`. -/
def minkowski (p q : ℝ × ℝ × ℝ × ℝ) : ℝ := p.2.2.2 * q.2.2.2 - p.1 * q.1 - p.2.1 * q.2.1 - p.2.2.1 * q.2.2.1

/-- The momentum of a particle with a mass. -/
def OnShell (p : ℝ × ℝ × ℝ × ℝ) (m : ℝ) : Prop := 0 ≤ m ∧ 0 < p.2.2.2 ∧ minkowski p p = m ^ 2

/-- The kinetic energy, times the mass of the system, of a particle in the rest frame of the system `P`. -/
noncomputable def kinetic (P p : ℝ × ℝ × ℝ × ℝ) : ℝ := minkowski p P - √(minkowski P P) * √(minkowski p p)

end AmpGen.Shapes.Spec
