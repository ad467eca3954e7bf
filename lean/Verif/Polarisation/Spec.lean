import Verif.Transform.Spec
/-
What the spin states of a particle with a given momentum are, independently of the formulas of the code.
-/
namespace AmpGen.Polarisation.Spec
open Complex
open AmpGen.Transform (V4 M4 minkowski slash gamma)

/-- The momentum of a particle with mass `m`. -/
def OnShell (m : ℝ) (p : Fin 4 → ℝ) : Prop := 0 < m ∧ 0 < p 3 ∧ p 3 ^ 2 = m ^ 2 + p 0 ^ 2 + p 1 ^ 2 + p 2 ^ 2

/-- A real momentum among the complex vectors. -/
noncomputable def cx (p : Fin 4 → ℝ) : V4 := fun i => (p i : ℂ)

/-- The complex conjugate of a vector. -/
noncomputable def cc (v : V4) : V4 := fun i => (starRingEnd ℂ) (v i)

/-- The metric: one for the energy, minus one for the components. -/
def metric (μ ν : Fin 4) : ℂ := if μ = ν then (if μ = 3 then 1 else -1) else 0

/-- A family of vectors is a basis of the states of a massive particle of spin one: they are orthogonal to the momentum and to each other, of length one, and
together they make up the projection onto the space of such states. -/
structure SpinOne (m : ℝ) (p : Fin 4 → ℝ) (ε : ℤ → V4) : Prop where
  transverse : ∀ l, l = 1 ∨ l = 0 ∨ l = -1 → minkowski (cx p) (ε l) = 0
  orthonormal : ∀ l l', l = 1 ∨ l = 0 ∨ l = -1 → l' = 1 ∨ l' = 0 ∨ l' = -1 → minkowski (cc (ε l)) (ε l') = if l = l' then -1 else 0
  complete : ∀ μ ν, ε 1 μ * cc (ε 1) ν + ε 0 μ * cc (ε 0) ν + ε (-1) μ * cc (ε (-1)) ν = -metric μ ν + cx p μ * cx p ν / m ^ 2

/-- The action of the spin along the momentum on a vector, `i p × v`. -/
noncomputable def spinAlong (p : Fin 4 → ℝ) (v : V4) : V4 :=
  ![I * (p 1 * v 2 - p 2 * v 1), I * (p 2 * v 0 - p 0 * v 2), I * (p 0 * v 1 - p 1 * v 0), 0]

/-- The scalar product of two bispinors, with `γ` of the energy in between. -/
noncomputable def barDot (u v : V4) : ℂ := (starRingEnd ℂ) (u 0) * v 0 + (starRingEnd ℂ) (u 1) * v 1 - (starRingEnd ℂ) (u 2) * v 2 - (starRingEnd ℂ) (u 3) * v 3

/-- Two bispinors are a basis of the states of a fermion, `s = 1`, or of an antifermion, `s = -1`: they solve Dirac's equation, are orthogonal, of length `s`,
and together make up the projection onto the solutions of the equation. -/
structure SpinHalf (s : ℝ) (m : ℝ) (p : Fin 4 → ℝ) (u : ℤ → V4) : Prop where
  dirac : ∀ l, l = 1 ∨ l = -1 → (slash (cx p)).mulVec (u l) = ((s * m : ℝ) : ℂ) • u l
  orthonormal : ∀ l l', l = 1 ∨ l = -1 → l' = 1 ∨ l' = -1 → barDot (u l) (u l') = if l = l' then (s : ℂ) else 0
  complete : ∀ v, barDot (u 1) v • u 1 + barDot (u (-1)) v • u (-1) = (1 / (2 * m) : ℂ) • ((slash (cx p)).mulVec v + ((s * m : ℝ) : ℂ) • v)

/-- The action of twice the spin along the momentum on a bispinor. -/
noncomputable def spinorAlong (p : Fin 4 → ℝ) (u : V4) : V4 :=
  ![p 2 * u 0 + (p 0 - I * p 1) * u 1, (p 0 + I * p 1) * u 0 - p 2 * u 1, p 2 * u 2 + (p 0 - I * p 1) * u 3, (p 0 + I * p 1) * u 2 - p 2 * u 3]

end AmpGen.Polarisation.Spec
