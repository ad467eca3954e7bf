import Verif.Transform.Spec
/-
Model of the spin states of a particle outside of the decay, src/Particle.cpp.

Simplifications: numbers are real or complex and an expression is its value; `none` stands for a quotient by zero.  The units of the thresholds are those of the
momenta.
-/
namespace AmpGen.Polarisation
open Complex
open AmpGen.Transform (V4 M4)

/-- The values of `Particle::SpinBasis`, AmpGen/Particle.h:100. -/
inductive SpinBasis | dirac | weyl
  deriving DecidableEq

/-- The properties of a particle that are used here. -/
structure Properties where
  twoSpin : Nat
  pdgID : ℤ
  mass : ℝ

/-- A four-momentum: three components and the energy. -/
abbrev Mom := Fin 4 → ℝ

/-- The tensor of a spin state: a number for a scalar, a vector or a bispinor, or the tensor without elements of other spins. -/
inductive SpinTensor
  | one
  | four (v : V4)
  | nothing

/-- `pP`, src/Particle.cpp:545. -/
noncomputable def absP (p : Mom) : ℝ := √(p 0 * p 0 + p 1 * p 1 + p 2 * p 2)

/-- `z` and `zb`, src/Particle.cpp:547-548. -/
noncomputable def zed (p : Mom) : ℂ := p 0 + I * p 1
noncomputable def zedb (p : Mom) : ℂ := p 0 - I * p 1

/-- The vectors in the basis of Weyl, src/Particle.cpp:554-561. -/
noncomputable def weylVector (m : ℝ) (p : Mom) (polState : ℤ) : Option V4 :=
  let pP := absP p
  let N : ℂ := ((1 / √2 : ℝ) : ℂ)
  let invPT2 : ℂ := ((if p 0 * p 0 + p 1 * p 1 > 1e-6 then 1 / (p 0 * p 0 + p 1 * p 1) else 0 : ℝ) : ℂ)
  let invP : ℂ := ((if pP > 1e-6 then 1 / pP else 0 : ℝ) : ℂ)
  let pZoverP : ℂ := ((if pP > 1e-6 then p 2 / pP else 1 : ℝ) : ℂ)
  let f : ℂ := (pP - p 2) * invPT2
  if polState = 1 then
    some (N • ![-pZoverP + I * zed p * p 1 * f * invP, -I * pZoverP - I * zed p * p 0 * f * invP, zed p * invP, 0])
  else if polState = -1 then
    some (N • ![pZoverP + I * zedb p * p 1 * f * invP, -I * pZoverP - I * zedb p * p 0 * f * invP, -zedb p * invP, 0])
  else if polState = 0 then
    if m = 0 then none else some ![p 0 * p 3 * invP / m, p 1 * p 3 * invP / m, pZoverP * p 3 / m, pP / m]
  else none

/-- The vectors in the basis of Dirac, src/Particle.cpp:564-567. -/
noncomputable def diracVector (m : ℝ) (p : Mom) (polState : ℤ) : Option V4 :=
  if m * (p 3 + m) = 0 then none
  else
    let N : ℂ := ((1 / (m * (p 3 + m)) : ℝ) : ℂ)
    if polState = 1 then
      some (((1 / √2 : ℝ) : ℂ) • -![1 + zed p * p 0 * N, I + zed p * p 1 * N, zed p * p 2 * N, zed p / m])
    else if polState = -1 then
      some (((1 / √2 : ℝ) : ℂ) • ![1 + zedb p * p 0 * N, -I + zedb p * p 1 * N, zedb p * p 2 * N, zedb p / m])
    else if polState = 0 then
      some ![p 0 * p 2 * N, p 1 * p 2 * N, 1 + p 2 * p 2 * N, p 2 / m]
    else none

/-- The two-component spinors of the basis of Weyl, src/Particle.cpp:574-578. -/
noncomputable def xi (p : Mom) (ind : Fin 2) : Fin 2 → ℂ :=
  let pP := absP p
  let n : ℂ := ((1 / √(2 * pP * (pP + p 2)) : ℝ) : ℂ)
  if |pP + p 2| < 1e-6 then (if ind = 0 then ![1, 0] else ![0, 1])
  else if ind = 0 then ![n * (pP + p 2), n * (p 0 + I * p 1)]
  else ![n * (-p 0 + I * p 1), n * (pP + p 2)]

/-- The normalisation of spinors, src/Particle.cpp:579 and 587. -/
noncomputable def spinorNorm (m : ℝ) (p : Mom) : ℂ := ((√((p 3 + m) / (2 * m)) : ℝ) : ℂ)

/-- The spinors in the basis of Weyl, src/Particle.cpp:574-583. -/
noncomputable def weylSpinor (id : ℤ) (m : ℝ) (p : Mom) (polState : ℤ) : Option V4 :=
  if m = 0 ∨ p 3 + m = 0 then none
  else
    let N := spinorNorm m p
    let k : ℂ := absP p * polState / (p 3 + m)
    let x := xi p (if polState = 1 then 0 else 1)
    if 0 < id then some (N • ![x 0, x 1, k * x 0, k * x 1])
    else if id < 0 then some ((N * I) • ![k * x 0, k * x 1, x 0, x 1])
    else none

/-- The spinors in the basis of Dirac, src/Particle.cpp:587-591. -/
noncomputable def diracSpinor (id : ℤ) (m : ℝ) (p : Mom) (polState : ℤ) : Option V4 :=
  if m = 0 ∨ p 3 + m = 0 then none
  else
    let N := spinorNorm m p
    if 0 < id ∧ polState = 1 then some (N • ![1, 0, (p 2 : ℂ) / (p 3 + m), zed p / (p 3 + m)])
    else if 0 < id ∧ polState = -1 then some (N • ![0, 1, zedb p / (p 3 + m), -(p 2 : ℂ) / (p 3 + m)])
    else if id < 0 ∧ polState = 1 then some (N • ![(p 2 : ℂ) / (p 3 + m), zed p / (p 3 + m), 1, 0])
    else if id < 0 ∧ polState = -1 then some (N • ![zedb p / (p 3 + m), -(p 2 : ℂ) / (p 3 + m), 0, 1])
    else none

/-- `Particle::externalSpinTensor`, src/Particle.cpp:530-597.  A polarisation state that a particle does not have falls through to the end in the code; in the
model it gives `none`. -/
noncomputable def externalSpinTensor (basis : SpinBasis) (pr : Properties) (p : Mom) (polState : ℤ) : Option SpinTensor :=
  if pr.twoSpin = 0 then some .one
  else if pr.twoSpin = 2 then
    match basis with
    | .weyl => (weylVector pr.mass p polState).map .four
    | .dirac => (diracVector pr.mass p polState).map .four
  else if pr.twoSpin = 1 then
    match basis with
    | .weyl => (weylSpinor pr.pdgID pr.mass p polState).map .four
    | .dirac => (diracSpinor pr.pdgID pr.mass p polState).map .four
  else some .nothing

/-- `Bar`, src/Vertex.cpp:159-161. -/
noncomputable def Bar (P : V4) : V4 := ![(starRingEnd ℂ) (P 0), (starRingEnd ℂ) (P 1), -(starRingEnd ℂ) (P 2), -(starRingEnd ℂ) (P 3)]

end AmpGen.Polarisation
