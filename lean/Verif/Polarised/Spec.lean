import Verif.Polarised.Model
import Verif.Coherent.Spec
import Mathlib.LinearAlgebra.Matrix.Trace
import Mathlib.Data.Matrix.Basic
import Mathlib.LinearAlgebra.Matrix.ConjTranspose
import Mathlib.Data.Matrix.Diagonal
import Mathlib.LinearAlgebra.Matrix.Notation
/-
What the polarised probability should be.
-/
namespace AmpGen.Polarised
open AmpGen.Coherent (SimEvent)

variable {P X : Type} {W : Nat}

/-- The amplitude tensor of one event: initial polarisation by final polarisation. -/
noncomputable def PAmps.T (A : PAmps P X) (p : P) (x : X) : Matrix (Fin A.s1) (Fin A.s2) ℂ :=
  fun m f => ∑ i ∈ Finset.range A.n, A.coup i p * A.amp i (A.ext i p) x (m * A.s2 + f)

/-- Density matrix of the initial state. For spin one half it is `1 + P·σ`. -/
noncomputable def PAmps.rho (A : PAmps P X) (p : P) : Matrix (Fin A.s1) (Fin A.s1) ℂ :=
  fun a b => rhoExpr A.s1 (A.pol p) a b

/-- Acceptance of the two final-state polarisations. -/
noncomputable def PAmps.rhof (A : PAmps P X) (p : P) : Matrix (Fin A.s2) (Fin A.s2) ℂ :=
  match A.frac with
  | none => 1
  | some fr => Matrix.diagonal fun f => if f.val = 0 then (fr p : ℂ) else if f.val = 1 then 1 - (fr p : ℂ) else 0

/-- The unnormalised polarised probability `Re tr(ρ T ρ_f T†)`. -/
noncomputable def PAmps.density (A : PAmps P X) (p : P) (x : X) : ℝ :=
  (A.rho p * (A.T p x * A.rhof p * (A.T p x).conjTranspose)).trace.re

def lastPar (p : P) : List (Op P X W) → P
  | [] => p
  | .setPar q :: ops => lastPar q ops
  | _ :: ops => lastPar p ops

def lastData (d : Option (List (Fin W → X))) : List (Op P X W) → Option (List (Fin W → X))
  | [] => d
  | .setEvents evs _ :: ops => lastData (some evs) ops
  | _ :: ops => lastData d ops

def lastSim (d : Option (List (Fin W → SimEvent X))) : List (Op P X W) → Option (List (Fin W → SimEvent X))
  | [] => d
  | .setMC evs _ :: ops => lastSim (some evs) ops
  | _ :: ops => lastSim d ops

/-- Distinct names, and a fixed number of external slots for every element. -/
structure PAmps.WF (A : PAmps P X) : Prop where
  names : ((List.range A.n).map A.name).Nodup
  slots : ∀ i p q, (A.ext i p).length = (A.ext i q).length

/-! ### Spin density matrices from the spin operators -/

/-- Pauli matrices. -/
def pauliX : Matrix (Fin 2) (Fin 2) ℂ := !![0, 1; 1, 0]
def pauliY : Matrix (Fin 2) (Fin 2) ℂ := !![0, -Complex.I; Complex.I, 0]
def pauliZ : Matrix (Fin 2) (Fin 2) ℂ := !![1, 0; 0, -1]

/-- Spin operators of a spin one particle in the basis of decreasing projection. -/
noncomputable def spinX : Matrix (Fin 3) (Fin 3) ℂ := ((√2 : ℝ) : ℂ)⁻¹ • !![0, 1, 0; 1, 0, 1; 0, 1, 0]
noncomputable def spinY : Matrix (Fin 3) (Fin 3) ℂ :=
  ((√2 : ℝ) : ℂ)⁻¹ • !![0, -Complex.I, 0; Complex.I, 0, -Complex.I; 0, Complex.I, 0]
def spinZ : Matrix (Fin 3) (Fin 3) ℂ := !![1, 0, 0; 0, 0, 0; 0, 0, -1]

/-- Three times the density matrix of a spin one particle with polarisation vector `P` and
alignment tensor `T`, symmetric and traceless:
`1 + 3/2 P·S + √(3/2) Σ T_ij (S_i S_j + S_j S_i)`. -/
noncomputable def spin1Density (px py pz Tyy Tzz Txy Txz Tyz : ℝ) : Matrix (Fin 3) (Fin 3) ℂ :=
  let anti := fun A B : Matrix (Fin 3) (Fin 3) ℂ => A * B + B * A
  1 + (3 / 2 : ℂ) • ((px : ℂ) • spinX + (py : ℂ) • spinY + (pz : ℂ) • spinZ) +
    ((√(3 / 2) : ℝ) : ℂ) • ((-Tyy - Tzz : ℂ) • anti spinX spinX + (Tyy : ℂ) • anti spinY spinY +
      (Tzz : ℂ) • anti spinZ spinZ + (2 * Txy : ℂ) • anti spinX spinY + (2 * Txz : ℂ) • anti spinX spinZ +
      (2 * Tyz : ℂ) • anti spinY spinZ)

end AmpGen.Polarised
