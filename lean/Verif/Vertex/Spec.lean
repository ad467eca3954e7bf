import Mathlib.LinearAlgebra.Matrix.Determinant.Basic
import Mathlib.Algebra.Field.Basic
import Mathlib.Data.Complex.Basic
/-
What the words in the properties of spin tensors mean, independent of the code.  The fourth component of a vector is the energy.
-/
namespace AmpGen.Vertex.Spec

/-- The product of two four-vectors in special relativity. -/
def minkowski {K : Type} [Field K] (u v : Fin 4 → K) : K := u 3 * v 3 - u 0 * v 0 - u 1 * v 1 - u 2 * v 2

/-- A spin state of spin one, of a particle with momentum `P`: it has no component along the momentum. -/
def SpinOne {K : Type} [Field K] (P v : Fin 4 → K) : Prop := minkowski P v = 0

/-- A spin state of spin two: a symmetric tensor with no component along the momentum and no trace. -/
def SpinTwo {K : Type} [Field K] (P : Fin 4 → K) (T : Fin 4 → Fin 4 → K) : Prop :=
  (∀ μ ν, T μ ν = T ν μ) ∧ (∀ ν, minkowski P (fun μ => T μ ν) = 0) ∧ T 3 3 - T 0 0 - T 1 1 - T 2 2 = 0

/-- A tensor of rank two applied to a vector, and one of rank four applied to a tensor of rank two. -/
def apply {K : Type} [Field K] (T : Fin 4 → Fin 4 → K) (v : Fin 4 → K) : Fin 4 → K := fun μ => minkowski (T μ) v

def apply2 {K : Type} [Field K] (W : Fin 4 → Fin 4 → Fin 4 → Fin 4 → K) (X : Fin 4 → Fin 4 → K) : Fin 4 → Fin 4 → K := fun μ ν =>
  minkowski (W μ ν 3) (X 3) - minkowski (W μ ν 0) (X 0) - minkowski (W μ ν 1) (X 1) - minkowski (W μ ν 2) (X 2)

/-- A change of the frame of reference: a linear map which keeps all products. -/
def Lorentz {K : Type} [Field K] (Λ : Matrix (Fin 4) (Fin 4) K) : Prop :=
  ∀ u v, minkowski (Λ.mulVec u) (Λ.mulVec v) = minkowski u v

/-- A tensor of rank two in the other frame: both indices change like those of vectors. -/
def move {K : Type} [Field K] (Λ : Matrix (Fin 4) (Fin 4) K) (T : Fin 4 → Fin 4 → K) : Fin 4 → Fin 4 → K :=
  fun μ ν => ∑ α, ∑ β, Λ μ α * Λ ν β * T α β

/-- The Dirac matrix of a vector, for any set of four matrices. -/
def dirac (γ : Fin 4 → Matrix (Fin 4) (Fin 4) ℂ) (P : Fin 4 → ℂ) : Matrix (Fin 4) (Fin 4) ℂ :=
  P 3 • γ 3 - P 0 • γ 0 - P 1 • γ 1 - P 2 • γ 2

/-- A spin state of spin one half: it obeys the Dirac equation, with the sign `-1` for an antifermion. -/
def SpinHalf (γ : Fin 4 → Matrix (Fin 4) (Fin 4) ℂ) (sign m : ℂ) (P ψ : Fin 4 → ℂ) : Prop := (dirac γ P).mulVec ψ = (sign * m) • ψ

/-- A spin state of spin three half: it obeys the Dirac equation in its spinor index, has no component along the momentum, and the sum with
the Dirac matrices is zero (the conditions of Rarita and Schwinger). -/
def SpinThreeHalf (γ : Fin 4 → Matrix (Fin 4) (Fin 4) ℂ) (sign m : ℂ) (P : Fin 4 → ℂ) (ψ : Fin 4 → Fin 4 → ℂ) : Prop :=
  (∀ μ, SpinHalf γ sign m P (ψ μ)) ∧ (∀ a, minkowski P (fun μ => ψ μ a) = 0) ∧
    (γ 3).mulVec (ψ 3) - (γ 0).mulVec (ψ 0) - (γ 1).mulVec (ψ 1) - (γ 2).mulVec (ψ 2) = 0

/-- The matrix that changes spinors along with a change `Λ` of the frame; `inv` is its inverse.  It carries the Dirac matrix of a vector to
that of the vector in the other frame, and keeps the matrix `γ5`. -/
def SpinorFrame (γ : Fin 4 → Matrix (Fin 4) (Fin 4) ℂ) (γ5 Λ S inv : Matrix (Fin 4) (Fin 4) ℂ) : Prop :=
  S * inv = 1 ∧ inv * S = 1 ∧ S * γ5 = γ5 * S ∧ ∀ v, dirac γ (Λ.mulVec v) = S * dirac γ v * inv

/-- A spinor with a vector index in the other frame. -/
def spinMove (Λ S : Matrix (Fin 4) (Fin 4) ℂ) (R : Fin 4 → Fin 4 → ℂ) : Fin 4 → Fin 4 → ℂ := fun μ => ∑ ν, Λ μ ν • S.mulVec (R ν)

end AmpGen.Vertex.Spec
