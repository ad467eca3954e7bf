import Mathlib.LinearAlgebra.Matrix.Determinant.Basic
import Mathlib.Data.Complex.Basic
/-
What the words in the properties of the matrices mean, independent of the code.
-/
namespace AmpGen.KMatrix.Spec

/-- The first `n` rows and columns of an array of elements, as a matrix. -/
def matrix {K : Type} (n : Nat) (d : Nat × Nat → K) : Matrix (Fin n) (Fin n) K := Matrix.of fun i j => d (i, j)

/-- All leading minors, that is the determinants of the blocks in the upper left corner, are other than zero. -/
def LeadingMinors {K : Type} [Field K] (n : Nat) (d : Nat × Nat → K) : Prop := ∀ m, m ≤ n → (matrix m d).det ≠ 0

/-- A division which is right for every divisor other than zero; nothing is known about the quotient by zero. -/
def IsDivision {K : Type} [Field K] (quot : K → K → K) : Prop := ∀ x y, y ≠ 0 → quot x y = x / y

/-- A real symmetric array. -/
def RealSymmetric (d : Nat × Nat → ℂ) : Prop := (∀ i j, (d (i, j)).im = 0) ∧ ∀ i j, d (i, j) = d (j, i)

/-- Unitarity of a scattering matrix in `n` channels with phase space `ρ`: its discontinuity is the product of the matrix, the open part of
the phase space and the adjoint matrix.  The matrix is symmetric as well. -/
def Unitary (n : Nat) (ρ : Nat → ℂ) (T : Nat → Nat → ℂ) : Prop :=
  (∀ i j, i < n → j < n → T i j = T j i) ∧
  ∀ i j, i < n → j < n →
    T i j - (starRingEnd ℂ) (T j i) = 2 * Complex.I * ∑ k ∈ Finset.range n, ((ρ k).re : ℂ) * (T i k * (starRingEnd ℂ) (T j k))

/-- The element of the K-matrix of the lineshape `kMatrix` as in the literature: a sum over poles, with masses `m` and couplings `g`, and a
slowly varying term in the first row and the first column, times an Adler term. -/
noncomputable def kElement (s : ℂ) (poles : List (ℂ × (Nat → ℂ))) (f : Nat → ℂ) (s0 adler : ℂ) (i j : Nat) : ℂ :=
  ((poles.map fun p => p.2 i * p.2 j / (p.1 ^ 2 - s)).sum + (if i = 0 then f j else if j = 0 then f i else 0) * ((1 - s0) / (s - s0))) * adler

/-- The element of the P-vector: a sum over poles, with squared masses and couplings, of the production couplings `a` and the couplings of the
pole, and a background term. -/
noncomputable def pElement (n : Nat) (s s0 : ℂ) (poles : List (ℂ × (Nat → ℂ))) (a : Nat → ℂ) (background : Nat × Nat → ℂ) (k : Nat) : ℂ :=
  (poles.map fun p => (∑ q ∈ Finset.range n, a q * p.2 q) * p.2 k / (p.1 - s)).sum +
    (∑ q ∈ Finset.range n, a q * background (k, q)) * ((1 + s0) / (s - s0))

end AmpGen.KMatrix.Spec
