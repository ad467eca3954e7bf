import Verif.KMatrix.LemmasInv
import Mathlib.Analysis.Complex.Basic
import Mathlib.LinearAlgebra.Matrix.Hermitian
import Mathlib.LinearAlgebra.Matrix.ToLinearEquiv
/-
Theorems about the inversion of tensors, K-matrices and production amplitudes.  The words are those of `Spec.lean`.
-/
namespace AmpGen.KMatrix
open Spec

/-! ### Inversion -/

/-- For every size and every matrix with leading minors other than zero, `Invert` gives the inverse. -/
theorem invert_partial {K : Type} [Field K] (quot : K → K → K) (hq : IsDivision quot) (n : Nat) (d : Data K)
    (hd : LeadingMinors n d) :
    matrix n d * matrix n (invert apart quot n d) = 1 ∧ matrix n (invert apart quot n d) * matrix n d = 1 := by
  have hp := pivots quot hq n d hd
  have hf := factors quot hq n n le_rfl d (fun a ha => hp a (by omega))
  unfold invert
  rw [factorise_run, invertL_run, invertU_run, multiply_run, product_matrix]
  generalize run (stepLU quot) (posLU n) d = D at *
  have hL := inverse_lower quot hq n D hp
  have hE : ∀ i j, i < j → run (stepIL quot) (posIL n) D (i, j) = D (i, j) := fun i j h => il_up quot n D i j h
  generalize run (stepIL quot) (posIL n) D = E at *
  have hU := inverse_upper n E
  have hF : ∀ i j, j ≤ i → run stepIU (posIU n) E (i, j) = E (i, j) := fun i j h => iu_low n E i j h
  generalize run stepIU (posIU n) E = F at *
  rw [upper_congr n E D hE] at hU
  rw [lower_congr n F E hF, hf]
  have hU' := mul_eq_one_comm.1 hU
  have key : lower n D * upper n D * (upper n F * lower n E) = 1 := by
    rw [Matrix.mul_assoc, ← Matrix.mul_assoc (upper n D), hU', Matrix.one_mul, hL]
  exact ⟨key, mul_eq_one_comm.1 key⟩

/-- Three rows and columns. -/
example : LeadingMinors 3 (fun p : Nat × Nat => if p.1 = p.2 then (2 : ℚ) else 1) := by
  intro m hm
  interval_cases m
  · simp [matrix]
  · simp [matrix]
  · simp [matrix, Matrix.det_fin_two]; norm_num
  · simp [matrix, Matrix.det_fin_three]; norm_num

/-- There is no search for a pivot: whatever the quotient by zero is, the matrix that exchanges two rows is not inverted. -/
theorem invert_counterexample (quot : ℚ → ℚ → ℚ) (hq : IsDivision quot) :
    ∃ d : Data ℚ, (matrix 2 d).det ≠ 0 ∧ matrix 2 d * matrix 2 (invert apart quot 2 d) ≠ 1 := by
  refine ⟨fun p => if p.1 = p.2 then 0 else 1, ?_, ?_⟩
  · simp [matrix, Matrix.det_fin_two]
  · intro h
    have h01 := congrFun (congrFun h 0) 0
    have h11 := congrFun (congrFun h 1) 1
    have h10 := congrFun (congrFun h 0) 1
    simp only [Matrix.mul_apply, Fin.sum_univ_two, matrix, Matrix.of_apply] at h01 h11 h10
    simp [invert, multiply, invertU, invertL, factorise, rowZero, columnL, rowU, sumBelow, loop, put, apart, List.range'] at h01 h11 h10
    by_cases hw : quot 1 0 = 0
    · simp [hw] at h11
    · have e := hq 1 (-quot 1 0) (neg_ne_zero.2 hw)
      rw [e] at h10
      have : (1 : ℚ) / -quot 1 0 ≠ 0 := div_ne_zero one_ne_zero (neg_ne_zero.2 hw)
      exact this h10

/-- On a tensor on which a symmetry has been imposed, where the elements above the diagonal are kept below it, the result is not the
inverse either. -/
theorem invert_symmetric_counterexample :
    ∃ d : Data ℚ, LeadingMinors 2 (fun p => d (symmetric p)) ∧
      matrix 2 (fun p => d (symmetric p)) * matrix 2 (fun p => invert symmetric (· / ·) 2 d (symmetric p)) ≠ 1 := by
  refine ⟨fun p => if p = (1, 1) then 2 else 1, ?_, ?_⟩
  · intro m hm
    interval_cases m
    · simp [matrix]
    · simp [matrix, symmetric]
    · simp [matrix, symmetric, Matrix.det_fin_two]; norm_num
  · intro h
    have h01 := congrFun (congrFun h 0) 0
    simp only [Matrix.mul_apply, Fin.sum_univ_two, matrix, Matrix.of_apply] at h01
    simp [invert, multiply, invertU, invertL, factorise, rowZero, columnL, rowU, sumBelow, loop, put, symmetric, List.range'] at h01
    norm_num at h01

end AmpGen.KMatrix
