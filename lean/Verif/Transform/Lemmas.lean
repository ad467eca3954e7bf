import Verif.Transform.Spec
import Mathlib.Analysis.Complex.Basic
import Mathlib.Algebra.BigOperators.Fin
import Mathlib.Tactic.LinearCombination
import Mathlib.Tactic.FinCases
/-
Pauli matrices and blocks.
-/
namespace AmpGen.Transform
open Complex Matrix

/-- The matrix with components `x, y, z` along the Pauli matrices and `a` along the identity. -/
noncomputable def Q (a x y z : ℂ) : M2 := !![a + z, x - I * y; x + I * y, a - z]

theorem Q_mul (a x y z a' x' y' z' : ℂ) : Q a x y z * Q a' x' y' z' =
    Q (a * a' + x * x' + y * y' + z * z') (a * x' + x * a' + I * (y * z' - z * y')) (a * y' + y * a' + I * (z * x' - x * z')) (a * z' + z * a' + I * (x * y' - y * x')) := by
  have hI : I * I = -1 := I_mul_I
  ext i j
  fin_cases i <;> fin_cases j <;> simp [Q, Matrix.mul_apply, Fin.sum_univ_two]
  · linear_combination (-(y * y')) * hI
  · linear_combination (z * x' - x * z') * hI
  · linear_combination (-(z * x') + x * z') * hI
  · linear_combination (-(y * y')) * hI

theorem Q_add (a x y z a' x' y' z' : ℂ) : Q a x y z + Q a' x' y' z' = Q (a + a') (x + x') (y + y') (z + z') := by
  ext i j
  fin_cases i <;> fin_cases j <;> simp [Q] <;> ring

theorem Q_neg (a x y z : ℂ) : -Q a x y z = Q (-a) (-x) (-y) (-z) := by
  ext i j
  fin_cases i <;> fin_cases j <;> simp [Q] <;> ring

theorem Q_one : (1 : M2) = Q 1 0 0 0 := by
  ext i j
  fin_cases i <;> fin_cases j <;> simp [Q]

theorem Q_zero : (0 : M2) = Q 0 0 0 0 := by
  ext i j
  fin_cases i <;> fin_cases j <;> simp [Q]

theorem rotate_spinor_eq (t : Transform) : rotate_spinor t = Q (√(0.5 * (1 + t.arg)) : ℝ) (-(I * (√(0.5 * (1 - t.arg)) : ℝ) * t.kx))
    (-(I * (√(0.5 * (1 - t.arg)) : ℝ) * t.ky)) (-(I * (√(0.5 * (1 - t.arg)) : ℝ) * t.kz)) := by
  unfold rotate_spinor sigma_dot_p
  ext i j
  fin_cases i <;> fin_cases j <;> simp [Q, Sigma0, Sigma1, Sigma2] <;> ring

theorem boost_spinor_eq (t : Transform) : boost_spinor t = Q (√(0.5 * (t.arg + 1)) : ℝ) ((√(0.5 * (t.arg - 1)) : ℝ) * t.kx)
    ((√(0.5 * (t.arg - 1)) : ℝ) * t.ky) ((√(0.5 * (t.arg - 1)) : ℝ) * t.kz) := by
  unfold boost_spinor sigma_dot_p
  ext i j
  fin_cases i <;> fin_cases j <;> simp [Q, Sigma0, Sigma1, Sigma2] <;> ring

theorem weyl_eq (p : V4) : weyl p = Q (p 3) (-(p 0)) (-(p 1)) (-(p 2)) := by
  unfold weyl
  ext i j
  fin_cases i <;> fin_cases j <;> simp [Q, Sigma0, Sigma1, Sigma2] <;> ring

theorem bis_mul (A B C D A' B' C' D' : M2) : make_bispinor_operator A B C D * make_bispinor_operator A' B' C' D' =
    make_bispinor_operator (A * A' + B * C') (A * B' + B * D') (C * A' + D * C') (C * B' + D * D') := by
  ext i j
  fin_cases i <;> fin_cases j <;> simp [make_bispinor_operator, Matrix.mul_apply, Fin.sum_univ_four, Fin.sum_univ_two] <;> ring

theorem bis_one : (1 : M4) = make_bispinor_operator 1 0 0 1 := by
  ext i j
  fin_cases i <;> fin_cases j <;> simp [make_bispinor_operator]

theorem slash_eq (p : V4) : slash p = make_bispinor_operator (Q (p 3) 0 0 0) (Q 0 (-(p 0)) (-(p 1)) (-(p 2))) (Q 0 (p 0) (p 1) (p 2)) (Q (-(p 3)) 0 0 0) := by
  unfold slash
  ext i j
  fin_cases i <;> fin_cases j <;> simp [make_bispinor_operator, Q, gamma] <;> ring

/-- The half angle of a rotation. -/
theorem rotate_half {a : ℝ} (h1 : -1 ≤ a) (h2 : a ≤ 1) : ∃ c s : ℝ, √(0.5 * (1 + a)) = c ∧ √(0.5 * (1 - a)) = s ∧ a = c ^ 2 - s ^ 2 ∧ √(1 - a * a) = 2 * c * s ∧ c ^ 2 + s ^ 2 = 1 := by
  have e1 := Real.sq_sqrt (show (0 : ℝ) ≤ 0.5 * (1 + a) by linarith)
  have e2 := Real.sq_sqrt (show (0 : ℝ) ≤ 0.5 * (1 - a) by linarith)
  refine ⟨_, _, rfl, rfl, ?_, ?_, ?_⟩
  · rw [e1, e2]; ring
  · have h3 : 0 ≤ 2 * √(0.5 * (1 + a)) * √(0.5 * (1 - a)) := by positivity
    rw [← Real.sqrt_sq h3]
    congr 1
    rw [mul_pow, mul_pow, e1, e2]; ring
  · rw [e1, e2]; ring

/-- The half rapidity of a boost. -/
theorem boost_half {a : ℝ} (h1 : 1 ≤ a) : ∃ c s : ℝ, √(0.5 * (a + 1)) = c ∧ √(0.5 * (a - 1)) = s ∧ a = c ^ 2 + s ^ 2 ∧ √(a * a - 1) = 2 * c * s ∧ c ^ 2 - s ^ 2 = 1 := by
  have e1 := Real.sq_sqrt (show (0 : ℝ) ≤ 0.5 * (a + 1) by linarith)
  have e2 := Real.sq_sqrt (show (0 : ℝ) ≤ 0.5 * (a - 1) by linarith)
  refine ⟨_, _, rfl, rfl, ?_, ?_, ?_⟩
  · rw [e1, e2]; ring
  · have h3 : 0 ≤ 2 * √(0.5 * (a + 1)) * √(0.5 * (a - 1)) := by positivity
    rw [← Real.sqrt_sq h3]
    congr 1
    rw [mul_pow, mul_pow, e1, e2]; ring
  · rw [e1, e2]; ring

/-! ### The matrices of one transformation -/

/-- The three matrices of a transformation. -/
noncomputable def spin (t : Transform) : M2 := match t.type with
  | .rotate => rotate_spinor t
  | .boost => boost_spinor t

noncomputable def bisp (t : Transform) : M4 := match t.matrix .bispinor with
  | .four m => m
  | .two _ => 0

noncomputable def vect (t : Transform) : M4 := match t.matrix .vector with
  | .four m => m
  | .two _ => 0

theorem matrix_spinor (t : Transform) : t.matrix .spinor = .two (spin t) := by
  unfold Transform.matrix spin
  cases t.type <;> rfl

theorem matrix_bispinor (t : Transform) : t.matrix .bispinor = .four (bisp t) := by
  unfold bisp Transform.matrix
  cases t.type <;> rfl

theorem matrix_vector (t : Transform) : t.matrix .vector = .four (vect t) := by
  unfold vect Transform.matrix
  cases t.type <;> rfl

theorem vect_rotate (t : Transform) (h : t.type = .rotate) (p : V4) {sq : ℂ} (hs : ((√(1 - t.arg * t.arg) : ℝ) : ℂ) = sq) :
    (vect t).mulVec p = fun i => match i with
      | 0 => p 0 + sq * (t.ky * p 2 - t.kz * p 1) + (1 - t.arg) * (t.kx * (t.kx * p 0 + t.ky * p 1 + t.kz * p 2) - (t.kx ^ 2 + t.ky ^ 2 + t.kz ^ 2) * p 0)
      | 1 => p 1 + sq * (t.kz * p 0 - t.kx * p 2) + (1 - t.arg) * (t.ky * (t.kx * p 0 + t.ky * p 1 + t.kz * p 2) - (t.kx ^ 2 + t.ky ^ 2 + t.kz ^ 2) * p 1)
      | 2 => p 2 + sq * (t.kx * p 1 - t.ky * p 0) + (1 - t.arg) * (t.kz * (t.kx * p 0 + t.ky * p 1 + t.kz * p 2) - (t.kx ^ 2 + t.ky ^ 2 + t.kz ^ 2) * p 2)
      | 3 => p 3 := by
  have hv : vect t = 1 + sq • J_dot_p t + ((1 - t.arg : ℝ) : ℂ) • (J_dot_p t * J_dot_p t) := by
    unfold vect Transform.matrix; rw [h]; simp only []; rw [hs]
  rw [hv]
  funext i
  fin_cases i <;> simp [Matrix.mulVec, dotProduct, Fin.sum_univ_four, J_dot_p, Matrix.mul_apply, Matrix.one_apply] <;> ring

theorem vect_boost (t : Transform) (h : t.type = .boost) (p : V4) {sq : ℂ} (hs : ((√(t.arg * t.arg - 1) : ℝ) : ℂ) = sq) :
    (vect t).mulVec p = fun i => match i with
      | 0 => p 0 - sq * t.kx * p 3 + (t.arg - 1) * t.kx * (t.kx * p 0 + t.ky * p 1 + t.kz * p 2)
      | 1 => p 1 - sq * t.ky * p 3 + (t.arg - 1) * t.ky * (t.kx * p 0 + t.ky * p 1 + t.kz * p 2)
      | 2 => p 2 - sq * t.kz * p 3 + (t.arg - 1) * t.kz * (t.kx * p 0 + t.ky * p 1 + t.kz * p 2)
      | 3 => p 3 - sq * (t.kx * p 0 + t.ky * p 1 + t.kz * p 2) + (t.arg - 1) * (t.kx ^ 2 + t.ky ^ 2 + t.kz ^ 2) * p 3 := by
  have hv : vect t = 1 - sq • K_dot_p t + ((t.arg - 1 : ℝ) : ℂ) • (K_dot_p t * K_dot_p t) := by
    unfold vect Transform.matrix; rw [h]; simp only []; rw [hs]
  rw [hv]
  funext i
  fin_cases i <;> simp [Matrix.mulVec, dotProduct, Fin.sum_univ_four, K_dot_p, Matrix.mul_apply, Matrix.one_apply] <;> ring

end AmpGen.Transform
