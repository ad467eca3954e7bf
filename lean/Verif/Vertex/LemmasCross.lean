import Verif.Vertex.Lemmas
import Mathlib.LinearAlgebra.Matrix.Determinant.Basic
import Mathlib.LinearAlgebra.Matrix.Notation
/-
The vector formed with the totally antisymmetric tensor.
-/
namespace AmpGen.Vertex
open Spec

section
variable {K : Type} [Field K]

theorem cross_0 (x y z : V4 K) : cross x y z 0 =
    x 1 * y 2 * z 3 - x 1 * y 3 * z 2 - x 2 * y 1 * z 3 + x 2 * y 3 * z 1 + x 3 * y 1 * z 2 - x 3 * y 2 * z 1 := by
  simp [cross, leviCivita, Fin.sum_univ_four, g]
  ring

theorem cross_1 (x y z : V4 K) : cross x y z 1 =
    -(x 0 * y 2 * z 3 - x 0 * y 3 * z 2 - x 2 * y 0 * z 3 + x 2 * y 3 * z 0 + x 3 * y 0 * z 2 - x 3 * y 2 * z 0) := by
  simp [cross, leviCivita, Fin.sum_univ_four, g]
  ring

theorem cross_2 (x y z : V4 K) : cross x y z 2 =
    x 0 * y 1 * z 3 - x 0 * y 3 * z 1 - x 1 * y 0 * z 3 + x 1 * y 3 * z 0 + x 3 * y 0 * z 1 - x 3 * y 1 * z 0 := by
  simp [cross, leviCivita, Fin.sum_univ_four, g]
  ring

theorem cross_3 (x y z : V4 K) : cross x y z 3 =
    (x 0 * y 1 * z 2 - x 0 * y 2 * z 1 - x 1 * y 0 * z 2 + x 1 * y 2 * z 0 + x 2 * y 0 * z 1 - x 2 * y 1 * z 0) := by
  simp [cross, leviCivita, Fin.sum_univ_four, g]
  ring

theorem dot_cross (a x y z : V4 K) : dot a (cross x y z) = -Matrix.det (Matrix.of ![a, x, y, z]) := by
  rw [dot_eq]
  unfold minkowski
  rw [cross_0, cross_1, cross_2, cross_3]
  simp [Matrix.det_succ_row_zero, Fin.sum_univ_succ, Fin.succAbove]
  ring

end
end AmpGen.Vertex
