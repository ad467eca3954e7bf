import Verif.Lineshapes.Model
import Verif.Lineshapes.Spec
import Mathlib.Tactic.Ring
import Mathlib.Tactic.FieldSimp
import Mathlib.Tactic.Positivity
import Mathlib.Tactic.Linarith
import Mathlib.Tactic.LinearCombination
import Mathlib.Tactic.NormNum.NatFactorial
import Mathlib.Tactic.IntervalCases
import Mathlib.Algebra.BigOperators.Intervals
namespace AmpGen.Lineshapes
open Spec

theorem hankel0 (z : ℝ) : hankel 0 z = 1 := by simp [hankel]
theorem hankel1 (z : ℝ) : hankel 1 z = 1 + z := by
  simp [hankel, Finset.sum_range_succ, Nat.factorial]; norm_num
theorem hankel2 (z : ℝ) : hankel 2 z = 9 + 3 * z + z ^ 2 := by
  simp [hankel, Finset.sum_range_succ, Nat.factorial]; norm_num
theorem hankel3 (z : ℝ) : hankel 3 z = 225 + 45 * z + 6 * z ^ 2 + z ^ 3 := by
  simp [hankel, Finset.sum_range_succ, Nat.factorial]; norm_num
theorem hankel4 (z : ℝ) : hankel 4 z = 11025 + 1575 * z + 135 * z ^ 2 + 10 * z ^ 3 + z ^ 4 := by
  simp [hankel, Finset.sum_range_succ, Nat.factorial]; norm_num

end AmpGen.Lineshapes
