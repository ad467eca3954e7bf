import Verif.Pade.Lemmas
import Mathlib.Algebra.BigOperators.Group.Finset.Sigma
import Mathlib.Tactic.NormNum
/-
C50: Pade approximants interpolate.
-/
namespace AmpGen.Pade
open Finset

/-- C50.  For every function, order, interval and strategy: if the linear system is regular, the approximant takes the value of the function at each of the
`2 N + 1` sampling points at which its denominator is not zero. -/
theorem pade_interpolates (fcn : ℝ → ℝ) (min max : ℝ) (hmm : min ≠ max) (N strat : Nat) (hN : 0 < N) (inverse : Nat → Nat → ℝ)
    (hi : Inverse fcn min max N strat inverse) (eq : Nat) (heq : eq ≤ 2 * N) :
    let p := Pade.make N (solve fcn min max N strat inverse) min max
    let x := ((eq : ℝ) / ((2 * N : Nat) : ℝ)) ^ (strat + 1)
    let s := min + x * (max - min)
    1 + ∑ i ∈ range N, p.co_g i * x ^ (i + 1) ≠ 0 → p.eval N s = fcn s := by
  intro p x s hg
  have hs : s = sample N strat eq * (max - min) + min := by
    show min + x * (max - min) = _
    rw [add_comm]
    rfl
  have hx : (s - p.min) * p.range = x := by
    show (min + x * (max - min) - min) * (1 / (max - min)) = x
    have : max - min ≠ 0 := sub_ne_zero.2 (Ne.symm hmm)
    field_simp
    ring
  have hsys : ∑ i ∈ range (2 * N + 1), solver fcn min max N strat eq i * solve fcn min max N strat inverse i = rest fcn min max N strat eq := by
    simp only [solve_eq, Finset.mul_sum]
    rw [Finset.sum_comm]
    have : ∀ k ∈ range (2 * N + 1), ∑ i ∈ range (2 * N + 1), solver fcn min max N strat eq i * (inverse i k * rest fcn min max N strat k) =
        (if eq = k then 1 else 0) * rest fcn min max N strat k := by
      intro k hk
      rw [← hi eq k (by omega) (Finset.mem_range.1 hk), Finset.sum_mul]
      apply Finset.sum_congr rfl
      intro i _
      ring
    rw [Finset.sum_congr rfl this]
    simp only [ite_mul, one_mul, zero_mul]
    rw [Finset.sum_ite_eq, if_pos (Finset.mem_range.2 (by omega))]
  rw [solver_sum, Finset.sum_range_succ] at hsys
  unfold Pade.eval
  simp only
  rw [hx, loop_eq]
  simp only
  rw [div_eq_iff hg]
  have hr : rest fcn min max N strat eq = fcn s := by unfold rest; rw [hs]
  rw [hr] at hsys
  have hxs : sample N strat eq = x := rfl
  rw [hxs] at hsys
  show ∑ i ∈ range N, solve fcn min max N strat inverse i * x ^ i + solve fcn min max N strat inverse N * x ^ N =
    fcn s * (1 + ∑ i ∈ range N, solve fcn min max N strat inverse (i + (N + 1)) * x ^ (i + 1))
  generalize x = y at hsys ⊢
  linear_combination hsys

/-- The system for the function `1 / (1 + x)` on the interval from 0 to 1 is regular, and the approximant of order 1 has the right value at 1. -/
example : ∃ inverse, Inverse (fun x => 1 / (1 + x)) 0 1 1 0 inverse ∧
    (Pade.make 1 (solve (fun x => 1 / (1 + x)) 0 1 1 0 inverse) 0 1).eval 1 1 = 1 / 2 := by
  let inv : Nat → Nat → ℝ := fun i j => if i = 0 then (if j = 0 then 1 else 0)
    else if i = 1 then (if j = 0 then 2 else if j = 1 then -6 else 4) else (if j = 0 then 6 else if j = 1 then -12 else 6)
  have hinv : Inverse (fun x => 1 / (1 + x)) 0 1 1 0 inv := by
    intro i k hi hk
    have hi' : i = 0 ∨ i = 1 ∨ i = 2 := by omega
    have hk' : k = 0 ∨ k = 1 ∨ k = 2 := by omega
    rcases hi' with rfl | rfl | rfl <;> rcases hk' with rfl | rfl | rfl <;>
      norm_num [Finset.sum_range_succ, solver, rest, sample, inv]
  refine ⟨inv, hinv, ?_⟩
  have h := pade_interpolates (fun x => 1 / (1 + x)) 0 1 (by norm_num) 1 0 (by norm_num) inv hinv 2 (by norm_num)
  have hs : (0 : ℝ) + (((2 : Nat) : ℝ) / ((2 * 1 : Nat) : ℝ)) ^ (0 + 1) * (1 - 0) = 1 := by norm_num
  simp only [hs] at h
  refine (h ?_).trans (by norm_num)
  norm_num [Finset.sum_range_succ, solve_eq, rest, sample, inv, Pade.make]

end AmpGen.Pade
