import Verif.Pade.Spec
import Mathlib.Algebra.BigOperators.Ring.Finset
import Mathlib.Tactic.Ring
import Mathlib.Tactic.FieldSimp
import Mathlib.Tactic.LinearCombination
/-
Lemmas about Pade approximants.
-/
namespace AmpGen.Pade
open Finset

theorem loop_eq (p : Pade) (x : ℝ) (N : Nat) :
    p.loop x N = (∑ i ∈ range N, p.co_f i * x ^ i, 1 + ∑ i ∈ range N, p.co_g i * x ^ (i + 1), x ^ N) := by
  unfold Pade.loop
  induction N with
  | zero => simp
  | succ N ih =>
    rw [List.range_succ, List.foldl_append, ih]
    simp only [List.foldl_cons, List.foldl_nil]
    rw [Finset.sum_range_succ, Finset.sum_range_succ, pow_succ]
    simp only [Prod.mk.injEq, true_and, and_true]
    ring

theorem solve_eq (fcn : ℝ → ℝ) (min max : ℝ) (N strat : Nat) (inverse : Nat → Nat → ℝ) (i : Nat) :
    solve fcn min max N strat inverse i = ∑ j ∈ range (2 * N + 1), inverse i j * rest fcn min max N strat j := by
  unfold solve
  generalize 2 * N + 1 = n
  induction n with
  | zero => simp
  | succ n ih => rw [List.range_succ, List.foldl_append, ih, Finset.sum_range_succ]; rfl

theorem solver_sum (fcn : ℝ → ℝ) (min max : ℝ) (N strat eq : Nat) (r : Nat → ℝ) :
    ∑ i ∈ range (2 * N + 1), solver fcn min max N strat eq i * r i =
      ∑ i ∈ range (N + 1), r i * sample N strat eq ^ i - rest fcn min max N strat eq * ∑ i ∈ range N, r (i + (N + 1)) * sample N strat eq ^ (i + 1) := by
  have e : 2 * N + 1 = (N + 1) + N := by omega
  rw [e, Finset.sum_range_add]
  have h1 : ∑ i ∈ range (N + 1), solver fcn min max N strat eq i * r i = ∑ i ∈ range (N + 1), r i * sample N strat eq ^ i := by
    apply Finset.sum_congr rfl
    intro i hi
    unfold solver
    rw [if_pos (by have := Finset.mem_range.1 hi; omega)]
    ring
  have h2 : ∑ i ∈ range N, solver fcn min max N strat eq (N + 1 + i) * r (N + 1 + i) =
      -(rest fcn min max N strat eq * ∑ i ∈ range N, r (i + (N + 1)) * sample N strat eq ^ (i + 1)) := by
    rw [Finset.mul_sum, ← Finset.sum_neg_distrib]
    apply Finset.sum_congr rfl
    intro i hi
    unfold solver
    have := Finset.mem_range.1 hi
    rw [if_neg (by omega), if_pos (by omega), show N + 1 + i - N = i + 1 by omega, show N + 1 + i = i + (N + 1) by omega]
    ring
  rw [h1, h2]
  ring

end AmpGen.Pade
