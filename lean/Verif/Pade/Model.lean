import Mathlib.Algebra.BigOperators.Group.Finset.Basic
import Mathlib.Algebra.Field.Basic
import Mathlib.Data.Real.Basic
/-
Model of src/Pade.cpp and AmpGen/Pade.h.

Simplifications: numbers are real; the inverse matrix found by the linear algebra library is an argument.
-/
namespace AmpGen.Pade
open Finset

/-- `samples`, src/Pade.cpp:20-21; `strat` is the number of the strategy. -/
noncomputable def sample (N strat eq : Nat) : ℝ := ((eq : ℝ) / ((2 * N : Nat) : ℝ)) ^ (strat + 1)

/-- `rest`, src/Pade.cpp:23. -/
noncomputable def rest (fcn : ℝ → ℝ) (min max : ℝ) (N strat eq : Nat) : ℝ := fcn (sample N strat eq * (max - min) + min)

/-- `solver`, src/Pade.cpp:16, 24-25. -/
noncomputable def solver (fcn : ℝ → ℝ) (min max : ℝ) (N strat eq i : Nat) : ℝ :=
  if i ≤ N then sample N strat eq ^ i
  else if i ≤ 2 * N then -rest fcn min max N strat eq * sample N strat eq ^ (i - N)
  else 0

/-- `rv`, src/Pade.cpp:32-35; `inverse` is the result of `gsl_linalg_LU_invert`. -/
noncomputable def solve (fcn : ℝ → ℝ) (min max : ℝ) (N strat : Nat) (inverse : Nat → Nat → ℝ) (i : Nat) : ℝ :=
  (List.range (2 * N + 1)).foldl (fun (r : ℝ) (j : Nat) => r + inverse i j * rest fcn min max N strat j) 0

/-- A `Pade` object, AmpGen/Pade.h:62-66. -/
structure Pade where
  co_f : Nat → ℝ
  co_g : Nat → ℝ
  min : ℝ
  max : ℝ
  range : ℝ

/-- The constructors, AmpGen/Pade.h:22-41. -/
noncomputable def Pade.make (N : Nat) (r : Nat → ℝ) (min max : ℝ) : Pade := ⟨fun i => r i, fun i => r (i + (N + 1)), min, max, 1 / (max - min)⟩

/-- The loop of `operator()`, AmpGen/Pade.h:46-54: numerator, denominator and power. -/
noncomputable def Pade.loop (p : Pade) (x : ℝ) (N : Nat) : ℝ × ℝ × ℝ :=
  (List.range N).foldl (fun (s : ℝ × ℝ × ℝ) (i : Nat) =>
    let f := s.1 + p.co_f i * s.2.2
    let acc := s.2.2 * x
    let g := s.2.1 + p.co_g i * acc
    (f, g, acc)) (0, 1, 1)

/-- `operator()`, AmpGen/Pade.h:42-55. -/
noncomputable def Pade.eval (p : Pade) (N : Nat) (s : ℝ) : ℝ :=
  let x := (s - p.min) * p.range
  let l := p.loop x N
  (l.1 + p.co_f N * l.2.2) / l.2.1

end AmpGen.Pade
