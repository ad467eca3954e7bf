import Verif.Polarisation.Model
import Verif.Polarisation.Spec
import Mathlib.Analysis.Complex.Basic
import Mathlib.Tactic.LinearCombination
import Mathlib.Tactic.FinCases
import Mathlib.Tactic.FieldSimp
import Mathlib.Algebra.BigOperators.Fin
/-
Three real vectors that are orthogonal to a momentum.
-/
namespace AmpGen.Polarisation
open Complex Spec
open AmpGen.Transform (V4 M4 minkowski slash gamma)

/-- Three real vectors of length one, orthogonal to each other and to the momentum. -/
structure Triad (m : ℝ) (p X Y Z : Fin 4 → ℝ) : Prop where
  pX : p 3 * X 3 - p 0 * X 0 - p 1 * X 1 - p 2 * X 2 = 0
  pY : p 3 * Y 3 - p 0 * Y 0 - p 1 * Y 1 - p 2 * Y 2 = 0
  pZ : p 3 * Z 3 - p 0 * Z 0 - p 1 * Z 1 - p 2 * Z 2 = 0
  XX : X 3 * X 3 - X 0 * X 0 - X 1 * X 1 - X 2 * X 2 = -1
  YY : Y 3 * Y 3 - Y 0 * Y 0 - Y 1 * Y 1 - Y 2 * Y 2 = -1
  ZZ : Z 3 * Z 3 - Z 0 * Z 0 - Z 1 * Z 1 - Z 2 * Z 2 = -1
  XY : X 3 * Y 3 - X 0 * Y 0 - X 1 * Y 1 - X 2 * Y 2 = 0
  XZ : X 3 * Z 3 - X 0 * Z 0 - X 1 * Z 1 - X 2 * Z 2 = 0
  YZ : Y 3 * Z 3 - Y 0 * Z 0 - Y 1 * Z 1 - Y 2 * Z 2 = 0
  sum : ∀ μ ν, X μ * X ν + Y μ * Y ν + Z μ * Z ν = -(if μ = ν then (if μ = 3 then 1 else -1) else 0) + p μ * p ν / m ^ 2

/-- The states of definite spin along the third vector. -/
noncomputable def circular (X Y Z : Fin 4 → ℝ) (l : ℤ) : V4 :=
  if l = 1 then fun μ => -(((1 / √2 : ℝ) : ℂ) * (X μ + I * Y μ))
  else if l = -1 then fun μ => ((1 / √2 : ℝ) : ℂ) * (X μ - I * Y μ)
  else fun μ => Z μ

theorem half_sq : ((1 / √2 : ℝ) : ℂ) * ((1 / √2 : ℝ) : ℂ) = 1 / 2 := by
  have : (1 / √2 : ℝ) * (1 / √2) = 1 / 2 := by
    rw [div_mul_div_comm, one_mul, Real.mul_self_sqrt (by norm_num)]
  rw [← ofReal_mul, this]; norm_num

theorem Triad.spinOne {m : ℝ} {p X Y Z : Fin 4 → ℝ} (h : Triad m p X Y Z) : SpinOne m p (circular X Y Z) := by
  have cst := fun {a b : ℝ} (h : a = b) => congrArg (fun x : ℝ => (x : ℂ)) h
  have hN := half_sq
  have hNc : (starRingEnd ℂ) ((1 / √2 : ℝ) : ℂ) = ((1 / √2 : ℝ) : ℂ) := conj_ofReal _
  have e1 : circular X Y Z 1 = fun μ => -(((1 / √2 : ℝ) : ℂ) * (X μ + I * Y μ)) := by unfold circular; simp
  have e2 : circular X Y Z (-1) = fun μ => ((1 / √2 : ℝ) : ℂ) * (X μ - I * Y μ) := by unfold circular; simp
  have e0 : circular X Y Z 0 = fun μ => (Z μ : ℂ) := by unfold circular; simp
  generalize ((1 / √2 : ℝ) : ℂ) = N at *
  have hI : I * I = -1 := I_mul_I
  have pX := cst h.pX
  have pY := cst h.pY
  have pZ := cst h.pZ
  have XX := cst h.XX
  have YY := cst h.YY
  have ZZ := cst h.ZZ
  have XY := cst h.XY
  have XZ := cst h.XZ
  have YZ := cst h.YZ
  push_cast at pX pY pZ XX YY ZZ XY XZ YZ
  refine ⟨?_, ?_, ?_⟩
  · rintro l (rfl | rfl | rfl)
    · rw [e1]; simp only [minkowski, cx]
      linear_combination (-N) * pX - N * I * pY
    · rw [e0]; simp only [minkowski, cx]
      linear_combination pZ
    · rw [e2]; simp only [minkowski, cx]
      linear_combination N * pX - N * I * pY
  · rintro l l' (rfl | rfl | rfl) (rfl | rfl | rfl) <;> simp only [e1, e2, e0, minkowski, cc, map_neg, map_mul, map_add, map_sub, conj_ofReal, conj_I, hNc] <;>
      norm_num
    · linear_combination N * N * XX + N * N * YY - 2 * hN + (-(N * N) * (Y 3 * Y 3 - Y 0 * Y 0 - Y 1 * Y 1 - Y 2 * Y 2)) * hI
    · linear_combination (-N) * XZ + N * I * YZ
    · linear_combination (-(N * N)) * XX + N * N * YY + 2 * I * N * N * XY - (N * N) * (Y 3 * Y 3 - Y 0 * Y 0 - Y 1 * Y 1 - Y 2 * Y 2) * hI
    · linear_combination (-N) * XZ - N * I * YZ
    · linear_combination ZZ
    · linear_combination N * XZ - N * I * YZ
    · linear_combination (-(N * N)) * XX + N * N * YY - 2 * I * N * N * XY - (N * N) * (Y 3 * Y 3 - Y 0 * Y 0 - Y 1 * Y 1 - Y 2 * Y 2) * hI
    · linear_combination N * XZ + N * I * YZ
    · linear_combination N * N * XX + N * N * YY - 2 * hN + (-(N * N) * (Y 3 * Y 3 - Y 0 * Y 0 - Y 1 * Y 1 - Y 2 * Y 2)) * hI
  · intro μ ν
    have hs := h.sum μ ν
    have hg : metric μ ν = ((if μ = ν then (if μ = 3 then 1 else -1) else 0 : ℝ) : ℂ) := by
      unfold metric; split_ifs <;> simp
    rw [hg]
    generalize (if μ = ν then (if μ = 3 then 1 else -1) else 0 : ℝ) = g at hs ⊢
    have hs := cst hs
    simp only [e1, e2, e0, cc, cx, map_neg, map_mul, map_add, map_sub, conj_ofReal, conj_I, hNc]
    push_cast at hs ⊢
    linear_combination hs + 2 * (X μ * X ν + Y μ * Y ν) * hN - 2 * N * N * Y μ * Y ν * hI

end AmpGen.Polarisation
