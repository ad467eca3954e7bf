import Verif.Vertex.Model
import Verif.Vertex.Spec
import Mathlib.Tactic.Ring
import Mathlib.Tactic.LinearCombination
import Mathlib.Tactic.FieldSimp
import Mathlib.Algebra.BigOperators.Fin
import Mathlib.Algebra.BigOperators.Ring.Finset
import Mathlib.LinearAlgebra.Matrix.NonsingularInverse
namespace AmpGen.Vertex
open Spec

section
variable {K : Type} [Field K]

theorem g0 : (g 0 : K) = -1 := by simp [g]
theorem g1 : (g 1 : K) = -1 := by simp [g]
theorem g2 : (g 2 : K) = -1 := by simp [g]
theorem g3 : (g 3 : K) = 1 := by simp [g]

theorem g_sq (μ : Fin 4) : (g μ : K) * g μ = 1 := by unfold g; split <;> ring

theorem dot_eq (u v : V4 K) : dot u v = minkowski u v := by
  unfold dot minkowski
  rw [Fin.sum_univ_four, g0, g1, g2, g3]
  ring

theorem dot_comm (u v : V4 K) : dot u v = dot v u := by
  unfold dot
  exact Finset.sum_congr rfl fun μ _ => by ring

theorem metric_symm (μ ν : Fin 4) : (metric μ ν : K) = metric ν μ := by
  unfold metric
  by_cases h : μ = ν
  · rw [h]
  · rw [if_neg h, if_neg (fun e => h e.symm)]

theorem spin1_symm (P : V4 K) (μ ν : Fin 4) : spin1 P μ ν = spin1 P ν μ := by
  unfold spin1
  rw [metric_symm]
  ring

/-- The projector on spin one, applied to a vector, takes off the component along the momentum. -/
theorem spin1_apply (P v : V4 K) (μ : Fin 4) : ∑ ν, g ν * spin1 P μ ν * v ν = pWave P v μ := by
  unfold spin1 pWave
  have e : ∀ ν, g ν * (metric μ ν - P μ * P ν * (1 / dot P P)) * v ν =
      (if μ = ν then v ν else 0) - (P μ * (1 / dot P P)) * (g ν * P ν * v ν) := by
    intro ν
    unfold metric
    split
    · rename_i h
      rw [h]
      linear_combination v ν * (g_sq ν : (g ν : K) * g ν = 1)
    · ring
  rw [Finset.sum_congr rfl fun ν _ => e ν, Finset.sum_sub_distrib, ← Finset.mul_sum, Finset.sum_ite_eq, if_pos (Finset.mem_univ _)]
  change v μ - P μ * (1 / dot P P) * dot P v = _
  ring

theorem spin1_apply' (P v : V4 K) (ν : Fin 4) : ∑ μ, g μ * v μ * spin1 P μ ν = pWave P v ν := by
  rw [← spin1_apply]
  exact Finset.sum_congr rfl fun μ _ => by rw [spin1_symm P μ ν]; ring

theorem dot_sub (u v w : V4 K) : dot u (fun μ => v μ - w μ) = dot u v - dot u w := by
  unfold dot
  rw [← Finset.sum_sub_distrib]
  exact Finset.sum_congr rfl fun μ _ => by ring

theorem dot_smul (u v : V4 K) (c : K) : dot u (fun μ => v μ * c) = dot u v * c := by
  unfold dot
  rw [Finset.sum_mul]
  exact Finset.sum_congr rfl fun μ _ => by ring

theorem dot_smul' (u v : V4 K) (c : K) : dot u (fun μ => c * v μ) = c * dot u v := by
  unfold dot
  rw [Finset.mul_sum]
  exact Finset.sum_congr rfl fun μ _ => by ring

theorem pWave_transverse (P v : V4 K) (hP : dot P P ≠ 0) : dot P (pWave P v) = 0 := by
  unfold pWave
  rw [dot_sub, dot_smul]
  field_simp
  ring

theorem pWave_fix (P v : V4 K) (h : dot P v = 0) : pWave P v = v := by
  unfold pWave
  rw [h]
  funext μ
  ring

theorem spin1_transverse (P : V4 K) (hP : dot P P ≠ 0) (ν : Fin 4) : dot P (fun μ => spin1 P μ ν) = 0 := by
  have := spin1_apply P P ν
  have h2 : pWave P P ν = 0 := by
    unfold pWave
    field_simp
    ring
  rw [h2] at this
  rw [← this]
  unfold dot
  exact Finset.sum_congr rfl fun μ _ => by beta_reduce; rw [spin1_symm P μ ν]; ring

/-- A tensor whose columns have no component along the momentum is kept. -/
theorem spin1_keep (P v : V4 K) (h : dot P v = 0) (μ : Fin 4) : ∑ ν, g ν * spin1 P μ ν * v ν = v μ := by
  rw [spin1_apply, pWave_fix P v h]

theorem spin1_trace (P : V4 K) (hP : dot P P ≠ 0) : ∑ μ, g μ * spin1 P μ μ = 3 := by
  unfold spin1
  have e : ∀ μ, g μ * (metric μ μ - P μ * P μ * (1 / dot P P)) = 1 - (g μ * P μ * P μ) * (1 / dot P P) := by
    intro μ
    unfold metric
    rw [if_pos rfl]
    linear_combination (g_sq μ : (g μ : K) * g μ = 1)
  rw [Finset.sum_congr rfl fun μ _ => e μ, Finset.sum_sub_distrib, ← Finset.sum_mul]
  change _ - dot P P * _ = _
  rw [mul_one_div_cancel hP]
  simp
  ring

theorem dWave_eq (p q : V4 K) (μ ν : Fin 4) :
    dWave p q μ ν = pWave p q μ * pWave p q ν - dot (pWave p q) (pWave p q) / 3 * spin1 p μ ν := by
  unfold dWave imposeSymmetry
  simp only
  split
  · rw [spin1_symm p ν μ]; ring
  · rfl

theorem dWave_symm (p q : V4 K) (μ ν : Fin 4) : dWave p q μ ν = dWave p q ν μ := by
  rw [dWave_eq, dWave_eq, spin1_symm p μ ν]; ring

theorem dWave_transverse (p q : V4 K) (hp : dot p p ≠ 0) (ν : Fin 4) : dot p (fun μ => dWave p q μ ν) = 0 := by
  have h1 := pWave_transverse p q hp
  have h2 := spin1_transverse p hp ν
  have e : (fun μ => dWave p q μ ν) =
      fun μ => pWave p q μ * pWave p q ν - (fun μ => dot (pWave p q) (pWave p q) / 3 * spin1 p μ ν) μ := by
    funext μ
    rw [dWave_eq]
  rw [e, dot_sub, dot_smul, dot_smul', h1, h2]
  ring

/-- The vector with the elements `ε_{μναβ} x^ν y^α z^β`. -/
def cross (x y z : V4 K) : V4 K := fun μ => ∑ ν, ∑ α, ∑ β, leviCivita μ ν α β * (g ν * x ν) * (g α * y α) * (g β * z β)

theorem nest (e : Fin 4 → Fin 4 → Fin 4 → K) (x y z : V4 K) :
    ∑ β, g β * (∑ α, g α * (∑ ν, g ν * e ν α β * x ν) * y α) * z β = ∑ ν, ∑ α, ∑ β, e ν α β * (g ν * x ν) * (g α * y α) * (g β * z β) := by
  simp only [Fin.sum_univ_four]
  ring

theorem nest_cross (x y z : V4 K) (μ : Fin 4) :
    ∑ β, g β * (∑ α, g α * (∑ ν, g ν * leviCivita μ ν α β * x ν) * y α) * z β = cross x y z μ :=
  nest (fun ν α β => leviCivita μ ν α β) x y z

theorem coupling_cross (L P v : V4 K) (μ : Fin 4) : ∑ ν, g ν * coupling L P μ ν * v ν = cross v L P μ := by
  unfold coupling cross
  generalize (fun ν α β => (leviCivita μ ν α β : K)) = e
  simp only [Fin.sum_univ_four]
  ring

end
end AmpGen.Vertex
