import Verif.Vertex.LemmasCross
import Mathlib.Tactic.NoncommRing
import Mathlib.Tactic.Module
import Mathlib.Algebra.BigOperators.Field
/-
Algebra of the Dirac matrices.
-/
namespace AmpGen.Vertex
open Spec Matrix

theorem Gamma4Vec_eq (μ : Fin 4) : Gamma4Vec μ = Gamma μ.castSucc := by
  unfold Gamma4Vec
  fin_cases μ <;> simp

theorem clifford_diag (μ : Fin 4) : Gamma4Vec μ * Gamma4Vec μ = (g μ : ℂ) • 1 := by
  rw [Gamma4Vec_eq]
  fin_cases μ <;> ext i j <;> fin_cases i <;> fin_cases j <;> simp [Gamma, g]

theorem clifford_off (μ ν : Fin 4) (h : μ < ν) : Gamma4Vec μ * Gamma4Vec ν = -(Gamma4Vec ν * Gamma4Vec μ) := by
  rw [Gamma4Vec_eq, Gamma4Vec_eq]
  fin_cases μ <;> fin_cases ν <;> first
    | exact absurd h (by decide)
    | (ext i j; fin_cases i <;> fin_cases j <;> simp [Gamma])

/-- The relations of Clifford. -/
theorem clifford (μ ν : Fin 4) : Gamma4Vec μ * Gamma4Vec ν + Gamma4Vec ν * Gamma4Vec μ = (2 * metric μ ν : ℂ) • 1 := by
  rcases lt_trichotomy μ ν with h | h | h
  · rw [clifford_off μ ν h]
    unfold metric
    rw [if_neg (ne_of_lt h)]
    simp
  · rw [h, clifford_diag]
    unfold metric
    rw [if_pos rfl, ← add_smul]
    congr 1
    ring
  · rw [clifford_off ν μ h]
    unfold metric
    rw [if_neg (ne_of_gt h)]
    simp

theorem gamma5_sq : Gamma 4 * Gamma 4 = 1 := by
  ext i j
  fin_cases i <;> fin_cases j <;> simp [Gamma]

theorem gamma5_anti (μ : Fin 4) : Gamma 4 * Gamma4Vec μ = -(Gamma4Vec μ * Gamma 4) := by
  rw [Gamma4Vec_eq]
  fin_cases μ <;> ext i j <;> fin_cases i <;> fin_cases j <;> simp [Gamma]

theorem slash_eq (P : V4 ℂ) : slash P = dirac Gamma4Vec P := by
  unfold slash dirac
  rw [Fin.sum_univ_four, g0, g1, g2, g3]
  simp only [neg_mul, one_mul, neg_smul]
  abel

theorem slash_anti (P Q : V4 ℂ) : slash P * slash Q + slash Q * slash P = (2 * dot P Q : ℂ) • 1 := by
  unfold slash
  rw [Finset.sum_mul_sum, Finset.sum_mul_sum, Finset.sum_comm (γ := Fin 4), ← Finset.sum_add_distrib]
  have e : ∀ ν : Fin 4, (∑ μ, ((g μ * P μ) • Gamma4Vec μ) * ((g ν * Q ν) • Gamma4Vec ν)) +
      (∑ μ, ((g ν * Q ν) • Gamma4Vec ν) * ((g μ * P μ) • Gamma4Vec μ)) = (2 * (g ν * P ν * Q ν) : ℂ) • (1 : M4) := by
    intro ν
    rw [← Finset.sum_add_distrib]
    have e2 : ∀ μ : Fin 4, ((g μ * P μ) • Gamma4Vec μ) * ((g ν * Q ν) • Gamma4Vec ν) + ((g ν * Q ν) • Gamma4Vec ν) * ((g μ * P μ) • Gamma4Vec μ) =
        (if μ = ν then (2 * (g ν * P ν * Q ν) : ℂ) else 0) • (1 : M4) := by
      intro μ
      rw [smul_mul_smul_comm, smul_mul_smul_comm, mul_comm (g ν * Q ν), ← smul_add, clifford, smul_smul]
      congr 1
      unfold metric
      split
      · rename_i h
        rw [h]
        have := (g_sq ν : (g ν : ℂ) * g ν = 1)
        linear_combination (2 * P ν * Q ν * g ν) * this
      · ring
    rw [Finset.sum_congr rfl fun μ _ => e2 μ, ← Finset.sum_smul, Finset.sum_ite_eq', if_pos (Finset.mem_univ _)]
  rw [Finset.sum_congr rfl fun ν _ => e ν, ← Finset.sum_smul, ← Finset.mul_sum]
  rfl

theorem slash_sq (P : V4 ℂ) : slash P * slash P = (dot P P) • 1 := by
  have h := slash_anti P P
  rw [← two_smul ℂ, mul_smul] at h
  have h2 := congrArg (fun M => (1 / 2 : ℂ) • M) h
  beta_reduce at h2
  rw [smul_smul, smul_smul] at h2
  norm_num at h2
  exact h2

theorem slash_transverse (P L : V4 ℂ) (h : dot P L = 0) : slash P * slash L = -(slash L * slash P) := by
  have := slash_anti P L
  rw [h, mul_zero, zero_smul] at this
  exact eq_neg_of_add_eq_zero_left this

theorem gamma5_slash (L : V4 ℂ) : Gamma 4 * slash L = -(slash L * Gamma 4) := by
  unfold slash
  rw [Finset.mul_sum, Finset.sum_mul, ← Finset.sum_neg_distrib]
  exact Finset.sum_congr rfl fun μ _ => by rw [mul_smul_comm, gamma5_anti, smul_mul_assoc, smul_neg]

theorem slash_add (u v : V4 ℂ) : slash (u + v) = slash u + slash v := by
  unfold slash
  rw [← Finset.sum_add_distrib]
  exact Finset.sum_congr rfl fun μ _ => by rw [← add_smul, Pi.add_apply, mul_add]

theorem slash_smul (c : ℂ) (u : V4 ℂ) : slash (c • u) = c • slash u := by
  unfold slash
  rw [Finset.smul_sum]
  exact Finset.sum_congr rfl fun μ _ => by rw [smul_smul, Pi.smul_apply, smul_eq_mul]; congr 1; ring

theorem slash_sub (u v : V4 ℂ) : slash (u - v) = slash u - slash v := by
  have : u - v = u + (-1 : ℂ) • v := by funext μ; simp; ring
  rw [this, slash_add, slash_smul, neg_one_smul, sub_eq_add_neg]

theorem gammaTwiddle_eq (P : V4 ℂ) (ν : Fin 4) : gammaTwiddle P ν = Gamma4Vec ν - (P ν / dot P P) • slash P := by
  unfold gammaTwiddle slash
  rw [Finset.smul_sum, Finset.smul_sum]
  congr 1
  refine Finset.sum_congr rfl fun μ _ => ?_
  rw [smul_smul, smul_smul]
  congr 1
  ring

/-- The sum of the matrices with a vector is the matrix of the part of the vector that has no component along the momentum. -/
theorem twiddle_sum (P v : V4 ℂ) : ∑ μ, (g μ * v μ) • gammaTwiddle P μ = slash (pWave P v) := by
  have e : pWave P v = v - (dot P v / dot P P) • P := by
    funext μ
    unfold pWave
    simp only [Pi.sub_apply, Pi.smul_apply, smul_eq_mul]
    ring
  rw [e, slash_sub, slash_smul]
  simp only [gammaTwiddle_eq, smul_sub, Finset.sum_sub_distrib]
  congr 1
  simp only [smul_smul]
  rw [← Finset.sum_smul]
  congr 1
  unfold dot
  rw [Finset.sum_div]
  exact Finset.sum_congr rfl fun μ _ => by ring

theorem twiddle_slash (P : V4 ℂ) (μ : Fin 4) : gammaTwiddle P μ = slash (fun α => spin1 P μ α) := by
  rw [gammaTwiddle_eq]
  have e : (fun α => spin1 P μ α) = (fun α => metric μ α) - (P μ / dot P P) • P := by
    funext α
    unfold spin1
    simp only [Pi.sub_apply, Pi.smul_apply, smul_eq_mul]
    ring
  rw [e, slash_sub, slash_smul]
  congr 1
  unfold slash metric
  have : ∀ α : Fin 4, (g α * (if μ = α then (g μ : ℂ) else 0)) • Gamma4Vec α = if μ = α then Gamma4Vec α else 0 := by
    intro α
    split
    · rename_i h
      rw [h, g_sq, one_smul]
    · rw [mul_zero, zero_smul]
  rw [Finset.sum_congr rfl fun α _ => this α, Finset.sum_ite_eq, if_pos (Finset.mem_univ _)]

theorem spin1_row_transverse (P : V4 ℂ) (hP : dot P P ≠ 0) (μ : Fin 4) : dot P (fun α => spin1 P μ α) = 0 := by
  rw [← spin1_transverse P hP μ]
  exact congrArg (dot P) (funext fun α => spin1_symm P μ α)

section
variable {m : ℂ} {P : V4 ℂ}

theorem slash_spin1h (hm : m ≠ 0) (h : m * m = dot P P) : slash P * spin1h m P = m • spin1h m P := by
  unfold spin1h
  rw [mul_smul_comm, mul_add, mul_smul_comm, slash_sq, ← h, mul_one]
  match_scalars <;> field_simp

theorem slash_spin1hb (hm : m ≠ 0) (h : m * m = dot P P) : slash P * spin1hb m P = (-m) • spin1hb m P := by
  unfold spin1hb
  rw [mul_smul_comm, mul_add, mul_neg, mul_smul_comm, slash_sq, ← h, mul_one]
  match_scalars <;> field_simp

/-- The other projector comes out on the other side of the matrix of a vector with no component along the momentum. -/
theorem spin1h_slash (L : V4 ℂ) (h : dot P L = 0) : spin1h m P * slash L = slash L * spin1hb m P := by
  unfold spin1h spin1hb
  rw [smul_mul_assoc, mul_smul_comm, add_mul, mul_add, smul_mul_assoc, mul_neg, mul_smul_comm, slash_transverse P L h, smul_neg, one_mul,
    mul_one]

theorem spin1hb_slash (L : V4 ℂ) (h : dot P L = 0) : spin1hb m P * slash L = slash L * spin1h m P := by
  unfold spin1h spin1hb
  rw [smul_mul_assoc, mul_smul_comm, add_mul, mul_add, neg_mul, smul_mul_assoc, mul_smul_comm, slash_transverse P L h, smul_neg, neg_neg,
    one_mul, mul_one]

theorem spin_sum : spin1h m P + spin1hb m P = 1 := by
  unfold spin1h spin1hb
  rw [← smul_add]
  have : (1 / m) • slash P + 1 + (-((1 / m) • slash P) + 1) = (2 : ℂ) • (1 : M4) := by
    rw [two_smul]
    abel
  rw [this, smul_smul]
  norm_num

end
end AmpGen.Vertex
