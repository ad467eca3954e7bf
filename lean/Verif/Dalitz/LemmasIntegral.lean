import Verif.Dalitz.Props
import Mathlib.MeasureTheory.Integral.IntervalIntegral.IntegrationByParts
import Mathlib.MeasureTheory.Integral.DominatedConvergence
import Mathlib.Analysis.SpecialFunctions.Trigonometric.Deriv
/-
Lemmas on integrals over the Dalitz plot.
-/
namespace AmpGen.Dalitz

open AmpGen.Kinematics (P4)
open intervalIntegral

variable {M m1 m2 m3 : ℝ}

theorem J_eq (h : Masses M m1 m2 m3) (x : ℝ × ℝ) : (make (M ^ 2) (m1 ^ 2) (m2 ^ 2) (m3 ^ 2)).J x =
    4 * (Real.pi / 2 * (M - m3 - (m1 + m2)) * Real.sin (Real.pi * x.1)) * (Real.pi * Real.sin (Real.pi * x.2)) *
      kA m1 m2 (pairMass M m1 m2 m3 x.1) * kC M m3 (pairMass M m1 m2 m3 x.1) * pairMass M m1 m2 m3 x.1 := by
  have hm := pairMass_mem h x.1
  have hp := h.pair
  unfold Integrator.J
  simp only [getMAB_eq h, eC_eq, safeSqrt_eq, make_min h, make_max h]
  generalize pairMass M m1 m2 m3 x.1 = m at *
  rw [argA_eq (by linarith : (0 : ℝ) < m)]
  simp only [make, Integrator.setMother]
  rw [← sq ((M ^ 2 - m3 ^ 2 - m ^ 2) / (2 * m))]
  rfl

theorem JAt_eq (h : Masses M m1 m2 m3) (x : ℝ × ℝ) : (make (M ^ 2) (m1 ^ 2) (m2 ^ 2) (m3 ^ 2)).JAt x (M ^ 2) =
    some ((make (M ^ 2) (m1 ^ 2) (m2 ^ 2) (m3 ^ 2)).J x) := by
  have hm := pairMass_mem h x.1
  have hp := h.pair
  unfold Integrator.JAt Integrator.J
  simp only [getMAB_eq h, getMABAt_eq h, eC_eq, safeSqrt_eq, make_min h, make_max h]
  rw [argA_eq (by linarith : (0 : ℝ) < _), rootOf_eq (kA_nonneg h hm.1)]
  simp only [make, Integrator.setMother, Option.map_some]
  rw [Real.sqrt_sq h.pos.le, Real.sqrt_sq h.nonneg1, Real.sqrt_sq h.nonneg2, Real.sqrt_sq h.nonneg3]

theorem integrand_eq (h : Masses M m1 m2 m3) (f : Momenta → ℝ) (x : ℝ × ℝ) :
    (make (M ^ 2) (m1 ^ 2) (m2 ^ 2) (m3 ^ 2)).integrand f (M ^ 2) x =
      some ((make (M ^ 2) (m1 ^ 2) (m2 ^ 2) (m3 ^ 2)).J x * f ((make (M ^ 2) (m1 ^ 2) (m2 ^ 2) (m3 ^ 2)).setEvent x fun _ => 0)) := by
  unfold Integrator.integrand
  rw [setEventAt_eq h, JAt_eq h, setEvent_eq h]
  rfl

theorem enA_E1 {m : ℝ} (hm : 0 < m) : enA m1 m2 m = E1 m1 m2 (m ^ 2) := by
  unfold enA E1; rw [Real.sqrt_sq hm.le]

theorem enC_E3 {m : ℝ} (hm : 0 < m) : enC M m3 m = E3 M m3 (m ^ 2) := by
  unfold enC E3; rw [Real.sqrt_sq hm.le, sub_right_comm]

theorem kA_E1 {m : ℝ} (hm : 0 < m) : kA m1 m2 m = √(E1 m1 m2 (m ^ 2) ^ 2 - m1 ^ 2) := by
  rw [← enA_E1 hm]; rfl

theorem kC_E3 {m : ℝ} (hm : 0 < m) : kC M m3 m = √(E3 M m3 (m ^ 2) ^ 2 - m3 ^ 2) := by
  rw [← enC_E3 hm]; rfl

theorem lower_eq (h : Masses M m1 m2 m3) {m : ℝ} (hm : m1 + m2 ≤ m) (hm' : m ≤ M - m3) :
    lower M m1 m2 m3 (m ^ 2) = m1 ^ 2 + m3 ^ 2 + 2 * (enA m1 m2 m * enC M m3 m - kA m1 m2 m * kC M m3 m) := by
  have hp := h.pair
  have hm0 : 0 < m := by linarith
  unfold lower
  rw [← kA_E1 hm0, ← kC_E3 hm0, ← enA_E1 hm0, ← enC_E3 hm0]
  linear_combination (-1) * kA_sq h hm - kC_sq h hm hm'

theorem upper_eq (h : Masses M m1 m2 m3) {m : ℝ} (hm : m1 + m2 ≤ m) (hm' : m ≤ M - m3) :
    upper M m1 m2 m3 (m ^ 2) = m1 ^ 2 + m3 ^ 2 + 2 * (enA m1 m2 m * enC M m3 m + kA m1 m2 m * kC M m3 m) := by
  have hp := h.pair
  have hm0 : 0 < m := by linarith
  unfold upper
  rw [← kA_E1 hm0, ← kC_E3 hm0, ← enA_E1 hm0, ← enC_E3 hm0]
  linear_combination (-1) * kA_sq h hm - kC_sq h hm hm'

/-- The integral over the angle is that over the mass of the first and third particle. -/
theorem inner_integral (g : ℝ → ℝ) (hg : Continuous g) (a k : ℝ) :
    ∫ y in (0 : ℝ)..1, g (a + 2 * (-(k * Real.cos (Real.pi * y)))) * (2 * k * (Real.pi * Real.sin (Real.pi * y))) = ∫ u in (a - 2 * k)..(a + 2 * k), g u := by
  have hd : ∀ y : ℝ, HasDerivAt (fun y => a + 2 * (-(k * Real.cos (Real.pi * y)))) (2 * k * (Real.pi * Real.sin (Real.pi * y))) y := by
    intro y
    have h1 : HasDerivAt (fun y : ℝ => Real.pi * y) Real.pi y := by simpa using (hasDerivAt_id y).const_mul Real.pi
    have h2 := (((h1.cos.const_mul k).neg).const_mul 2).const_add a
    refine h2.congr_deriv ?_
    ring
  have := integral_comp_mul_deriv (a := 0) (b := 1) (fun y _ => hd y) (Continuous.continuousOn (by fun_prop)) hg
  simp only [Function.comp_def, mul_zero, Real.cos_zero, mul_one, Real.cos_pi] at this
  rw [this]
  congr 1 <;> ring

theorem continuous_region (lo hi : ℝ → ℝ) (F : ℝ → ℝ → ℝ) (hF : Continuous (Function.uncurry F)) (hlo : Continuous lo) (hhi : Continuous hi) :
    Continuous fun t => ∫ u in lo t..hi t, F t u := by
  have h1 := continuous_parametric_intervalIntegral_of_continuous (μ := MeasureTheory.volume) (a₀ := 0) hF hhi
  have h2 := continuous_parametric_intervalIntegral_of_continuous (μ := MeasureTheory.volume) (a₀ := 0) hF hlo
  have e : (fun t => ∫ u in lo t..hi t, F t u) = fun t => (∫ u in (0 : ℝ)..hi t, F t u) - ∫ u in (0 : ℝ)..lo t, F t u := by
    funext t
    have hc : Continuous (F t) := hF.comp (Continuous.prodMk_right t)
    rw [integral_interval_sub_left (hc.intervalIntegrable _ _) (hc.intervalIntegrable _ _)]
  rw [e]; exact h1.sub h2

theorem continuous_E1 {a : ℝ} (ha : 0 < a) (m1 m2 : ℝ) : Continuous fun t => E1 m1 m2 (max t a) := by
  unfold E1
  refine Continuous.div (by fun_prop) (by fun_prop) fun t => ?_
  have : 0 < √(max t a) := Real.sqrt_pos.2 (lt_of_lt_of_le ha (le_max_right _ _))
  positivity

theorem continuous_E3 {a : ℝ} (ha : 0 < a) (M m3 : ℝ) : Continuous fun t => E3 M m3 (max t a) := by
  unfold E3
  refine Continuous.div (by fun_prop) (by fun_prop) fun t => ?_
  have : 0 < √(max t a) := Real.sqrt_pos.2 (lt_of_lt_of_le ha (le_max_right _ _))
  positivity

theorem continuous_lower {a : ℝ} (ha : 0 < a) (M m1 m2 m3 : ℝ) : Continuous fun t => lower M m1 m2 m3 (max t a) := by
  have h1 := continuous_E1 ha m1 m2
  have h3 := continuous_E3 ha M m3
  unfold lower
  fun_prop

theorem continuous_upper {a : ℝ} (ha : 0 < a) (M m1 m2 m3 : ℝ) : Continuous fun t => upper M m1 m2 m3 (max t a) := by
  have h1 := continuous_E1 ha m1 m2
  have h3 := continuous_E3 ha M m3
  unfold upper
  fun_prop

theorem pairMass_deriv (M m1 m2 m3 x : ℝ) : HasDerivAt (fun x => pairMass M m1 m2 m3 x ^ 2)
    (-(2 * pairMass M m1 m2 m3 x * (Real.pi / 2 * (M - m3 - (m1 + m2)) * Real.sin (Real.pi * x)))) x := by
  have h1 : HasDerivAt (fun y : ℝ => Real.pi * y) Real.pi x := by simpa using (hasDerivAt_id x).const_mul Real.pi
  have h2 := (((h1.cos.add_const 1).const_mul (M - m3 - (m1 + m2))).div_const 2).const_add (m1 + m2)
  have h3 := h2.pow 2
  refine h3.congr_deriv ?_
  simp only [pairMass]
  ring

theorem pairMass_continuous (M m1 m2 m3 : ℝ) : Continuous (pairMass M m1 m2 m3) := by
  unfold pairMass; fun_prop

end AmpGen.Dalitz
