import Verif.Dalitz.LemmasIntegral
/-
C109: integrals over the Dalitz plot.
-/
namespace AmpGen.Dalitz

open AmpGen.Kinematics (P4)
open intervalIntegral

variable {M m1 m2 m3 : ℝ}

/-- C109: for a function of the masses of the pairs, what `integrateDP` integrates over the unit square, for the mass of the mother that is set, is defined everywhere, and its exact
integral is the integral of the function over the Dalitz plot, bounded by the kinematic limits. -/
theorem dalitz_integral (h : Masses M m1 m2 m3) (F : ℝ → ℝ → ℝ) (hF : Continuous (Function.uncurry F)) (f : Momenta → ℝ)
    (hf : ∀ e, f e = F (massSq [at4 e 0, at4 e 1]) (massSq [at4 e 0, at4 e 2])) :
    let d := make (M ^ 2) (m1 ^ 2) (m2 ^ 2) (m3 ^ 2)
    (∀ x, (d.integrand f d.s0 x).isSome) ∧
    ∫ x in (0 : ℝ)..1, ∫ y in (0 : ℝ)..1, (d.integrand f d.s0 (x, y)).getD 0 =
      ∫ s12 in (m1 + m2) ^ 2..(M - m3) ^ 2, ∫ s13 in lower M m1 m2 m3 s12..upper M m1 m2 m3 s12, F s12 s13 := by
  intro d
  have hp := h.pair
  have hr := h.range
  have hs0 : d.s0 = M ^ 2 := by simp only [d, make, Integrator.setMother]
  have hi : ∀ x, d.integrand f d.s0 x = some (d.J x * f (d.setEvent x fun _ => 0)) := by
    intro x; rw [hs0]; exact integrand_eq h f x
  refine ⟨fun x => by rw [hi]; rfl, ?_⟩
  simp only [hi, Option.getD_some]
  obtain ⟨G, hG⟩ : ∃ G : ℝ → ℝ, G = fun t => ∫ s13 in lower M m1 m2 m3 (max t ((m1 + m2) ^ 2))..upper M m1 m2 m3 (max t ((m1 + m2) ^ 2)), F t s13 := ⟨_, rfl⟩
  have ha : (0 : ℝ) < (m1 + m2) ^ 2 := by positivity
  have hGc : Continuous G := by
    rw [hG]; exact continuous_region _ _ F hF (continuous_lower ha M m1 m2 m3) (continuous_upper ha M m1 m2 m3)
  have inner : ∀ x : ℝ, ∫ y in (0 : ℝ)..1, d.J (x, y) * f (d.setEvent (x, y) fun _ => 0) =
      G (pairMass M m1 m2 m3 x ^ 2) * (2 * pairMass M m1 m2 m3 x * (Real.pi / 2 * (M - m3 - (m1 + m2)) * Real.sin (Real.pi * x))) := by
    intro x
    have hm := pairMass_mem h x
    have hJ : ∀ y, d.J (x, y) = _ := fun y => J_eq h (x, y)
    have hE : ∀ y, d.setEvent (x, y) (fun _ => 0) = _ := fun y => setEvent_eq h (x, y)
    simp only [hJ, hE, hf]
    generalize pairMass M m1 m2 m3 x = m at *
    have hm0 : 0 < m := by linarith
    have hfun : ∀ y : ℝ, 4 * (Real.pi / 2 * (M - m3 - (m1 + m2)) * Real.sin (Real.pi * x)) * (Real.pi * Real.sin (Real.pi * y)) * kA m1 m2 m * kC M m3 m * m *
        F (massSq [at4 (sample M m1 m2 m3 m y) 0, at4 (sample M m1 m2 m3 m y) 1]) (massSq [at4 (sample M m1 m2 m3 m y) 0, at4 (sample M m1 m2 m3 m y) 2]) =
        (2 * m * (Real.pi / 2 * (M - m3 - (m1 + m2)) * Real.sin (Real.pi * x))) *
        (F (m ^ 2) ((m1 ^ 2 + m3 ^ 2 + 2 * (enA m1 m2 m * enC M m3 m)) + 2 * (-((kA m1 m2 m * kC M m3 m) * Real.cos (Real.pi * y)))) *
          (2 * (kA m1 m2 m * kC M m3 m) * (Real.pi * Real.sin (Real.pi * y)))) := by
      intro y
      rw [massSq12 M m1 m2 m3 hm0, massSq13 h hm.1 hm.2]
      have : m1 ^ 2 + m3 ^ 2 + 2 * (enA m1 m2 m * enC M m3 m - kA m1 m2 m * kC M m3 m * Real.cos (Real.pi * y)) =
          (m1 ^ 2 + m3 ^ 2 + 2 * (enA m1 m2 m * enC M m3 m)) + 2 * (-((kA m1 m2 m * kC M m3 m) * Real.cos (Real.pi * y))) := by ring
      rw [this]
      ring
    simp only [hfun]
    rw [integral_const_mul, inner_integral (fun u => F (m ^ 2) u) (hF.comp (Continuous.prodMk_right (m ^ 2))), mul_comm]
    congr 1
    have hmax : max (m ^ 2) ((m1 + m2) ^ 2) = m ^ 2 := max_eq_left (by nlinarith [hm.1])
    rw [hG]
    simp only [hmax, lower_eq h hm.1 hm.2, upper_eq h hm.1 hm.2]
    congr 1 <;> ring
  simp only [inner]
  have hsub := integral_comp_mul_deriv (a := 0) (b := 1) (f := fun x => pairMass M m1 m2 m3 x ^ 2) (g := G)
    (fun x _ => pairMass_deriv M m1 m2 m3 x) (Continuous.continuousOn (by have := pairMass_continuous M m1 m2 m3; fun_prop)) hGc
  have e0 : pairMass M m1 m2 m3 0 = M - m3 := by unfold pairMass; simp; ring
  have e1 : pairMass M m1 m2 m3 1 = m1 + m2 := by unfold pairMass; simp
  simp only [Function.comp_def, e0, e1, mul_neg, integral_neg] at hsub
  have e2 : ∫ x in (0 : ℝ)..1, G (pairMass M m1 m2 m3 x ^ 2) * (2 * pairMass M m1 m2 m3 x * (Real.pi / 2 * (M - m3 - (m1 + m2)) * Real.sin (Real.pi * x))) =
      ∫ t in (m1 + m2) ^ 2..(M - m3) ^ 2, G t := by
    rw [integral_symm ((M - m3) ^ 2), ← hsub, neg_neg]
  rw [e2]
  apply integral_congr
  intro t ht
  rw [Set.uIcc_of_le (by nlinarith)] at ht
  have hmax : max t ((m1 + m2) ^ 2) = t := max_eq_left ht.1
  rw [hG]
  simp only [hmax]

/-- C109 fails for a mass that is not the one that is set: the mass of the whole event is still the one that is set. -/
theorem dalitz_mass_counterexample : ∃ (x : ℝ × ℝ) (e : Momenta), (make 4 0 1 0).setEventAt x (fun _ => 0) (9 / 4) = some e ∧
    massSq [at4 e 0, at4 e 1, at4 e 2] = 4 ∧ (4 : ℝ) ≠ 9 / 4 := by
  have hs : √(4 : ℝ) = 2 := by rw [show (4 : ℝ) = 2 ^ 2 by norm_num]; exact Real.sqrt_sq (by norm_num)
  have hq : √(9 / 4 : ℝ) = 3 / 2 := by rw [show (9 / 4 : ℝ) = (3 / 2) ^ 2 by norm_num]; exact Real.sqrt_sq (by norm_num)
  have hm : (make 4 0 1 0).getMABAt (1, 0) (9 / 4) = 1 := by
    simp [Integrator.getMABAt, make, Integrator.setMother]
  have hA : (make 4 0 1 0).argA 1 = 0 := by simp [Integrator.argA, make, Integrator.setMother]; norm_num
  have hC : (make 4 0 1 0).eC 1 = 3 / 2 := by simp [Integrator.eC, make, Integrator.setMother]; norm_num
  have r0 : rootOf 0 = some 0 := by rw [rootOf_eq le_rfl]; simp
  have r1 : rootOf 1 = some 1 := by rw [rootOf_eq zero_le_one]; simp
  have r2 : rootOf (9 / 4) = some (3 / 2) := by rw [rootOf_eq (by norm_num), hq]
  refine ⟨(1, 0), write (fun _ => 0) 0 0 1 (3 / 2) (3 / 2) 0, ?_, ?_, by norm_num⟩
  · unfold Integrator.setEventAt
    simp only [hm, hA, hC, r0, Option.bind_eq_bind, Option.bind_some]
    have e1 : (make 4 0 1 0).s1 = 0 := rfl
    have e2 : (make 4 0 1 0).s2 = 1 := rfl
    have e3 : (make 4 0 1 0).s3 = 0 := rfl
    rw [e1, e2, e3]
    norm_num [r0, r1, r2]
  · simp [massSq, at4, write]
    norm_num

example : Continuous (Function.uncurry fun s12 s13 : ℝ => s12 * s13 + 1) := by fun_prop

end AmpGen.Dalitz
