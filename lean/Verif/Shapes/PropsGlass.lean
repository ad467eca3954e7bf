import Verif.Shapes.Lemmas
import Verif.Lineshapes.PropsAmp
import Mathlib.Analysis.Real.Pi.Irrational
/-
Properties of GLASS.
-/
namespace AmpGen.Shapes

open Complex Spec
open AmpGen.Lineshapes (Q2 safeSqrt LASS exp_two_arctan sin_mul_exp sub_I_ne)

/-- The phase factor of a quotient. -/
theorem phase_quotient {p q : ℝ} (hp : p ≠ 0) :
    ((p : ℂ) + I * q) / (p - I * q) = exp (2 * (I * (Real.arctan (q / p) : ℝ))) := by
  have hp' : (p : ℂ) ≠ 0 := ofReal_ne_zero.2 hp
  have e3 : (p : ℂ) + I * q = p * (1 + I * ((q / p : ℝ) : ℂ)) := by push_cast; field_simp
  have e4 : (p : ℂ) - I * q = p * (1 - I * ((q / p : ℝ) : ℂ)) := by push_cast; field_simp
  rw [e3, e4, mul_div_mul_left _ _ hp', exp_two_arctan]

theorem sine_quotient {p q : ℝ} (hp : p ≠ 0) :
    (q : ℂ) / (p - I * q) = (Real.sin (Real.arctan (q / p)) : ℝ) * exp (I * (Real.arctan (q / p) : ℝ)) := by
  have hne : (p : ℂ) - I * q ≠ 0 := sub_I_ne (by positivity)
  rw [ofReal_sin, sin_mul_exp, ← phase_quotient hp]
  have hI := I_ne_zero
  rw [div_sub_one hne, div_div, div_eq_div_iff hne (by simp [hne])]
  ring

/-- The background with its phase. -/
theorem sine_shifted {p q : ℝ} (phi : ℝ) (hp : p ≠ 0) :
    exp (I * phi) * ((q : ℂ) * Real.cos phi + p * Real.sin phi) / (p - I * q) =
      (Real.sin (phi + Real.arctan (q / p)) : ℝ) * exp (I * ((phi + Real.arctan (q / p) : ℝ) : ℂ)) := by
  have hne : (p : ℂ) - I * q ≠ 0 := sub_I_ne (by positivity)
  have hI := I_ne_zero
  rw [ofReal_sin (phi + _), sin_mul_exp, ofReal_add, mul_add I, mul_add 2, exp_add, ← phase_quotient hp]
  have e2 : exp (2 * (I * phi)) = exp (I * phi) * exp (I * phi) := by rw [← exp_add]; congr 1; ring
  have ec : ((Real.cos phi : ℝ) : ℂ) = (exp (I * phi) + (exp (I * phi))⁻¹) / 2 := by
    rw [ofReal_cos, Complex.cos, ← exp_neg]; congr 3 <;> ring
  have es : ((Real.sin phi : ℝ) : ℂ) = (exp (I * phi) - (exp (I * phi))⁻¹) / (2 * I) := by
    rw [ofReal_sin, Complex.sin, ← exp_neg, eq_div_iff (by simp)]
    have e : -((phi : ℂ) * I) = -(I * phi) := by ring
    have e' : (phi : ℂ) * I = I * phi := by ring
    rw [show -(phi : ℂ) * I = -(I * phi) by ring, e']
    linear_combination (exp (-(I * phi)) - exp (I * phi)) * I_sq
  rw [e2, ec, es]
  have h0 := exp_ne_zero (I * phi)
  generalize exp (I * phi) = z at *
  obtain ⟨V, hV⟩ : ∃ V, (p : ℂ) - I * q = V := ⟨_, rfl⟩
  have hpV : (p : ℂ) = V + I * q := by rw [← hV]; ring
  rw [hV] at hne ⊢
  rw [hpV]
  field_simp
  ring

theorem glass_parts (s m1 m2 mass width a r phiR phiF R F q q0 : ℝ) (hs : 0 < s) (hm : 0 < mass)
    (hq : Lineshapes.Spec.IsMomentum q s m1 m2) (hq1 : 0 < q) (hq0 : Lineshapes.Spec.IsMomentum q0 (mass * mass) m1 m2) (hq2 : 0 < q0) :
    GLASS s (m1 ^ 2) (m2 ^ 2) mass width a r phiR phiF R F * (q / √s : ℝ) =
      F * (exp (I * phiF) * (((2 * a * q : ℝ) : ℂ) * Real.cos phiF + ((2 + a * r * q ^ 2 : ℝ) : ℂ) * Real.sin phiF) /
          (((2 + a * r * q ^ 2 : ℝ) : ℂ) - I * ((2 * a * q : ℝ) : ℂ))) +
        R * exp (I * (phiR + 2 * phiF)) * (((mass * swaveWidth mass width s q q0 : ℝ) : ℂ) /
            (((mass ^ 2 - s : ℝ) : ℂ) - I * ((mass * swaveWidth mass width s q q0 : ℝ) : ℂ))) *
          ((((2 + a * r * q ^ 2 : ℝ) : ℂ) + I * ((2 * a * q : ℝ) : ℂ)) / (((2 + a * r * q ^ 2 : ℝ) : ℂ) - I * ((2 * a * q : ℝ) : ℂ))) := by
  have e := Lineshapes.Q2_of_momentum hs hq
  have e0 := Lineshapes.Q2_of_momentum (mul_pos hm hm) hq0
  have esq : safeSqrt (q ^ 2) = q := by unfold safeSqrt; rw [if_pos (by positivity), Real.sqrt_sq hq1.le]
  have hr : 0 < √s := Real.sqrt_pos.2 hs
  have ew : mass * (width * mass * √(q ^ 2 / (q0 ^ 2 * s))) = mass * swaveWidth mass width s q q0 := by
    rw [Real.sqrt_div (by positivity), Real.sqrt_sq hq1.le, Real.sqrt_mul (by positivity), Real.sqrt_sq hq2.le]
    unfold swaveWidth
    field_simp
  unfold GLASS
  simp only
  rw [e, e0, esq, Real.sqrt_sq hq2.le]
  have ed : (mass : ℂ) * mass - s - I * mass * ((width * mass * √(q ^ 2 / (q0 ^ 2 * s)) : ℝ) : ℂ) =
      ((mass ^ 2 - s : ℝ) : ℂ) - I * ((mass * swaveWidth mass width s q q0 : ℝ) : ℂ) := by
    rw [← ew]; push_cast; ring
  rw [ed]
  have ey : ((mass * swaveWidth mass width s q q0 : ℝ) : ℂ) = ((mass * mass : ℝ) : ℂ) * width / q0 * (q / (√s : ℝ)) := by
    unfold swaveWidth; push_cast; field_simp
  generalize ((mass ^ 2 - s : ℝ) : ℂ) - I * ((mass * swaveWidth mass width s q q0 : ℝ) : ℂ) = D
  rw [ey]
  have c1 : (1 : ℂ) + 0.5 * r * a * ((q ^ 2 : ℝ) : ℂ) - I * a * q = (((2 + a * r * q ^ 2 : ℝ) : ℂ) - I * ((2 * a * q : ℝ) : ℂ)) / 2 := by push_cast; ring
  have c2 : (1 : ℂ) + 0.5 * r * a * ((q ^ 2 : ℝ) : ℂ) + I * a * q = (((2 + a * r * q ^ 2 : ℝ) : ℂ) + I * ((2 * a * q : ℝ) : ℂ)) / 2 := by push_cast; ring
  have c3 : (a : ℂ) * q * Real.cos phiF + (1 + 0.5 * r * a * ((q ^ 2 : ℝ) : ℂ)) * Real.sin phiF =
      (((2 * a * q : ℝ) : ℂ) * Real.cos phiF + ((2 + a * r * q ^ 2 : ℝ) : ℂ) * Real.sin phiF) / 2 := by push_cast; ring
  rw [c1, c2, c3]
  generalize ((2 + a * r * q ^ 2 : ℝ) : ℂ) - I * ((2 * a * q : ℝ) : ℂ) = V
  generalize ((2 + a * r * q ^ 2 : ℝ) : ℂ) + I * ((2 * a * q : ℝ) : ℂ) = U
  generalize ((2 * a * q : ℝ) : ℂ) * Real.cos phiF + ((2 + a * r * q ^ 2 : ℝ) : ℂ) * Real.sin phiF = W
  have hqc : (q : ℂ) ≠ 0 := ofReal_ne_zero.2 hq1.ne'
  have hrc : ((√s : ℝ) : ℂ) ≠ 0 := ofReal_ne_zero.2 hr.ne'
  push_cast
  have : (F : ℂ) * exp (I * phiF) * (W / 2) * (√s : ℝ) / q = F * exp (I * phiF) * W * ((√s : ℝ) / q) / 2 := by ring
  rw [this, div_mul_eq_mul_div, add_mul]
  have a1 : (F : ℂ) * exp (I * phiF) * W * ((√s : ℝ) / q) / 2 * (q / (√s : ℝ)) = F * exp (I * phiF) * W / 2 := by field_simp
  rw [a1]
  by_cases hV : V = 0
  · subst hV; simp
  by_cases hD : D = 0
  · subst hD; simp; field_simp
  field_simp

/-- Without a phase for the production of the resonance the amplitude is the one documented, over the phase space. -/
theorem glass_documented_partial (s m1 m2 mass width a r phiF R F q q0 : ℝ) (hs : 0 < s) (hm : 0 < mass)
    (hq : Lineshapes.Spec.IsMomentum q s m1 m2) (hq1 : 0 < q) (hq0 : Lineshapes.Spec.IsMomentum q0 (mass * mass) m1 m2) (hq2 : 0 < q0)
    (hn : 2 + a * r * q ^ 2 ≠ 0) (hw : s ≠ mass ^ 2) :
    GLASS s (m1 ^ 2) (m2 ^ 2) mass width a r 0 phiF R F =
      glass R F (resonancePhase mass (swaveWidth mass width s q q0) s) (phiF + effectivePhase a r q) / (q / √s : ℝ) := by
  have hr : 0 < √s := Real.sqrt_pos.2 hs
  have hw' : mass ^ 2 - s ≠ 0 := sub_ne_zero.2 (Ne.symm hw)
  rw [eq_div_iff (ofReal_ne_zero.2 (by positivity)), glass_parts s m1 m2 mass width a r 0 phiF R F q q0 hs hm hq hq1 hq0 hq2,
    sine_shifted phiF hn, sine_quotient hw', phase_quotient hn]
  unfold glass resonancePhase effectivePhase
  generalize Real.arctan (2 * a * q / (2 + a * r * q ^ 2)) = d
  generalize Real.arctan (mass * swaveWidth mass width s q q0 / (mass ^ 2 - s)) = e
  rw [show I * ((e : ℂ) + 2 * ((phiF + d : ℝ) : ℂ)) = I * (((0 : ℝ) : ℂ) + 2 * phiF) + I * e + 2 * (I * d) by push_cast; ring, exp_add, exp_add]
  ring

/-- With the default parameters it is the amplitude of LASS. -/
theorem glass_default (s m1 m2 mass width a r q q0 : ℝ) (hs : 0 < s) (hm : 0 < mass)
    (hq : Lineshapes.Spec.IsMomentum q s m1 m2) (hq1 : 0 < q) (hq0 : Lineshapes.Spec.IsMomentum q0 (mass * mass) m1 m2) (hq2 : 0 < q0)
    (hn : a ≠ 0 ∨ 2 + a * r * q ^ 2 ≠ 0) (hw : width ≠ 0 ∨ s ≠ mass * mass) :
    GLASS s (m1 ^ 2) (m2 ^ 2) mass width a r 0 0 1 1 = LASS .all s (m1 ^ 2) (m2 ^ 2) mass width a r := by
  have hr : 0 < √s := Real.sqrt_pos.2 hs
  have e := Lineshapes.Q2_of_momentum hs hq
  have e0 := Lineshapes.Q2_of_momentum (mul_pos hm hm) hq0
  have esq : safeSqrt (q ^ 2) = q := by unfold safeSqrt; rw [if_pos (by positivity), Real.sqrt_sq hq1.le]
  have p1 : 0 < Q2 s (m1 ^ 2) (m2 ^ 2) := by rw [e]; positivity
  have p2 : 0 < Q2 (mass * mass) (m1 ^ 2) (m2 ^ 2) := by rw [e0]; positivity
  obtain ⟨hu, hx⟩ := Lineshapes.lass_nonzero s (m1 ^ 2) (m2 ^ 2) mass width a r hs hm p1 p2 (by rw [e]; exact hn) hw
  obtain ⟨f1, f2⟩ := Lineshapes.lass_parts s (m1 ^ 2) (m2 ^ 2) mass width a r _ _ _ _ hs hm p1 p2 rfl rfl rfl rfl hu hx
  have hrho : ((q / √s : ℝ) : ℂ) ≠ 0 := ofReal_ne_zero.2 (by positivity)
  have erho : Lineshapes.lassRho s (m1 ^ 2) (m2 ^ 2) = q / √s := by unfold Lineshapes.lassRho; rw [e, esq]
  have ey : mass * (width * (q / √s) / (√(q0 ^ 2) / mass)) = mass * swaveWidth mass width s q q0 := by
    rw [Real.sqrt_sq hq2.le]; unfold swaveWidth; field_simp
  rw [erho, e, esq] at f1
  rw [erho, e, esq, e0, ey] at f2
  refine mul_right_cancel₀ hrho ?_
  rw [glass_parts s m1 m2 mass width a r 0 0 1 1 q q0 hs hm hq hq1 hq0 hq2, Lineshapes.lass_sum, mul_comm (LASS _ _ _ _ _ _ _ _ + _), mul_add ((q / √s : ℝ) : ℂ), f1, f2]
  simp [sq]

/-- A phase of 180 degrees for the production of the resonance leaves the amplitude documented as it is, but changes the sign of that computed, at every
mass. -/
theorem glass_phase_counterexample (s m1 m2 mass width a r phiF q q0 : ℝ) (hs : 0 < s) (hm : 0 < mass)
    (hq : Lineshapes.Spec.IsMomentum q s m1 m2) (hq1 : 0 < q) (hq0 : Lineshapes.Spec.IsMomentum q0 (mass * mass) m1 m2) (hq2 : 0 < q0)
    (hn : 2 + a * r * q ^ 2 ≠ 0) (hw : s ≠ mass ^ 2) (hg : width ≠ 0) :
    GLASS s (m1 ^ 2) (m2 ^ 2) mass width a r Real.pi phiF 1 0 =
      - (glass 1 0 (Real.pi + resonancePhase mass (swaveWidth mass width s q q0) s) (phiF + effectivePhase a r q) / (q / √s : ℝ)) ∧
    GLASS s (m1 ^ 2) (m2 ^ 2) mass width a r Real.pi phiF 1 0 ≠
      glass 1 0 (Real.pi + resonancePhase mass (swaveWidth mass width s q q0) s) (phiF + effectivePhase a r q) / (q / √s : ℝ) := by
  have hr : 0 < √s := Real.sqrt_pos.2 hs
  have hw' : mass ^ 2 - s ≠ 0 := sub_ne_zero.2 (Ne.symm hw)
  have hrho : ((q / √s : ℝ) : ℂ) ≠ 0 := ofReal_ne_zero.2 (by positivity)
  have h0 := glass_documented_partial s m1 m2 mass width a r phiF 1 0 q q0 hs hm hq hq1 hq0 hq2 hn hw
  have hpi : ∀ d f : ℝ, glass 1 0 (Real.pi + d) f = glass 1 0 d f := by
    intro d f
    unfold glass
    rw [add_comm Real.pi d, Real.sin_add_pi]
    push_cast
    rw [show I * ((d : ℂ) + Real.pi + 2 * f) = I * (d + 2 * f) + Real.pi * I by ring, exp_add, exp_pi_mul_I]
    ring
  have hneg : GLASS s (m1 ^ 2) (m2 ^ 2) mass width a r Real.pi phiF 1 0 = - GLASS s (m1 ^ 2) (m2 ^ 2) mass width a r 0 phiF 1 0 := by
    refine mul_right_cancel₀ hrho ?_
    rw [neg_mul, glass_parts s m1 m2 mass width a r Real.pi phiF 1 0 q q0 hs hm hq hq1 hq0 hq2, glass_parts s m1 m2 mass width a r 0 phiF 1 0 q q0 hs hm hq hq1 hq0 hq2]
    rw [show I * ((Real.pi : ℂ) + 2 * phiF) = I * (((0 : ℝ) : ℂ) + 2 * phiF) + Real.pi * I by push_cast; ring, exp_add, exp_pi_mul_I]
    push_cast
    ring
  have h1 : GLASS s (m1 ^ 2) (m2 ^ 2) mass width a r Real.pi phiF 1 0 =
      - (glass 1 0 (Real.pi + resonancePhase mass (swaveWidth mass width s q q0) s) (phiF + effectivePhase a r q) / (q / √s : ℝ)) := by
    rw [hneg, h0, hpi]
  refine ⟨h1, ?_⟩
  rw [h1]
  intro h
  have hz := self_eq_neg.1 h.symm
  rw [hpi, div_eq_zero_iff, or_iff_left hrho] at hz
  unfold glass at hz
  simp only [ofReal_one, one_mul, ofReal_zero, zero_mul, add_zero, mul_eq_zero, exp_ne_zero, or_false, ofReal_eq_zero] at hz
  unfold resonancePhase at hz
  rw [Real.sin_arctan, div_eq_zero_iff] at hz
  rcases hz with hz | hz
  · have : mass * swaveWidth mass width s q q0 ≠ 0 := by unfold swaveWidth; positivity
    exact div_ne_zero this hw' hz
  · exact absurd hz (Real.sqrt_pos.2 (by positivity)).ne'

/-- The phases are documented in degrees and used as radians: a full turn of the phase of the background changes the amplitude, at every mass. -/
theorem glass_degrees_counterexample (s m1 m2 mass width a r F q q0 : ℝ) (hs : 0 < s) (hm : 0 < mass)
    (hq : Lineshapes.Spec.IsMomentum q s m1 m2) (hq1 : 0 < q) (hq0 : Lineshapes.Spec.IsMomentum q0 (mass * mass) m1 m2) (hq2 : 0 < q0)
    (hn : 2 + a * r * q ^ 2 ≠ 0) (hF : F ≠ 0) :
    GLASS s (m1 ^ 2) (m2 ^ 2) mass width a r 0 360 0 F ≠ GLASS s (m1 ^ 2) (m2 ^ 2) mass width a r 0 0 0 F := by
  intro h
  have h2 := congrArg (· * ((q / √s : ℝ) : ℂ)) h
  simp only [glass_parts s m1 m2 mass width a r _ _ 0 F q q0 hs hm hq hq1 hq0 hq2] at h2
  rw [sine_shifted 360 hn, sine_shifted 0 hn, ofReal_sin, ofReal_sin, sin_mul_exp, sin_mul_exp] at h2
  have hFc : (F : ℂ) ≠ 0 := ofReal_ne_zero.2 hF
  have hI := I_ne_zero
  simp only [ofReal_zero, zero_mul, add_zero, zero_add] at h2
  have h3 := mul_left_cancel₀ hFc h2
  rw [div_left_inj' (by simp), sub_left_inj, ofReal_add, mul_add, mul_add, exp_add] at h3
  have h4 := mul_eq_right₀ (exp_ne_zero (2 * (I * (Real.arctan (2 * a * q / (2 + a * r * q ^ 2)) : ℝ)))) |>.1 h3
  rw [exp_eq_one_iff] at h4
  obtain ⟨n, hn⟩ := h4
  have h5 : (720 : ℝ) = n * (2 * Real.pi) := by
    have := congrArg im hn
    simp at this
    linarith
  have hn0 : (n : ℝ) ≠ 0 := by intro h0; rw [h0] at h5; norm_num at h5
  apply irrational_pi
  refine ⟨360 / n, ?_⟩
  push_cast
  field_simp
  linarith

example : Lineshapes.Spec.IsMomentum 3 (10 * 10) 4 4 := ⟨by norm_num, by
  rw [show (3 : ℝ) ^ 2 + 4 ^ 2 = 5 * 5 by norm_num, Real.sqrt_mul_self (by norm_num), Real.sqrt_mul_self (by norm_num)]; norm_num⟩

end AmpGen.Shapes
