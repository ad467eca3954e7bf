import Verif.Shapes.Lemmas
import Verif.Lineshapes.PropsAmp
/-
Properties of the phase spaces, and of the resonances with several channels made of them.
-/
namespace AmpGen.Shapes

open Complex Spec
open AmpGen.Lineshapes (Q2 blattWeisskopf blattWeisskopfNorm kFactor)

/-- The function of Källén, factorised. -/
theorem kallen (s m1 m2 : ℝ) : s * s + (m1 * m1) * (m1 * m1) + (m2 * m2) * (m2 * m2) - 2 * s * (m1 * m1) - 2 * s * (m2 * m2) - 2 * (m1 * m1) * (m2 * m2) =
    (s - (m1 + m2) ^ 2) * (s - (m1 - m2) ^ 2) := by ring

theorem sqrt_kallen {s m1 m2 : ℝ} (hs : 0 < s) (hp : (m1 - m2) ^ 2 < s) : √((s - (m1 + m2) ^ 2) * (s - (m1 - m2) ^ 2)) = phsp s m1 m2 * s := by
  unfold phsp
  split
  · field_simp
  · next h => rw [Real.sqrt_eq_zero_of_nonpos (mul_nonpos_of_nonpos_of_nonneg (by linarith) (by linarith)), zero_mul]

theorem rhoTwoBody_re {s m1 m2 : ℝ} (hs : 0 < s) (hp : (m1 - m2) ^ 2 < s) : (rhoTwoBody s (m1 * m1) (m2 * m2)).re = phsp s m1 m2 / (16 * Real.pi) := by
  unfold rhoTwoBody Hr
  have e : (16 : ℂ) * Real.pi * s = ((16 * Real.pi * s : ℝ) : ℂ) := by push_cast; ring
  have hpi := Real.pi_pos
  rw [e, div_ofReal_re, complexSqrt_re, show s * s + (m1 * m1) * (m1 * m1) + (m2 * m2) * (m2 * m2) - 2 * s * (m1 * m1) - 2 * s * (m2 * m2) - 2 * (m2 * m2) * (m1 * m1) =
    (s - (m1 + m2) ^ 2) * (s - (m1 - m2) ^ 2) by ring, sqrt_kallen hs hp]
  field_simp

/-- The phase space of a channel is that of two bodies over `16 π` times the barrier factor, and closed below threshold. -/
theorem phase_space_default_partial (s m1 m2 radius q : ℝ) (l : ℕ) (hs : 0 < s) (hp : (m1 - m2) ^ 2 < s)
    (hq : Lineshapes.Spec.IsMomentum q s m1 m2 ∨ s < (m1 + m2) ^ 2 ∧ q = 0) :
    (phaseSpace .default s m1 m2 radius l).re = phsp s m1 m2 / (16 * Real.pi) * blattWeisskopf ((q * radius) ^ 2) l := by
  unfold phaseSpace
  simp only
  rw [re_mul_ofReal, rhoTwoBody_re hs hp]
  congr 2
  rcases hq with hq | ⟨hq, rfl⟩
  · have e := Lineshapes.Q2_of_momentum hs hq
    rw [show m1 * m1 = m1 ^ 2 by ring, show m2 * m2 = m2 ^ 2 by ring, e]
    split
    · ring
    · next h =>
      have : q ^ 2 = 0 := le_antisymm (by linarith) (sq_nonneg q)
      rw [mul_pow, this]; ring
  · have : ¬ Q2 s (m1 * m1) (m2 * m2) > 0 := by
      have e : Q2 s (m1 * m1) (m2 * m2) = (s - (m1 + m2) ^ 2) * (s - (m1 - m2) ^ 2) / (4 * s) := by unfold Q2; field_simp; ring
      rw [e, not_lt]
      exact div_nonpos_of_nonpos_of_nonneg (mul_nonpos_of_nonpos_of_nonneg (by linarith) (by linarith)) (by linarith)
    rw [if_neg this]; ring

/-- Below the difference of the masses the channel is closed, but it has a phase space. -/
theorem phase_space_default_counterexample (s m1 m2 radius : ℝ) (hs : 0 < s) (h1 : 0 < m1) (h2 : 0 < m2) (hp : s < (m1 - m2) ^ 2) :
    0 < (phaseSpace .default s m1 m2 radius 0).re ∧ phsp s m1 m2 = 0 := by
  constructor
  · unfold phaseSpace rhoTwoBody Hr
    simp only
    have e : (16 : ℂ) * Real.pi * s = ((16 * Real.pi * s : ℝ) : ℂ) := by push_cast; ring
    have hpi := Real.pi_pos
    rw [re_mul_ofReal, e, div_ofReal_re, complexSqrt_re, show s * s + (m1 * m1) * (m1 * m1) + (m2 * m2) * (m2 * m2) - 2 * s * (m1 * m1) - 2 * s * (m2 * m2) - 2 * (m2 * m2) * (m1 * m1) =
      ((m1 + m2) ^ 2 - s) * ((m1 - m2) ^ 2 - s) by ring]
    have h12 := mul_pos h1 h2
    have a1 : 0 < (m1 + m2) ^ 2 - s := by nlinarith
    have a2 : 0 < (m1 - m2) ^ 2 - s := by linarith
    have : 0 < √(((m1 + m2) ^ 2 - s) * ((m1 - m2) ^ 2 - s)) := Real.sqrt_pos.2 (mul_pos a1 a2)
    simp only [blattWeisskopf, mul_one]
    positivity
  · unfold phsp; rw [if_neg (by nlinarith [mul_pos h1 h2])]

example : ∃ s m1 m2 : ℝ, 0 < s ∧ (m1 - m2) ^ 2 < s ∧ (s < (m1 + m2) ^ 2 ∧ (0 : ℝ) = 0) := ⟨0.9, 0.5, 0.5, by norm_num⟩
example : ∃ s m1 m2 : ℝ, 0 < s ∧ 0 < m1 ∧ 0 < m2 ∧ s < (m1 - m2) ^ 2 := ⟨0.1, 0.14, 0.55, by norm_num⟩

/-- That of Chew and Mandelstam has the real part of the phase space of two bodies at every mass. -/
theorem phase_space_CM (s m1 m2 radius : ℝ) (hs : 0 < s) (h1 : 0 < m1) (h2 : 0 < m2) :
    (phaseSpace .CM s m1 m2 radius 0).re = phsp s m1 m2 / (16 * Real.pi) := by
  have hr : 0 < √s := Real.sqrt_pos.2 hs
  have hr2 : √s ^ 2 = s := Real.sq_sqrt hs.le
  have hpi := Real.pi_pos
  have h12 := mul_pos h1 h2
  obtain ⟨q2, hq2⟩ : ∃ q2, (s * s + m1 * m1 * (m1 * m1) + m2 * m2 * (m2 * m2) - 2 * s * (m1 * m1) - 2 * s * (m2 * m2) - 2 * (m1 * m1) * (m2 * m2)) / (4 * s) = q2 := ⟨_, rfl⟩
  have ek : 4 * s * q2 = (s - (m1 + m2) ^ 2) * (s - (m1 - m2) ^ 2) := by rw [← hq2]; field_simp; ring
  -- the real part is decided by the imaginary part of `q log`
  have key : ∀ (q L : ℂ) (c : ℝ), ((2 * q * L / (√s : ℝ) - (c : ℂ)) / (16 * I * Real.pi * Real.pi)).re = 2 * (q * L).im / √s / (16 * Real.pi * Real.pi) := by
    intro q L c
    have e : (2 * q * L / (√s : ℝ) - (c : ℂ)) / (16 * I * Real.pi * Real.pi) = (-I) * ((2 * (q * L) / (√s : ℝ) - (c : ℂ)) / ((16 * Real.pi * Real.pi : ℝ) : ℂ)) := by
      push_cast
      have hI := I_ne_zero
      have hpc : (Real.pi : ℂ) ≠ 0 := ofReal_ne_zero.2 hpi.ne'
      field_simp
      rw [I_sq]; ring
    rw [e, mul_re, div_ofReal_re, div_ofReal_im]
    simp
  have ec : ∀ L : ℝ, ((((m1 * m1 : ℝ) : ℂ) - ((m2 * m2 : ℝ) : ℂ)) * (1 / (s : ℂ) - 1 / (((m1 + m2) * (m1 + m2) : ℝ) : ℂ)) * (L : ℂ)) =
      (((m1 * m1 - m2 * m2) * (1 / s - 1 / ((m1 + m2) * (m1 + m2))) * L : ℝ) : ℂ) := by intro L; push_cast; ring
  unfold phaseSpace
  simp only
  rw [hq2, ec, key]
  have hb : (2 : ℂ) * m1 * m2 = ((2 * m1 * m2 : ℝ) : ℂ) := by push_cast; ring
  rw [hb]
  by_cases hpos : q2 > 0
  · -- a real momentum
    have hq : complexSqrt q2 = ((√q2 : ℝ) : ℂ) := by unfold complexSqrt; rw [if_pos hpos]
    have earg : (((m1 * m1 : ℝ) : ℂ) + ((m2 * m2 : ℝ) : ℂ) - s + 2 * (√s : ℝ) * ((√q2 : ℝ) : ℂ)) / ((2 * m1 * m2 : ℝ) : ℂ) =
        (((m1 * m1 + m2 * m2 - s + 2 * √s * √q2) / (2 * m1 * m2) : ℝ) : ℂ) := by push_cast; ring
    have hprod : (2 * √s * √q2) ^ 2 = (s - m1 * m1 - m2 * m2) ^ 2 - (2 * m1 * m2) ^ 2 := by
      rw [mul_pow, mul_pow, hr2, Real.sq_sqrt hpos.le]; linear_combination ek
    have hn : 0 < 2 * √s * √q2 := by have := Real.sqrt_pos.2 hpos; positivity
    obtain ⟨t, ht⟩ : ∃ t, (m1 * m1 + m2 * m2 - s + 2 * √s * √q2) / (2 * m1 * m2) = t := ⟨_, rfl⟩
    rw [hq, earg, ht, im_ofReal_mul, log_im]
    have hmul : 0 < (s - (m1 + m2) ^ 2) * (s - (m1 - m2) ^ 2) := by rw [← ek]; positivity
    by_cases habove : (m1 + m2) ^ 2 < s
    · have hA : 0 < s - m1 * m1 - m2 * m2 := by nlinarith
      have hlt : 2 * √s * √q2 < s - m1 * m1 - m2 * m2 := by
        apply lt_of_pow_lt_pow_left₀ 2 hA.le
        rw [hprod]
        have : 0 < (2 * m1 * m2) ^ 2 := by positivity
        linarith
      have htn : t < 0 := by rw [← ht]; exact div_neg_of_neg_of_pos (by linarith) (by positivity)
      rw [arg_ofReal_of_neg htn]
      have e4 : √(4 * s * q2) = phsp s m1 m2 * s := by rw [ek]; exact sqrt_kallen hs (by nlinarith)
      have e5 : √(4 * s * q2) = 2 * √s * √q2 := by
        rw [Real.sqrt_mul (by positivity), Real.sqrt_mul (by norm_num), show (4 : ℝ) = 2 ^ 2 by norm_num, Real.sqrt_sq (by norm_num)]
      have e6 : √q2 = phsp s m1 m2 * √s / 2 := by
        rw [e5] at e4
        have : 2 * √s * √q2 = 2 * √s * (phsp s m1 m2 * √s / 2) := by rw [e4]; linear_combination (- phsp s m1 m2) * hr2
        exact mul_left_cancel₀ (by positivity) this
      rw [e6]
      field_simp
    · have hbelow : s < (m1 - m2) ^ 2 := by
        by_contra hc
        exact absurd hmul (not_lt.2 (mul_nonpos_of_nonpos_of_nonneg (by linarith) (by linarith)))
      have htp : 0 < t := by rw [← ht]; exact div_pos (by nlinarith) (by positivity)
      rw [arg_ofReal_of_nonneg htp.le]
      unfold phsp
      rw [if_neg habove]; simp
  · -- an imaginary momentum
    have hq : complexSqrt q2 = I * ((√(-q2) : ℝ) : ℂ) := by unfold complexSqrt; rw [if_neg hpos]
    have hmul : (s - (m1 + m2) ^ 2) * (s - (m1 - m2) ^ 2) ≤ 0 := by rw [← ek]; nlinarith
    have habove : ¬ (m1 + m2) ^ 2 < s := by
      intro h
      have : 0 < (s - (m1 + m2) ^ 2) * (s - (m1 - m2) ^ 2) := mul_pos (by linarith) (by nlinarith)
      linarith
    have hz : ‖(((m1 * m1 : ℝ) : ℂ) + ((m2 * m2 : ℝ) : ℂ) - s + 2 * (√s : ℝ) * (I * ((√(-q2) : ℝ) : ℂ))) / ((2 * m1 * m2 : ℝ) : ℂ)‖ = 1 := by
      have e : ((m1 * m1 : ℝ) : ℂ) + ((m2 * m2 : ℝ) : ℂ) - s + 2 * (√s : ℝ) * (I * ((√(-q2) : ℝ) : ℂ)) =
          ((m1 * m1 + m2 * m2 - s : ℝ) : ℂ) + ((2 * √s * √(-q2) : ℝ) : ℂ) * I := by push_cast; ring
      rw [e, norm_div, norm_add_mul_I, norm_real, Real.norm_of_nonneg (by positivity), mul_pow, mul_pow, hr2, Real.sq_sqrt (by linarith),
        show (m1 * m1 + m2 * m2 - s) ^ 2 + 2 ^ 2 * s * -q2 = (2 * m1 * m2) ^ 2 by linear_combination -ek, Real.sqrt_sq (by positivity), div_self (by positivity)]
    have hL : ∀ (x : ℝ) (L : ℂ), L.re = 0 → (I * (x : ℂ) * L).im = 0 := by intro x L h; simp [mul_im, h]
    rw [hq, hL _ _ (by rw [log_re, hz, Real.log_one])]
    unfold phsp
    rw [if_neg habove]; simp

/-- The parametrisation of Anisovich and Sarantsev is not divided by `16 π`. -/
theorem phase_space_AS_counterexample (s m1 m2 radius : ℝ) (l : ℕ) (hs : 0 < s) (h1 : 0 ≤ m1) (h2 : 0 ≤ m2) (hT : (m1 + m2) ^ 2 < s) :
    (phaseSpace .AS s m1 m2 radius l).re = phsp s m1 m2 ∧ (phaseSpace .AS s m1 m2 radius l).re ≠ phsp s m1 m2 / (16 * Real.pi) := by
  have hpp := phsp_pos hs h1 h2 hT
  have e : (phaseSpace .AS s m1 m2 radius l).re = phsp s m1 m2 := by
    unfold phaseSpace
    simp only
    have e1 : Q2 s (m1 * m1) (m2 * m2) / s = (s - (m1 + m2) ^ 2) * (s - (m1 - m2) ^ 2) / (2 * s) ^ 2 := by unfold Q2; field_simp; ring
    rw [show (2 : ℂ) = ((2 : ℝ) : ℂ) by norm_num, re_ofReal_mul, complexSqrt_re, e1, Real.sqrt_div' _ (by positivity), Real.sqrt_sq (by positivity),
      sqrt_kallen hs (by nlinarith [mul_nonneg h1 h2])]
    field_simp
  refine ⟨e, ?_⟩
  rw [e]
  have hpi := Real.two_le_pi
  intro h
  have h16 : 0 < 16 * Real.pi := by positivity
  rw [eq_div_iff h16.ne'] at h
  nlinarith

example : phaseSpace .AS 4 0.5 0.5 1 0 ≠ phaseSpace .default 4 0.5 0.5 1 0 := by
  intro h
  have h1 := phase_space_AS_counterexample 4 0.5 0.5 1 0 (by norm_num) (by norm_num) (by norm_num) (by norm_num)
  have h2 : (phaseSpace .default 4 0.5 0.5 1 0).re = phsp 4 0.5 0.5 / (16 * Real.pi) := by
    have := rhoTwoBody_re (s := 4) (m1 := 0.5) (m2 := 0.5) (by norm_num) (by norm_num)
    unfold phaseSpace blattWeisskopf
    simpa using this
  rw [h] at h1
  exact h1.2 h2

/-! ### The K-matrix -/

/-- The phase space of FOCUS and PALANO is that of two bodies. -/
theorem phsp_focus_partial (s m0 m1 : ℝ) (hs : 0 < s) (hp : (m0 - m1) ^ 2 < s) : (phspFOCUS s m0 m1).re = phsp s m0 m1 := by
  unfold phspFOCUS
  simp only
  rw [complexSqrt_re, show (1 - (m0 + m1) * (m0 + m1) / s) * (1 - (m0 - m1) * (m0 - m1) / s) = (s - (m0 + m1) ^ 2) * (s - (m0 - m1) ^ 2) / s ^ 2 by field_simp,
    Real.sqrt_div' _ (by positivity), Real.sqrt_sq hs.le, sqrt_kallen hs hp]
  field_simp

/-- That of the K-matrix is that of two bodies if they have the same mass. -/
theorem phsp_kmatrix_partial (s m : ℝ) (hs : 0 < s) : (phspTwoBody s m m).re = phsp s m m := by
  unfold phspTwoBody
  rw [complexSqrt_re, ← phsp_same hs]
  congr 2
  ring

/-- It is larger for any other pair above threshold. -/
theorem phsp_kmatrix_counterexample (s m1 m2 : ℝ) (h1 : 0 < m1) (h2 : 0 < m2) (hne : m1 ≠ m2) (hT : (m1 + m2) ^ 2 < s) :
    phsp s m1 m2 < (phspTwoBody s m1 m2).re := by
  have hs : 0 < s := lt_trans (by positivity) hT
  have h12 := mul_pos h1 h2
  have hd : 0 < (m1 - m2) ^ 2 := by have : m1 - m2 ≠ 0 := sub_ne_zero.2 hne; positivity
  unfold phspTwoBody phsp
  rw [if_pos hT, complexSqrt_re, div_lt_iff₀ hs]
  have e : √(1 - (m1 + m2) * (m1 + m2) / s) * s = √((s - (m1 + m2) ^ 2) * s) := by
    rw [show (s - (m1 + m2) ^ 2) * s = (1 - (m1 + m2) * (m1 + m2) / s) * s ^ 2 by field_simp, Real.sqrt_mul' _ (by positivity), Real.sqrt_sq hs.le]
  rw [e]
  have hm : s - (m1 - m2) ^ 2 > 0 := by nlinarith
  exact Real.sqrt_lt_sqrt (mul_nonneg (by linarith) hm.le) (mul_lt_mul_of_pos_left (by linarith) (by linarith))

/-- That of four pions is not continuous. -/
theorem phsp_fourpi_counterexample : ¬ ContinuousAt phspFourPi 1 := by
  intro h
  have h1 : phspFourPi 1 = ((0.82925 : ℝ) : ℂ) := by
    unfold phspFourPi Lineshapes.pol
    simp only [gt_iff_lt, lt_irrefl, if_false]
    norm_num
  have hc : ContinuousAt (fun s : ℝ => complexSqrt (1 - (2 * 0.139570 + 2 * 0.139570) * (2 * 0.139570 + 2 * 0.139570) / s)) 1 := by
    apply complexSqrt_continuous.continuousAt.comp
    fun_prop (disch := norm_num)
  have l1 := (h.tendsto.mono_left (nhdsWithin_le_nhds (s := Set.Ioi 1)))
  have l2 := (hc.tendsto.mono_left (nhdsWithin_le_nhds (s := Set.Ioi 1)))
  have l3 : Filter.Tendsto phspFourPi (nhdsWithin 1 (Set.Ioi 1)) (nhds (complexSqrt (1 - (2 * 0.139570 + 2 * 0.139570) * (2 * 0.139570 + 2 * 0.139570) / 1))) := by
    refine l2.congr' ?_
    filter_upwards [self_mem_nhdsWithin] with s hs
    unfold phspFourPi phspTwoBody
    simp only
    rw [if_pos (Set.mem_Ioi.1 hs)]
  have e := tendsto_nhds_unique l1 l3
  rw [h1] at e
  have e2 := congrArg re e
  rw [complexSqrt_re, ofReal_re] at e2
  have e3 := congrArg (· ^ 2) e2
  beta_reduce at e3
  rw [Real.sq_sqrt (by norm_num)] at e3
  norm_num at e3

example : phsp 4 0.5 1 < (phspTwoBody 4 0.5 1).re := phsp_kmatrix_counterexample 4 0.5 1 (by norm_num) (by norm_num) (by norm_num) (by norm_num)
example : (phspTwoBody 4 0.5 0.5).re = phsp 4 0.5 0.5 := phsp_kmatrix_partial 4 0.5 (by norm_num)

end AmpGen.Shapes
