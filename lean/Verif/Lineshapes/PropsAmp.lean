import Verif.Lineshapes.Props
import Mathlib.Analysis.SpecialFunctions.Complex.Arctan
import Mathlib.Analysis.Complex.Trigonometric
import Mathlib.Tactic.Module
/-
Theorems about resonance amplitudes.
-/
namespace AmpGen.Lineshapes
open Spec Complex

/-- The propagator in real and imaginary part. -/
theorem propagator_parts (m s g : ℝ) :
    ((1 : ℂ) / ((m : ℂ) * m - s - I * m * g)).re = (m * m - s) / ((m * m - s) ^ 2 + (m * g) ^ 2) ∧
    ((1 : ℂ) / ((m : ℂ) * m - s - I * m * g)).im = (m * g) / ((m * m - s) ^ 2 + (m * g) ^ 2) := by
  have e : normSq ((m : ℂ) * m - s - I * m * g) = (m * m - s) ^ 2 + (m * g) ^ 2 := by
    rw [normSq_apply]; simp; ring
  rw [one_div, inv_re, inv_im, e]
  constructor
  · congr 1; simp
  · congr 1; simp

/-- The simple Breit-Wigner: its phase goes through 90 degrees at the mass, its size is largest there, and its square has
dropped to one half at a distance of mass times width. -/
theorem sbw_peak (s mass width : ℝ) (hm : 0 < mass) (hw : 0 < width) :
    (SBW (mass * mass) mass width).re = 0 ∧ 0 < (SBW (mass * mass) mass width).im ∧
      normSq (SBW s mass width) ≤ normSq (SBW (mass * mass) mass width) ∧
      (normSq (SBW s mass width) = normSq (SBW (mass * mass) mass width) / 2 ↔ |s - mass * mass| = mass * width) := by
  have hk : 0 < kFactor mass width := by
    unfold kFactor
    have : 0 < Real.pi := Real.pi_pos
    positivity
  obtain ⟨k, hkk⟩ : ∃ k, kFactor mass width = k := ⟨_, rfl⟩
  rw [hkk] at hk
  have hn : ∀ s, normSq (SBW s mass width) = k ^ 2 / ((mass * mass - s) ^ 2 + (mass * width) ^ 2) := by
    intro s
    have e : normSq ((mass : ℂ) * mass - s - I * mass * width) = (mass * mass - s) ^ 2 + (mass * width) ^ 2 := by
      rw [normSq_apply]; simp; ring
    unfold SBW
    rw [hkk, normSq_mul, normSq_div, e, normSq_ofReal, normSq_one]
    ring
  have hmw : 0 < (mass * width) ^ 2 := by positivity
  have hp := propagator_parts mass (mass * mass) width
  refine ⟨?_, ?_, ?_, ?_⟩
  · unfold SBW
    rw [hkk, re_ofReal_mul, hp.1]; simp
  · unfold SBW
    rw [hkk, im_ofReal_mul, hp.2]
    have : 0 < (mass * mass - mass * mass) ^ 2 + (mass * width) ^ 2 := by nlinarith
    positivity
  · rw [hn, hn]
    apply div_le_div_of_nonneg_left (by positivity) (by nlinarith)
    nlinarith [sq_nonneg (mass * mass - s)]
  · rw [hn, hn]
    have h1 : 0 < (mass * mass - s) ^ 2 + (mass * width) ^ 2 := by nlinarith [sq_nonneg (mass * mass - s)]
    have h2 : (mass * mass - mass * mass) ^ 2 + (mass * width) ^ 2 = (mass * width) ^ 2 := by ring
    rw [h2, div_div, div_eq_div_iff h1.ne' (by positivity)]
    have hk2 : k ^ 2 ≠ 0 := by positivity
    rw [mul_right_inj' hk2]
    constructor
    · intro h
      have h3 : (s - mass * mass) ^ 2 = (mass * width) ^ 2 := by linarith [sq_nonneg (mass * mass - s), show (mass * mass - s) ^ 2 = (s - mass * mass) ^ 2 by ring]
      rw [← sq_abs] at h3
      exact (sq_eq_sq₀ (abs_nonneg _) (by positivity)).1 h3
    · intro h
      have h3 : (s - mass * mass) ^ 2 = (mass * width) ^ 2 := by rw [← sq_abs, h]
      linarith [show (mass * mass - s) ^ 2 = (s - mass * mass) ^ 2 by ring]

example : normSq (SBW (4 + 2 * 0.5) 2 0.5) = normSq (SBW (2 * 2) 2 0.5) / 2 :=
  (sbw_peak _ 2 0.5 (by norm_num) (by norm_num)).2.2.2.2 (by norm_num [abs_of_pos])

/-- The Breit-Wigner with a running width, for every modifier, every orbital angular momentum and every event: it is purely imaginary
at the nominal mass; its real part has the sign of `m² - s` and its imaginary part that of the width; the tangent of its phase is
`m Γ(s) / (m² - s)`. -/
theorem bw_phase (mod : Modifier) (s s1 s2 mass width radius : ℝ) (L : ℕ) :
    (BW mod (mass * mass) s1 s2 mass width radius L).re = 0 ∧
    0 ≤ (BW mod s s1 s2 mass width radius L).re * (mass * mass - s) ∧
    0 ≤ (BW mod s s1 s2 mass width radius L).im * (mass * runningWidth s s1 s2 mass width radius L) ∧
    (BW mod s s1 s2 mass width radius L).im * (mass * mass - s) =
      (BW mod s s1 s2 mass width radius L).re * (mass * runningWidth s s1 s2 mass width radius L) := by
  have main : ∀ s, ∃ N : ℝ, 0 ≤ N ∧ BW mod s s1 s2 mass width radius L =
      (N : ℂ) * (1 / ((mass : ℂ) * mass - s - I * mass * runningWidth s s1 s2 mass width radius L)) := by
    intro s
    have hff : 0 ≤ formFactor mod s s1 s2 mass radius L := by
      unfold formFactor
      cases mod <;> simp only <;> first | exact Real.sqrt_nonneg _ | exact zero_le_one
    unfold BW
    by_cases h : mod = .BELLE2018
    · refine ⟨_, hff, ?_⟩
      simp only [if_pos h]
      rw [mul_one_div]
    · refine ⟨kFactor mass width * formFactor mod s s1 s2 mass radius L, mul_nonneg (Real.sqrt_nonneg _) hff, ?_⟩
      simp only [if_neg h]
      rw [mul_one_div, ofReal_mul, mul_div_assoc]
  refine ⟨?_, ?_⟩
  · obtain ⟨N, _, hN⟩ := main (mass * mass)
    rw [hN, re_ofReal_mul, (propagator_parts mass (mass * mass) _).1]; simp
  · obtain ⟨N, h0, hN⟩ := main s
    obtain ⟨hr, hi⟩ := propagator_parts mass s (runningWidth s s1 s2 mass width radius L)
    rw [hN, re_ofReal_mul, im_ofReal_mul, hr, hi]
    generalize runningWidth s s1 s2 mass width radius L = g
    have hd : 0 ≤ (mass * mass - s) ^ 2 + (mass * g) ^ 2 := by positivity
    generalize hD : (mass * mass - s) ^ 2 + (mass * g) ^ 2 = D at *
    refine ⟨?_, ?_, ?_⟩
    · rw [show N * ((mass * mass - s) / D) * (mass * mass - s) = N * ((mass * mass - s) ^ 2 / D) by ring]
      positivity
    · rw [show N * (mass * g / D) * (mass * g) = N * ((mass * g) ^ 2 / D) by ring]
      positivity
    · ring

/-- With the modifier `BELLE2018`, which leaves out the factor of normalisation, the value at the nominal mass is `i/(m Γ)`. -/
theorem bw_belle_peak (m1 m2 mass width radius q0 : ℝ) (L : ℕ) (hL : L ≤ 4) (hm : 0 < mass) (hw : 0 < width)
    (hq0 : IsMomentum q0 (mass * mass) m1 m2) (hp0 : 0 < q0) :
    BW .BELLE2018 (mass * mass) (m1 ^ 2) (m2 ^ 2) mass width radius L = I / (mass * width) := by
  unfold BW
  simp only [if_true]
  rw [width_at_mass L hL m1 m2 mass width radius q0 hm hq0 hp0]
  have hf : formFactor .BELLE2018 (mass * mass) (m1 ^ 2) (m2 ^ 2) mass radius L = 1 := by
    unfold formFactor
    simp only
    rw [barrier_at_reference L hL _ (by rw [mul_assoc]; exact mul_nonneg (abs_nonneg _) (mul_self_nonneg _)), Real.sqrt_one]
  rw [hf]
  have hm' : (mass : ℂ) ≠ 0 := ofReal_ne_zero.2 hm.ne'
  have hw' : (width : ℂ) ≠ 0 := ofReal_ne_zero.2 hw.ne'
  push_cast
  rw [sub_self, zero_sub, div_eq_div_iff (by simp [hm', hw']) (by simp [hm', hw'])]
  linear_combination ((mass : ℂ) * width) * I_sq

example : BW .BELLE2018 (2 * 2) (0 ^ 2) (0 ^ 2) 2 0.5 1 4 = I / ((2 : ℝ) * (0.5 : ℝ)) :=
  bw_belle_peak 0 0 2 0.5 1 1 4 le_rfl (by norm_num) (by norm_num)
    ⟨by norm_num, by rw [Real.sqrt_mul_self (by norm_num)]; norm_num⟩ (by norm_num)

/-! ### The LASS amplitude -/

theorem exp_two_arctan (t : ℝ) : exp (2 * (I * (Real.arctan t : ℂ))) = (1 + I * t) / (1 - I * t) := by
  have h0 : (1 : ℂ) - I * t ≠ 0 := by
    intro h
    have := congrArg re h
    simp at this
  rw [show 2 * (I * (Real.arctan t : ℂ)) = (Real.arctan t : ℂ) * I + (Real.arctan t : ℂ) * I by ring, exp_add, exp_mul_I,
    ← ofReal_cos, ← ofReal_sin, Real.cos_arctan, Real.sin_arctan, eq_div_iff h0]
  have hs : (0 : ℝ) < √(1 + t ^ 2) := Real.sqrt_pos.2 (by positivity)
  have h2 : ((√(1 + t ^ 2) : ℝ) : ℂ) ^ 2 = 1 + (t : ℂ) ^ 2 := by
    rw [← ofReal_pow, Real.sq_sqrt (by positivity)]; push_cast; ring
  have h3 : ((√(1 + t ^ 2) : ℝ) : ℂ) ≠ 0 := ofReal_ne_zero.2 hs.ne'
  push_cast
  generalize ((√(1 + t ^ 2) : ℝ) : ℂ) = w at *
  have e : (1 / w + (t : ℂ) / w * I) * (1 / w + (t : ℂ) / w * I) * (1 - I * t) = (1 + I * t) * ((1 - (t:ℂ)^2 * I ^ 2) / w ^ 2) := by
    field_simp; ring
  rw [e, I_sq, h2]
  have h4 : (1 : ℂ) + (t : ℂ) ^ 2 ≠ 0 := by rw [← h2]; exact pow_ne_zero 2 h3
  rw [show (1 : ℂ) - (t : ℂ) ^ 2 * -1 = 1 + (t : ℂ) ^ 2 by ring, div_self h4, mul_one]

theorem sin_mul_exp (x : ℂ) : sin x * exp (I * x) = (exp (2 * (I * x)) - 1) / (2 * I) := by
  rw [Complex.sin, show 2 * (I * x) = x * I + x * I by ring, exp_add, show I * x = x * I by ring, show -x * I = -(x * I) by ring, exp_neg]
  have h := exp_ne_zero (x * I)
  field_simp
  rw [I_sq]; ring

theorem sub_I_ne {u v : ℝ} (h : u ^ 2 + v ^ 2 ≠ 0) : (u : ℂ) - I * v ≠ 0 := by
  intro h0
  have h1 := congrArg re h0
  have h2 := congrArg im h0
  simp at h1 h2
  exact h (by rw [h1, h2]; norm_num)

theorem lass_algebra (u v x y : ℝ) (hu : u ^ 2 + v ^ 2 ≠ 0) (hx : x ^ 2 + y ^ 2 ≠ 0) :
    (v : ℂ) / (u - I * v) + y / (x - I * y) * ((u + I * v) / (u - I * v)) =
      ((u + I * v) / (u - I * v) * ((x + I * y) / (x - I * y)) - 1) / (2 * I) := by
  have h1 := sub_I_ne hu
  have h2 := sub_I_ne hx
  have hI := I_ne_zero
  rw [show (u : ℂ) + I * v = (u - I * v) + 2 * I * v by ring, show (x : ℂ) + I * y = (x - I * y) + 2 * I * y by ring]
  generalize (u : ℂ) - I * v = V at *
  generalize (x : ℂ) - I * y = X at *
  field_simp
  ring

/-- The parts of the amplitude times the phase space. -/
theorem lass_parts (s s1 s2 mass width a r u v x y : ℝ) (hs : 0 < s) (hm : 0 < mass) (hq : 0 < Q2 s s1 s2) (hq0 : 0 < Q2 (mass * mass) s1 s2)
    (eu : u = 2 + a * r * Q2 s s1 s2) (ev : v = 2 * a * safeSqrt (Q2 s s1 s2)) (ex : x = mass * mass - s)
    (ey : y = mass * (width * (safeSqrt (Q2 s s1 s2) / √s) / (√(Q2 (mass * mass) s1 s2) / mass)))
    (hu : u ^ 2 + v ^ 2 ≠ 0) (hx : x ^ 2 + y ^ 2 ≠ 0) :
    (lassRho s s1 s2 : ℂ) * LASS .nr s s1 s2 mass width a r = v / (u - I * v) ∧
    (lassRho s s1 s2 : ℂ) * LASS .bw s s1 s2 mass width a r = y / (x - I * y) * ((u + I * v) / (u - I * v)) := by
  have hqq : safeSqrt (Q2 s s1 s2) * safeSqrt (Q2 s s1 s2) = Q2 s s1 s2 := by
    unfold safeSqrt; rw [if_pos hq]; exact Real.mul_self_sqrt hq.le
  have h1 : ((√s : ℝ) : ℂ) ≠ 0 := ofReal_ne_zero.2 (Real.sqrt_pos.2 hs).ne'
  have h2 : ((√(Q2 (mass * mass) s1 s2) : ℝ) : ℂ) ≠ 0 := ofReal_ne_zero.2 (Real.sqrt_pos.2 hq0).ne'
  have h3 : (mass : ℂ) ≠ 0 := ofReal_ne_zero.2 hm.ne'
  have h4 := sub_I_ne hu
  have h5 := sub_I_ne hx
  unfold LASS lassRho
  simp only
  have ey' : (width : ℝ) * (safeSqrt (Q2 s s1 s2) / √s) / (√(Q2 (mass * mass) s1 s2) / mass) = y / mass := by
    rw [ey]; field_simp
  rw [ey']
  have ey2 : (y : ℂ) = mass * (width * ((safeSqrt (Q2 s s1 s2) : ℝ) / (√s : ℝ)) / ((√(Q2 (mass * mass) s1 s2) : ℝ) / mass)) := by
    rw [ey]; push_cast; rfl
  generalize hQ : Q2 s s1 s2 = Q at *
  generalize safeSqrt Q = q at *
  generalize √s = R at *
  generalize √(Q2 (mass * mass) s1 s2) = R0 at *
  have ed : (2 : ℂ) + (a : ℂ) * r * q * q - 2 * I * a * q = u - I * v := by
    rw [eu, ev, ← hqq]; push_cast; ring
  have ed' : (2 : ℂ) + (a : ℂ) * r * Q - I * 2 * a * q = u - I * v := by
    rw [eu, ev]; push_cast; ring
  have en : (2 : ℂ) + (a : ℂ) * r * Q + I * 2 * a * q = u + I * v := by
    rw [eu, ev]; push_cast; ring
  have eX : ((mass * mass : ℝ) : ℂ) - s - I * mass * ((y / mass : ℝ) : ℂ) = x - I * y := by
    rw [ex]; push_cast; field_simp
  rw [ed, ed', en, eX]
  constructor
  · rw [ev]; push_cast
    have h4' : (u : ℂ) - I * (2 * a * q) ≠ 0 := by rw [ev] at h4; push_cast at h4; exact h4
    field_simp
  · rw [← mul_assoc]
    congr 1
    rw [mul_div_assoc', eq_comm, div_eq_div_iff h5 (by push_cast; positivity), ey2]
    push_cast
    field_simp

theorem lass_nonzero (s s1 s2 mass width a r : ℝ) (hs : 0 < s) (hm : 0 < mass) (hq : 0 < Q2 s s1 s2) (hq0 : 0 < Q2 (mass * mass) s1 s2)
    (hn : a ≠ 0 ∨ 2 + a * r * Q2 s s1 s2 ≠ 0) (hw : width ≠ 0 ∨ s ≠ mass * mass) :
    (2 + a * r * Q2 s s1 s2) ^ 2 + (2 * a * safeSqrt (Q2 s s1 s2)) ^ 2 ≠ 0 ∧
    (mass * mass - s) ^ 2 + (mass * (width * (safeSqrt (Q2 s s1 s2) / √s) / (√(Q2 (mass * mass) s1 s2) / mass))) ^ 2 ≠ 0 := by
  have hsafe : 0 < safeSqrt (Q2 s s1 s2) := by
    unfold safeSqrt; rw [if_pos hq]; exact Real.sqrt_pos.2 hq
  constructor
  · rcases hn with h | h
    · have : 0 < (2 * a * safeSqrt (Q2 s s1 s2)) ^ 2 := by positivity
      positivity
    · have : 0 < (2 + a * r * Q2 s s1 s2) ^ 2 := by positivity
      positivity
  · have h1 : 0 < √s := Real.sqrt_pos.2 hs
    have h2 : 0 < √(Q2 (mass * mass) s1 s2) := Real.sqrt_pos.2 hq0
    rcases hw with h | h
    · have : 0 < (mass * (width * (safeSqrt (Q2 s s1 s2) / √s) / (√(Q2 (mass * mass) s1 s2) / mass))) ^ 2 := by positivity
      positivity
    · have : 0 < (mass * mass - s) ^ 2 := by
        have : mass * mass - s ≠ 0 := sub_ne_zero.2 (Ne.symm h)
        positivity
      positivity

theorem lass_sum (s s1 s2 mass width a r : ℝ) :
    LASS .all s s1 s2 mass width a r = LASS .nr s s1 s2 mass width a r + LASS .bw s s1 s2 mass width a r := rfl

/-- The LASS amplitude is elastic: times the phase space its imaginary part is its square, at every mass above threshold. -/
theorem lass_unitary (s s1 s2 mass width a r : ℝ) (hs : 0 < s) (hm : 0 < mass) (hq : 0 < Q2 s s1 s2) (hq0 : 0 < Q2 (mass * mass) s1 s2)
    (hn : a ≠ 0 ∨ 2 + a * r * Q2 s s1 s2 ≠ 0) (hw : width ≠ 0 ∨ s ≠ mass * mass) :
    ((lassRho s s1 s2 : ℂ) * LASS .all s s1 s2 mass width a r).im =
      normSq ((lassRho s s1 s2 : ℂ) * LASS .all s s1 s2 mass width a r) := by
  obtain ⟨hu, hx⟩ := lass_nonzero s s1 s2 mass width a r hs hm hq hq0 hn hw
  obtain ⟨e1, e2⟩ := lass_parts s s1 s2 mass width a r _ _ _ _ hs hm hq hq0 rfl rfl rfl rfl hu hx
  rw [lass_sum, mul_add, e1, e2, lass_algebra _ _ _ _ hu hx]
  generalize 2 + a * r * Q2 s s1 s2 = u at *
  generalize 2 * a * safeSqrt (Q2 s s1 s2) = v at *
  generalize mass * mass - s = x at *
  generalize mass * (width * (safeSqrt (Q2 s s1 s2) / √s) / (√(Q2 (mass * mass) s1 s2) / mass)) = y at *
  obtain ⟨W, hW⟩ : ∃ W : ℂ, ((u : ℂ) + I * v) / (u - I * v) * ((x + I * y) / (x - I * y)) = W := ⟨_, rfl⟩
  have hN : normSq W = 1 := by
    have k : ∀ p q : ℝ, p ^ 2 + q ^ 2 ≠ 0 → normSq (((p : ℂ) + I * q) / (p - I * q)) = 1 := by
      intro p q h
      have e3 : normSq ((p : ℂ) + I * q) = p ^ 2 + q ^ 2 := by rw [normSq_apply]; simp; ring
      have e4 : normSq ((p : ℂ) - I * q) = p ^ 2 + q ^ 2 := by rw [normSq_apply]; simp; ring
      rw [normSq_div, e3, e4, div_self h]
    rw [← hW, normSq_mul, k u v hu, k x y hx, one_mul]
  rw [hW]
  have e5 : (W - 1) / (2 * I) = -(I / 2) * (W - 1) := by
    have hI := I_ne_zero
    field_simp
    rw [I_sq]; ring
  rw [normSq_apply] at hN
  rw [e5, normSq_apply]
  simp
  linarith

/-- It is `sin δ exp(iδ)` over the phase space, where `δ` is the sum of the phase of the effective range and of the phase of the
resonance, and it is the sum of the two parts the modifiers `NR` and `BW` give. -/
theorem lass_phase (s s1 s2 mass width a r : ℝ) (hs : 0 < s) (hm : 0 < mass) (hq : 0 < Q2 s s1 s2) (hq0 : 0 < Q2 (mass * mass) s1 s2)
    (hn : 2 + a * r * Q2 s s1 s2 ≠ 0) (hw : s ≠ mass * mass) :
    LASS .all s s1 s2 mass width a r =
        sin (lassPhase s s1 s2 mass width a r) * exp (I * lassPhase s s1 s2 mass width a r) / (lassRho s s1 s2) ∧
      LASS .all s s1 s2 mass width a r = LASS .nr s s1 s2 mass width a r + LASS .bw s s1 s2 mass width a r := by
  refine ⟨?_, rfl⟩
  obtain ⟨hu, hx⟩ := lass_nonzero s s1 s2 mass width a r hs hm hq hq0 (Or.inr hn) (Or.inr hw)
  obtain ⟨e1, e2⟩ := lass_parts s s1 s2 mass width a r _ _ _ _ hs hm hq hq0 rfl rfl rfl rfl hu hx
  have hrho : (lassRho s s1 s2 : ℂ) ≠ 0 := by
    unfold lassRho safeSqrt
    rw [if_pos hq]
    exact ofReal_ne_zero.2 (div_pos (Real.sqrt_pos.2 hq) (Real.sqrt_pos.2 hs)).ne'
  rw [eq_div_iff hrho, mul_comm, lass_sum, mul_add, e1, e2, lass_algebra _ _ _ _ hu hx, sin_mul_exp]
  congr 2
  have ephase : lassPhase s s1 s2 mass width a r =
      Real.arctan (2 * a * safeSqrt (Q2 s s1 s2) / (2 + a * r * Q2 s s1 s2)) +
      Real.arctan (mass * (width * (safeSqrt (Q2 s s1 s2) / √s) / (√(Q2 (mass * mass) s1 s2) / mass)) / (mass * mass - s)) := rfl
  rw [ephase]
  have hw' : mass * mass - s ≠ 0 := sub_ne_zero.2 (Ne.symm hw)
  clear ephase e1 e2
  generalize 2 + a * r * Q2 s s1 s2 = u at *
  generalize 2 * a * safeSqrt (Q2 s s1 s2) = v at *
  generalize mass * mass - s = x at *
  generalize mass * (width * (safeSqrt (Q2 s s1 s2) / √s) / (√(Q2 (mass * mass) s1 s2) / mass)) = y at *
  rw [ofReal_add, mul_add, mul_add, exp_add, exp_two_arctan, exp_two_arctan]
  have k : ∀ p q : ℝ, p ≠ 0 → ((p : ℂ) + I * q) / (p - I * q) = (1 + I * ((q / p : ℝ) : ℂ)) / (1 - I * ((q / p : ℝ) : ℂ)) := by
    intro p q hp
    have hp' : (p : ℂ) ≠ 0 := ofReal_ne_zero.2 hp
    have e3 : (p : ℂ) + I * q = p * (1 + I * ((q / p : ℝ) : ℂ)) := by push_cast; field_simp
    have e4 : (p : ℂ) - I * q = p * (1 - I * ((q / p : ℝ) : ℂ)) := by push_cast; field_simp
    rw [e3, e4, mul_div_mul_left _ _ hp']
  rw [k u v hn, k x y hw']

/-- The hypotheses hold for a resonance well above threshold. -/
example : LASS .all 4 0 0 1 0.5 2 3 =
    sin (lassPhase 4 0 0 1 0.5 2 3) * exp (I * lassPhase 4 0 0 1 0.5 2 3) / (lassRho 4 0 0) :=
  (lass_phase 4 0 0 1 0.5 2 3 (by norm_num) (by norm_num) (by unfold Q2; norm_num) (by unfold Q2; norm_num)
    (by unfold Q2; norm_num) (by norm_num)).1

end AmpGen.Lineshapes
