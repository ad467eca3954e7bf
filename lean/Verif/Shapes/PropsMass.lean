import Verif.Shapes.Lemmas
import Verif.Lineshapes.PropsAmp
import Mathlib.Analysis.SpecialFunctions.Log.Deriv
import Mathlib.Analysis.SpecialFunctions.Sqrt
import Mathlib.Analysis.SpecialFunctions.Integrals.Basic
import Mathlib.MeasureTheory.Integral.IntegralEqImproper
import Mathlib.Analysis.SpecialFunctions.ImproperIntegrals
/-
Properties of the lineshapes with one resonance.
-/
namespace AmpGen.Shapes

open Complex Spec
open AmpGen.Lineshapes (Q2 kFactor blattWeisskopf blattWeisskopfNorm runningWidth safeSqrt SBW)

/-! ### Gounaris-Sakurai -/

theorem safeSqrt_eq (x : ℝ) : safeSqrt x = √x := by
  unfold safeSqrt
  split
  · rfl
  · next h => rw [Real.sqrt_eq_zero_of_nonpos (by linarith)]

theorem gsQ_eq (mpi s : ℝ) : gsQ mpi s = 2 * k mpi s := by
  unfold gsQ gsQ2 k
  rw [safeSqrt_eq, show s - 4 * mpi * mpi = 2 ^ 2 * (s / 4 - mpi ^ 2) by ring, Real.sqrt_mul (by norm_num), Real.sqrt_sq (by norm_num)]

theorem logTerm_eq (mpi s : ℝ) : logTerm mpi s = Real.log ((√s + 2 * k mpi s) / (2 * mpi)) := by
  have := gsQ_eq mpi s
  unfold gsQ at this
  unfold logTerm
  rw [this]

theorem k_pos {mpi s : ℝ} (h : 4 * mpi ^ 2 < s) : 0 < k mpi s := Real.sqrt_pos.2 (by linarith)
theorem k_sq {mpi s : ℝ} (h : 4 * mpi ^ 2 ≤ s) : k mpi s ^ 2 = s / 4 - mpi ^ 2 := Real.sq_sqrt (by linarith)

/-- The derivative of the loop function. -/
theorem h_deriv {mpi s : ℝ} (hp : 0 < mpi) (hs : 4 * mpi ^ 2 < s) :
    HasDerivAt (h mpi) (h mpi s * (1 / (8 * k mpi s ^ 2) - 1 / (2 * s)) + 1 / (2 * Real.pi * s)) s := by
  have hs0 : 0 < s := by nlinarith
  have hk := k_pos hs
  have hr : 0 < √s := Real.sqrt_pos.2 hs0
  have dk : HasDerivAt (k mpi) (1 / 4 / (2 * k mpi s)) s := by
    have := ((hasDerivAt_id s).div_const 4 |>.sub_const (mpi ^ 2)).sqrt (by simp; linarith)
    have e : k mpi = fun y => √(id y / 4 - mpi ^ 2) := rfl
    rw [e]; exact this
  have dr : HasDerivAt (fun x => √x) (1 / (2 * √s)) s := Real.hasDerivAt_sqrt hs0.ne'
  have dl := ((dr.add (dk.const_mul 2)).div_const (2 * mpi)).log (by simp only [Pi.add_apply]; positivity)
  have dh := (((dk.div dr hr.ne').const_mul (2 / Real.pi))).mul dl
  refine dh.congr_deriv ?_
  have e2 : √s ^ 2 = s := Real.sq_sqrt hs0.le
  have hpi := Real.pi_pos
  simp only [Pi.add_apply, Pi.div_apply]
  unfold h
  generalize Real.log ((√s + 2 * k mpi s) / (2 * mpi)) = L
  generalize hkk : k mpi s = κ at hk ⊢
  generalize √s = r at hr e2 ⊢
  subst e2
  have hne : r + 2 * κ ≠ 0 := by positivity
  field_simp
  ring

/-- The running mass is that of Gounaris and Sakurai. -/
theorem gs_published (mpi mass width s : ℝ) (hp : 0 < mpi) (hm : 2 * mpi < mass) (hs : 4 * mpi ^ 2 ≤ s) :
    gsM2 mpi mass width s = mass ^ 2 + f mpi mass width s := by
  have hm0 : 0 < mass := by linarith
  have hs0 : 0 < s := by nlinarith
  have hM : 4 * mpi ^ 2 < mass ^ 2 := by nlinarith
  have hd : deriv (h mpi) (mass ^ 2) = _ := (h_deriv hp hM).deriv
  have hk0 := k_pos hM
  have hr : 0 < √s := Real.sqrt_pos.2 hs0
  have hq : gsQ2 mpi s = 4 * k mpi s ^ 2 := by rw [k_sq hs]; unfold gsQ2; ring
  have hq0 : gsQ2 mpi (mass * mass) = 4 * k mpi (mass ^ 2) ^ 2 := by rw [k_sq hM.le]; unfold gsQ2; ring
  have e1 : s = 4 * k mpi s ^ 2 + 4 * mpi ^ 2 := by rw [k_sq hs]; ring
  have e0 : mpi ^ 2 = mass ^ 2 / 4 - k mpi (mass ^ 2) ^ 2 := by rw [k_sq hM.le]; ring
  have hpi := Real.pi_pos
  unfold gsM2 f
  simp only
  rw [hd, hq, hq0, gsQ_eq, gsQ_eq, logTerm_eq, logTerm_eq, show mass * mass = mass ^ 2 by ring]
  unfold h
  rw [Real.sqrt_sq hm0.le]
  generalize Real.log ((√s + 2 * k mpi s) / (2 * mpi)) = L
  generalize Real.log ((mass + 2 * k mpi (mass ^ 2)) / (2 * mpi)) = L0
  generalize √s = r at hr ⊢
  generalize k mpi s = κ at e1 ⊢
  generalize k mpi (mass ^ 2) = κ0 at hk0 e0 ⊢
  rw [e0] at e1
  rw [e1]
  field_simp
  ring

/-- At the mass of the resonance the running mass is that mass, and it is stationary. -/
theorem gs_mass (mpi mass width : ℝ) (hp : 0 < mpi) (hm : 2 * mpi < mass) :
    gsM2 mpi mass width (mass ^ 2) = mass ^ 2 ∧ HasDerivAt (gsM2 mpi mass width) 0 (mass ^ 2) := by
  have hm0 : 0 < mass := by linarith
  have hM : 4 * mpi ^ 2 < mass ^ 2 := by nlinarith
  constructor
  · rw [gs_published mpi mass width _ hp hm hM.le]
    unfold f
    simp
  · have hdh := h_deriv hp hM
    have hdiff : HasDerivAt (h mpi) (deriv (h mpi) (mass ^ 2)) (mass ^ 2) := hdh.differentiableAt.hasDerivAt
    have dk : HasDerivAt (fun s => s / 4 - mpi ^ 2) (1 / 4) (mass ^ 2) := by
      simpa using ((hasDerivAt_id (mass ^ 2)).div_const 4).sub_const (mpi ^ 2)
    have dlin : HasDerivAt (fun s => mass ^ 2 - s) (-1) (mass ^ 2) := by simpa using (hasDerivAt_id (mass ^ 2)).const_sub (mass ^ 2)
    have d := ((((dk.mul (hdiff.sub_const (h mpi (mass ^ 2)))).add ((dlin.mul_const (k mpi (mass ^ 2) ^ 2)).mul_const (deriv (h mpi) (mass ^ 2)))).const_mul
      (width * mass ^ 2 / k mpi (mass ^ 2) ^ 3)).const_add (mass ^ 2))
    have hev : gsM2 mpi mass width =ᶠ[nhds (mass ^ 2)] fun s => mass ^ 2 + width * mass ^ 2 / k mpi (mass ^ 2) ^ 3 *
        ((s / 4 - mpi ^ 2) * (h mpi s - h mpi (mass ^ 2)) + (mass ^ 2 - s) * k mpi (mass ^ 2) ^ 2 * deriv (h mpi) (mass ^ 2)) := by
      filter_upwards [lt_mem_nhds hM] with s hs
      rw [gs_published mpi mass width s hp hm hs.le]
      unfold f
      rw [k_sq hs.le]
    refine HasDerivAt.congr_of_eventuallyEq (d.congr_deriv ?_) hev
    rw [k_sq hM.le]
    ring

/-- At the mass of the resonance the amplitude is imaginary, with the width given, for any decay products lighter than the resonance. -/
theorem gs_at_mass (useRadius normalisedFF : Bool) (mpi m1 m2 mass width radius q0 : ℝ) (L : ℕ) (hL : L ≤ 4) (hp : 0 < mpi) (hm : 2 * mpi < mass) (hw : 0 < width)
    (hq0 : Lineshapes.Spec.IsMomentum q0 (mass * mass) m1 m2) (hq : 0 < q0) :
    ∃ A, GounarisSakurai useRadius normalisedFF mpi (mass * mass) (m1 ^ 2) (m2 ^ 2) mass width radius L = some A ∧ A.re = 0 ∧
      A.im = kFactor mass width / (mass * width) *
        (if normalisedFF then √(blattWeisskopf ((q0 * radius) ^ 2) L) else √(blattWeisskopfNorm ((q0 * radius) ^ 2) 0 L)) := by
  have hm0 : 0 < mass := by linarith
  have e0 := Lineshapes.Q2_of_momentum (mul_pos hm0 hm0) hq0
  have hM : gsM2 mpi mass width (mass * mass) = mass * mass := by rw [← sq]; exact (gs_mass mpi mass width hp hm).1
  have hz : |Q2 (mass * mass) (m1 ^ 2) (m2 ^ 2)| * radius * radius = (q0 * radius) ^ 2 := by rw [e0, abs_of_nonneg (sq_nonneg q0)]; ring
  unfold GounarisSakurai
  simp only
  rw [Lineshapes.width_at_mass L hL m1 m2 mass width _ q0 hm0 hq0 hq, hM, hz]
  have ed : ((mass * mass : ℝ) : ℂ) - I * mass * width - ((mass * mass : ℝ) : ℂ) = -(I * ((mass * width : ℝ) : ℂ)) := by push_cast; ring
  have hne : -(I * ((mass * width : ℝ) : ℂ)) ≠ 0 := neg_ne_zero.2 (mul_ne_zero I_ne_zero (ofReal_ne_zero.2 (by positivity)))
  rw [ed, quot_some hne]
  generalize (if normalisedFF = true then √(blattWeisskopf ((q0 * radius) ^ 2) L) else √(blattWeisskopfNorm ((q0 * radius) ^ 2) 0 L)) = F
  have ev : ((kFactor mass width * F : ℝ) : ℂ) / -(I * ((mass * width : ℝ) : ℂ)) = I * ((kFactor mass width / (mass * width) * F : ℝ) : ℂ) := by
    rw [div_eq_iff hne]
    have : (mass : ℂ) ≠ 0 := ofReal_ne_zero.2 hm0.ne'
    have : (width : ℂ) ≠ 0 := ofReal_ne_zero.2 hw.ne'
    push_cast
    field_simp
    rw [I_sq]; ring
  refine ⟨_, rfl, ?_, ?_⟩
  · rw [ev, re_mul_ofReal]; simp
  · rw [ev, im_mul_ofReal]; simp

example : gsM2 0.13957 0.77526 0.149 (0.77526 ^ 2) = 0.77526 ^ 2 := (gs_mass 0.13957 0.77526 0.149 (by norm_num) (by norm_num)).1
example : gsM2 0.13957 0.77526 0.149 0.4 = 0.77526 ^ 2 + f 0.13957 0.77526 0.149 0.4 := gs_published 0.13957 0.77526 0.149 0.4 (by norm_num) (by norm_num) (by norm_num)
example : Lineshapes.Spec.IsMomentum 3 (10 * 10) 4 4 := ⟨by norm_num, by
  rw [show (3 : ℝ) ^ 2 + 4 ^ 2 = 5 * 5 by norm_num, Real.sqrt_mul_self (by norm_num), Real.sqrt_mul_self (by norm_num)]; norm_num⟩

/-! ### The phase of a resonance -/

theorem re_over_norm_lt {x x' y : ℝ} (hy : 0 < y) (hx : x < x') : x / √(x ^ 2 + y ^ 2) < x' / √(x' ^ 2 + y ^ 2) := by
  have h1 : 0 < √(x ^ 2 + y ^ 2) := Real.sqrt_pos.2 (by positivity)
  have h2 : 0 < √(x' ^ 2 + y ^ 2) := Real.sqrt_pos.2 (by positivity)
  have e : ∀ t : ℝ, t / √(t ^ 2 + y ^ 2) = Real.sin (Real.arctan (t / y)) := by
    intro t
    rw [Real.sin_arctan, show 1 + (t / y) ^ 2 = (t ^ 2 + y ^ 2) / y ^ 2 by field_simp; ring, Real.sqrt_div' _ (by positivity), Real.sqrt_sq hy.le]
    have : 0 < √(t ^ 2 + y ^ 2) := Real.sqrt_pos.2 (by positivity)
    field_simp
  rw [e, e]
  apply Real.strictMonoOn_sin ⟨(Real.neg_pi_div_two_lt_arctan _).le, (Real.arctan_lt_pi_div_two _).le⟩ ⟨(Real.neg_pi_div_two_lt_arctan _).le, (Real.arctan_lt_pi_div_two _).le⟩
  exact Real.arctan_strictMono (div_lt_div_of_pos_right hx hy)

theorem arg_propagator {x y : ℝ} (c : ℝ) (hc : 0 < c) (hy : 0 < y) : arg ((c : ℂ) / ((x : ℂ) - I * y)) = Real.arccos (x / √(x ^ 2 + y ^ 2)) := by
  have hne : (x : ℂ) - I * y ≠ 0 := by
    intro h; have := congrArg im h; simp at this; linarith
  have hn : normSq ((x : ℂ) - I * y) = x ^ 2 + y ^ 2 := by rw [normSq_apply]; simp; ring
  have e : (c : ℂ) / ((x : ℂ) - I * y) = ((c / (x ^ 2 + y ^ 2) : ℝ) : ℂ) * ((x : ℂ) + I * y) := by
    rw [div_eq_iff hne]
    have : ((x ^ 2 + y ^ 2 : ℝ) : ℂ) ≠ 0 := ofReal_ne_zero.2 (by positivity)
    push_cast at this ⊢
    field_simp
    linear_combination ((c : ℂ) * (y : ℂ) ^ 2) * I_sq
  rw [e, arg_real_mul _ (by positivity), arg_of_im_pos (by simp [hy])]
  have : ‖(x : ℂ) + I * y‖ = √(x ^ 2 + y ^ 2) := by
    rw [Complex.norm_def, normSq_apply]; simp; ring_nf
  rw [this]; simp

theorem arccos_lt {x x' y : ℝ} (hy : 0 < y) (hx : x < x') : Real.arccos (x' / √(x' ^ 2 + y ^ 2)) < Real.arccos (x / √(x ^ 2 + y ^ 2)) := by
  have hb : ∀ t : ℝ, t / √(t ^ 2 + y ^ 2) ∈ Set.Icc (-1 : ℝ) 1 := by
    intro t
    have h : |t| ≤ √(t ^ 2 + y ^ 2) := Real.abs_le_sqrt (by nlinarith [sq_nonneg y])
    have hp : 0 < √(t ^ 2 + y ^ 2) := Real.sqrt_pos.2 (by positivity)
    rw [abs_le] at h
    exact ⟨by rw [le_div_iff₀ hp]; linarith, by rw [div_le_one hp]; linarith⟩
  exact Real.strictAntiOn_arccos (hb x) (hb x') (re_over_norm_lt hy hx)

theorem kFactor_pos {mass width : ℝ} (hm : 0 < mass) (hw : 0 < width) : 0 < kFactor mass width := by
  unfold kFactor
  have := Real.pi_pos
  have : 0 < √(mass * mass + width * width) := Real.sqrt_pos.2 (by positivity)
  exact Real.sqrt_pos.2 (by positivity)

/-- The phase of the Breit-Wigner amplitude rises with the mass. -/
theorem sbw_phase_rises (mass width : ℝ) (hm : 0 < mass) (hw : 0 < width) : StrictMono fun s => arg (SBW s mass width) := by
  have e : ∀ s, arg (SBW s mass width) = Real.arccos ((mass * mass - s) / √((mass * mass - s) ^ 2 + (mass * width) ^ 2)) := by
    intro s
    rw [← arg_propagator (kFactor mass width) (kFactor_pos hm hw) (by positivity)]
    unfold SBW
    congr 1
    push_cast
    rw [mul_one_div, mul_assoc I]
  intro s s' h
  simp only [e]
  exact arccos_lt (by positivity) (by linarith)

/-- The square of the amplitude without relativity is the distribution of Breit and Wigner in the mass, which has integral one. -/
theorem nonrel_density (mass width : ℝ) (hw : 0 < width) :
    (∀ m, 0 ≤ m → ∃ A, NonRelBW mass width (m ^ 2) = some A ∧ normSq A = cauchy mass width m) ∧ ∫ m, cauchy mass width m = 1 := by
  constructor
  · intro m hm
    have ed : ((√(m ^ 2) : ℝ) : ℂ) - mass - I * width / 2 = ((m - mass : ℝ) : ℂ) - I * ((width / 2 : ℝ) : ℂ) := by
      rw [Real.sqrt_sq hm]; push_cast; ring
    have hne : ((m - mass : ℝ) : ℂ) - I * ((width / 2 : ℝ) : ℂ) ≠ 0 := by
      intro h; have := congrArg im h; simp at this; linarith
    have hn : normSq (((m - mass : ℝ) : ℂ) - I * ((width / 2 : ℝ) : ℂ)) = (m - mass) ^ 2 + width ^ 2 / 4 := by
      rw [normSq_apply]; simp; ring
    unfold NonRelBW
    rw [ed, quot_some hne]
    refine ⟨_, rfl, ?_⟩
    have hpi := Real.pi_pos
    rw [normSq_div, hn, normSq_ofReal, Real.mul_self_sqrt (by positivity)]
    unfold cauchy
    rw [div_div, div_div, ← mul_assoc]
    field_simp
  · have hpi := Real.pi_pos
    have e : ∀ m, cauchy mass width m = (2 / (Real.pi * width)) * (1 + (2 / width * m + -(2 / width * mass)) ^ 2)⁻¹ := by
      intro m
      unfold cauchy
      have : 0 < (m - mass) ^ 2 + width ^ 2 / 4 := by positivity
      have : 0 < 1 + (2 / width * m + -(2 / width * mass)) ^ 2 := by positivity
      field_simp
      ring
    simp only [e]
    rw [MeasureTheory.integral_const_mul, MeasureTheory.Measure.integral_comp_mul_left (fun x => (1 + (x + -(2 / width * mass)) ^ 2)⁻¹) (2 / width),
      MeasureTheory.integral_add_right_eq_self (fun x => (1 + x ^ 2)⁻¹), integral_univ_inv_one_add_sq, abs_of_pos (by positivity), smul_eq_mul]
    field_simp

/-- Its phase falls where the phase of the Breit-Wigner amplitude of the same resonance rises. -/
theorem nonrel_phase_counterexample (mass width : ℝ) (hm : 0 < mass) (hw : 0 < width) (m m' : ℝ) (h0 : 0 ≤ m) (h : m < m') :
    ∃ A A', NonRelBW mass width (m ^ 2) = some A ∧ NonRelBW mass width (m' ^ 2) = some A' ∧ arg A' < arg A ∧
      arg (SBW (m ^ 2) mass width) < arg (SBW (m' ^ 2) mass width) := by
  have ed : ∀ m : ℝ, 0 ≤ m → ((√(m ^ 2) : ℝ) : ℂ) - mass - I * width / 2 = ((m - mass : ℝ) : ℂ) - I * ((width / 2 : ℝ) : ℂ) := by
    intro m hm; rw [Real.sqrt_sq hm]; push_cast; ring
  have hne : ∀ m : ℝ, ((m - mass : ℝ) : ℂ) - I * ((width / 2 : ℝ) : ℂ) ≠ 0 := by
    intro m h; have := congrArg im h; simp at this; linarith
  have hpi := Real.pi_pos
  have hc : 0 < √(width / 2 / Real.pi) := Real.sqrt_pos.2 (by positivity)
  refine ⟨((√(width / 2 / Real.pi) : ℝ) : ℂ) / (((m - mass : ℝ) : ℂ) - I * ((width / 2 : ℝ) : ℂ)),
    ((√(width / 2 / Real.pi) : ℝ) : ℂ) / (((m' - mass : ℝ) : ℂ) - I * ((width / 2 : ℝ) : ℂ)), ?_, ?_, ?_, sbw_phase_rises mass width hm hw (by nlinarith)⟩
  · unfold NonRelBW; rw [ed m h0, quot_some (hne m)]
  · unfold NonRelBW; rw [ed m' (by linarith), quot_some (hne m')]
  · rw [arg_propagator _ hc (by positivity), arg_propagator _ hc (by positivity)]
    exact arccos_lt (by positivity) (by linarith)

example : ∃ A A', NonRelBW 0.8 0.1 (0.7 ^ 2) = some A ∧ NonRelBW 0.8 0.1 (0.9 ^ 2) = some A' ∧ arg A' < arg A :=
  (nonrel_phase_counterexample 0.8 0.1 (by norm_num) (by norm_num) 0.7 0.9 (by norm_num) (by norm_num)).imp fun _ h => h.imp fun _ h => ⟨h.1, h.2.1, h.2.2.1⟩

end AmpGen.Shapes
