import Verif.Shapes.Lemmas
/-
Properties of the lineshapes for coupled channels and phase shifts.
-/
namespace AmpGen.Shapes

open Complex Spec

/-! ### Flatte -/

/-- The f(0)(980) above the threshold for pions: the amplitude is finite, and its imaginary part is its square times the phase space of the channels that are open,
with their couplings, with and without the modifier. -/
theorem flatte_f0 (modifier : String) (M : Masses) (mass g ratio s : ℝ) (hm : 0 < mass) (hg : 0 < g) (hr : 0 ≤ ratio) (hp : 0 ≤ M.mPiPlus) (h0 : 0 < s)
    (hs : (M.mPiPlus + M.mPiPlus) ^ 2 < s) :
    ∃ A, Flatte "f(0)(980)0" modifier M mass g ratio s = some A ∧ 0 < A.im ∧
      A.im = normSq A * (mass * (g * (1 / 3 * phsp s M.mPi0 M.mPi0 + 2 / 3 * phsp s M.mPiPlus M.mPiPlus
        + ratio * (1 / 2 * phsp s M.mK0 M.mK0 + 1 / 2 * phsp s M.mKPlus M.mKPlus)))) := by
  obtain ⟨w, hw, hre⟩ : ∃ w, flatteWidth "f(0)(980)0" modifier M g ratio s = some w ∧
      w.re = g * (1 / 3 * phsp s M.mPi0 M.mPi0 + 2 / 3 * phsp s M.mPiPlus M.mPiPlus
        + ratio * (1 / 2 * phsp s M.mK0 M.mK0 + 1 / 2 * phsp s M.mKPlus M.mKPlus)) := by
    unfold flatteWidth
    rw [if_pos rfl]
    refine ⟨_, rfl, ?_⟩
    have k3 : ((1 : ℂ) / 3).re = 1 / 3 ∧ ((1 : ℂ) / 3).im = 0 := by norm_num [Complex.div_re, Complex.div_im, normSq_apply]
    have k23 : ((2 : ℂ) / 3).re = 2 / 3 ∧ ((2 : ℂ) / 3).im = 0 := by norm_num [Complex.div_re, Complex.div_im, normSq_apply]
    have k2 : ((1 : ℂ) / 2).re = 1 / 2 ∧ ((1 : ℂ) / 2).im = 0 := by norm_num [Complex.div_re, Complex.div_im, normSq_apply]
    split
    · simp only [add_re, mul_re, add_im, mul_im, k3, k23, ofReal_re, ofReal_im, fSqrtTerm_re h0, aSqrtTerm_eq h0]
      ring
    · simp only [add_re, mul_re, add_im, mul_im, k3, k23, k2, ofReal_re, ofReal_im, fSqrtTerm_re h0]
      ring
  have hpos : 0 < ((mass : ℂ) * w).re := by
    have h1 := phsp_pos h0 hp hp hs
    have h2 := @phsp_nonneg s M.mPi0 M.mPi0 h0
    have h3 := @phsp_nonneg s M.mK0 M.mK0 h0
    have h4 := @phsp_nonneg s M.mKPlus M.mKPlus h0
    simp only [mul_re, ofReal_re, ofReal_im, zero_mul, sub_zero, hre]
    positivity
  obtain ⟨hne, him, hopt⟩ := propagator (x := mass * mass - s) hpos
  have e : (mass : ℂ) * mass - I * mass * w - s = ((mass * mass - s : ℝ) : ℂ) - I * (mass * w) := by push_cast; ring
  refine ⟨1 / (((mass * mass - s : ℝ) : ℂ) - I * (mass * w)), ?_, him, ?_⟩
  · unfold Flatte
    rw [hw, Option.bind_some]
    simp only
    rw [e, quot_some hne]
  · rw [hopt]
    simp only [mul_re, ofReal_re, ofReal_im, zero_mul, sub_zero, hre]

/-- The neutral a(0)(980) above the threshold for pion and eta. -/
theorem flatte_a0 (modifier : String) (M : Masses) (mass g ratio s : ℝ) (hm : 0 < mass) (hg : 0 < g) (hr : 0 ≤ ratio) (hp : 0 ≤ M.mPiPlus) (he : 0 ≤ M.mEta)
    (h0 : 0 < s) (hs : (M.mPiPlus + M.mEta) ^ 2 < s) :
    ∃ A, Flatte "a(0)(980)0" modifier M mass g ratio s = some A ∧ 0 < A.im ∧
      A.im = normSq A * (mass * (g * (phsp s M.mPiPlus M.mEta + ratio * phsp s M.mKPlus M.mKPlus))) := by
  obtain ⟨w, hw, hre⟩ : ∃ w, flatteWidth "a(0)(980)0" modifier M g ratio s = some w ∧
      w.re = g * (phsp s M.mPiPlus M.mEta + ratio * phsp s M.mKPlus M.mKPlus) := by
    have hle : (M.mPiPlus - M.mEta) ^ 2 ≤ (M.mPiPlus + M.mEta) ^ 2 := by nlinarith [mul_nonneg hp he]
    have ea : (1 - (M.mPiPlus - M.mEta) * (M.mPiPlus - M.mEta) / s) * (1 - (M.mPiPlus + M.mEta) * (M.mPiPlus + M.mEta) / s) =
        (s - (M.mPiPlus + M.mEta) ^ 2) * (s - (M.mPiPlus - M.mEta) ^ 2) / s ^ 2 := by field_simp
    have hnn : ¬ (s - (M.mPiPlus + M.mEta) ^ 2) * (s - (M.mPiPlus - M.mEta) ^ 2) / s ^ 2 < 0 :=
      not_lt.2 (div_nonneg (mul_nonneg (by linarith) (by linarith)) (by positivity))
    unfold flatteWidth
    rw [if_neg (by decide), if_pos rfl]
    simp only
    rw [ea, if_neg hnn]
    refine ⟨_, rfl, ?_⟩
    simp only [add_re, mul_re, add_im, mul_im, ofReal_re, ofReal_im, fSqrtTerm_re h0]
    rw [Real.sqrt_div' _ (by positivity), Real.sqrt_sq h0.le]
    have : phsp s M.mPiPlus M.mEta = √((s - (M.mPiPlus + M.mEta) ^ 2) * (s - (M.mPiPlus - M.mEta) ^ 2)) / s := by unfold phsp; rw [if_pos hs]
    rw [this]
    ring
  have hpos : 0 < ((mass : ℂ) * w).re := by
    have h1 := phsp_pos h0 hp he hs
    have h4 := @phsp_nonneg s M.mKPlus M.mKPlus h0
    simp only [mul_re, ofReal_re, ofReal_im, zero_mul, sub_zero, hre]
    positivity
  obtain ⟨hne, him, hopt⟩ := propagator (x := mass * mass - s) hpos
  have e : (mass : ℂ) * mass - I * mass * w - s = ((mass * mass - s : ℝ) : ℂ) - I * (mass * w) := by push_cast; ring
  refine ⟨1 / (((mass * mass - s : ℝ) : ℂ) - I * (mass * w)), ?_, him, ?_⟩
  · unfold Flatte
    rw [hw, Option.bind_some]
    simp only
    rw [e, quot_some hne]
  · rw [hopt]
    simp only [mul_re, ofReal_re, ofReal_im, zero_mul, sub_zero, hre]

theorem fSqrtTerm_continuous (m : ℝ) : ContinuousOn (fun s => fSqrtTerm s m) {s : ℝ | 0 < s} := by
  unfold fSqrtTerm
  apply complexSqrt_continuous.comp_continuousOn
  apply ContinuousOn.sub continuousOn_const
  exact continuousOn_const.div continuousOn_id fun s hs => ne_of_gt hs

theorem aSqrtTerm_continuous (m : ℝ) : ContinuousOn (fun s => aSqrtTerm s m) {s : ℝ | 0 < s} := by
  have : ∀ s, aSqrtTerm s m = √(1 - 4 * m * m / s) := by
    intro s
    unfold aSqrtTerm
    simp only
    split
    · rfl
    · next h => rw [Real.sqrt_eq_zero_of_nonpos (by linarith)]
  simp only [this]
  apply Real.continuous_sqrt.comp_continuousOn
  apply ContinuousOn.sub continuousOn_const
  exact continuousOn_const.div continuousOn_id fun s hs => ne_of_gt hs

/-- The amplitude of the f(0)(980) has no jump where a channel opens. -/
theorem flatte_continuous (modifier : String) (M : Masses) (mass g ratio : ℝ) (hm : 0 < mass) (hg : 0 < g) (hr : 0 ≤ ratio) (hp : 0 ≤ M.mPiPlus) :
    ∃ A : ℝ → ℂ, ContinuousOn A {s | 0 < s ∧ (M.mPiPlus + M.mPiPlus) ^ 2 < s} ∧
      ∀ s, 0 < s → (M.mPiPlus + M.mPiPlus) ^ 2 < s → Flatte "f(0)(980)0" modifier M mass g ratio s = some (A s) := by
  obtain ⟨w, hw, hc⟩ : ∃ w : ℝ → ℂ, (∀ s, flatteWidth "f(0)(980)0" modifier M g ratio s = some (w s)) ∧ ContinuousOn w {s : ℝ | 0 < s} := by
    refine ⟨fun s => g * ((1 / 3 : ℂ) * fSqrtTerm s M.mPi0 + (2 / 3 : ℂ) * fSqrtTerm s M.mPiPlus +
      ratio * (if modifier = "CutKK" then ((1 / 2 * aSqrtTerm s M.mK0 + 1 / 2 * aSqrtTerm s M.mKPlus : ℝ) : ℂ)
      else (1 / 2 : ℂ) * fSqrtTerm s M.mK0 + (1 / 2 : ℂ) * fSqrtTerm s M.mKPlus)), fun s => ?_, ?_⟩
    · unfold flatteWidth; rw [if_pos rfl]
    · have f1 := fSqrtTerm_continuous M.mPi0
      have f2 := fSqrtTerm_continuous M.mPiPlus
      have f3 := fSqrtTerm_continuous M.mK0
      have f4 := fSqrtTerm_continuous M.mKPlus
      have a3 := aSqrtTerm_continuous M.mK0
      have a4 := aSqrtTerm_continuous M.mKPlus
      refine continuousOn_const.mul (((continuousOn_const.mul f1).add (continuousOn_const.mul f2)).add (continuousOn_const.mul ?_))
      split
      · exact continuous_ofReal.comp_continuousOn ((continuousOn_const.mul a3).add (continuousOn_const.mul a4))
      · exact (continuousOn_const.mul f3).add (continuousOn_const.mul f4)
  have hne : ∀ s, 0 < s → (M.mPiPlus + M.mPiPlus) ^ 2 < s → (mass : ℂ) * mass - I * mass * w s - s ≠ 0 := by
    intro s h0 hs h
    obtain ⟨A, hA, _⟩ := flatte_f0 modifier M mass g ratio s hm hg hr hp h0 hs
    unfold Flatte at hA
    rw [hw, Option.bind_some] at hA
    exact (quot_of_some hA).1 h
  refine ⟨fun s => 1 / ((mass : ℂ) * mass - I * mass * w s - s), ?_, ?_⟩
  · apply ContinuousOn.div continuousOn_const _ fun s hs => hne s hs.1 hs.2
    exact ContinuousOn.sub (continuousOn_const.sub (continuousOn_const.mul (hc.mono fun s hs => hs.1))) (continuous_ofReal.continuousOn)
  · intro s h0 hs
    unfold Flatte
    rw [hw, Option.bind_some]
    exact quot_some (hne s h0 hs)

/-- For every other particle there is no width: the amplitude is real, and infinite at the mass of the resonance.  The charged a(0)(980) is one of them. -/
theorem flatte_charged_counterexample (name modifier : String) (h1 : name ≠ "f(0)(980)0") (h2 : name ≠ "a(0)(980)0") (M : Masses) (mass g ratio : ℝ) :
    Flatte name modifier M mass g ratio (mass * mass) = none ∧ ∀ s A, Flatte name modifier M mass g ratio s = some A → A.im = 0 := by
  have hw : ∀ s, flatteWidth name modifier M g ratio s = some 0 := by intro s; unfold flatteWidth; rw [if_neg h1, if_neg h2]
  constructor
  · unfold Flatte
    rw [hw, Option.bind_some]
    simp only
    rw [show (mass : ℂ) * mass - I * mass * 0 - ((mass * mass : ℝ) : ℂ) = 0 by push_cast; ring, quot_none]
  · intro s A h
    unfold Flatte at h
    rw [hw, Option.bind_some] at h
    obtain ⟨_, rfl⟩ := quot_of_some h
    rw [show (mass : ℂ) * mass - I * mass * 0 - s = ((mass * mass - s : ℝ) : ℂ) by push_cast; ring, ← ofReal_one, ← ofReal_div, ofReal_im]

/-- The masses of the database. -/
def sampleMasses : Masses := ⟨0.493677, 0.13957, 0.547862, 0.1349768, 0.497611⟩

example : ∃ A, Flatte "f(0)(980)0" "" sampleMasses 0.965 0.165 4.21 0.96 = some A ∧ 0 < A.im :=
  (flatte_f0 "" sampleMasses 0.965 0.165 4.21 0.96 (by norm_num) (by norm_num) (by norm_num) (by norm_num [sampleMasses]) (by norm_num) (by norm_num [sampleMasses])).imp fun _ h => ⟨h.1, h.2.1⟩

example : ∃ A, Flatte "a(0)(980)0" "" sampleMasses 0.9847 0.175 1.2 0.96 = some A ∧ 0 < A.im :=
  (flatte_a0 "" sampleMasses 0.9847 0.175 1.2 0.96 (by norm_num) (by norm_num) (by norm_num) (by norm_num [sampleMasses]) (by norm_num [sampleMasses]) (by norm_num)
    (by norm_num [sampleMasses])).imp fun _ h => ⟨h.1, h.2.1⟩

example : Flatte "a(0)(980)+" "" sampleMasses 0.9847 0.175 1.2 (0.9847 * 0.9847) = none :=
  (flatte_charged_counterexample "a(0)(980)+" "" (by decide) (by decide) sampleMasses 0.9847 0.175 1.2).1

/-! ### Phase shifts -/

/-- The isotensor amplitude is elastic: it is `sin δ exp( i δ )` for the phase `δ = - a q / ( 1 + b s + c s² + d s³ )`, with `a` in degrees, wherever it has a value. -/
theorem isotensor_elastic (a b c d s : ℝ) (hs : 4 * 0.139570 ^ 2 ≤ s) (hp : 1 + b * s + c * s ^ 2 + d * s ^ 3 ≠ 0) :
    ∃ δ : ℝ, δ = -(a * Real.pi / 180) * √(s / 4 - 0.139570 ^ 2) / (1 + b * s + c * s ^ 2 + d * s ^ 3) ∧
      Isotensor a b c d s = some (Complex.sin δ * Complex.exp (I * δ)) ∧ (Complex.sin δ * Complex.exp (I * δ)).im = normSq (Complex.sin δ * Complex.exp (I * δ)) := by
  refine ⟨_, rfl, ?_, ?_⟩
  · have hpol : Lineshapes.pol s [1, b, c, d] = 1 + b * s + c * s ^ 2 + d * s ^ 3 := by
      simp [Lineshapes.pol]; ring
    unfold Isotensor isotensorPhase
    simp only
    rw [hpol, if_neg (by push Not; exact ⟨by nlinarith, hp⟩), Option.map_some]
    congr 1
    rw [show (0.139570 : ℝ) ^ 2 = 0.139570 * 0.139570 by ring]
    generalize √(s / 4 - 0.139570 * 0.139570) = q
    generalize 1 + b * s + c * s ^ 2 + d * s ^ 3 = p at hp ⊢
    generalize a * Real.pi / 180 = a'
    have e : -2 * a' * q / p = 2 * (-a' * q / p) := by ring
    rw [e]
    generalize -a' * q / p = δ
    rw [Complex.sin, show (I * ((2 * δ : ℝ) : ℂ)) = δ * I + δ * I by push_cast; ring, Complex.exp_add, show I * (δ : ℂ) = δ * I by ring,
      show -(δ : ℂ) * I = -(δ * I) by ring, Complex.exp_neg]
    have h := Complex.exp_ne_zero ((δ : ℂ) * I)
    have hI := I_ne_zero
    field_simp
    rw [I_sq]; ring
  · generalize -(a * Real.pi / 180) * √(s / 4 - 0.139570 ^ 2) / (1 + b * s + c * s ^ 2 + d * s ^ 3) = δ
    rw [show I * (δ : ℂ) = δ * I by ring, Complex.exp_mul_I, ← ofReal_sin, ← ofReal_cos, normSq_apply]
    simp only [mul_re, mul_im, add_re, add_im, ofReal_re, ofReal_im, I_re, I_im]
    have h1 : (Real.cos δ) ^ 2 = 1 - (Real.sin δ) ^ 2 := by rw [← Real.sin_sq_add_cos_sq δ]; ring
    ring_nf
    rw [h1]; ring

/-- At threshold the phase is zero. -/
theorem isotensor_threshold (a b c d : ℝ) (hp : 1 + b * (4 * 0.139570 ^ 2) + c * (4 * 0.139570 ^ 2) ^ 2 + d * (4 * 0.139570 ^ 2) ^ 3 ≠ 0) :
    Isotensor a b c d (4 * 0.139570 ^ 2) = some 0 := by
  obtain ⟨δ, hδ, h, _⟩ := isotensor_elastic a b c d (4 * 0.139570 ^ 2) le_rfl hp
  rw [h, hδ, show (4 * 0.139570 ^ 2 / 4 - 0.139570 ^ 2 : ℝ) = 0 by ring, Real.sqrt_zero]
  simp

/-- The amplitude of a phase and an inelasticity: `1 + 2 i T` has the inelasticity as its modulus, and the square of the amplitude is bounded by its imaginary
part exactly if the inelasticity is at most one. -/
theorem inelastic_modulus (eta δ : ℝ) (h : 0 ≤ eta) :
    ‖1 + 2 * I * InelasticSpline eta δ‖ = eta ∧ 1 + 2 * I * InelasticSpline eta δ = eta * Complex.exp (2 * δ * I) ∧
    (normSq (InelasticSpline eta δ) ≤ (InelasticSpline eta δ).im ↔ eta ≤ 1) := by
  have e : 1 + 2 * I * InelasticSpline eta δ = eta * Complex.exp (2 * δ * I) := by
    unfold InelasticSpline
    simp only
    rw [show (2 * (δ : ℂ) * I) = ((2 * δ : ℝ) : ℂ) * I by push_cast; ring, Complex.exp_mul_I, ← ofReal_cos, ← ofReal_sin]
    have h5 : (0.5 : ℂ) = 1 / 2 := by norm_num
    rw [h5]
    linear_combination ((1 : ℂ) - eta * (((Real.cos (2 * δ) : ℝ) : ℂ) + I * ((Real.sin (2 * δ) : ℝ) : ℂ))) * I_sq
  have en : ‖1 + 2 * I * InelasticSpline eta δ‖ = eta := by
    rw [e, norm_mul, show (2 * (δ : ℂ) * I) = ((2 * δ : ℝ) : ℂ) * I by push_cast; ring, Complex.norm_exp_ofReal_mul_I, mul_one]
    simp [abs_of_nonneg h]
  refine ⟨en, e, ?_⟩
  have hsq : normSq (1 + 2 * I * InelasticSpline eta δ) = eta ^ 2 := by rw [Complex.normSq_eq_norm_sq, en]
  generalize InelasticSpline eta δ = T at hsq ⊢
  rw [normSq_apply] at hsq ⊢
  simp at hsq
  constructor
  · intro h1; nlinarith
  · intro h1; nlinarith

example : ∃ δ : ℝ, Isotensor 55.21 0.853 (-0.959) 0.314 1 = some (Complex.sin δ * Complex.exp (I * δ)) :=
  (isotensor_elastic 55.21 0.853 (-0.959) 0.314 1 (by norm_num) (by norm_num)).imp fun _ h => h.2.1
example : ‖1 + 2 * I * InelasticSpline 0.7 0.4‖ = 0.7 := (inelastic_modulus 0.7 0.4 (by norm_num)).1

/-! ### K pi S-wave -/

/-- The two amplitudes of isospin 1/2 are unitary: they solve `T = K + i K ρ T`, and the imaginary part of the elastic one is the sum of the squares over the channels that are
open, with their phase space.  They have a value if both channels are open. -/
theorem swave_unitary (k00 k01 k11 k32 a12 a32 : ℝ) (rho1 rho2 : ℂ) :
    (∀ T11 T12, sWave .Kpi k00 k01 k11 k32 a12 a32 rho1 rho2 = some T11 → sWave .KEta k00 k01 k11 k32 a12 a32 rho1 rho2 = some T12 →
      T11 = a12 * k00 + I * (a12 * k00 * rho1 * T11 + a12 * k01 * rho2 * T12) ∧
      T12 = a12 * k01 + I * (a12 * k01 * rho1 * T11 + a12 * k11 * rho2 * T12) ∧
      T11.im = rho1.re * normSq T11 + rho2.re * normSq T12) ∧
    (rho1.im = 0 → rho2.im = 0 → 0 ≤ rho1.re → 0 ≤ rho2.re →
      ∃ T11 T12, sWave .Kpi k00 k01 k11 k32 a12 a32 rho1 rho2 = some T11 ∧ sWave .KEta k00 k01 k11 k32 a12 a32 rho1 rho2 = some T12) := by
  constructor
  · intro T11 T12 h1 h2
    unfold sWave at h1 h2
    simp only at h1 h2
    obtain ⟨hd, e1⟩ := quot_of_some h1
    obtain ⟨_, e2⟩ := quot_of_some h2
    have q1 : T11 = a12 * k00 + I * (a12 * k00 * rho1 * T11 + a12 * k01 * rho2 * T12) := by
      rw [e1, e2]
      generalize hdel : (1 : ℂ) - rho1 * rho2 * ((a12 : ℂ) * k00 * (a12 * k11) - a12 * k01 * (a12 * k01)) - I * (rho1 * (a12 * k00) + rho2 * (a12 * k11)) = D at hd
      field_simp
      rw [← hdel]
      linear_combination ((a12 : ℂ) ^ 3 * k00 * (k00 * k11 - k01 ^ 2) * rho1 * rho2) * I_sq
    have q2 : T12 = a12 * k01 + I * (a12 * k01 * rho1 * T11 + a12 * k11 * rho2 * T12) := by
      rw [e1, e2]
      generalize hdel : (1 : ℂ) - rho1 * rho2 * ((a12 : ℂ) * k00 * (a12 * k11) - a12 * k01 * (a12 * k01)) - I * (rho1 * (a12 * k00) + rho2 * (a12 * k11)) = D at hd
      field_simp
      rw [← hdel]
      linear_combination ((a12 : ℂ) ^ 3 * k01 * (k00 * k11 - k01 ^ 2) * rho1 * rho2) * I_sq
    refine ⟨q1, q2, ?_⟩
    have r1 := congrArg re q1
    have r2 := congrArg im q1
    have r3 := congrArg re q2
    have r4 := congrArg im q2
    simp at r1 r2 r3 r4
    rw [normSq_apply, normSq_apply]
    linear_combination (1 - (rho1.re * T11.im + rho1.im * T11.re)) * r2 - (rho1.re * T11.re - rho1.im * T11.im) * r1 -
      (rho2.re * T12.im + rho2.im * T12.re) * r4 - (rho2.re * T12.re - rho2.im * T12.im) * r3
  · intro i1 i2 p1 p2
    have hd : (1 : ℂ) - rho1 * rho2 * ((a12 : ℂ) * k00 * (a12 * k11) - a12 * k01 * (a12 * k01)) - I * (rho1 * (a12 * k00) + rho2 * (a12 * k11)) ≠ 0 := by
      intro h
      have hr := congrArg re h
      have hi := congrArg im h
      simp [i1, i2] at hr hi
      have h1 : rho1.re * (a12 * k00) = -(rho2.re * (a12 * k11)) := by linarith
      have h2 : rho1.re * rho2.re * (a12 * k00 * (a12 * k11)) = -(rho2.re * (a12 * k11)) ^ 2 := by
        rw [show rho1.re * rho2.re * (a12 * k00 * (a12 * k11)) = rho1.re * (a12 * k00) * (rho2.re * (a12 * k11)) by ring, h1]; ring
      nlinarith [mul_nonneg (mul_nonneg p1 p2) (sq_nonneg (a12 * k01)), sq_nonneg (rho2.re * (a12 * k11))]
    unfold sWave
    simp only
    exact ⟨_, _, quot_some hd, quot_some hd⟩

/-- The amplitude of isospin 3/2 always has a value above threshold, and with its K-matrix it makes an elastic amplitude. -/
theorem swave_elastic (k00 k01 k11 k32 a12 a32 rho : ℝ) (rho2 : ℂ) :
    ∃ F, sWave .I32 k00 k01 k11 k32 a12 a32 rho rho2 = some F ∧ ((a32 * k32 : ℝ) * F).im = rho * normSq ((a32 * k32 : ℝ) * F) ∧
      normSq F = 1 / (1 + (a32 * k32 * rho) ^ 2) := by
  have hd : (1 : ℂ) - I * (a32 * k32) * rho ≠ 0 := by
    intro h
    have := congrArg re h
    simp at this
  have hn : normSq ((1 : ℂ) - I * (a32 * k32) * rho) = 1 + (a32 * k32 * rho) ^ 2 := by
    rw [normSq_apply]; simp; ring
  refine ⟨1 / ((1 : ℂ) - I * (a32 * k32) * rho), ?_, ?_, ?_⟩
  · unfold sWave
    simp only
    rw [quot_some hd]
  · rw [normSq_mul, normSq_div, hn, normSq_one, normSq_ofReal, one_div, mul_im, inv_im, hn]
    simp
    ring
  · rw [normSq_div, hn, normSq_one]

example : ∃ T11 T12, sWave .Kpi 0.5 0.2 0.3 (-0.1) 1.2 1.1 0.8 0.5 = some T11 ∧ sWave .KEta 0.5 0.2 0.3 (-0.1) 1.2 1.1 0.8 0.5 = some T12 :=
  (swave_unitary 0.5 0.2 0.3 (-0.1) 1.2 1.1 0.8 0.5).2 (by norm_num) (by norm_num) (by norm_num) (by norm_num)

end AmpGen.Shapes
