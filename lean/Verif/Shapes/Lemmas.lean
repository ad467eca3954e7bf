import Verif.Shapes.Model
import Verif.Shapes.Spec
import Verif.Lineshapes.Spec
/-
Lemmas on roots and quotients.
-/
namespace AmpGen.Shapes

open Complex Spec

theorem complexSqrt_eq (x : ℝ) : complexSqrt x = ((√x : ℝ) : ℂ) + I * ((√(-x) : ℝ) : ℂ) := by
  unfold complexSqrt
  split
  · next h => rw [Real.sqrt_eq_zero_of_nonpos (by linarith : -x ≤ 0)]; simp
  · next h => rw [Real.sqrt_eq_zero_of_nonpos (by linarith : x ≤ 0)]; simp

theorem complexSqrt_re (x : ℝ) : (complexSqrt x).re = √x := by rw [complexSqrt_eq]; simp
theorem complexSqrt_im (x : ℝ) : (complexSqrt x).im = √(-x) := by rw [complexSqrt_eq]; simp

theorem complexSqrt_continuous : Continuous complexSqrt := by
  have : complexSqrt = fun x : ℝ => ((√x : ℝ) : ℂ) + I * ((√(-x) : ℝ) : ℂ) := funext complexSqrt_eq
  rw [this]
  fun_prop

theorem quot_some {x y : ℂ} (h : y ≠ 0) : quot x y = some (x / y) := by unfold quot; rw [if_neg h]
theorem quot_none (x : ℂ) : quot x 0 = none := by unfold quot; rw [if_pos rfl]

theorem quot_of_some {x y v : ℂ} (h : quot x y = some v) : y ≠ 0 ∧ v = x / y := by
  unfold quot at h
  split at h
  · simp at h
  · next hy => exact ⟨hy, by simpa using h.symm⟩

/-- The phase space and the momentum. -/
theorem phsp_momentum {p s m1 m2 : ℝ} (hs : 0 < s) (h1 : 0 ≤ m1) (h2 : 0 ≤ m2) (h : Lineshapes.Spec.IsMomentum p s m1 m2) : phsp s m1 m2 = 2 * p / √s := by
  obtain ⟨hp, he⟩ := h
  obtain ⟨a, ha⟩ : ∃ a, √(p ^ 2 + m1 ^ 2) = a := ⟨_, rfl⟩
  obtain ⟨b, hb⟩ : ∃ b, √(p ^ 2 + m2 ^ 2) = b := ⟨_, rfl⟩
  have a2 : a ^ 2 = p ^ 2 + m1 ^ 2 := by rw [← ha, Real.sq_sqrt (by positivity)]
  have b2 : b ^ 2 = p ^ 2 + m2 ^ 2 := by rw [← hb, Real.sq_sqrt (by positivity)]
  have a0 : 0 ≤ a := by rw [← ha]; positivity
  have b0 : 0 ≤ b := by rw [← hb]; positivity
  rw [ha, hb] at he
  have hss : s = (a + b) ^ 2 := by rw [he, Real.sq_sqrt hs.le]
  have am : m1 ≤ a := by rw [← ha]; exact Real.le_sqrt_of_sq_le (by nlinarith [sq_nonneg p])
  have bm : m2 ≤ b := by rw [← hb]; exact Real.le_sqrt_of_sq_le (by nlinarith [sq_nonneg p])
  have e : (s - (m1 + m2) ^ 2) * (s - (m1 - m2) ^ 2) = (2 * p * √s) ^ 2 := by
    rw [mul_pow, Real.sq_sqrt hs.le, hss]
    have h3 : m1 ^ 2 = a ^ 2 - p ^ 2 := by linarith
    have h4 : m2 ^ 2 = b ^ 2 - p ^ 2 := by linarith
    have : ((a + b) ^ 2 - (m1 + m2) ^ 2) * ((a + b) ^ 2 - (m1 - m2) ^ 2) =
      (a + b) ^ 4 - 2 * (a + b) ^ 2 * (m1 ^ 2 + m2 ^ 2) + (m1 ^ 2 - m2 ^ 2) ^ 2 := by ring
    rw [this, h3, h4]
    ring
  have hr : 0 < √s := Real.sqrt_pos.2 hs
  unfold phsp
  split
  · rw [e, Real.sqrt_sq (by positivity)]
    nth_rewrite 2 [← Real.sq_sqrt hs.le]
    field_simp
  · next h =>
    have : p = 0 := by
      by_contra hp'
      have hp2 : 0 < p ^ 2 := by positivity
      apply h
      rw [hss]
      have : m1 < a := by rw [← ha]; exact Real.lt_sqrt_of_sq_lt (by nlinarith)
      nlinarith
    rw [this]; simp

theorem phsp_same {s m : ℝ} (hs : 0 < s) : √(1 - 4 * m * m / s) = phsp s m m := by
  unfold phsp
  split
  · next h =>
    rw [show (s - (m + m) ^ 2) * (s - (m - m) ^ 2) = (1 - 4 * m * m / s) * s ^ 2 by field_simp; ring,
      Real.sqrt_mul' _ (by positivity), Real.sqrt_sq hs.le]
    field_simp
  · next h =>
    rw [Real.sqrt_eq_zero_of_nonpos]
    rw [sub_nonpos, le_div_iff₀ hs]
    nlinarith

theorem phsp_nonneg {s m1 m2 : ℝ} (hs : 0 < s) : 0 ≤ phsp s m1 m2 := by
  unfold phsp; split <;> positivity

theorem phsp_pos {s m1 m2 : ℝ} (hs : 0 < s) (h1 : 0 ≤ m1) (h2 : 0 ≤ m2) (h : (m1 + m2) ^ 2 < s) : 0 < phsp s m1 m2 := by
  unfold phsp; rw [if_pos h]
  apply div_pos (Real.sqrt_pos.2 (mul_pos (by linarith) (by nlinarith [mul_nonneg h1 h2]))) hs

theorem fSqrtTerm_re {s m : ℝ} (hs : 0 < s) : (fSqrtTerm s m).re = phsp s m m := by
  unfold fSqrtTerm; rw [complexSqrt_re, phsp_same hs]

theorem aSqrtTerm_eq {s m : ℝ} (hs : 0 < s) : aSqrtTerm s m = phsp s m m := by
  unfold aSqrtTerm
  simp only
  rw [← phsp_same hs]
  split
  · rfl
  · next h => rw [Real.sqrt_eq_zero_of_nonpos (by linarith)]

/-- A propagator `1 / ( x - i w )` with positive real part of `w`. -/
theorem propagator {x : ℝ} {w : ℂ} (hw : 0 < w.re) :
    (x : ℂ) - I * w ≠ 0 ∧ 0 < (1 / ((x : ℂ) - I * w)).im ∧ (1 / ((x : ℂ) - I * w)).im = normSq (1 / ((x : ℂ) - I * w)) * w.re := by
  have hne : (x : ℂ) - I * w ≠ 0 := by
    intro h
    have := congrArg im h
    simp at this
    linarith
  have hn : 0 < normSq ((x : ℂ) - I * w) := normSq_pos.2 hne
  have him : (1 / ((x : ℂ) - I * w)).im = w.re / normSq ((x : ℂ) - I * w) := by
    rw [one_div, inv_im]; simp
  have hsq : normSq (1 / ((x : ℂ) - I * w)) = 1 / normSq ((x : ℂ) - I * w) := by rw [normSq_div, normSq_one]
  refine ⟨hne, ?_, ?_⟩
  · rw [him]; positivity
  · rw [him, hsq]; ring

end AmpGen.Shapes
