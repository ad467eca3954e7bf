import Verif.Polarisation.Lemmas
/-
The vectors of the code as circular combinations of three real vectors.
-/
namespace AmpGen.Polarisation
open Complex Spec
open AmpGen.Transform (V4 M4 minkowski slash gamma)

/-- The axes, boosted from the rest frame to the momentum. -/
def boostX (a N : ℝ) (p : Mom) : Mom := ![1 + p 0 * p 0 * N, p 0 * p 1 * N, p 0 * p 2 * N, p 0 * a]
def boostY (a N : ℝ) (p : Mom) : Mom := ![p 0 * p 1 * N, 1 + p 1 * p 1 * N, p 1 * p 2 * N, p 1 * a]
def boostZ (a N : ℝ) (p : Mom) : Mom := ![p 0 * p 2 * N, p 1 * p 2 * N, 1 + p 2 * p 2 * N, p 2 * a]

theorem boost_triad {m : ℝ} {p : Mom} (h : OnShell m p) : Triad m p (boostX (1 / m) (1 / (m * (p 3 + m))) p) (boostY (1 / m) (1 / (m * (p 3 + m))) p)
    (boostZ (1 / m) (1 / (m * (p 3 + m))) p) := by
  obtain ⟨hm, hE, hs⟩ := h
  have hm0 : m ≠ 0 := hm.ne'
  have hEm : p 3 + m ≠ 0 := by linarith
  have ha : 1 / m * m = 1 := by field_simp
  have h1 : 1 / (m * (p 3 + m)) * (p 0 ^ 2 + p 1 ^ 2 + p 2 ^ 2) = 1 / m * (p 3 - m) := by
    field_simp
    linear_combination -hs
  have h2 : (1 / m) ^ 2 = 2 * (1 / (m * (p 3 + m))) + 1 / (m * (p 3 + m)) * (1 / m) * (p 3 - m) := by
    field_simp
    ring
  have hm2 : ∀ x : ℝ, x / m ^ 2 = x * (1 / m) ^ 2 := by intro x; field_simp
  generalize 1 / (m * (p 3 + m)) = N at h1 h2 ⊢
  generalize 1 / m = a at ha h1 h2 hm2 ⊢
  refine ⟨?_, ?_, ?_, ?_, ?_, ?_, ?_, ?_, ?_, ?_⟩
  · simp [boostX]; linear_combination (-(p 0)) * h1 + p 0 * ha
  · simp [boostY]; linear_combination (-(p 1)) * h1 + p 1 * ha
  · simp [boostZ]; linear_combination (-(p 2)) * h1 + p 2 * ha
  · simp [boostX]; linear_combination p 0 * p 0 * h2 - N * p 0 * p 0 * h1
  · simp [boostY]; linear_combination p 1 * p 1 * h2 - N * p 1 * p 1 * h1
  · simp [boostZ]; linear_combination p 2 * p 2 * h2 - N * p 2 * p 2 * h1
  · simp [boostX, boostY]; linear_combination p 0 * p 1 * h2 - N * p 0 * p 1 * h1
  · simp [boostX, boostZ]; linear_combination p 0 * p 2 * h2 - N * p 0 * p 2 * h1
  · simp [boostY, boostZ]; linear_combination p 1 * p 2 * h2 - N * p 1 * p 2 * h1
  · intro μ ν
    rw [hm2]
    fin_cases μ <;> fin_cases ν <;> simp [boostX, boostY, boostZ]
    · linear_combination N * p 0 * p 0 * h1 - p 0 * p 0 * h2
    · linear_combination N * p 0 * p 1 * h1 - p 0 * p 1 * h2
    · linear_combination N * p 0 * p 2 * h1 - p 0 * p 2 * h2
    · linear_combination a * p 0 * h1 - a * p 0 * ha
    · linear_combination N * p 0 * p 1 * h1 - p 0 * p 1 * h2
    · linear_combination N * p 1 * p 1 * h1 - p 1 * p 1 * h2
    · linear_combination N * p 1 * p 2 * h1 - p 1 * p 2 * h2
    · linear_combination a * p 1 * h1 - a * p 1 * ha
    · linear_combination N * p 0 * p 2 * h1 - p 0 * p 2 * h2
    · linear_combination N * p 1 * p 2 * h1 - p 1 * p 2 * h2
    · linear_combination N * p 2 * p 2 * h1 - p 2 * p 2 * h2
    · linear_combination a * p 2 * h1 - a * p 2 * ha
    · linear_combination a * p 0 * h1 - a * p 0 * ha
    · linear_combination a * p 1 * h1 - a * p 1 * ha
    · linear_combination a * p 2 * h1 - a * p 2 * ha
    · linear_combination (-(a ^ 2)) * hs - (a * m + 1) * ha

theorem diracVector_eq {m : ℝ} {p : Mom} (h : OnShell m p) (l : ℤ) (hl : l = 1 ∨ l = 0 ∨ l = -1) :
    diracVector m p l = some (circular (boostX (1 / m) (1 / (m * (p 3 + m))) p) (boostY (1 / m) (1 / (m * (p 3 + m))) p) (boostZ (1 / m) (1 / (m * (p 3 + m))) p) l) := by
  obtain ⟨hm, hE, hs⟩ := h
  have hn : ¬ m * (p 3 + m) = 0 := by positivity
  have hI : I * I = -1 := I_mul_I
  unfold diracVector
  rw [if_neg hn]
  generalize 1 / (m * (p 3 + m)) = N
  rcases hl with rfl | rfl | rfl <;> simp only [if_true, if_false, circular] <;> norm_num <;> funext i <;> fin_cases i <;>
    simp [boostX, boostY, boostZ, zed, zedb] <;> ring

/-- The axes, turned so that the third is along the momentum, and the third boosted. -/
noncomputable def turnX (p : Mom) (P f : ℝ) : Mom := ![p 2 / P + p 1 * p 1 * f / P, -(p 0 * p 1 * f / P), -(p 0 / P), 0]
noncomputable def turnY (p : Mom) (P f : ℝ) : Mom := ![-(p 0 * p 1 * f / P), p 2 / P + p 0 * p 0 * f / P, -(p 1 / P), 0]
noncomputable def turnZ (p : Mom) (m P : ℝ) : Mom := ![p 0 * p 3 / P / m, p 1 * p 3 / P / m, p 2 * p 3 / P / m, P / m]

theorem turn_triad {m P f : ℝ} {p : Mom} (h : OnShell m p) (hP : P ^ 2 = p 0 ^ 2 + p 1 ^ 2 + p 2 ^ 2) (hP0 : P ≠ 0) (hf : f * (p 0 ^ 2 + p 1 ^ 2) = P - p 2)
    (hf2 : f * (P + p 2) = 1) :
    Triad m p (turnX p P f) (turnY p P f) (turnZ p m P) := by
  obtain ⟨hm, hE, hs⟩ := h
  have hm0 : m ≠ 0 := hm.ne'
  have hEP : p 3 ^ 2 = m ^ 2 + P ^ 2 := by rw [hs, hP]; ring
  refine ⟨?_, ?_, ?_, ?_, ?_, ?_, ?_, ?_, ?_, ?_⟩
  · simp [turnX]; ring
  · simp [turnY]; ring
  · simp [turnZ]; field_simp; linear_combination p 3 * hP
  · simp [turnX]; field_simp; linear_combination (-(f * p 1 ^ 2)) * hf + hP - p 1 ^ 2 * hf2
  · simp [turnY]; field_simp; linear_combination (-(f * p 0 ^ 2)) * hf + hP - p 0 ^ 2 * hf2
  · simp [turnZ]; field_simp; linear_combination (P ^ 2 + p 3 ^ 2) * hP - P ^ 2 * hs
  · simp [turnX, turnY]; field_simp; linear_combination p 1 * p 0 * f * hf + p 0 * p 1 * hf2
  · simp [turnX, turnZ]; field_simp; ring
  · simp [turnY, turnZ]; field_simp; ring
  · intro μ ν
    fin_cases μ <;> fin_cases ν <;> simp [turnX, turnY, turnZ] <;> field_simp
    · linear_combination m ^ 2 * p 1 ^ 2 * f * hf + m ^ 2 * p 1 ^ 2 * hf2 + p 0 ^ 2 * hEP - m ^ 2 * hP
    · linear_combination (-(p 0 * p 1 * m ^ 2 * f)) * hf - p 0 * p 1 * m ^ 2 * hf2 + p 0 * p 1 * hEP
    · linear_combination p 0 * p 2 * hEP
    · linear_combination (-(p 0 * p 1 * m ^ 2 * f)) * hf - p 0 * p 1 * m ^ 2 * hf2 + p 0 * p 1 * hEP
    · linear_combination m ^ 2 * p 0 ^ 2 * f * hf + m ^ 2 * p 0 ^ 2 * hf2 + p 1 ^ 2 * hEP - m ^ 2 * hP
    · linear_combination p 1 * p 2 * hEP
    · linear_combination p 0 * p 2 * hEP
    · linear_combination p 1 * p 2 * hEP
    · linear_combination p 2 ^ 2 * hEP - m ^ 2 * hP
    · linear_combination -hEP

theorem absP_sq (p : Mom) : absP p ^ 2 = p 0 ^ 2 + p 1 ^ 2 + p 2 ^ 2 := by
  unfold absP
  rw [Real.sq_sqrt (by nlinarith [mul_self_nonneg (p 0), mul_self_nonneg (p 1), mul_self_nonneg (p 2)])]
  ring

theorem absP_nonneg (p : Mom) : 0 ≤ absP p := Real.sqrt_nonneg _

/-- The vectors in the basis of Weyl for a momentum away from the axis. -/
theorem weylVector_eq {m : ℝ} {p : Mom} (h : OnShell m p) (ht : p 0 * p 0 + p 1 * p 1 > 1e-6) (l : ℤ) (hl : l = 1 ∨ l = 0 ∨ l = -1) :
    weylVector m p l = some (circular (turnX p (absP p) ((absP p - p 2) / (p 0 * p 0 + p 1 * p 1))) (turnY p (absP p) ((absP p - p 2) / (p 0 * p 0 + p 1 * p 1)))
      (turnZ p m (absP p)) l) := by
  have hP : absP p > 1e-6 := by
    have := absP_sq p
    nlinarith [absP_nonneg p, mul_self_nonneg (p 2)]
  have hm0 : ¬ m = 0 := h.1.ne'
  have hI : I * I = -1 := I_mul_I
  unfold weylVector
  simp only [if_pos ht, if_pos hP]
  rw [if_neg hm0]
  generalize absP p = P
  generalize p 0 * p 0 + p 1 * p 1 = T
  rcases hl with rfl | rfl | rfl <;> simp only [if_true, if_false, circular] <;> norm_num <;> funext i <;> fin_cases i <;>
    simp [turnX, turnY, turnZ, zed, zedb] <;> ring_nf <;> (try simp only [I_sq]) <;> ring

/-- The vectors in the basis of Weyl for a momentum along the axis. -/
theorem weylVector_axis {m : ℝ} {p : Mom} (h : OnShell m p) (h0 : p 0 = 0) (h1 : p 1 = 0) (h2 : 1e-6 < p 2) (l : ℤ) (hl : l = 1 ∨ l = 0 ∨ l = -1) :
    weylVector m p l = some (circular (turnX p (absP p) (1 / (2 * absP p))) (turnY p (absP p) (1 / (2 * absP p))) (turnZ p m (absP p)) l) := by
  have hP' : absP p = p 2 := by
    unfold absP
    rw [h0, h1, zero_mul, zero_add, zero_add, Real.sqrt_mul_self (by linarith [show (0 : ℝ) < 1e-6 by norm_num])]
  have hP : absP p > 1e-6 := by rw [hP']; exact h2
  have ht : ¬ p 0 * p 0 + p 1 * p 1 > 1e-6 := by rw [h0, h1]; norm_num
  have hm0 : ¬ m = 0 := h.1.ne'
  unfold weylVector
  simp only [if_neg ht, if_pos hP]
  rw [if_neg hm0]
  generalize absP p = P
  rcases hl with rfl | rfl | rfl <;> simp only [if_true, if_false, circular] <;> norm_num <;> funext i <;> fin_cases i <;>
    simp [turnX, turnY, turnZ, zed, zedb, h0, h1] <;> ring

/-- The vectors in the basis of Weyl at rest. -/
theorem weylVector_rest {m : ℝ} {p : Mom} (h : OnShell m p) (h0 : p 0 = 0) (h1 : p 1 = 0) (h2 : p 2 = 0) (l : ℤ) (hl : l = 1 ∨ l = 0 ∨ l = -1) :
    weylVector m p l = some (circular ![1, 0, 0, 0] ![0, 1, 0, 0] ![0, 0, 1, 0] l) := by
  have hP' : absP p = 0 := by
    unfold absP
    rw [h0, h1, h2]; simp
  have hP : ¬ absP p > 1e-6 := by rw [hP']; norm_num
  have ht : ¬ p 0 * p 0 + p 1 * p 1 > 1e-6 := by rw [h0, h1]; norm_num
  have hm0 : ¬ m = 0 := h.1.ne'
  have hE : p 3 = m := by
    have := h.2.2
    rw [h0, h1, h2] at this
    have h3 : (p 3 - m) * (p 3 + m) = 0 := by linear_combination this
    rcases mul_eq_zero.1 h3 with h4 | h4
    · linarith
    · linarith [h.1, h.2.1]
  unfold weylVector
  simp only [if_neg ht, if_neg hP]
  rw [if_neg hm0]
  have hmc : (m : ℂ) ≠ 0 := by exact_mod_cast hm0
  rw [hP', hE]
  rcases hl with rfl | rfl | rfl <;> simp only [if_true, if_false, circular] <;> norm_num <;> funext i <;> fin_cases i <;>
    simp [zed, zedb, h0, h1, h2, hmc] <;> ring

theorem rest_triad {m : ℝ} {p : Mom} (h : OnShell m p) (h0 : p 0 = 0) (h1 : p 1 = 0) (h2 : p 2 = 0) : Triad m p ![1, 0, 0, 0] ![0, 1, 0, 0] ![0, 0, 1, 0] := by
  have hE : p 3 ^ 2 = m ^ 2 := by
    have := h.2.2
    rw [h0, h1, h2] at this
    linear_combination this
  have hm0 : m ≠ 0 := h.1.ne'
  refine ⟨?_, ?_, ?_, ?_, ?_, ?_, ?_, ?_, ?_, ?_⟩
  case refine_10 =>
    intro μ ν
    fin_cases μ <;> fin_cases ν <;> simp [h0, h1, h2]
    rw [← sq, hE]
    field_simp
    ring
  all_goals simp [h0, h1, h2]

theorem turn_cross {P f : ℝ} {p : Mom} (hP0 : P ≠ 0) (hf : f * (p 0 ^ 2 + p 1 ^ 2) = P - p 2)
    (hf2 : f * (P + p 2) = 1) :
    p 1 * turnX p P f 2 - p 2 * turnX p P f 1 = P * turnY p P f 0 ∧ p 2 * turnX p P f 0 - p 0 * turnX p P f 2 = P * turnY p P f 1 ∧
    p 0 * turnX p P f 1 - p 1 * turnX p P f 0 = P * turnY p P f 2 ∧
    p 1 * turnY p P f 2 - p 2 * turnY p P f 1 = -(P * turnX p P f 0) ∧ p 2 * turnY p P f 0 - p 0 * turnY p P f 2 = -(P * turnX p P f 1) ∧
    p 0 * turnY p P f 1 - p 1 * turnY p P f 0 = -(P * turnX p P f 2) := by
  refine ⟨?_, ?_, ?_, ?_, ?_, ?_⟩ <;> simp [turnX, turnY] <;> field_simp
  · linear_combination p 0 * p 1 * hf2
  · linear_combination p 2 * hf - p 0 ^ 2 * hf2
  · linear_combination (-(p 1)) * hf
  · linear_combination (-(p 2)) * hf + p 1 ^ 2 * hf2
  · linear_combination (-(p 0 * p 1)) * hf2
  · linear_combination p 0 * hf

/-- The vectors that are turned are the states of definite spin along the momentum. -/
theorem turn_helicity {m P f : ℝ} {p : Mom} (hP0 : P ≠ 0) (hf : f * (p 0 ^ 2 + p 1 ^ 2) = P - p 2)
    (hf2 : f * (P + p 2) = 1) (l : ℤ) (hl : l = 1 ∨ l = 0 ∨ l = -1) :
    spinAlong p (circular (turnX p P f) (turnY p P f) (turnZ p m P) l) = ((l * P : ℝ) : ℂ) • circular (turnX p P f) (turnY p P f) (turnZ p m P) l := by
  obtain ⟨a1, a2, a3, b1, b2, b3⟩ := turn_cross hP0 hf hf2
  have cst := fun {a b : ℝ} (h : a = b) => congrArg (fun x : ℝ => (x : ℂ)) h
  have a1 := cst a1
  have a2 := cst a2
  have a3 := cst a3
  have b1 := cst b1
  have b2 := cst b2
  have b3 := cst b3
  have x3 : turnX p P f 3 = 0 := by simp [turnX]
  have y3 : turnY p P f 3 = 0 := by simp [turnY]
  push_cast at a1 a2 a3 b1 b2 b3
  have hI : I * I = -1 := I_mul_I
  generalize hX : turnX p P f = X at *
  generalize hY : turnY p P f = Y at *
  rcases hl with rfl | rfl | rfl
  · simp only [circular, if_true]
    funext i
    fin_cases i <;> simp [spinAlong, x3, y3]
    · linear_combination (-(I * (√2 : ℂ)⁻¹)) * a1 - I * I * (√2 : ℂ)⁻¹ * b1 + P * (√2 : ℂ)⁻¹ * X 0 * hI
    · linear_combination (-(I * (√2 : ℂ)⁻¹)) * a2 - I * I * (√2 : ℂ)⁻¹ * b2 + P * (√2 : ℂ)⁻¹ * X 1 * hI
    · linear_combination (-(I * (√2 : ℂ)⁻¹)) * a3 - I * I * (√2 : ℂ)⁻¹ * b3 + P * (√2 : ℂ)⁻¹ * X 2 * hI
  · simp only [circular]
    norm_num
    funext i
    fin_cases i <;> simp [spinAlong, turnZ] <;> ring
  · simp only [circular]
    norm_num
    funext i
    fin_cases i <;> simp [spinAlong, x3, y3]
    · linear_combination (I * (√2 : ℂ)⁻¹) * a1 - I * I * (√2 : ℂ)⁻¹ * b1 + P * (√2 : ℂ)⁻¹ * X 0 * hI
    · linear_combination (I * (√2 : ℂ)⁻¹) * a2 - I * I * (√2 : ℂ)⁻¹ * b2 + P * (√2 : ℂ)⁻¹ * X 1 * hI
    · linear_combination (I * (√2 : ℂ)⁻¹) * a3 - I * I * (√2 : ℂ)⁻¹ * b3 + P * (√2 : ℂ)⁻¹ * X 2 * hI

end AmpGen.Polarisation
