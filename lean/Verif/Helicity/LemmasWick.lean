import Verif.Helicity.LemmasFrame
/-
The rotations and boosts to the frames of the decay products.
-/
namespace AmpGen.Helicity
open Complex
open AmpGen.Transform
open AmpGen.Polarisation (Mom Properties)
open AmpGen.Polarisation.Spec (cx cc OnShell)

/-- The length of the momentum. -/
noncomputable def len (p : Mom) : ℝ := √(p 0 * p 0 + p 1 * p 1 + p 2 * p 2)

theorem len_sq (p : Mom) : len p * len p = p 0 * p 0 + p 1 * p 1 + p 2 * p 2 := by
  unfold len
  exact Real.mul_self_sqrt (add_nonneg (add_nonneg (mul_self_nonneg _) (mul_self_nonneg _)) (mul_self_nonneg _))

theorem len_nonneg (p : Mom) : 0 ≤ len p := Real.sqrt_nonneg _

/-- The rotation that takes the direction with polar angle `(c, s)` and azimuth `(f, g)` to the axis, in the plane of both. -/
def turnP (c s f g : ℝ) (q : Mom) : Mom :=
  ![q 0 - f * (s * q 2 + (1 - c) * (f * q 0 + g * q 1)), q 1 - g * (s * q 2 + (1 - c) * (f * q 0 + g * q 1)), c * q 2 + s * (f * q 0 + g * q 1), q 3]

/-- The rotation that takes the opposite of this direction there, and then turns it to the other end. -/
def turnM (c s f g : ℝ) (q : Mom) : Mom :=
  ![q 0 - f * (-(s * q 2) + (1 + c) * (f * q 0 + g * q 1)), -(q 1 - g * (-(s * q 2) + (1 + c) * (f * q 0 + g * q 1))), c * q 2 + s * (f * q 0 + g * q 1), q 3]

/-- The angles of a momentum. -/
structure Angles (p : Mom) (c s f g : ℝ) : Prop where
  cs : c ^ 2 + s ^ 2 = 1
  fg : f ^ 2 + g ^ 2 = 1
  s0 : 0 ≤ s
  x : p 0 = len p * s * f
  y : p 1 = len p * s * g
  z : p 2 = len p * c

/-- A momentum that the thresholds of the code do not change. -/
def Clear (p : Mom) : Prop := p 0 * p 0 + p 1 * p 1 > 1e-15 ∨ (p 0 = 0 ∧ p 1 = 0 ∧ (p 2 * p 2 > 1e-15 ∨ p 2 = 0))

theorem act1_rotate {c f g : ℝ} (hf : f ^ 2 + g ^ 2 = 1) (q : Mom) : act1 ⟨c, g, -f, 0, .rotate⟩ q = turnP c (√(1 - c * c)) f g q := by
  unfold act1 turnP
  simp only []
  funext i
  fin_cases i
  · simp; ring
  · simp; ring
  · simp; linear_combination (-(1 - c) * q 2) * hf
  · simp

theorem act1_rotate_minus {c f g : ℝ} (hf : f ^ 2 + g ^ 2 = 1) (q : Mom) :
    act1 ⟨-1, 1, 0, 0, .rotate⟩ (act1 ⟨-c, -g, f, 0, .rotate⟩ q) = turnM c (√(1 - c * c)) f g q := by
  have h1 := act1_rotate (c := -c) (f := -f) (g := -g) (by linear_combination hf) q
  rw [neg_neg] at h1
  rw [h1]
  unfold act1 turnM turnP
  simp only []
  funext i
  fin_cases i <;> simp <;> ring

theorem wick_angles {p : Mom} (h : Clear p) : ∃ c s f g, Angles p c s f g ∧ (∀ ve, Good (wickRotation p ve)) ∧ (∀ q, act (wickRotation p 1).transforms q = turnP c s f g q) ∧
    ∀ q, act (wickRotation p (-1)).transforms q = turnM c s f g q := by
  have key : ∀ c f g : ℝ, -1 ≤ c → c ≤ 1 → f ^ 2 + g ^ 2 = 1 →
      (if p 0 * p 0 + p 1 * p 1 + p 2 * p 2 > 1e-15 then p 2 / √(p 0 * p 0 + p 1 * p 1 + p 2 * p 2) else 1) = c →
      (if p 0 * p 0 + p 1 * p 1 > 1e-15 then p 0 / √(p 0 * p 0 + p 1 * p 1) else 1) = f →
      (if p 0 * p 0 + p 1 * p 1 > 1e-15 then p 1 / √(p 0 * p 0 + p 1 * p 1) else 0) = g →
      (∀ ve, Good (wickRotation p ve)) ∧ (∀ q, act (wickRotation p 1).transforms q = turnP c (√(1 - c * c)) f g q) ∧
      ∀ q, act (wickRotation p (-1)).transforms q = turnM c (√(1 - c * c)) f g q := by
    intro c f g c1 c2 hfg e1 e2 e3
    have p1 : Proper ⟨c, g, -f, 0, .rotate⟩ := ⟨by simp only []; linear_combination hfg, c1, c2⟩
    have p2 : Proper ⟨-c, -g, f, 0, .rotate⟩ := ⟨by simp only []; linear_combination hfg, by simp only []; linarith, by simp only []; linarith⟩
    have p3 : Proper ⟨-1, 1, 0, 0, .rotate⟩ := ⟨by simp, by simp, by simp only []; linarith⟩
    refine ⟨fun ve => ?_, fun q => ?_, fun q => ?_⟩
    · unfold wickRotation
      simp only [e1, e2, e3]
      have pr : Proper (if ve = 1 then ⟨c, g, -f, 0, .rotate⟩ else ⟨-c, -g, f, 0, .rotate⟩) := by split <;> assumption
      split
      · exact (Good.single pr).push p3
      · exact Good.single pr
    · unfold wickRotation
      simp only [e1, e2, e3]
      rw [if_neg (by norm_num), if_pos trivial]
      exact act1_rotate hfg q
    · unfold wickRotation
      simp only [e1, e2, e3]
      rw [if_pos trivial, if_neg (by norm_num)]
      exact act1_rotate_minus hfg q
  have e0 : (0 : ℝ) < 1e-15 := by norm_num
  have hl := len_sq p
  rcases h with h | ⟨hx, hy, hz⟩
  · obtain ⟨T, hT⟩ : ∃ T, √(p 0 * p 0 + p 1 * p 1) = T := ⟨_, rfl⟩
    have hT2 : T * T = p 0 * p 0 + p 1 * p 1 := by rw [← hT]; exact Real.mul_self_sqrt (by linarith)
    have hTp : 0 < T := by rw [← hT]; exact Real.sqrt_pos.2 (by linarith)
    have hP : p 0 * p 0 + p 1 * p 1 + p 2 * p 2 > 1e-15 := by nlinarith [mul_self_nonneg (p 2)]
    have hl0 : 0 < len p := Real.sqrt_pos.2 (by linarith)
    have hcs : 1 - p 2 / len p * (p 2 / len p) = (T / len p) * (T / len p) := by
      field_simp
      linear_combination hl - hT2
    have hs : √(1 - p 2 / len p * (p 2 / len p)) = T / len p := by
      rw [hcs, Real.sqrt_mul_self (by positivity)]
    have hc : (p 2 / len p) ^ 2 ≤ 1 := by
      have : 0 ≤ (T / len p) * (T / len p) := mul_self_nonneg _
      rw [← hcs] at this
      nlinarith
    have hab := abs_le.1 ((sq_le_one_iff_abs_le_one _).1 hc)
    have hfg : (p 0 / T) ^ 2 + (p 1 / T) ^ 2 = 1 := by
      field_simp
      linear_combination -hT2
    obtain ⟨k1, k2, k3⟩ := key (p 2 / len p) (p 0 / T) (p 1 / T) hab.1 hab.2 hfg (by rw [if_pos hP]; rfl) (by rw [if_pos h, hT]) (by rw [if_pos h, hT])
    rw [hs] at k2 k3
    refine ⟨_, _, _, _, ⟨?_, hfg, ?_, ?_, ?_, ?_⟩, k1, k2, k3⟩
    · linear_combination -hcs
    · positivity
    · field_simp
    · field_simp
    · field_simp
  · have hT : ¬ (p 0 * p 0 + p 1 * p 1 > 1e-15) := by rw [hx, hy]; norm_num
    have hlz : len p = |p 2| := by
      unfold len
      rw [hx, hy, ← Real.sqrt_mul_self_eq_abs]
      congr 1
      ring
    rcases hz with hz | hz
    · have hP : p 0 * p 0 + p 1 * p 1 + p 2 * p 2 > 1e-15 := by nlinarith [mul_self_nonneg (p 0), mul_self_nonneg (p 1)]
      have hz0 : p 2 ≠ 0 := by rintro h0; rw [h0] at hz; norm_num at hz
      have ha : |p 2| ≠ 0 := abs_ne_zero.2 hz0
      have hcc : p 2 / |p 2| * (p 2 / |p 2|) = 1 := by
        rw [div_mul_div_comm, abs_mul_abs_self, div_self (mul_ne_zero hz0 hz0)]
      have hc : (p 2 / |p 2|) ^ 2 ≤ 1 := by rw [sq, hcc]
      have hab := abs_le.1 ((sq_le_one_iff_abs_le_one _).1 hc)
      obtain ⟨k1, k2, k3⟩ := key (p 2 / |p 2|) 1 0 hab.1 hab.2 (by norm_num) (by rw [if_pos hP, ← hlz]; rfl) (by rw [if_neg hT]) (by rw [if_neg hT])
      rw [hcc, sub_self, Real.sqrt_zero] at k2 k3
      refine ⟨_, _, _, _, ⟨?_, ?_, le_rfl, ?_, ?_, ?_⟩, k1, k2, k3⟩
      · linear_combination hcc
      · norm_num
      · rw [hx]; ring
      · rw [hy]; ring
      · rw [hlz]; field_simp
    · have hP : ¬ (p 0 * p 0 + p 1 * p 1 + p 2 * p 2 > 1e-15) := by rw [hx, hy, hz]; norm_num
      obtain ⟨k1, k2, k3⟩ := key 1 1 0 (by norm_num) le_rfl (by norm_num) (by rw [if_neg hP]) (by rw [if_neg hT]) (by rw [if_neg hT])
      rw [show (1 : ℝ) - 1 * 1 = 0 by norm_num, Real.sqrt_zero] at k2 k3
      have hl0 : len p = 0 := by rw [hlz, hz, abs_zero]
      refine ⟨_, _, _, _, ⟨by norm_num, by norm_num, le_rfl, ?_, ?_, ?_⟩, k1, k2, k3⟩
      · rw [hx]; ring
      · rw [hy]; ring
      · rw [hz, hl0]; ring

end AmpGen.Helicity
