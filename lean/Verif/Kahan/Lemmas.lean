import Verif.Kahan.Model
import Verif.Kahan.Spec
import Mathlib.Data.Int.Log
import Mathlib.Data.Rat.Floor
import Mathlib.Algebra.Order.Round
import Mathlib.Tactic.Linarith
import Mathlib.Tactic.Ring
import Mathlib.Tactic.FieldSimp
import Mathlib.Tactic.Positivity
import Mathlib.Tactic.NormNum
/-
Floating point facts: representable numbers are fixed, relative error, exactness of the
two-sum correction.
-/
namespace AmpGen.Kahan

variable {p : Nat} {fl : ℚ → ℚ}

theorem isFloat_zero : IsFloat p 0 := ⟨0, 0, by simp, by simp⟩

theorem isFloat_int_mul (m : ℤ) (e : ℤ) (h : |m| ≤ 2 ^ p) : IsFloat p (m * 2 ^ e) := ⟨m, e, h, rfl⟩

theorem Nearest.fix (h : Nearest p fl) {x : ℚ} (hx : IsFloat p x) : fl x = x := by
  have := h.nearest x x hx
  rw [sub_self, abs_zero] at this
  have h0 : x - fl x = 0 := abs_eq_zero.mp (le_antisymm this (abs_nonneg _))
  linarith

theorem Nearest.zero (h : Nearest p fl) : fl 0 = 0 := h.fix isFloat_zero

/-- The rounding of `x ≠ 0` on the grid of its binade. -/
theorem grid (x : ℚ) (hx : x ≠ 0) :
    ∃ e : ℤ, (2 : ℚ) ^ (p - 1 : ℤ) * 2 ^ e ≤ |x| ∧ |x| < 2 ^ p * 2 ^ e ∧
      |round (x / 2 ^ e)| ≤ 2 ^ p ∧ |x - round (x / 2 ^ e) * 2 ^ e| ≤ 2 ^ e / 2 := by
  have hpos : 0 < |x| := abs_pos.mpr hx
  refine ⟨Int.log 2 |x| - (p - 1), ?_, ?_, ?_, ?_⟩
  · rw [← zpow_add₀ (by norm_num)]
    have := Int.zpow_log_le_self (b := 2) (by norm_num) hpos
    have e1 : (p - 1 : ℤ) + (Int.log 2 |x| - (p - 1)) = Int.log 2 |x| := by ring
    rw [e1]
    exact_mod_cast this
  · rw [← zpow_natCast, ← zpow_add₀ (by norm_num)]
    have := Int.lt_zpow_succ_log_self (b := 2) (by norm_num) |x|
    have e1 : ((p : ℕ) : ℤ) + (Int.log 2 |x| - (p - 1)) = Int.log 2 |x| + 1 := by ring
    rw [e1]
    exact_mod_cast this
  · set e : ℤ := Int.log 2 |x| - (p - 1) with he
    have h2 : |x| < 2 ^ p * 2 ^ e := by
      rw [← zpow_natCast, ← zpow_add₀ (by norm_num)]
      have := Int.lt_zpow_succ_log_self (b := 2) (by norm_num) |x|
      have e1 : ((p : ℕ) : ℤ) + (Int.log 2 |x| - (p - 1)) = Int.log 2 |x| + 1 := by ring
      rw [he, e1]
      exact_mod_cast this
    have hepos : (0 : ℚ) < 2 ^ e := by positivity
    have h3 : |x / 2 ^ e| < 2 ^ p := by
      rw [abs_div, abs_of_pos hepos, div_lt_iff₀ hepos]
      exact h2
    have h4 := abs_lt.mp h3
    have h5 := abs_sub_round (x / 2 ^ e)
    have h6 := abs_le.mp h5
    have h7 : ((round (x / 2 ^ e) : ℤ) : ℚ) < ((2 ^ p + 1 : ℤ) : ℚ) := by push_cast; linarith
    have h8 : ((-(2 ^ p) - 1 : ℤ) : ℚ) < ((round (x / 2 ^ e) : ℤ) : ℚ) := by push_cast; linarith
    have h7' := Int.cast_lt.mp h7
    have h8' := Int.cast_lt.mp h8
    rw [abs_le]
    constructor <;> linarith [Int.lt_iff_add_one_le.mp h7', Int.lt_iff_add_one_le.mp h8']
  · set e : ℤ := Int.log 2 |x| - (p - 1) with he
    have hepos : (0 : ℚ) < 2 ^ e := by positivity
    have h5 := abs_sub_round (x / 2 ^ e)
    have : x - round (x / 2 ^ e) * 2 ^ e = (x / 2 ^ e - round (x / 2 ^ e)) * 2 ^ e := by
      field_simp
    rw [this, abs_mul, abs_of_pos hepos]
    calc |x / 2 ^ e - round (x / 2 ^ e)| * 2 ^ e ≤ 1 / 2 * 2 ^ e :=
          mul_le_mul_of_nonneg_right h5 hepos.le
      _ = 2 ^ e / 2 := by ring

/-- Relative error of one operation. -/
theorem Nearest.rel (h : Nearest p fl) (x : ℚ) : |fl x - x| ≤ |x| / 2 ^ p := by
  by_cases hx : x = 0
  · subst hx; rw [h.zero]; simp
  · obtain ⟨e, h1, -, h3, h4⟩ := grid x hx
    have := h.nearest x _ (isFloat_int_mul _ e h3)
    rw [abs_sub_comm]
    refine le_trans this (le_trans h4 ?_)
    rw [le_div_iff₀ (by positivity)]
    have e1 : (2 : ℚ) ^ e / 2 * 2 ^ p = 2 ^ (p - 1 : ℤ) * 2 ^ e := by
      rw [zpow_sub₀ (by norm_num), zpow_natCast, zpow_one]
      field_simp
    rw [e1]
    exact h1

/-- A rounding to nearest exists. -/
def rn (p : Nat) (x : ℚ) : ℚ :=
  if x = 0 then 0
  else round (x / 2 ^ (Int.log 2 |x| - (p - 1) : ℤ)) * 2 ^ (Int.log 2 |x| - (p - 1) : ℤ)

theorem grid_rn (x : ℚ) (hx : x ≠ 0) :
    ∃ e : ℤ, (2 : ℚ) ^ (p - 1 : ℤ) * 2 ^ e ≤ |x| ∧ |round (x / 2 ^ e)| ≤ 2 ^ p ∧
      rn p x = round (x / 2 ^ e) * 2 ^ e := by
  have hpos : 0 < |x| := abs_pos.mpr hx
  refine ⟨Int.log 2 |x| - (p - 1), ?_, ?_, by rw [rn, if_neg hx]⟩
  · rw [← zpow_add₀ (by norm_num)]
    have := Int.zpow_log_le_self (b := 2) (by norm_num) hpos
    have e1 : (p - 1 : ℤ) + (Int.log 2 |x| - (p - 1)) = Int.log 2 |x| := by ring
    rw [e1]
    exact_mod_cast this
  · set e : ℤ := Int.log 2 |x| - (p - 1) with he
    have h2 : |x| < 2 ^ p * 2 ^ e := by
      rw [← zpow_natCast, ← zpow_add₀ (by norm_num)]
      have := Int.lt_zpow_succ_log_self (b := 2) (by norm_num) |x|
      have e1 : ((p : ℕ) : ℤ) + (Int.log 2 |x| - (p - 1)) = Int.log 2 |x| + 1 := by ring
      rw [he, e1]
      exact_mod_cast this
    have hepos : (0 : ℚ) < 2 ^ e := by positivity
    have h3 : |x / 2 ^ e| < 2 ^ p := by
      rw [abs_div, abs_of_pos hepos, div_lt_iff₀ hepos]
      exact h2
    have h4 := abs_lt.mp h3
    have h5 := abs_sub_round (x / 2 ^ e)
    have h6 := abs_le.mp h5
    have h7 : ((round (x / 2 ^ e) : ℤ) : ℚ) < ((2 ^ p + 1 : ℤ) : ℚ) := by push_cast; linarith
    have h8 : ((-(2 ^ p) - 1 : ℤ) : ℚ) < ((round (x / 2 ^ e) : ℤ) : ℚ) := by push_cast; linarith
    have h7' := Int.cast_lt.mp h7
    have h8' := Int.cast_lt.mp h8
    rw [abs_le]
    constructor <;> linarith [Int.lt_iff_add_one_le.mp h7', Int.lt_iff_add_one_le.mp h8']

theorem round_nearest (y : ℚ) (z : ℤ) : |y - round y| ≤ |y - z| := round_le y z

theorem rn_nearest (hp : 1 ≤ p) : Nearest p (rn p) := by
  constructor
  · intro x
    by_cases hx : x = 0
    · rw [rn, if_pos hx]; exact isFloat_zero
    · obtain ⟨e, -, h2, h3⟩ := grid_rn x hx
      rw [h3]; exact isFloat_int_mul _ _ h2
  · intro x f hf
    by_cases hx : x = 0
    · subst hx; simp [rn]
    · obtain ⟨e, h1, -, h3⟩ := grid_rn x hx
      rw [h3]
      have hepos : (0 : ℚ) < 2 ^ e := by positivity
      -- every grid point is at least as far as the rounded one
      have hgrid : ∀ z : ℤ, |x - round (x / 2 ^ e) * 2 ^ e| ≤ |x - z * 2 ^ e| := by
        intro z
        have e1 : ∀ z : ℤ, x - z * 2 ^ e = (x / 2 ^ e - z) * 2 ^ e := by
          intro z; field_simp
        rw [e1, e1, abs_mul, abs_mul]
        exact mul_le_mul_of_nonneg_right (round_nearest _ z) (abs_nonneg _)
      obtain ⟨m, e', hm, rfl⟩ := hf
      by_cases hee : e ≤ e'
      · obtain ⟨k, hk⟩ := Int.le.dest hee
        have : (m : ℚ) * 2 ^ e' = ((m * 2 ^ k : ℤ) : ℚ) * 2 ^ e := by
          rw [← hk, zpow_add₀ (by norm_num), zpow_natCast]; push_cast; ring
        rw [this]
        exact hgrid _
      · -- a finer number is not larger than the lower end of the binade
        have hle : |(m : ℚ) * 2 ^ e'| ≤ 2 ^ (p - 1 : ℤ) * 2 ^ e := by
          rw [abs_mul, abs_of_pos (show (0 : ℚ) < 2 ^ e' by positivity)]
          have hm' : |(m : ℚ)| ≤ 2 ^ p := by exact_mod_cast hm
          calc |(m : ℚ)| * 2 ^ e' ≤ 2 ^ p * 2 ^ e' := mul_le_mul_of_nonneg_right hm' (by positivity)
            _ = 2 ^ ((p : ℤ) + e') := by rw [zpow_add₀ (by norm_num), zpow_natCast]
            _ ≤ 2 ^ ((p : ℤ) - 1 + e) := zpow_le_zpow_right₀ (by norm_num) (by omega)
            _ = 2 ^ (p - 1 : ℤ) * 2 ^ e := by rw [zpow_add₀ (by norm_num)]
        have hb : (2 : ℚ) ^ (p - 1 : ℤ) = ((2 ^ (p - 1) : ℤ) : ℚ) := by
          obtain ⟨q, rfl⟩ := Nat.exists_eq_add_of_le' hp
          push_cast
          simp [zpow_natCast]
        rw [hb] at hle h1
        rcases le_or_gt 0 x with hx0 | hx0
        · have hz := hgrid (2 ^ (p - 1) : ℤ)
          refine le_trans hz ?_
          rw [abs_of_nonneg hx0] at h1
          rw [abs_of_nonneg (by linarith)]
          have := (abs_le.mp hle).2
          exact le_trans (by linarith) (le_abs_self _)
        · have hz := hgrid (-(2 ^ (p - 1)) : ℤ)
          refine le_trans hz ?_
          rw [abs_of_neg hx0] at h1
          have e2 : x - ((-(2 ^ (p - 1)) : ℤ) : ℚ) * 2 ^ e = x + ((2 ^ (p - 1) : ℤ) : ℚ) * 2 ^ e := by
            push_cast; ring
          rw [e2, abs_of_nonpos (by linarith)]
          have := (abs_le.mp hle).1
          exact le_trans (by linarith) (neg_le_abs _)

end AmpGen.Kahan
