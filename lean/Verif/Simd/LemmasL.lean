import Verif.Simd.Avx512
import Mathlib.Analysis.SpecialFunctions.Log.Deriv
import Mathlib.Analysis.SpecialFunctions.Pow.Real
import Mathlib.Tactic.LinearCombination
import Mathlib.Tactic.FieldSimp
import Mathlib.Tactic.Linarith
namespace AmpGen.Simd.Avx512

/-- The polynomial of `log`. -/
noncomputable def poly (t : ℝ) : ℝ :=
  2 * t + 0.666666666666685503450651 * t ^ 3 + 0.399999999989941956712869 * t ^ 5 + 0.285714288030134544449368 * t ^ 7
    + 0.22222194152736701733275 * t ^ 9 + 0.181837339521549679055568 * t ^ 11 + 0.153108178020442575739679 * t ^ 13 + 0.148197055177935105296783 * t ^ 15

theorem pow_third {u : ℝ} (h0 : 0 ≤ u) (h1 : u ≤ 1 / 3) (k : ℕ) : 0 ≤ u ^ k ∧ u ^ k ≤ (1 / 3) ^ k := ⟨by positivity, pow_le_pow_left₀ h0 h1 k⟩

/-- The polynomial near the logarithm. -/
theorem poly_near {u : ℝ} (h0 : 0 ≤ u) (h1 : u ≤ 1 / 3) : |poly u - Real.log ((1 + u) / (1 - u))| ≤ 29 / 10 ^ 10 := by
  have hs := Real.sum_range_sub_log_div_le (x := u) (by rw [abs_of_nonneg h0]; linarith) 12
  rw [abs_of_nonneg h0] at hs
  have hrem : u ^ (2 * 12 + 1) / (1 - u ^ 2) ≤ 1 / 10 ^ 11 := by
    have h2 : u ^ 2 ≤ 1 / 9 := by nlinarith
    have h3 : u ^ (2 * 12 + 1) ≤ (1 / 3) ^ 25 := (pow_third h0 h1 25).2
    rw [div_le_iff₀ (by linarith)]
    calc u ^ (2 * 12 + 1) ≤ (1 / 3) ^ 25 := h3
      _ ≤ 1 / 10 ^ 11 * (8 / 9) := by norm_num
      _ ≤ 1 / 10 ^ 11 * (1 - u ^ 2) := by apply mul_le_mul_of_nonneg_left _ (by norm_num); linarith
  obtain ⟨L, hL⟩ : ∃ L, Real.log ((1 + u) / (1 - u)) = L := ⟨_, rfl⟩
  rw [hL] at hs ⊢
  simp only [Finset.sum_range_succ, Finset.sum_range_zero] at hs
  norm_num at hs
  have hs' := abs_le.mp (le_trans hs (by simpa using hrem))
  obtain ⟨a3, b3⟩ := pow_third h0 h1 3
  obtain ⟨a5, b5⟩ := pow_third h0 h1 5
  obtain ⟨a7, b7⟩ := pow_third h0 h1 7
  obtain ⟨a9, b9⟩ := pow_third h0 h1 9
  obtain ⟨a11, b11⟩ := pow_third h0 h1 11
  obtain ⟨a13, b13⟩ := pow_third h0 h1 13
  obtain ⟨a15, b15⟩ := pow_third h0 h1 15
  obtain ⟨a17, b17⟩ := pow_third h0 h1 17
  obtain ⟨a19, b19⟩ := pow_third h0 h1 19
  obtain ⟨a21, b21⟩ := pow_third h0 h1 21
  obtain ⟨a23, b23⟩ := pow_third h0 h1 23
  norm_num at b3 b5 b7 b9 b11 b13 b15 b17 b19 b21 b23 hs'
  unfold poly
  rw [abs_le]
  constructor
  · norm_num; linarith [hs'.1, hs'.2]
  · norm_num; linarith [hs'.1, hs'.2]

theorem poly_neg (t : ℝ) : poly (-t) = - poly t := by unfold poly; ring

/-- The constant `corr` near the logarithm of two. -/
theorem corr_near : |0.693147180559945286226764 - Real.log 2| ≤ 1 / 10 ^ 15 := by
  have hs := Real.sum_range_sub_log_div_le (x := 1 / 3) (by rw [abs_of_nonneg (by norm_num)]; norm_num) 18
  have h2 : (1 + (1 / 3 : ℝ)) / (1 - 1 / 3) = 2 := by norm_num
  rw [h2] at hs
  obtain ⟨L, hL⟩ : ∃ L, Real.log 2 = L := ⟨_, rfl⟩
  rw [hL] at hs ⊢
  simp only [Finset.sum_range_succ, Finset.sum_range_zero] at hs
  norm_num at hs
  rw [abs_le] at hs ⊢
  constructor
  · norm_num; linarith [hs.1, hs.2]
  · norm_num; linarith [hs.1, hs.2]

/-- The parts of a positive normal double. -/
theorem decode_normal {b : Nat} (hb : b < 2 ^ 64) {x : ℝ} (h : decode b = some x) (hx : (2 : ℝ) ^ (-1022 : ℤ) ≤ x) :
    ∃ e f : Nat, 1 ≤ e ∧ e < 2047 ∧ f < 2 ^ 52 ∧ b = 2 ^ 52 * e + f ∧ x = (1 + (f : ℝ) / 2 ^ 52) * (2 : ℝ) ^ ((e : ℤ) - 1023) := by
  have h2 : (0 : ℝ) < (2 : ℝ) ^ (-1022 : ℤ) := by positivity
  have hf : b % 2 ^ 52 < 2 ^ 52 := Nat.mod_lt _ (by norm_num)
  have hf' : ((b % 2 ^ 52 : Nat) : ℝ) / 2 ^ 52 < 1 := by
    rw [div_lt_one (by norm_num)]; exact_mod_cast hf
  have hf0 : 0 ≤ ((b % 2 ^ 52 : Nat) : ℝ) / 2 ^ 52 := by positivity
  unfold decode at h
  simp only at h
  have hs : ¬ b / 2 ^ 63 % 2 = 1 := by
    intro hs
    rw [if_pos hs] at h
    have : x ≤ 0 := by
      split at h
      · cases h
      split at h
      · simp only [Option.some.injEq] at h
        rw [← h]
        have := mul_nonneg hf0 h2.le
        linarith
      · simp only [Option.some.injEq] at h
        rw [← h]
        have h3 : (0 : ℝ) < (2 : ℝ) ^ (((b / 2 ^ 52 % 2 ^ 11 : Nat) : ℤ) - 1023) := by positivity
        have := mul_nonneg (add_nonneg zero_le_one hf0) h3.le
        linarith
    linarith
  rw [if_neg hs, one_mul] at h
  split at h
  · cases h
  rename_i he
  split at h
  · rename_i he0
    simp only [Option.some.injEq] at h
    have : ((b % 2 ^ 52 : Nat) : ℝ) / 2 ^ 52 * (2 : ℝ) ^ (-1022 : ℤ) < 1 * (2 : ℝ) ^ (-1022 : ℤ) := mul_lt_mul_of_pos_right hf' h2
    linarith
  · rename_i he0
    simp only [Option.some.injEq, one_mul] at h
    refine ⟨b / 2 ^ 52 % 2 ^ 11, b % 2 ^ 52, by omega, by omega, hf, by omega, h.symm⟩

/-- `frexp` of a positive normal double. -/
theorem frexp_parts {e f : Nat} (he1 : e < 2 ^ 12) (hf : f < 2 ^ 52) :
    frexp (2 ^ 52 * e + f) = some ((1 + (f : ℝ) / 2 ^ 52) * (2 : ℝ) ^ (-1 : ℤ), (e : ℝ) - 1022) := by
  have hb : (2 ^ 52 * e + f) >>> 52 = e := by rw [Nat.shiftRight_eq_div_pow]; omega
  have hc : e ||| 0x4330000000000000 = 0x4330000000000000 + e := by
    rw [Nat.or_comm]
    have := Nat.two_pow_add_eq_or_of_lt (i := 52) (b := e) (by omega) 0x433
    norm_num at this
    exact this.symm
  have hm : (2 ^ 52 * e + f) &&& 0x000FFFFFFFFFFFFF = f := by
    have := Nat.and_two_pow_sub_one_eq_mod (2 ^ 52 * e + f) 52
    norm_num at this
    norm_num
    rw [this]
    omega
  have ho : f ||| 0x3FE0000000000000 = 0x3FE0000000000000 + f := by
    rw [Nat.or_comm]
    have := Nat.two_pow_add_eq_or_of_lt (i := 52) (b := f) hf 0x3FE
    norm_num at this
    exact this.symm
  have d1 : decode (0x4330000000000000 + e) = some (4503599627370496 + (e : ℝ)) := by
    have q1 : (0x4330000000000000 + e) / 2 ^ 63 % 2 = 0 := by omega
    have q2 : (0x4330000000000000 + e) / 2 ^ 52 % 2 ^ 11 = 1075 := by omega
    have q3 : (0x4330000000000000 + e) % 2 ^ 52 = e := by omega
    unfold decode
    simp only
    rw [q1, q2, q3]
    norm_num
    ring
  have d2 : decode (0x3FE0000000000000 + f) = some ((1 + (f : ℝ) / 2 ^ 52) * (2 : ℝ) ^ (-1 : ℤ)) := by
    have q1 : (0x3FE0000000000000 + f) / 2 ^ 63 % 2 = 0 := by omega
    have q2 : (0x3FE0000000000000 + f) / 2 ^ 52 % 2 ^ 11 = 1022 := by omega
    have q3 : (0x3FE0000000000000 + f) % 2 ^ 52 = f := by omega
    unfold decode
    simp only
    rw [q1, q2, q3]
    norm_num
  unfold frexp
  simp only
  rw [hb, hc, hm, ho, d1, d2]
  simp only [Option.bind_some, Option.some.injEq, Prod.mk.injEq, true_and]
  ring

theorem log_frexp {arg : Nat} {m e : ℝ} (h : frexp arg = some (m, e)) :
    log arg = some (poly ((m - 1) / (m + 1)) + 0.693147180559945286226764 * e) := by
  unfold log
  rw [h]
  simp only [Option.bind_some, Option.some.injEq, fmadd, poly]
  ring

/-- The logarithm of a positive normal double. -/
theorem log_near {b : Nat} (hb : b < 2 ^ 64) {x : ℝ} (h : decode b = some x) (hx : (2 : ℝ) ^ (-1022 : ℤ) ≤ x) :
    ∃ y, log b = some y ∧ |y - Real.log x| ≤ 3 / 10 ^ 9 := by
  obtain ⟨e, f, he1, he2, hf, rfl, rfl⟩ := decode_normal hb h hx
  refine ⟨_, log_frexp (frexp_parts (by omega) hf), ?_⟩
  have hf0 : 0 ≤ (f : ℝ) / 2 ^ 52 := by positivity
  have hf1 : (f : ℝ) / 2 ^ 52 < 1 := by rw [div_lt_one (by norm_num)]; exact_mod_cast hf
  obtain ⟨g, hg⟩ : ∃ g, (f : ℝ) / 2 ^ 52 = g := ⟨_, rfl⟩
  rw [hg] at hf0 hf1 ⊢
  have hm : (1 + g) * (2 : ℝ) ^ (-1 : ℤ) = (1 + g) / 2 := by rw [zpow_neg_one]; ring
  have hl : Real.log ((1 + g) * (2 : ℝ) ^ ((e : ℤ) - 1023)) = Real.log ((1 + g) / 2) + ((e : ℝ) - 1022) * Real.log 2 := by
    have h1 : (1 + g) * (2 : ℝ) ^ ((e : ℤ) - 1023) = (1 + g) / 2 * (2 : ℝ) ^ ((e : ℤ) - 1022) := by
      have : (2 : ℝ) ^ ((e : ℤ) - 1022) = (2 : ℝ) ^ ((e : ℤ) - 1023) * 2 := by
        rw [← zpow_add_one₀ (by norm_num)]; congr 1; ring
      rw [this]; ring
    rw [h1, Real.log_mul (by positivity) (by positivity), Real.log_zpow]
    push_cast; ring
  rw [hm, hl]
  have hu : ((1 + g) / 2 - 1) / ((1 + g) / 2 + 1) = - ((1 - g) / (3 + g)) := by
    field_simp; ring
  have hu0 : 0 ≤ (1 - g) / (3 + g) := div_nonneg (by linarith) (by linarith)
  have hu1 : (1 - g) / (3 + g) ≤ 1 / 3 := by rw [div_le_div_iff₀ (by linarith) (by norm_num)]; linarith
  have hp := poly_near hu0 hu1
  have hq : (1 + (1 - g) / (3 + g)) / (1 - (1 - g) / (3 + g)) = ((1 + g) / 2)⁻¹ := by
    have h3 : 3 + g ≠ 0 := by linarith
    have h4 : 1 + g ≠ 0 := by linarith
    have h5 : 1 - (1 - g) / (3 + g) ≠ 0 := by
      have : 1 - (1 - g) / (3 + g) = 2 * (1 + g) / (3 + g) := by field_simp; ring
      rw [this]; positivity
    rw [div_eq_iff h5]
    field_simp; ring
  rw [hq, Real.log_inv] at hp
  rw [hu, poly_neg]
  have hc := corr_near
  obtain ⟨L, hL⟩ : ∃ L, Real.log 2 = L := ⟨_, rfl⟩
  obtain ⟨M, hM⟩ : ∃ M, Real.log ((1 + g) / 2) = M := ⟨_, rfl⟩
  obtain ⟨P, hP⟩ : ∃ P, poly ((1 - g) / (3 + g)) = P := ⟨_, rfl⟩
  rw [hL] at hc
  rw [hM, hP] at hp
  rw [hL, hM, hP]
  have he : |(e : ℝ) - 1022| ≤ 1025 := by
    rw [abs_le]
    have h1 : (1 : ℝ) ≤ e := by exact_mod_cast he1
    have h2 : (e : ℝ) < 2047 := by exact_mod_cast he2
    constructor <;> linarith
  have hprod : |(0.693147180559945286226764 - L) * ((e : ℝ) - 1022)| ≤ 1 / 10 ^ 15 * 1025 := by
    rw [abs_mul]; exact mul_le_mul hc he (abs_nonneg _) (by norm_num)
  have : -P + 0.693147180559945286226764 * ((e : ℝ) - 1022) - (M + ((e : ℝ) - 1022) * L)
      = -(P - -M) + (0.693147180559945286226764 - L) * ((e : ℝ) - 1022) := by ring
  rw [this]
  refine (abs_add_le _ _).trans ?_
  rw [abs_neg]
  calc _ ≤ 29 / 10 ^ 10 + 1 / 10 ^ 15 * 1025 := add_le_add hp hprod
    _ ≤ _ := by norm_num

end AmpGen.Simd.Avx512
