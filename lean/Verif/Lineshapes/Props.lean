import Verif.Lineshapes.Lemmas
/-
Theorems about barrier factors and running widths.  The words are those of `Spec.lean`.
-/
namespace AmpGen.Lineshapes
open Spec

theorem hankel_pos (L : ℕ) (z : ℝ) (hz : 0 ≤ z) : 0 < hankel L z := by
  unfold hankel
  apply Finset.sum_pos'
  · intro k _
    positivity
  · refine ⟨0, by simp, ?_⟩
    simp only [pow_zero, mul_one]
    positivity

/-! ### Barrier factors -/

/-- For every orbital angular momentum the code supports and every momentum: the barrier factor is the Blatt-Weisskopf penetration
factor, normalised to one at `z = 1`. -/
theorem barrier_normalised (L : ℕ) (hL : L ≤ 4) (z : ℝ) (hz : 0 ≤ z) :
    blattWeisskopf z L = penetration L z / penetration L 1 := by
  have hp := hankel_pos L z hz
  interval_cases L
  · simp [blattWeisskopf, penetration, hankel0]
  · rw [hankel1] at hp
    simp only [blattWeisskopf, penetration, hankel1]
    field_simp; ring
  · rw [hankel2] at hp
    simp only [blattWeisskopf, penetration, hankel2]
    have : z * z + 3 * z + 9 ≠ 0 := by nlinarith
    field_simp; ring_nf
  · rw [hankel3] at hp
    simp only [blattWeisskopf, penetration, hankel3]
    have e : z * (z - 15) ^ 2 + 9 * (2 * z - 5) ^ 2 = 225 + 45 * z + 6 * z ^ 2 + z ^ 3 := by ring
    rw [e]
    field_simp; ring
  · rw [hankel4] at hp
    simp only [blattWeisskopf, penetration, hankel4]
    have e : (z * z - 45 * z + 105) ^ 2 + 25 * z * (2 * z - 21) ^ 2 = 11025 + 1575 * z + 135 * z ^ 2 + 10 * z ^ 3 + z ^ 4 := by ring
    rw [e]
    field_simp; ring

example : blattWeisskopf 1 3 = 1 := by
  rw [barrier_normalised 3 (by norm_num) 1 (by norm_num), penetration, hankel3]; norm_num

theorem penetration_nonneg (L : ℕ) (z : ℝ) (hz : 0 ≤ z) : 0 ≤ penetration L z :=
  div_nonneg (pow_nonneg hz L) (hankel_pos L z hz).le

theorem penetration_lt (L : ℕ) (hL : 0 < L) (z w : ℝ) (hz : 0 ≤ z) (hzw : z < w) : penetration L z < penetration L w := by
  have hw : 0 < w := lt_of_le_of_lt hz hzw
  unfold penetration
  rw [div_lt_div_iff₀ (hankel_pos L z hz) (hankel_pos L w hw.le)]
  unfold hankel
  rw [Finset.mul_sum, Finset.mul_sum]
  apply Finset.sum_lt_sum
  · intro k hk
    have hk' : k ≤ L := by simpa [Nat.lt_succ_iff] using hk
    have h1 : z ^ L * w ^ k ≤ w ^ L * z ^ k := by
      have e1 : z ^ L = z ^ k * z ^ (L - k) := by rw [← pow_add]; congr 1; omega
      have e2 : w ^ L = w ^ k * w ^ (L - k) := by rw [← pow_add]; congr 1; omega
      have h2 : z ^ (L - k) ≤ w ^ (L - k) := pow_le_pow_left₀ hz hzw.le _
      rw [e1, e2]
      calc z ^ k * z ^ (L - k) * w ^ k = (z ^ k * w ^ k) * z ^ (L - k) := by ring
        _ ≤ (z ^ k * w ^ k) * w ^ (L - k) := by gcongr
        _ = _ := by ring
    obtain ⟨c, hc⟩ : ∃ c : ℝ, (((2 * L - k).factorial * (2 * L - 2 * k).factorial : ℕ) : ℝ) /
      ((k.factorial * (L - k).factorial ^ 2 : ℕ) * 4 ^ (L - k)) = c := ⟨_, rfl⟩
    have hc0 : 0 ≤ c := by rw [← hc]; positivity
    rw [hc]
    calc z ^ L * (c * w ^ k) = c * (z ^ L * w ^ k) := by ring
      _ ≤ c * (w ^ L * z ^ k) := by gcongr
      _ = _ := by ring
  · refine ⟨0, by simp, ?_⟩
    simp only [pow_zero, mul_one]
    have h2 : z ^ L < w ^ L := pow_lt_pow_left₀ hzw hz hL.ne'
    gcongr

/-- The barrier factor grows with the momentum, from zero at threshold, and has no pole at physical momenta. -/
theorem barrier_monotone (L : ℕ) (h0 : 0 < L) (hL : L ≤ 4) (z w : ℝ) (hz : 0 ≤ z) (hzw : z < w) :
    blattWeisskopf 0 L = 0 ∧ 0 ≤ blattWeisskopf z L ∧ blattWeisskopf z L < blattWeisskopf w L := by
  have h1 : 0 < penetration L 1 := by
    unfold penetration
    have := hankel_pos L 1 (by norm_num)
    positivity
  rw [barrier_normalised L hL 0 le_rfl, barrier_normalised L hL z hz, barrier_normalised L hL w (hz.trans hzw.le)]
  refine ⟨?_, div_nonneg (penetration_nonneg L z hz) h1.le, ?_⟩
  · simp [penetration, zero_pow h0.ne']
  · exact div_lt_div_of_pos_right (penetration_lt L h0 z w hz hzw) h1

example : blattWeisskopf 0 2 = 0 ∧ 0 ≤ blattWeisskopf 1 2 ∧ blattWeisskopf 1 2 < blattWeisskopf 2 2 :=
  barrier_monotone 2 (by norm_num) (by norm_num) 1 2 (by norm_num) (by norm_num)

/-- Up to `L = 3`, the barrier factor normalised at `z0` is the ratio of the penetration polynomials at `z0` and `z`. -/
theorem barrier_ratio_partial (L : ℕ) (hL : L ≤ 3) (z z0 : ℝ) :
    blattWeisskopfNorm z z0 L = hankel L z0 / hankel L z := by
  interval_cases L
  · simp [blattWeisskopfNorm, hankel0]
  · simp [blattWeisskopfNorm, hankel1]
  · simp only [blattWeisskopfNorm, hankel2]; congr 1 <;> ring
  · simp only [blattWeisskopfNorm, hankel3]; congr 1 <;> ring

example : blattWeisskopfNorm 2 1 2 = 13 / 19 := by
  rw [barrier_ratio_partial 2 (by norm_num), hankel2, hankel2]; norm_num

/-- For every supported `L` it is one at the reference momentum. -/
theorem barrier_at_reference (L : ℕ) (hL : L ≤ 4) (z : ℝ) (hz : 0 ≤ z) : blattWeisskopfNorm z z L = 1 := by
  rcases Nat.lt_or_ge L 4 with h | h
  · rw [barrier_ratio_partial L (by omega), div_self (hankel_pos L z hz).ne']
  · obtain rfl : L = 4 := by omega
    have hp := hankel_pos 4 z hz
    rw [hankel4] at hp
    have e : (z * z - 45 * z + 105) ^ 2 + 25 * z * (2 * z - 21) ^ 2 = 11025 + 1575 * z + 135 * z ^ 2 + 10 * z ^ 3 + z ^ 4 := by ring
    simp only [blattWeisskopfNorm]
    rw [e, div_self hp.ne']

example : blattWeisskopfNorm 7 7 4 = 1 := barrier_at_reference 4 le_rfl 7 (by norm_num)

/-- For `L = 4` the factor is not the ratio of the polynomials: the numerator of the code uses the momentum of the
event in place of the reference momentum. -/
theorem barrier_ratio_counterexample :
    ∃ z z0 : ℝ, 0 ≤ z ∧ 0 ≤ z0 ∧ blattWeisskopfNorm z z0 4 ≠ hankel 4 z0 / hankel 4 z := by
  refine ⟨1, 0, by norm_num, by norm_num, ?_⟩
  rw [hankel4, hankel4]
  simp only [blattWeisskopfNorm]
  norm_num

/-- The barrier factors of the coupled-channel phase space are the same functions for `L` up to 3, but for `L = 2`. -/
theorem coupled_barrier_partial (L : ℕ) (hL : L ≤ 3) (h2 : L ≠ 2) (z : ℝ) : blattWeisskopfSq z L = blattWeisskopf z L := by
  interval_cases L
  · rfl
  · simp only [blattWeisskopfSq, blattWeisskopf, pow_one]
  · exact absurd rfl h2
  · simp only [blattWeisskopfSq, blattWeisskopf]; congr 1 <;> ring

/-- For `L = 2` they are not: the code has `3*z*9` in place of `3*z + 9`. -/
theorem coupled_barrier_counterexample : blattWeisskopfSq 1 2 ≠ blattWeisskopf 1 2 := by
  simp only [blattWeisskopfSq, blattWeisskopf]
  norm_num

/-! ### The momentum of two bodies -/

/-- At and above threshold, `Q2` is the square of the momentum of the two bodies. -/
theorem Q2_momentum (s m1 m2 : ℝ) (h1 : 0 ≤ m1) (h2 : 0 ≤ m2) (hs : 0 < s) (ht : (m1 + m2) ^ 2 ≤ s) :
    0 ≤ Q2 s (m1 ^ 2) (m2 ^ 2) ∧ IsMomentum (√(Q2 s (m1 ^ 2) (m2 ^ 2))) s m1 m2 := by
  have hd : (m1 - m2) ^ 2 ≤ s := by nlinarith
  have e : Q2 s (m1 ^ 2) (m2 ^ 2) = (s - (m1 + m2) ^ 2) * (s - (m1 - m2) ^ 2) / (4 * s) := by
    unfold Q2; field_simp; ring
  have h0 : 0 ≤ Q2 s (m1 ^ 2) (m2 ^ 2) := by
    rw [e]; exact div_nonneg (mul_nonneg (by linarith) (by linarith)) (by linarith)
  refine ⟨h0, Real.sqrt_nonneg _, ?_⟩
  rw [Real.sq_sqrt h0]
  have hr : 0 < √s := Real.sqrt_pos.2 hs
  have hrr : √s ^ 2 = s := Real.sq_sqrt hs.le
  have a1 : Q2 s (m1 ^ 2) (m2 ^ 2) + m1 ^ 2 = ((s + m1 ^ 2 - m2 ^ 2) / (2 * √s)) ^ 2 := by
    rw [e, div_pow, mul_pow, hrr]; field_simp; ring
  have a2 : Q2 s (m1 ^ 2) (m2 ^ 2) + m2 ^ 2 = ((s + m2 ^ 2 - m1 ^ 2) / (2 * √s)) ^ 2 := by
    rw [e, div_pow, mul_pow, hrr]; field_simp; ring
  have b1 : 0 ≤ s + m1 ^ 2 - m2 ^ 2 := by nlinarith [sq_nonneg (m1 - m2), mul_nonneg h1 h2]
  have b2 : 0 ≤ s + m2 ^ 2 - m1 ^ 2 := by nlinarith [sq_nonneg (m1 - m2), mul_nonneg h1 h2]
  rw [a1, a2, Real.sqrt_sq (by positivity), Real.sqrt_sq (by positivity)]
  field_simp
  linarith

example : IsMomentum (√(Q2 9 (1 ^ 2) (1 ^ 2))) 9 1 1 := (Q2_momentum 9 1 1 (by norm_num) (by norm_num) (by norm_num) (by norm_num)).2

/-- The momentum is determined by the masses: it is the root of `Q2`. -/
theorem Q2_of_momentum {p s m1 m2 : ℝ} (hs : 0 < s) (h : IsMomentum p s m1 m2) :
    Q2 s (m1 ^ 2) (m2 ^ 2) = p ^ 2 := by
  obtain ⟨hp, hE⟩ := h
  have hrr : √s ^ 2 = s := Real.sq_sqrt hs.le
  have a1 : √(p ^ 2 + m1 ^ 2) ^ 2 = p ^ 2 + m1 ^ 2 := Real.sq_sqrt (by positivity)
  have a2 : √(p ^ 2 + m2 ^ 2) ^ 2 = p ^ 2 + m2 ^ 2 := Real.sq_sqrt (by positivity)
  generalize √(p ^ 2 + m1 ^ 2) = A at *
  generalize √(p ^ 2 + m2 ^ 2) = B at *
  have hA : s = (A + B) ^ 2 := by rw [hE, hrr]
  have e1 : m1 ^ 2 - m2 ^ 2 = A ^ 2 - B ^ 2 := by linarith
  have hs' : (A + B) ^ 2 ≠ 0 := by rw [← hA]; exact hs.ne'
  unfold Q2
  have e2 : (m1 ^ 2 - m2 ^ 2) * (m1 ^ 2 - m2 ^ 2) / s = (A - B) ^ 2 := by
    rw [e1, hA, div_eq_iff hs']; ring
  rw [e2, hA]
  linarith [a1, a2]

/-! ### Running widths -/

/-- Up to `L = 3`, above threshold the running width is `Γ (q/q0)^(2L+1) (m/√s)` times the ratio of the penetration
polynomials. -/
theorem running_width_partial (L : ℕ) (hL : L ≤ 3) (s m1 m2 mass width radius q q0 : ℝ) (hs : 0 < s) (hm : 0 < mass)
    (hq : IsMomentum q s m1 m2) (hq0 : IsMomentum q0 (mass * mass) m1 m2) (hp0 : 0 < q0) :
    runningWidth s (m1 ^ 2) (m2 ^ 2) mass width radius L =
      width * (q / q0) ^ (2 * L + 1) * (mass / √s) *
        (hankel L ((q0 * radius) ^ 2) / hankel L ((q * radius) ^ 2)) := by
  have e1 := Q2_of_momentum hs hq
  have e0 := Q2_of_momentum (mul_pos hm hm) hq0
  have eq : (if Q2 s (m1 ^ 2) (m2 ^ 2) > 0 then Q2 s (m1 ^ 2) (m2 ^ 2) else 0) = q ^ 2 := by
    rw [e1]
    split
    · rfl
    · next h => exact (le_antisymm (not_lt.1 h) (sq_nonneg q)).symm
  have hqq := hq.1
  unfold runningWidth
  simp only [eq, e0, abs_of_nonneg (sq_nonneg q0)]
  rw [barrier_ratio_partial L hL]
  have hsq : √(q ^ 2 / q0 ^ 2 / s) = q / q0 / √s := by
    rw [← div_pow, Real.sqrt_div (by positivity), Real.sqrt_sq (by positivity)]
  rw [hsq, ← div_pow, ← pow_mul, pow_succ (q / q0), show q ^ 2 * radius * radius = (q * radius) ^ 2 by ring,
    show q0 ^ 2 * radius * radius = (q0 * radius) ^ 2 by ring]
  ring

/-- At the nominal mass it is the nominal width, for every supported `L`. -/
theorem width_at_mass (L : ℕ) (hL : L ≤ 4) (m1 m2 mass width radius q0 : ℝ) (hm : 0 < mass)
    (hq0 : IsMomentum q0 (mass * mass) m1 m2) (hp0 : 0 < q0) :
    runningWidth (mass * mass) (m1 ^ 2) (m2 ^ 2) mass width radius L = width := by
  have e0 := Q2_of_momentum (mul_pos hm hm) hq0
  have h2 : 0 < q0 ^ 2 := by positivity
  unfold runningWidth
  simp only [e0, gt_iff_lt, if_pos h2, abs_of_nonneg h2.le]
  rw [barrier_at_reference L hL _ (by nlinarith [mul_self_nonneg (q0 * radius)]), div_self h2.ne', one_pow,
    Real.sqrt_div zero_le_one, Real.sqrt_one, Real.sqrt_mul_self hm.le]
  field_simp

/-- Between the pseudo-threshold and the threshold the width is zero. -/
theorem width_below_threshold_partial (L : ℕ) (s m1 m2 mass width radius : ℝ) (hs : 0 < s)
    (hlo : (m1 - m2) ^ 2 ≤ s) (hhi : s ≤ (m1 + m2) ^ 2) :
    runningWidth s (m1 ^ 2) (m2 ^ 2) mass width radius L = 0 := by
  have e : Q2 s (m1 ^ 2) (m2 ^ 2) = (s - (m1 + m2) ^ 2) * (s - (m1 - m2) ^ 2) / (4 * s) := by
    unfold Q2; field_simp; ring
  have h0 : ¬ Q2 s (m1 ^ 2) (m2 ^ 2) > 0 := by
    rw [e, gt_iff_lt, not_lt]
    exact div_nonpos_of_nonpos_of_nonneg (mul_nonpos_of_nonpos_of_nonneg (by linarith) (by linarith)) (by linarith)
  unfold runningWidth
  simp only [if_neg h0, zero_div, Real.sqrt_zero, mul_zero, zero_mul]

/-- Below the pseudo-threshold of two unequal masses, where no decay is possible either, the width is not zero. -/
theorem width_below_threshold_counterexample :
    ∃ s m1 m2 mass width radius : ℝ, 0 < s ∧ 0 < m1 ∧ 0 < m2 ∧ 0 < mass ∧ 0 < width ∧ s < (m1 + m2) ^ 2 ∧
      runningWidth s (m1 ^ 2) (m2 ^ 2) mass width radius 0 ≠ 0 := by
  refine ⟨1, 1, 3, 5, 1, 1, by norm_num, by norm_num, by norm_num, by norm_num, by norm_num, by norm_num, ?_⟩
  have e1 : Q2 1 (1 ^ 2) (3 ^ 2) = 45 / 4 := by unfold Q2; norm_num
  have e2 : Q2 (5 * 5) (1 ^ 2) (3 ^ 2) = 189 / 100 := by unfold Q2; norm_num
  unfold runningWidth
  simp only [e1, e2, blattWeisskopfNorm]
  have : (0 : ℝ) < √((if (45 / 4 : ℝ) > 0 then 45 / 4 else 0) / |189 / 100| / 1) := by
    apply Real.sqrt_pos.2; norm_num
  positivity

/-- For `L = 4` the running width is not the one of the formula. -/
theorem running_width_counterexample :
    ∃ s m1 m2 mass width radius q q0 : ℝ, 0 < s ∧ 0 < mass ∧ IsMomentum q s m1 m2 ∧ IsMomentum q0 (mass * mass) m1 m2 ∧ 0 < q0 ∧
      runningWidth s (m1 ^ 2) (m2 ^ 2) mass width radius 4 ≠
        width * (q / q0) ^ (2 * 4 + 1) * (mass / √s) *
          (hankel 4 ((q0 * radius) ^ 2) / hankel 4 ((q * radius) ^ 2)) := by
  have w16 : √(4 * 4 : ℝ) = 4 := Real.sqrt_mul_self (by norm_num)
  have w4 : √(2 * 2 : ℝ) = 2 := Real.sqrt_mul_self (by norm_num)
  refine ⟨4 * 4, 0, 0, 2, 1, 1, 2, 1, by norm_num, by norm_num, ⟨by norm_num, ?_⟩, ⟨by norm_num, ?_⟩, by norm_num, ?_⟩
  · rw [w16, show (2 ^ 2 + 0 ^ 2 : ℝ) = 2 * 2 by norm_num, w4]; norm_num
  · rw [w4, show (1 ^ 2 + 0 ^ 2 : ℝ) = 1 by norm_num, Real.sqrt_one]; norm_num
  · have e1 : Q2 (4 * 4) (0 ^ 2) (0 ^ 2) = 4 := by unfold Q2; norm_num
    have e2 : Q2 (2 * 2) (0 ^ 2) (0 ^ 2) = 1 := by unfold Q2; norm_num
    unfold runningWidth
    simp only [e1, e2, blattWeisskopfNorm, abs_one, hankel4]
    rw [if_pos (by norm_num)]
    have w : √(4 / 1 / (4 * 4) : ℝ) = 1 / 2 := by
      rw [show (4 / 1 / (4 * 4) : ℝ) = (1 / 2) * (1 / 2) by norm_num, Real.sqrt_mul_self (by norm_num)]
    rw [w, w16]
    norm_num

/-- Hypotheses of the theorems on widths in a case with a momentum. -/
example : runningWidth (2 * 2) (0 ^ 2) (0 ^ 2) 2 0.3 1.5 1 = 0.3 :=
  width_at_mass 1 (by norm_num) 0 0 2 0.3 1.5 1 (by norm_num)
    ⟨by norm_num, by rw [Real.sqrt_mul_self (by norm_num)]; norm_num⟩ (by norm_num)

example : runningWidth 3 (1 ^ 2) (1 ^ 2) 2.5 0.3 1.5 1 = 0 :=
  width_below_threshold_partial 1 3 1 1 2.5 0.3 1.5 (by norm_num) (by norm_num) (by norm_num)

end AmpGen.Lineshapes
