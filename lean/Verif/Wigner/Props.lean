import Mathlib.Analysis.SpecialFunctions.Trigonometric.Basic
import Verif.Wigner.Lemmas2
/-
Properties of the rotation functions.  A spin is `N / 2`, its projections are `a - N / 2` for `a = 0, ..., N`, and the state with projection `a - N / 2` is the
product of `a` spinors `u` and `N - a` spinors `v`, divided by its length `√(a! (N - a)!)`.
-/
namespace AmpGen.Wigner

open Finset

theorem C_cos (β : ℝ) (h0 : 0 ≤ β) (h1 : β ≤ Real.pi) : C (Real.cos β) = Real.cos (β / 2) := by
  rw [C, Real.cos_half (by linarith [Real.pi_pos]) h1]

theorem S_cos (β : ℝ) (h0 : 0 ≤ β) (h1 : β ≤ Real.pi) : S (Real.cos β) = Real.sin (β / 2) := by
  rw [S, Real.sin_half_eq_sqrt h0 (by linarith [Real.pi_pos])]

theorem C_sq (cb : ℝ) (h1 : -1 ≤ cb) (h2 : cb ≤ 1) : C cb * C cb + S cb * S cb = 1 := by
  rw [C, S, Real.mul_self_sqrt (by linarith), Real.mul_self_sqrt (by linarith)]; ring

/-- C103: the function `wigner_d` is the rotation of a state of spin `N / 2` by the angle `β`: it turns the product of `a` spinors `u` and `N - a` spinors `v` into
the same product of the rotated spinors, whatever the spinors. -/
theorem wigner_d_rotates_states (N a : Nat) (ha : a ≤ N) (β : ℝ) (h0 : 0 ≤ β) (h1 : β ≤ Real.pi) (u v : ℝ) :
    ∑ b ∈ range (N + 1), wigner_d (Real.cos β) (N / 2) (a - N / 2) (b - N / 2) * (u ^ b * v ^ (N - b) / √(b.factorial * (N - b).factorial)) =
      (Real.cos (β / 2) * u - Real.sin (β / 2) * v) ^ a * (Real.sin (β / 2) * u + Real.cos (β / 2) * v) ^ (N - a) / √(a.factorial * (N - a).factorial) := by
  have := generating N (Real.cos (β / 2)) (Real.sin (β / 2)) a ha u v
  unfold w at this
  rw [← this]
  refine sum_congr rfl fun b hb => ?_
  rw [wigner_d_eq _ (Real.neg_one_le_cos β) (Real.cos_le_one β) N a b ha (by simp at hb; omega), C_cos β h0 h1, S_cos β h0 h1]

/-- The case of spin one half: the rotated spinor is `cos(β/2) u - sin(β/2) v`. -/
example (β : ℝ) (h0 : 0 ≤ β) (h1 : β ≤ Real.pi) : wigner_d (Real.cos β) (1 / 2) (1 / 2) (-1 / 2) = -Real.sin (β / 2) := by
  have h := wigner_d_rotates_states 1 1 le_rfl β h0 h1 0 1
  simp [sum_range_succ] at h
  norm_num at h
  convert h using 2
  norm_num

/-- C103: a rotation by nothing changes nothing. -/
theorem wigner_d_identity (N a b : Nat) (ha : a ≤ N) (hb : b ≤ N) : wigner_d 1 (N / 2) (a - N / 2) (b - N / 2) = if a = b then 1 else 0 := by
  rw [wigner_d_eq 1 (by norm_num) le_rfl N a b ha hb, ← D_one N a b ha hb]
  simp [C, S]

/-- C103: two rotations after each other are the rotation by the sum of the angles. -/
theorem wigner_d_composition (N a e : Nat) (ha : a ≤ N) (he : e ≤ N) (α β : ℝ) (h0 : 0 ≤ α) (h1 : 0 ≤ β) (h2 : α + β ≤ Real.pi) :
    ∑ b ∈ range (N + 1), wigner_d (Real.cos α) (N / 2) (a - N / 2) (b - N / 2) * wigner_d (Real.cos β) (N / 2) (b - N / 2) (e - N / 2) =
      wigner_d (Real.cos (α + β)) (N / 2) (a - N / 2) (e - N / 2) := by
  rw [wigner_d_eq _ (Real.neg_one_le_cos _) (Real.cos_le_one _) N a e ha he, C_cos _ (by linarith) h2, S_cos _ (by linarith) h2,
    show (α + β) / 2 = α / 2 + β / 2 by ring, Real.cos_add, Real.sin_add, ← D_mul N _ _ _ _ a e ha he]
  refine sum_congr rfl fun b hb => ?_
  have hb' : b ≤ N := by simp at hb; omega
  rw [wigner_d_eq _ (Real.neg_one_le_cos _) (Real.cos_le_one _) N a b ha hb', wigner_d_eq _ (Real.neg_one_le_cos _) (Real.cos_le_one _) N b e hb' he,
    C_cos α h0 (by linarith), S_cos α h0 (by linarith), C_cos β h1 (by linarith), S_cos β h1 (by linarith)]

/-- Angles that may be composed. -/
example : (0 : ℝ) ≤ Real.pi / 3 ∧ (0 : ℝ) ≤ Real.pi / 2 ∧ Real.pi / 3 + Real.pi / 2 ≤ Real.pi := by
  refine ⟨?_, ?_, ?_⟩ <;> linarith [Real.pi_pos]

/-- C103: the matrix of a rotation is orthogonal, its rows and its columns have length one and are at right angles, for every spin and angle. -/
theorem wigner_d_orthogonal (cb : ℝ) (h1 : -1 ≤ cb) (h2 : cb ≤ 1) (N a b : Nat) (ha : a ≤ N) (hb : b ≤ N) :
    (∑ e ∈ range (N + 1), wigner_d cb (N / 2) (a - N / 2) (e - N / 2) * wigner_d cb (N / 2) (b - N / 2) (e - N / 2) = if a = b then 1 else 0) ∧
    (∑ e ∈ range (N + 1), wigner_d cb (N / 2) (e - N / 2) (a - N / 2) * wigner_d cb (N / 2) (e - N / 2) (b - N / 2) = if a = b then 1 else 0) := by
  constructor
  · rw [← D_orthogonal N (C cb) (S cb) (C_sq cb h1 h2) a b ha hb]
    refine sum_congr rfl fun e he => ?_
    have he' : e ≤ N := by simp at he; omega
    rw [wigner_d_eq cb h1 h2 N a e ha he', wigner_d_eq cb h1 h2 N b e hb he']
  · rw [← D_orthogonal N (C cb) (-S cb) (by rw [neg_mul_neg]; exact C_sq cb h1 h2) a b ha hb]
    refine sum_congr rfl fun e he => ?_
    have he' : e ≤ N := by simp at he; omega
    rw [wigner_d_eq cb h1 h2 N e a he' ha, wigner_d_eq cb h1 h2 N e b he' hb, D_transpose N _ _ a e, D_transpose N _ _ b e]

/-- C103: exchanging the projections turns the other way round, which is a sign. -/
theorem wigner_d_exchange (cb : ℝ) (h1 : -1 ≤ cb) (h2 : cb ≤ 1) (N a b : Nat) (ha : a ≤ N) (hb : b ≤ N) :
    wigner_d cb (N / 2) (b - N / 2) (a - N / 2) = (-1) ^ (a + b) * wigner_d cb (N / 2) (a - N / 2) (b - N / 2) := by
  rw [wigner_d_eq cb h1 h2 N a b ha hb, wigner_d_eq cb h1 h2 N b a hb ha, D, D, mul_sum]
  refine sum_congr rfl fun k _ => ?_
  by_cases h : k ≤ a ∧ k ≤ b ∧ a + b ≤ N + k
  · rw [if_pos h, if_pos (by omega), show b + a - 2 * k = a + b - 2 * k by omega, show N + k - b - a = N + k - a - b by omega,
      show N + 2 * k - b - a = N + 2 * k - a - b by omega, show (b.factorial : ℝ) * (N - b).factorial * a.factorial * (N - a).factorial =
        a.factorial * (N - a).factorial * b.factorial * (N - b).factorial by ring]
    have : (-1 : ℝ) ^ (b + k) = (-1) ^ (a + b) * (-1) ^ (a + k) := by
      rw [← pow_add, show a + b + (a + k) = 2 * a + (b + k) by ring, pow_add (-1 : ℝ) (2 * a), pow_mul]; simp
    rw [this]; ring
  · rw [if_neg h, if_neg (by omega), mul_zero]

/-- A cosine, a spin and two projections for which the sums are not empty and the matrix has entries of both signs. -/
example : (-1 : ℝ) ≤ 3 / 5 ∧ (3 / 5 : ℝ) ≤ 1 ∧ (1 : Nat) ≤ 3 ∧ (2 : Nat) ≤ 3 := by norm_num

theorem toInt_sub (a b N : Nat) : toInt (((b : ℝ) - N / 2) - (a - N / 2)) = (b : ℤ) - a := by
  rw [show ((b : ℝ) - N / 2) - (a - N / 2) = (((b : ℤ) - (a : ℤ) : ℤ) : ℝ) by push_cast; ring, toInt_int]

/-- The value of `wigner_D` for a direction that is not along the axis. -/
theorem wigner_D_eq (z : ℝ) (e : ℂ) (N a b : Nat) :
    wigner_D (z, some e) (N / 2) (a - N / 2) (b - N / 2) = some (e ^ ((b : ℤ) - a) * (wigner_d z (N / 2) (a - N / 2) (b - N / 2) : ℂ)) := by
  unfold wigner_D
  rw [toInt_sub]
  split
  · rename_i h; rw [h]; simp
  · simp [fpowInt_eq]

/-- The direction of a momentum that is not along the axis. -/
theorem direction (x y z : ℝ) (h : x * x + y * y ≠ 0) : 0 < √(x * x + y * y + z * z) + z ∧ 0 < √(x * x + y * y + z * z) ∧
    -1 ≤ z / √(x * x + y * y + z * z) ∧ z / √(x * x + y * y + z * z) ≤ 1 := by
  have hpos : 0 < x * x + y * y := lt_of_le_of_ne (add_nonneg (mul_self_nonneg x) (mul_self_nonneg y)) (Ne.symm h)
  obtain ⟨p, hp⟩ : ∃ p, √(x * x + y * y + z * z) = p := ⟨_, rfl⟩
  have hp2 : p * p = x * x + y * y + z * z := by
    rw [← hp]; exact Real.mul_self_sqrt (add_nonneg hpos.le (mul_self_nonneg z))
  have hp0 : 0 ≤ p := by rw [← hp]; positivity
  have hpp : 0 < p := by rcases hp0.lt_or_eq with h | h; · exact h
                         · rw [← h] at hp2; nlinarith [mul_self_nonneg z]
  have hz1 : -p < z := by nlinarith
  have hz2 : z < p := by nlinarith
  rw [hp]
  exact ⟨by linarith, hpp, by rw [le_div_iff₀ hpp]; linarith, by rw [div_le_iff₀ hpp]; linarith⟩

/-- C104: the function `wigner_D` for the direction of a momentum is the rotation that takes the axis to this direction, for every spin: it turns the product of
`a` spinors `u` and `N - a` spinors `v` into the same product of the rotated spinors, and the spinors are rotated by
`1 / √(2 p (p + z)) * [[p + z, -(x - i y)], [x + i y, p + z]]`. -/
theorem wigner_D_rotates_states (x y z : ℝ) (h : x * x + y * y ≠ 0) (N a : Nat) (ha : a ≤ N) (u v : ℂ) : ∃ M : Nat → ℂ,
    (∀ b ≤ N, wigner_D (angCoordinates x y z) (N / 2) (a - N / 2) (b - N / 2) = some (M b)) ∧
    ∑ b ∈ range (N + 1), M b * (u ^ b * v ^ (N - b) / (√(b.factorial * (N - b).factorial) : ℝ)) =
      (let p := √(x * x + y * y + z * z)
       let n := √(2 * p * (p + z))
       (((p + z : ℝ) : ℂ) * u - (x - Complex.I * y) * v) ^ a * ((x + Complex.I * y) * u + ((p + z : ℝ) : ℂ) * v) ^ (N - a) / n ^ N) /
        (√(a.factorial * (N - a).factorial) : ℝ) := by
  obtain ⟨hpz, hp0, hc1, hc2⟩ := direction x y z h
  have hpos : 0 < x * x + y * y := lt_of_le_of_ne (add_nonneg (mul_self_nonneg x) (mul_self_nonneg y)) (Ne.symm h)
  obtain ⟨p, hp⟩ : ∃ p, √(x * x + y * y + z * z) = p := ⟨_, rfl⟩
  obtain ⟨t, ht⟩ : ∃ t, √(x * x + y * y) = t := ⟨_, rfl⟩
  have hp2 : p * p = x * x + y * y + z * z := by
    rw [← hp]; exact Real.mul_self_sqrt (add_nonneg hpos.le (mul_self_nonneg z))
  have ht2 : t * t = x * x + y * y := by rw [← ht]; exact Real.mul_self_sqrt (by positivity)
  have htp : 0 < t := by rw [← ht]; exact Real.sqrt_pos.2 hpos
  rw [hp] at hpz hp0 hc1 hc2
  obtain ⟨e, he⟩ : ∃ e : ℂ, (((x / t : ℝ) : ℂ) + Complex.I * ((y / t : ℝ) : ℂ)) = e := ⟨_, rfl⟩
  have hP : angCoordinates x y z = (z / p, some e) := by
    unfold angCoordinates
    rw [if_neg h, hp, ht, he]
  have htC : (t : ℂ) ≠ 0 := by exact_mod_cast htp.ne'
  have he1 : e * t = x + Complex.I * y := by
    rw [← he]; push_cast; field_simp
  have he2 : e * (x - Complex.I * y) = t := by
    have : e * (x - Complex.I * y) * t = t * t := by
      rw [mul_right_comm, he1]
      have : ((x : ℂ) + Complex.I * y) * (x - Complex.I * y) = ((x * x + y * y : ℝ) : ℂ) := by
        push_cast; linear_combination (-(y : ℂ) * y) * Complex.I_mul_I
      rw [this, ← ht2]; push_cast; ring
    exact mul_right_cancel₀ htC this
  have hen : e ≠ 0 := by
    rintro rfl
    rw [zero_mul] at he2
    exact htC he2.symm
  refine ⟨fun b => e ^ ((b : ℤ) - a) * (wigner_d (z / p) (N / 2) (a - N / 2) (b - N / 2) : ℂ), fun b _ => ?_, ?_⟩
  · rw [hP, wigner_D_eq]
  · simp only [hp]
    have hz2 : z < p := by nlinarith
    obtain ⟨n, hn⟩ : ∃ n, √(2 * p * (p + z)) = n := ⟨_, rfl⟩
    have hn2 : n * n = 2 * p * (p + z) := by rw [← hn]; exact Real.mul_self_sqrt (by positivity)
    have hnp : 0 < n := by rw [← hn]; exact Real.sqrt_pos.2 (by positivity)
    have hCv : C (z / p) = (p + z) / n := by
      rw [C, Real.sqrt_eq_iff_mul_self_eq (by linarith) (by positivity), div_mul_div_comm, hn2]
      field_simp
    have hSv : S (z / p) = t / n := by
      rw [S, Real.sqrt_eq_iff_mul_self_eq (by linarith) (by positivity), div_mul_div_comm, hn2, ht2, show x * x + y * y = (p - z) * (p + z) by linarith]
      field_simp
    rw [hn]
    have hg := generatingC N (C (z / p)) (S (z / p)) a ha (e * u) v
    unfold w at hg
    have hsum : ∑ b ∈ range (N + 1), e ^ ((b : ℤ) - a) * (wigner_d (z / p) (N / 2) (a - N / 2) (b - N / 2) : ℂ) *
        (u ^ b * v ^ (N - b) / (√(b.factorial * (N - b).factorial) : ℝ)) =
        (e ^ a)⁻¹ * ∑ b ∈ range (N + 1), (D N (C (z / p)) (S (z / p)) a b : ℂ) * ((e * u) ^ b * v ^ (N - b) / (√(b.factorial * (N - b).factorial) : ℝ)) := by
      rw [mul_sum]
      refine sum_congr rfl fun b hb => ?_
      rw [wigner_d_eq _ hc1 hc2 N a b ha (by simp at hb; omega), zpow_sub₀ hen, zpow_natCast, zpow_natCast, mul_pow]
      field_simp
    rw [hsum, hg, hCv, hSv]
    have hnC : (n : ℂ) ≠ 0 := by exact_mod_cast hnp.ne'
    have k1 : (((p + z) / n : ℝ) : ℂ) * (e * u) - ((t / n : ℝ) : ℂ) * v = e * ((((p + z : ℝ) : ℂ) * u - (x - Complex.I * y) * v) / n) := by
      push_cast
      field_simp
      linear_combination v * he2
    have k2 : ((t / n : ℝ) : ℂ) * (e * u) + (((p + z) / n : ℝ) : ℂ) * v = ((x + Complex.I * y) * u + ((p + z : ℝ) : ℂ) * v) / n := by
      push_cast
      field_simp
      linear_combination u * he1
    rw [k1, k2, mul_pow, div_pow, div_pow, ← mul_div_assoc, ← mul_div_assoc, ← mul_div_assoc]
    obtain ⟨r, rfl⟩ := Nat.exists_eq_add_of_le ha
    rw [Nat.add_sub_cancel_left, pow_add (n : ℂ) a r]
    have := pow_ne_zero a hen
    field_simp

/-- A momentum that is not along the axis. -/
example : (3 : ℝ) * 3 + 4 * 4 ≠ 0 := by norm_num

/-- C104: the matrix is unitary. -/
theorem wigner_D_unitary (x y z : ℝ) (h : x * x + y * y ≠ 0) (N : Nat) : ∃ M : Nat → Nat → ℂ,
    (∀ a b : Nat, wigner_D (angCoordinates x y z) (N / 2) (a - N / 2) (b - N / 2) = some (M a b)) ∧
    ∀ a b, a ≤ N → b ≤ N → ∑ e ∈ range (N + 1), M a e * (starRingEnd ℂ) (M b e) = if a = b then 1 else 0 := by
  obtain ⟨_, _, hc1, hc2⟩ := direction x y z h
  have hpos : 0 < x * x + y * y := lt_of_le_of_ne (add_nonneg (mul_self_nonneg x) (mul_self_nonneg y)) (Ne.symm h)
  obtain ⟨q, hq⟩ : ∃ q, z / √(x * x + y * y + z * z) = q := ⟨_, rfl⟩
  obtain ⟨t, ht⟩ : ∃ t, √(x * x + y * y) = t := ⟨_, rfl⟩
  have ht2 : t * t = x * x + y * y := by rw [← ht]; exact Real.mul_self_sqrt (by positivity)
  have htp : 0 < t := by rw [← ht]; exact Real.sqrt_pos.2 hpos
  obtain ⟨f, hf⟩ : ∃ f : ℂ, (((x / t : ℝ) : ℂ) + Complex.I * ((y / t : ℝ) : ℂ)) = f := ⟨_, rfl⟩
  have hP : angCoordinates x y z = (q, some f) := by
    unfold angCoordinates
    rw [if_neg h, hq, ht, hf]
  rw [hq] at hc1 hc2
  have hff : f * (starRingEnd ℂ) f = 1 := by
    rw [← hf]
    simp only [map_add, map_mul, Complex.conj_ofReal, Complex.conj_I]
    have : (((x / t : ℝ) : ℂ) + Complex.I * ((y / t : ℝ) : ℂ)) * (((x / t : ℝ) : ℂ) + -Complex.I * ((y / t : ℝ) : ℂ)) = (((x * x + y * y) / (t * t) : ℝ) : ℂ) := by
      push_cast
      have htC : (t : ℂ) ≠ 0 := by exact_mod_cast htp.ne'
      field_simp
      linear_combination (-(y : ℂ) * y) * Complex.I_mul_I
    rw [this, ht2, div_self h]; simp
  have hfn : f ≠ 0 := by rintro rfl; simp at hff
  have hconj : (starRingEnd ℂ) f = f⁻¹ := eq_inv_of_mul_eq_one_right hff
  refine ⟨fun a b => f ^ ((b : ℤ) - a) * (wigner_d q (N / 2) (a - N / 2) (b - N / 2) : ℂ), fun a b => by rw [hP, wigner_D_eq], fun a b ha hb => ?_⟩
  have hsum : ∑ e ∈ range (N + 1), f ^ ((e : ℤ) - a) * (wigner_d q (N / 2) (a - N / 2) (e - N / 2) : ℂ) *
      (starRingEnd ℂ) (f ^ ((e : ℤ) - b) * (wigner_d q (N / 2) (b - N / 2) (e - N / 2) : ℂ)) =
      f ^ ((b : ℤ) - a) * ((∑ e ∈ range (N + 1), wigner_d q (N / 2) (a - N / 2) (e - N / 2) * wigner_d q (N / 2) (b - N / 2) (e - N / 2) : ℝ) : ℂ) := by
    push_cast
    rw [mul_sum]
    refine sum_congr rfl fun e _ => ?_
    rw [map_mul, map_zpow₀, hconj, Complex.conj_ofReal, inv_zpow', show (b : ℤ) - a = ((e : ℤ) - a) + -((e : ℤ) - b) by ring, zpow_add₀ hfn]
    ring
  rw [hsum, (wigner_d_orthogonal q hc1 hc2 N a b ha hb).1]
  split
  · rename_i hab; rw [hab]; simp
  · simp

/-- C104, negation: for a momentum exactly along the axis, where the rotation does nothing, `wigner_D` has no value for different projections. -/
theorem wigner_D_axis_counterexample : wigner_D (angCoordinates 0 0 1) 1 0 1 = none := by
  unfold wigner_D angCoordinates
  rw [show (1 : ℝ) - 0 = ((1 : Nat) : ℝ) by norm_num, toInt_nat]
  simp

end AmpGen.Wigner
