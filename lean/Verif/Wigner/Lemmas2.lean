import Mathlib.Algebra.BigOperators.Field
import Verif.Wigner.Lemmas
/- The rotation matrices act on the homogeneous polynomials of two variables. -/
namespace AmpGen.Wigner

open Finset

/-- The length of a monomial. -/
noncomputable def w (N a : Nat) : ℝ := √(a.factorial * (N - a).factorial)

theorem w_pos (N a : Nat) : 0 < w N a := Real.sqrt_pos.2 (by positivity)

theorem w_mul (N a b : Nat) : √((a.factorial : ℝ) * (N - a).factorial * b.factorial * (N - b).factorial) = w N a * w N b := by
  rw [w, w, ← Real.sqrt_mul (by positivity)]; congr 1; ring

theorem binomial_div {K : Type} [Field K] [CharZero K] (x y : K) (n : Nat) : ∑ k ∈ range (n + 1), x ^ k * y ^ (n - k) / (k.factorial * (n - k).factorial) = (x + y) ^ n / n.factorial := by
  rw [add_pow, sum_div]
  refine sum_congr rfl fun k hk => ?_
  have hk' : k ≤ n := by simp at hk; omega
  have h := Nat.choose_mul_factorial_mul_factorial hk'
  have h' : (n.choose k : K) * k.factorial * (n - k).factorial = n.factorial := by exact_mod_cast h
  have h1 : (k.factorial : K) ≠ 0 := by exact_mod_cast k.factorial_ne_zero
  have h2 : ((n - k).factorial : K) ≠ 0 := by exact_mod_cast (n - k).factorial_ne_zero
  have h3 : (n.factorial : K) ≠ 0 := by exact_mod_cast n.factorial_ne_zero
  rw [div_eq_div_iff (mul_ne_zero h1 h2) h3, ← h']; ring

theorem rearrange {K : Type} [Field K] (k p l r : Nat) (wa wb fk fp fl fr c s x y : K) (hb : wb ≠ 0) :
    (-1) ^ p * (wa * wb) / (fk * fp * fl * fr) * c ^ (k + r) * s ^ (p + l) * (x ^ (k + l) * y ^ (p + r) / wb) =
      wa * ((c * x) ^ k * (-(s * y)) ^ p / (fk * fp) * ((s * x) ^ l * (c * y) ^ r / (fl * fr))) := by
  have h : wb * wb⁻¹ = 1 := mul_inv_cancel₀ hb
  rw [neg_pow (s * y)]
  simp only [mul_pow, pow_add, div_eq_mul_inv, mul_inv]
  linear_combination ((-1) ^ p * wa * (fk⁻¹ * fp⁻¹ * fl⁻¹ * fr⁻¹) * (c ^ k * c ^ r) * (s ^ p * s ^ l) * (x ^ k * x ^ l * (y ^ p * y ^ r))) * h

/-- The rows of the matrix are the coefficients of the rotated monomials. -/
theorem generating (N : Nat) (c s : ℝ) (a : Nat) (ha : a ≤ N) (x y : ℝ) :
    ∑ b ∈ range (N + 1), D N c s a b * (x ^ b * y ^ (N - b) / w N b) = (c * x - s * y) ^ a * (s * x + c * y) ^ (N - a) / w N a := by
  have e1 : (c * x - s * y) ^ a = a.factorial * ∑ k ∈ range (a + 1), (c * x) ^ k * (-(s * y)) ^ (a - k) / (k.factorial * (a - k).factorial) := by
    rw [binomial_div, ← sub_eq_add_neg]; field_simp
  have e2 : (s * x + c * y) ^ (N - a) = (N - a).factorial * ∑ l ∈ range (N - a + 1), (s * x) ^ l * (c * y) ^ (N - a - l) / (l.factorial * (N - a - l).factorial) := by
    rw [binomial_div]; field_simp
  have e3 : (a.factorial : ℝ) * (N - a).factorial / w N a = w N a := by
    rw [div_eq_iff (w_pos N a).ne', w, Real.mul_self_sqrt (by positivity)]
  rw [e1, e2, show ∀ p q r t u : ℝ, p * q * (r * t) / u = (p * r / u) * (q * t) by intros; ring, e3, sum_mul_sum, mul_sum]
  simp only [D, sum_mul]
  rw [sum_comm]
  -- sum over k of both sides
  have hk : ∀ k ∈ range (N + 1), ∀ b ∈ range (N + 1), (if k ≤ a ∧ k ≤ b ∧ a + b ≤ N + k then
      (-1) ^ (a + k) * √(a.factorial * (N - a).factorial * b.factorial * (N - b).factorial) /
        (k.factorial * (a - k).factorial * (b - k).factorial * (N + k - a - b).factorial) * c ^ (N + 2 * k - a - b) * s ^ (a + b - 2 * k) else 0) *
        (x ^ b * y ^ (N - b) / w N b) =
      if k ≤ a ∧ k ≤ b ∧ a + b ≤ N + k then w N a * ((c * x) ^ k * (-(s * y)) ^ (a - k) / (k.factorial * (a - k).factorial) *
        ((s * x) ^ (b - k) * (c * y) ^ (N - a - (b - k)) / ((b - k).factorial * (N - a - (b - k)).factorial))) else 0 := by
    intro k _ b hb
    simp only [mem_range] at hb
    split
    · rename_i h
      obtain ⟨h1, h2, h3⟩ := h
      rw [w_mul]
      obtain ⟨l, rfl⟩ := Nat.exists_eq_add_of_le h2
      obtain ⟨p, rfl⟩ := Nat.exists_eq_add_of_le h1
      obtain ⟨r, rfl⟩ : ∃ r, N = k + p + l + r := ⟨N - (k + p + l), by omega⟩
      have hw := (w_pos (k + p + l + r) (k + l)).ne'
      rw [show k + p + l + r + k - (k + p) - (k + l) = r by omega, show k + p + l + r + 2 * k - (k + p) - (k + l) = k + r by omega,
        show k + p + (k + l) - 2 * k = p + l by omega, show k + p + l + r - (k + l) = p + r by omega, show k + p - k = p by omega, show k + l - k = l by omega,
        show k + p + l + r - (k + p) - l = r by omega, show k + p + k = 2 * k + p by omega, pow_add (-1 : ℝ), pow_mul, neg_one_sq, one_pow, one_mul]
      exact rearrange k p l r _ _ _ _ _ _ c s x y hw
    · rw [zero_mul]
  rw [sum_congr rfl fun k hk' => sum_congr rfl (hk k hk')]
  have hR : ∀ k ∈ range (a + 1), w N a * ∑ l ∈ range (N - a + 1), ((c * x) ^ k * (-(s * y)) ^ (a - k) / (k.factorial * (a - k).factorial) *
      ((s * x) ^ l * (c * y) ^ (N - a - l) / (l.factorial * (N - a - l).factorial))) =
      ∑ b ∈ range (N + 1), if k ≤ a ∧ k ≤ b ∧ a + b ≤ N + k then w N a * ((c * x) ^ k * (-(s * y)) ^ (a - k) / (k.factorial * (a - k).factorial) *
        ((s * x) ^ (b - k) * (c * y) ^ (N - a - (b - k)) / ((b - k).factorial * (N - a - (b - k)).factorial))) else 0 := by
    intro k hk'
    simp only [mem_range] at hk'
    rw [← sum_filter]
    have hsub : (range (N + 1)).filter (fun b => k ≤ a ∧ k ≤ b ∧ a + b ≤ N + k) = (range (N - a + 1)).image (fun l => k + l) := by
      ext b
      simp only [mem_filter, mem_range, mem_image]
      constructor
      · rintro ⟨_, h⟩; exact ⟨b - k, by omega, by omega⟩
      · rintro ⟨i, hi, rfl⟩; omega
    rw [hsub, sum_image (by intro x _ y _ h; simpa using h), mul_sum]
    refine sum_congr rfl fun l _ => ?_
    rw [show k + l - k = l by omega]
  rw [sum_congr rfl hR]
  symm
  refine sum_subset (by intro k; simp; omega) fun k _ hk2 => ?_
  simp only [mem_range, not_lt] at hk2
  refine sum_eq_zero fun b _ => ?_
  rw [if_neg (by omega)]

/-- The same with complex variables. -/
theorem generatingC (N : Nat) (c s : ℝ) (a : Nat) (ha : a ≤ N) (x y : ℂ) :
    ∑ b ∈ range (N + 1), (D N c s a b : ℂ) * (x ^ b * y ^ (N - b) / w N b) = ((c : ℂ) * x - s * y) ^ a * (s * x + c * y) ^ (N - a) / w N a := by
  have e1 : ((c : ℂ) * x - s * y) ^ a = a.factorial * ∑ k ∈ range (a + 1), (c * x) ^ k * (-(s * y)) ^ (a - k) / (k.factorial * (a - k).factorial) := by
    rw [binomial_div, ← sub_eq_add_neg, mul_div_cancel₀ _ (by exact_mod_cast a.factorial_ne_zero)]
  have e2 : ((s : ℂ) * x + c * y) ^ (N - a) = (N - a).factorial * ∑ l ∈ range (N - a + 1), (s * x) ^ l * (c * y) ^ (N - a - l) / (l.factorial * (N - a - l).factorial) := by
    rw [binomial_div, mul_div_cancel₀ _ (by exact_mod_cast (N - a).factorial_ne_zero)]
  have e3 : (a.factorial : ℂ) * (N - a).factorial / w N a = w N a := by
    have : (a.factorial : ℝ) * (N - a).factorial / w N a = w N a := by
      rw [div_eq_iff (w_pos N a).ne', w, Real.mul_self_sqrt (by positivity)]
    exact_mod_cast this
  rw [e1, e2, show ∀ p q r t u : ℂ, p * q * (r * t) / u = (p * r / u) * (q * t) by intros; ring, e3, sum_mul_sum, mul_sum]
  simp only [D, Complex.ofReal_sum, sum_mul]
  rw [sum_comm]
  -- sum over k of both sides
  have hk : ∀ k ∈ range (N + 1), ∀ b ∈ range (N + 1), (((if k ≤ a ∧ k ≤ b ∧ a + b ≤ N + k then
      (-1) ^ (a + k) * √(a.factorial * (N - a).factorial * b.factorial * (N - b).factorial) /
        (k.factorial * (a - k).factorial * (b - k).factorial * (N + k - a - b).factorial) * c ^ (N + 2 * k - a - b) * s ^ (a + b - 2 * k) else 0 : ℝ)) : ℂ) *
        (x ^ b * y ^ (N - b) / w N b) =
      if k ≤ a ∧ k ≤ b ∧ a + b ≤ N + k then (w N a : ℂ) * (((c : ℂ) * x) ^ k * (-(s * y)) ^ (a - k) / (k.factorial * (a - k).factorial) *
        ((s * x) ^ (b - k) * (c * y) ^ (N - a - (b - k)) / ((b - k).factorial * (N - a - (b - k)).factorial))) else 0 := by
    intro k _ b hb
    simp only [mem_range] at hb
    by_cases h : k ≤ a ∧ k ≤ b ∧ a + b ≤ N + k
    · rw [if_pos h, if_pos h]
      obtain ⟨h1, h2, h3⟩ := h
      rw [w_mul]
      obtain ⟨l, rfl⟩ := Nat.exists_eq_add_of_le h2
      obtain ⟨p, rfl⟩ := Nat.exists_eq_add_of_le h1
      obtain ⟨r, rfl⟩ : ∃ r, N = k + p + l + r := ⟨N - (k + p + l), by omega⟩
      have hw := (w_pos (k + p + l + r) (k + l)).ne'
      have hw' : ((w (k + p + l + r) (k + l) : ℝ) : ℂ) ≠ 0 := by exact_mod_cast hw
      rw [show k + p + l + r + k - (k + p) - (k + l) = r by omega, show k + p + l + r + 2 * k - (k + p) - (k + l) = k + r by omega,
        show k + p + (k + l) - 2 * k = p + l by omega, show k + p + l + r - (k + l) = p + r by omega, show k + p - k = p by omega, show k + l - k = l by omega,
        show k + p + l + r - (k + p) - l = r by omega, show k + p + k = 2 * k + p by omega, pow_add (-1 : ℝ), pow_mul, neg_one_sq, one_pow, one_mul]
      push_cast
      exact rearrange k p l r _ _ _ _ _ _ (c : ℂ) s x y hw'
    · rw [if_neg h, if_neg h]; simp
  rw [sum_congr rfl fun k hk' => sum_congr rfl (hk k hk')]
  have hR : ∀ k ∈ range (a + 1), (w N a : ℂ) * ∑ l ∈ range (N - a + 1), (((c : ℂ) * x) ^ k * (-(s * y)) ^ (a - k) / (k.factorial * (a - k).factorial) *
      ((s * x) ^ l * (c * y) ^ (N - a - l) / (l.factorial * (N - a - l).factorial))) =
      ∑ b ∈ range (N + 1), if k ≤ a ∧ k ≤ b ∧ a + b ≤ N + k then (w N a : ℂ) * (((c : ℂ) * x) ^ k * (-(s * y)) ^ (a - k) / (k.factorial * (a - k).factorial) *
        ((s * x) ^ (b - k) * (c * y) ^ (N - a - (b - k)) / ((b - k).factorial * (N - a - (b - k)).factorial))) else 0 := by
    intro k hk'
    simp only [mem_range] at hk'
    rw [← sum_filter]
    have hsub : (range (N + 1)).filter (fun b => k ≤ a ∧ k ≤ b ∧ a + b ≤ N + k) = (range (N - a + 1)).image (fun l => k + l) := by
      ext b
      simp only [mem_filter, mem_range, mem_image]
      constructor
      · rintro ⟨_, h⟩; exact ⟨b - k, by omega, by omega⟩
      · rintro ⟨i, hi, rfl⟩; omega
    rw [hsub, sum_image (by intro x _ y _ h; simpa using h), mul_sum]
    refine sum_congr rfl fun l _ => ?_
    rw [show k + l - k = l by omega]
  rw [sum_congr rfl hR]
  symm
  refine sum_subset (by intro k; simp; omega) fun k _ hk2 => ?_
  simp only [mem_range, not_lt] at hk2
  refine sum_eq_zero fun b _ => ?_
  rw [if_neg (by omega)]

/-- A matrix is known from its action on the monomials. -/
theorem ext_of_generating (N : Nat) (f g : Nat → ℝ)
    (h : ∀ x y : ℝ, ∑ b ∈ range (N + 1), f b * (x ^ b * y ^ (N - b) / w N b) = ∑ b ∈ range (N + 1), g b * (x ^ b * y ^ (N - b) / w N b)) (b : Nat) (hb : b ≤ N) :
    f b = g b := by
  let p : Polynomial ℝ := ∑ b ∈ range (N + 1), Polynomial.C ((f b - g b) / w N b) * Polynomial.X ^ b
  have hp : p = 0 := by
    refine Polynomial.funext fun x => ?_
    have := h x 1
    simp only [one_pow, mul_one] at this
    simp only [p, Polynomial.eval_finset_sum, Polynomial.eval_mul, Polynomial.eval_C, Polynomial.eval_pow, Polynomial.eval_X, Polynomial.eval_zero]
    rw [← sub_eq_zero, ← sum_sub_distrib] at this
    rw [← this]
    refine sum_congr rfl fun b _ => ?_
    ring
  have hc := congrArg (fun q => Polynomial.coeff q b) hp
  simp only [p, Polynomial.finset_sum_coeff, Polynomial.coeff_C_mul, Polynomial.coeff_X_pow, Polynomial.coeff_zero] at hc
  rw [sum_eq_single b] at hc
  · rw [if_pos rfl, mul_one, div_eq_zero_iff] at hc
    rcases hc with hc | hc
    · linarith
    · exact absurd hc (w_pos N b).ne'
  · intro k _ hk; rw [if_neg (Ne.symm hk), mul_zero]
  · intro hn; simp at hn; omega

/-- Two rotations, one after the other. -/
theorem D_mul (N : Nat) (c s c' s' : ℝ) (a e : Nat) (ha : a ≤ N) (he : e ≤ N) :
    ∑ b ∈ range (N + 1), D N c s a b * D N c' s' b e = D N (c * c' - s * s') (s * c' + c * s') a e := by
  refine ext_of_generating N (fun e => ∑ b ∈ range (N + 1), D N c s a b * D N c' s' b e) _ (fun x y => ?_) e he
  rw [generating N _ _ a ha]
  have : ∑ e ∈ range (N + 1), (∑ b ∈ range (N + 1), D N c s a b * D N c' s' b e) * (x ^ e * y ^ (N - e) / w N e) =
      ∑ b ∈ range (N + 1), D N c s a b * ((c' * x - s' * y) ^ b * (s' * x + c' * y) ^ (N - b) / w N b) := by
    simp only [sum_mul]
    rw [sum_comm]
    refine sum_congr rfl fun b hb => ?_
    rw [← generating N c' s' b (by simp at hb; omega) x y, mul_sum]
    refine sum_congr rfl fun e _ => ?_
    ring
  rw [this, generating N c s a ha]
  congr 2 <;> ring

/-- No rotation. -/
theorem D_one (N : Nat) (a b : Nat) (ha : a ≤ N) (hb : b ≤ N) : D N 1 0 a b = if a = b then 1 else 0 := by
  refine ext_of_generating N (D N 1 0 a) (fun b => if a = b then 1 else 0) (fun x y => ?_) b hb
  rw [generating N _ _ a ha, sum_eq_single a]
  · simp
  · intro k _ hk; rw [if_neg (Ne.symm hk), zero_mul]
  · intro hn; simp at hn; omega

/-- The rotation back is the transposed matrix. -/
theorem D_transpose (N : Nat) (c s : ℝ) (a b : Nat) : D N c s b a = D N c (-s) a b := by
  unfold D
  refine sum_congr rfl fun k _ => ?_
  by_cases h : k ≤ a ∧ k ≤ b ∧ a + b ≤ N + k
  · rw [if_pos h, if_pos (by omega)]
    obtain ⟨h1, h2, h3⟩ := h
    obtain ⟨l, rfl⟩ := Nat.exists_eq_add_of_le h2
    obtain ⟨p, rfl⟩ := Nat.exists_eq_add_of_le h1
    rw [show k + l + (k + p) - 2 * k = l + p by omega, show k + p + (k + l) - 2 * k = l + p by omega,
      show N + k - (k + l) - (k + p) = N + k - (k + p) - (k + l) by omega, show N + 2 * k - (k + l) - (k + p) = N + 2 * k - (k + p) - (k + l) by omega,
      show ((k + l).factorial : ℝ) * (N - (k + l)).factorial * (k + p).factorial * (N - (k + p)).factorial =
        (k + p).factorial * (N - (k + p)).factorial * (k + l).factorial * (N - (k + l)).factorial by ring,
      neg_pow s (l + p), show k + l + k = 2 * k + l by omega, show k + p + k = 2 * k + p by omega]
    have : (-1 : ℝ) ^ (2 * k + l) = (-1) ^ (2 * k + p) * (-1) ^ (l + p) := by
      rw [← pow_add, show 2 * k + p + (l + p) = 2 * (k + p) + l + 0 by omega, add_zero, pow_add, pow_add (-1 : ℝ) (2 * (k + p)), pow_mul, pow_mul]; simp
    rw [this]; ring
  · rw [if_neg h, if_neg (by omega)]

/-- The rows are orthonormal. -/
theorem D_orthogonal (N : Nat) (c s : ℝ) (h : c * c + s * s = 1) (a b : Nat) (ha : a ≤ N) (hb : b ≤ N) :
    ∑ e ∈ range (N + 1), D N c s a e * D N c s b e = if a = b then 1 else 0 := by
  rw [← D_one N a b ha hb, sum_congr rfl fun e _ => by rw [D_transpose N c s e b], D_mul N c s c (-s) a b ha hb]
  congr 1 <;> linarith

end AmpGen.Wigner
