import Verif.Cubature.LemmasPoly
/-
The literals of the code: helper lemmas.
-/
namespace AmpGen.Cubature
open Spec
variable {n : ℕ}

/-- How far the rule with the literals is from the mean of `1`, of `x ^ k`, of `x ^ k y ^ l` and of `x ^ 2 y ^ 2 z ^ 2`, at `k + 2` dimensions. -/
def off0 (d : ℕ) : ℚ :=
  wn1.getD d 0 * 1 + 980 / 6561 * (2 * (d + 2)) + wn3.getD d 0 * (2 * (d + 2)) + 200 / 19683 * (2 * ((d + 2) * (d + 2 - 1))) +
    wn5.getD d 0 * 2 ^ (d + 2) - 1
def off1 (d k : ℕ) : ℚ :=
  980 / 6561 * (2 * xl2 ^ k) + wn3.getD d 0 * (2 * xl4 ^ k) + 200 / 19683 * (4 * (d + 2 - 1) * xl4 ^ k) + wn5.getD d 0 * (2 ^ (d + 2) * xl5 ^ k) -
    1 / (k + 1)
def off2 (d k l : ℕ) : ℚ :=
  200 / 19683 * (4 * xl4 ^ k * xl4 ^ l) + wn5.getD d 0 * (2 ^ (d + 2) * (xl5 ^ k * xl5 ^ l)) - 1 / (k + 1) * (1 / (l + 1))
def off3 (d : ℕ) : ℚ := wn5.getD d 0 * (2 ^ (d + 2) * (xl5 ^ 2 * (xl5 ^ 2 * xl5 ^ 2))) - 1 / 3 * (1 / 3 * (1 / 3))
def offc0 (d : ℕ) : ℚ :=
  wpn1.getD d 0 * 1 + 245 / 486 * (2 * (d + 2)) + wpn3.getD d 0 * (2 * (d + 2)) + 25 / 729 * (2 * ((d + 2) * (d + 2 - 1))) - 1
def offc1 (d k : ℕ) : ℚ :=
  245 / 486 * (2 * xl2 ^ k) + wpn3.getD d 0 * (2 * xl4 ^ k) + 25 / 729 * (4 * (d + 2 - 1) * xl4 ^ k) - 1 / (k + 1)
def offc2 (k l : ℕ) : ℚ := 25 / 729 * (4 * xl4 ^ k * xl4 ^ l) - 1 / (k + 1) * (1 / (l + 1))

set_option maxRecDepth 10000 in
theorem off_small : ∀ d < 14, |off0 d| ≤ 1e-15 ∧ |off1 d 2| ≤ 1e-15 ∧ |off1 d 4| ≤ 1e-15 ∧ |off1 d 6| ≤ 1e-15 ∧ |off2 d 2 2| ≤ 1e-15 ∧
    |off2 d 4 2| ≤ 1e-15 ∧ |off2 d 2 4| ≤ 1e-15 ∧ |off3 d| ≤ 1e-15 ∧ |offc0 d| ≤ 1e-15 ∧ |offc1 d 2| ≤ 1e-15 ∧ |offc1 d 4| ≤ 1e-15 ∧
    |offc2 2 2| ≤ 1e-15 := by
  decide +kernel

theorem off_real {q : ℚ} (h : |q| ≤ 1e-15) {x : ℝ} (hx : x = q) : |x| ≤ 1e-15 := by
  rw [hx]
  have : ((|q| : ℚ) : ℝ) ≤ ((1e-15 : ℚ) : ℝ) := by exact_mod_cast h
  rw [Rat.cast_abs] at this
  refine this.trans (le_of_eq ?_)
  norm_num

/-- The size of a product of powers on a box. -/
def size (b : Fin n → ℝ) (α : Fin n → ℕ) : ℝ := ∏ i, |b i| ^ α i

theorem size_nonneg (b : Fin n → ℝ) (α : Fin n → ℕ) : 0 ≤ size b α := Finset.prod_nonneg fun i _ => pow_nonneg (abs_nonneg _) _

theorem size_none (b : Fin n → ℝ) (α : Fin n → ℕ) (h : ∀ i, α i = 0) : size b α = 1 := by simp [size, h]

theorem size_one (b : Fin n → ℝ) (α : Fin n → ℕ) (p : Fin n) (h : ∀ i, i ≠ p → α i = 0) : size b α = |b p ^ α p| := by
  unfold size
  rw [Finset.prod_eq_single p, abs_pow]
  · intro i _ hi
    rw [h i hi, pow_zero]
  · intro hh; exact absurd (Finset.mem_univ p) hh

theorem size_on (b : Fin n → ℝ) (α : Fin n → ℕ) (T : Finset (Fin n)) (h : ∀ i, i ∉ T → α i = 0) : size b α = ∏ i ∈ T, |b i ^ α i| := by
  unfold size
  rw [← Finset.prod_subset (Finset.subset_univ T)]
  · exact Finset.prod_congr rfl fun i _ => (abs_pow _ _).symm
  · intro i _ hi
    rw [h i hi, pow_zero]

theorem size_two (b : Fin n → ℝ) (α : Fin n → ℕ) (p q : Fin n) (hpq : p ≠ q) (h : ∀ i, i ≠ p → i ≠ q → α i = 0) :
    size b α = |b p ^ α p * b q ^ α q| := by
  rw [size_on b α {p, q} (by intro i hi; simp only [Finset.mem_insert, Finset.mem_singleton, not_or] at hi; exact h i hi.1 hi.2),
    Finset.prod_pair hpq, abs_mul]

theorem size_three (b : Fin n → ℝ) (α : Fin n → ℕ) (p q r : Fin n) (hpq : p ≠ q) (hpr : p ≠ r) (hqr : q ≠ r)
    (h : ∀ i, i ≠ p → i ≠ q → i ≠ r → α i = 0) : size b α = |b p ^ α p * (b q ^ α q * b r ^ α r)| := by
  rw [size_on b α {p, q, r} (by
    intro i hi; simp only [Finset.mem_insert, Finset.mem_singleton, not_or] at hi; exact h i hi.1 hi.2.1 hi.2.2),
    Finset.prod_insert (by simp [hpq, hpr]), Finset.prod_pair hqr, abs_mul, abs_mul]

theorem bound_of_off {v s M N δ : ℝ} (e : N = s * δ) (hs : |s| = M) (hδ : |δ| ≤ 1e-15) : |v * N| ≤ 1e-15 * (|v| * M) := by
  rw [e, abs_mul, abs_mul, hs]
  have h1 : 0 ≤ |v| * M := by rw [← hs]; positivity
  calc |v| * (M * |δ|) = |v| * M * |δ| := by ring
    _ ≤ |v| * M * 1e-15 := mul_le_mul_of_nonneg_left hδ h1
    _ = _ := by ring

theorem rgnval_literal (hn : 2 ≤ n) (hn15 : n ≤ 15) (a b : Fin n → ℝ) (α : Fin n → ℕ) (h : ∑ i, α i ≤ 7) :
    |rgnval literal (mono a α) a b - rgnvol b * mean b α| ≤ 1e-15 * (|rgnvol b| * size b α) := by
  obtain ⟨d, hd⟩ : ∃ d, n - 2 = d := ⟨_, rfl⟩
  have hdn : (n : ℝ) = (d : ℝ) + 2 := by
    have : n = d + 2 := by omega
    rw [this]; push_cast; ring
  have hdp : n = d + 2 := by omega
  obtain ⟨o0, o12, o14, o16, o22, o42, o24, o3, -⟩ := off_small d (by omega)
  unfold rgnval
  rw [← mul_sub, hd]
  by_cases ho : ∃ p, Odd (α p)
  · obtain ⟨p, hp⟩ := ho
    obtain ⟨s1, s2, s3, s4, s5, sm⟩ := sums_odd literal a b α p hp
    rw [s1, s2, s3, s4, s5, sm]
    simp only [mul_zero, add_zero, sub_zero, abs_zero]
    have := size_nonneg b α
    positivity
  simp only [not_exists, Nat.not_odd_iff_even] at ho
  rcases few_axes α ho 7 h le_rfl with h0 | ⟨p, h0, hp, hdeg⟩ | ⟨p, q, hpq, h0, hp, hq, hdeg⟩ | ⟨p, q, r, hpq, hpr, hqr, h0, hp, hq, hr, hdeg⟩
  · obtain ⟨s1, s2, s3, s4, s5, sm⟩ := sums_none literal a b α h0
    rw [s1, s2, s3, s4, s5, sm]
    refine bound_of_off (s := 1) (δ := ((off0 d : ℚ) : ℝ)) ?_ (by rw [size_none b α h0, abs_one]) (off_real o0 rfl)
    rw [hdn, show (2 : ℝ) ^ n = 2 ^ (d + 2) by rw [hdp]]
    simp only [literal, off0]
    push_cast
    ring
  · obtain ⟨s1, s2, s3, s4, s5, sm⟩ := sums_one literal a b α p h0 hp (ho p)
    rw [s1, s2, s3, s4, s5, sm]
    have hcase : |off1 d (α p)| ≤ 1e-15 := by
      have : α p = 2 ∨ α p = 4 ∨ α p = 6 := by
        obtain ⟨k, hk⟩ := ho p
        omega
      rcases this with e | e | e <;> rw [e] <;> assumption
    refine bound_of_off (s := b p ^ α p) (δ := ((off1 d (α p) : ℚ) : ℝ)) ?_ (size_one b α p h0).symm (off_real hcase rfl)
    rw [hdn, show (2 : ℝ) ^ n = 2 ^ (d + 2) by rw [hdp]]
    simp only [literal, off1]
    push_cast
    ring
  · obtain ⟨s1, s2, s3, s4, s5, sm⟩ := sums_two literal a b α p q hpq h0 hp hq (ho p) (ho q)
    rw [s1, s2, s3, s4, s5, sm]
    have hcase : |off2 d (α p) (α q)| ≤ 1e-15 := by
      have : (α p = 2 ∧ α q = 2) ∨ (α p = 4 ∧ α q = 2) ∨ (α p = 2 ∧ α q = 4) := by
        obtain ⟨k, hk⟩ := ho p
        obtain ⟨l, hl⟩ := ho q
        omega
      rcases this with ⟨e, e'⟩ | ⟨e, e'⟩ | ⟨e, e'⟩ <;> rw [e, e'] <;> assumption
    refine bound_of_off (s := b p ^ α p * b q ^ α q) (δ := ((off2 d (α p) (α q) : ℚ) : ℝ)) ?_ (size_two b α p q hpq h0).symm (off_real hcase rfl)
    rw [show (2 : ℝ) ^ n = 2 ^ (d + 2) by rw [hdp]]
    simp only [literal, off2]
    push_cast
    ring
  · obtain ⟨s1, s2, s3, s4, s5, sm⟩ := sums_three literal a b α p q r hpq hpr hqr h0 hp hq hr (ho p) (ho q) (ho r)
    rw [s1, s2, s3, s4, s5, sm]
    have hcase : α p = 2 ∧ α q = 2 ∧ α r = 2 := by
      obtain ⟨k, hk⟩ := ho p
      obtain ⟨l, hl⟩ := ho q
      obtain ⟨m, hm⟩ := ho r
      omega
    refine bound_of_off (s := b p ^ α p * (b q ^ α q * b r ^ α r)) (δ := ((off3 d : ℚ) : ℝ)) ?_
      (size_three b α p q r hpq hpr hqr h0).symm (off_real o3 rfl)
    obtain ⟨e, e', e''⟩ := hcase
    rw [e, e', e'', show (2 : ℝ) ^ n = 2 ^ (d + 2) by rw [hdp]]
    simp only [literal, off3]
    push_cast
    ring

theorem rgncmp_literal (hn : 2 ≤ n) (hn15 : n ≤ 15) (a b : Fin n → ℝ) (α : Fin n → ℕ) (h : ∑ i, α i ≤ 5) :
    |rgncmp literal (mono a α) a b - rgnvol b * mean b α| ≤ 1e-15 * (|rgnvol b| * size b α) := by
  obtain ⟨d, hd⟩ : ∃ d, n - 2 = d := ⟨_, rfl⟩
  have hdn : (n : ℝ) = (d : ℝ) + 2 := by
    have : n = d + 2 := by omega
    rw [this]; push_cast; ring
  obtain ⟨-, -, -, -, -, -, -, -, o0, o12, o14, o22⟩ := off_small d (by omega)
  unfold rgncmp
  rw [← mul_sub, hd]
  by_cases ho : ∃ p, Odd (α p)
  · obtain ⟨p, hp⟩ := ho
    obtain ⟨s1, s2, s3, s4, s5, sm⟩ := sums_odd literal a b α p hp
    rw [s1, s2, s3, s4, sm]
    simp only [mul_zero, add_zero, sub_zero, abs_zero]
    have := size_nonneg b α
    positivity
  simp only [not_exists, Nat.not_odd_iff_even] at ho
  rcases few_axes α ho 5 h (by norm_num) with h0 | ⟨p, h0, hp, hdeg⟩ | ⟨p, q, hpq, h0, hp, hq, hdeg⟩ |
    ⟨p, q, r, hpq, hpr, hqr, h0, hp, hq, hr, hdeg⟩
  · obtain ⟨s1, s2, s3, s4, s5, sm⟩ := sums_none literal a b α h0
    rw [s1, s2, s3, s4, sm]
    refine bound_of_off (s := 1) (δ := ((offc0 d : ℚ) : ℝ)) ?_ (by rw [size_none b α h0, abs_one]) (off_real o0 rfl)
    rw [hdn]
    simp only [literal, offc0]
    push_cast
    ring
  · obtain ⟨s1, s2, s3, s4, s5, sm⟩ := sums_one literal a b α p h0 hp (ho p)
    rw [s1, s2, s3, s4, sm]
    have hcase : |offc1 d (α p)| ≤ 1e-15 := by
      have : α p = 2 ∨ α p = 4 := by
        obtain ⟨k, hk⟩ := ho p
        omega
      rcases this with e | e <;> rw [e] <;> assumption
    refine bound_of_off (s := b p ^ α p) (δ := ((offc1 d (α p) : ℚ) : ℝ)) ?_ (size_one b α p h0).symm (off_real hcase rfl)
    rw [hdn]
    simp only [literal, offc1]
    push_cast
    ring
  · obtain ⟨s1, s2, s3, s4, s5, sm⟩ := sums_two literal a b α p q hpq h0 hp hq (ho p) (ho q)
    rw [s1, s2, s3, s4, sm]
    have hcase : |offc2 (α p) (α q)| ≤ 1e-15 := by
      have : α p = 2 ∧ α q = 2 := by
        obtain ⟨k, hk⟩ := ho p
        obtain ⟨l, hl⟩ := ho q
        omega
      rw [this.1, this.2]
      exact o22
    refine bound_of_off (s := b p ^ α p * b q ^ α q) (δ := ((offc2 (α p) (α q) : ℚ) : ℝ)) ?_ (size_two b α p q hpq h0).symm (off_real hcase rfl)
    simp only [literal, offc2]
    push_cast
    ring
  · obtain ⟨k, hk⟩ := ho p
    obtain ⟨l, hl⟩ := ho q
    obtain ⟨m, hm⟩ := ho r
    omega

end AmpGen.Cubature
