import Verif.KMatrix.LemmasLU
import Verif.KMatrix.Spec
import Mathlib.LinearAlgebra.Matrix.Block
import Mathlib.LinearAlgebra.Matrix.NonsingularInverse
import Mathlib.Algebra.BigOperators.Fin
import Mathlib.Tactic.LinearCombination
import Mathlib.Tactic.FieldSimp
namespace AmpGen.KMatrix
open Spec

variable {K : Type} [Field K] (quot : K → K → K)


def lower (n : Nat) (d : Data K) : Matrix (Fin n) (Fin n) K := Matrix.of fun i j => if j.1 ≤ i.1 then d (i, j) else 0
def upper (n : Nat) (d : Data K) : Matrix (Fin n) (Fin n) K :=
  Matrix.of fun i j => if i.1 = j.1 then 1 else if i.1 < j.1 then d (i, j) else 0

theorem sum_window (n lo hi : Nat) (f : Nat → K) (hhi : hi ≤ n) (h : ∀ k, k < n → ¬ (lo ≤ k ∧ k < hi) → f k = 0) :
    ∑ k : Fin n, f k.1 = ∑ k ∈ Finset.Ico lo hi, f k := by
  rw [Fin.sum_univ_eq_sum_range f n]
  symm
  apply Finset.sum_subset
  · intro k hk
    rw [Finset.mem_Ico] at hk
    rw [Finset.mem_range]; omega
  · intro k hk hk'
    rw [Finset.mem_range] at hk
    rw [Finset.mem_Ico] at hk'
    exact h k hk hk'

theorem det_lower (n : Nat) (d : Data K) : (lower n d).det = ∏ i : Fin n, d (i, i) := by
  rw [Matrix.det_of_lowerTriangular]
  · simp [lower]
  · intro i j hij
    simp only [OrderDual.toDual_lt_toDual] at hij
    have h : ¬ (j.1 ≤ i.1) := not_le.2 hij
    simp only [lower, Matrix.of_apply, if_neg h]

theorem det_upper (n : Nat) (d : Data K) : (upper n d).det = 1 := by
  rw [Matrix.det_of_upperTriangular]
  · simp [upper]
  · intro i j hij
    have h1 : ¬ (i.1 = j.1) := fun h => absurd hij (by simp [Fin.ext h])
    have h2 : ¬ (i.1 < j.1) := not_lt.2 hij.le
    simp only [upper, Matrix.of_apply, if_neg h1, if_neg h2]

variable (hquot : ∀ x y : K, y ≠ 0 → quot x y = x / y)
include hquot

/-- The factors multiply to the matrix, as long as the pivots divided by are not zero. -/
theorem factors (n m : Nat) (hm : m ≤ n) (d : Data K)
    (hp : ∀ a, a + 1 < m → run (stepLU quot) (posLU n) d (a, a) ≠ 0) :
    matrix m d = lower m (run (stepLU quot) (posLU n) d) * upper m (run (stepLU quot) (posLU n) d) := by
  ext i j
  rw [Matrix.mul_apply]
  obtain ⟨a, ha⟩ := i
  obtain ⟨b, hb⟩ := j
  simp only [matrix, lower, upper, Matrix.of_apply]
  have hlow := lu_low quot n d a b
  have hup := lu_up quot n d a b
  generalize run (stepLU quot) (posLU n) d = D at *
  rw [sum_window m 0 (min a b + 1) (fun k => (if k ≤ a then D (a, k) else 0) * (if k = b then 1 else if k < b then D (k, b) else 0))
    (by omega), Finset.sum_Ico_succ_top (Nat.zero_le _)]
  · rcases Nat.le_total b a with h | h
    · rw [Nat.min_eq_right h, if_pos h, if_pos rfl, mul_one]
      rw [hlow (by omega) h]
      have e : ∑ k ∈ Finset.Ico 0 b, (if k ≤ a then D (a, k) else 0) * (if k = b then 1 else if k < b then D (k, b) else 0) =
          ∑ k ∈ Finset.Ico 0 b, D (a, k) * D (k, b) := by
        apply Finset.sum_congr rfl
        intro k hk
        rw [Finset.mem_Ico] at hk
        have h1 : k ≤ a := by omega
        have h2 : ¬ k = b := by omega
        rw [if_pos h1, if_neg h2, if_pos hk.2]
      rw [e]; ring
    · rcases Nat.eq_or_lt_of_le h with rfl | h
      · rw [Nat.min_self, if_pos le_rfl, if_pos rfl, mul_one]
        rw [hlow (by omega) le_rfl]
        have e : ∑ k ∈ Finset.Ico 0 a, (if k ≤ a then D (a, k) else 0) * (if k = a then 1 else if k < a then D (k, a) else 0) =
            ∑ k ∈ Finset.Ico 0 a, D (a, k) * D (k, a) := by
          apply Finset.sum_congr rfl
          intro k hk
          rw [Finset.mem_Ico] at hk
          have h1 : k ≤ a := by omega
          have h2 : ¬ k = a := by omega
          rw [if_pos h1, if_neg h2, if_pos hk.2]
        rw [e]; ring
      · have h2 : ¬ a = b := by omega
        rw [Nat.min_eq_left h.le, if_pos le_rfl, if_neg h2, if_pos h]
        have hpa := hp a (by omega)
        have hup' := hup (by omega) h
        rw [hquot _ _ hpa, eq_div_iff hpa] at hup'
        have e : ∑ k ∈ Finset.Ico 0 a, (if k ≤ a then D (a, k) else 0) * (if k = b then 1 else if k < b then D (k, b) else 0) =
            ∑ k ∈ Finset.Ico 0 a, D (a, k) * D (k, b) := by
          apply Finset.sum_congr rfl
          intro k hk
          rw [Finset.mem_Ico] at hk
          have h1 : k ≤ a := by omega
          have h2 : ¬ k = b := by omega
          have h3 : k < b := by omega
          rw [if_pos h1, if_neg h2, if_pos h3]
        rw [e]
        linear_combination -hup'
  · intro k hk hk'
    beta_reduce
    by_cases h1 : k ≤ a
    · have h2 : ¬ k = b := by omega
      have h3 : ¬ k < b := by omega
      rw [if_neg h2, if_neg h3, mul_zero]
    · rw [if_neg h1, zero_mul]

/-- With leading minors other than zero, no pivot is zero. -/
theorem pivots (n : Nat) (d : Data K) (hminor : ∀ m, m ≤ n → (matrix m d).det ≠ 0) (a : Nat) (ha : a < n) :
    run (stepLU quot) (posLU n) d (a, a) ≠ 0 := by
  induction a using Nat.strong_induction_on with
  | _ a ih =>
    have hf := factors quot hquot n (a + 1) ha d (fun b hb => ih b (by omega) (by omega))
    have hd := hminor (a + 1) ha
    rw [hf, Matrix.det_mul, det_lower, det_upper, mul_one] at hd
    have := Finset.prod_ne_zero_iff.1 hd (Fin.last a) (Finset.mem_univ _)
    simpa using this

theorem inverse_lower (n : Nat) (d : Data K) (hp : ∀ a, a < n → d (a, a) ≠ 0) :
    lower n d * lower n (run (stepIL quot) (posIL n) d) = 1 := by
  ext i j
  rw [Matrix.mul_apply]
  obtain ⟨j, hj⟩ := j
  obtain ⟨i, hi⟩ := i
  simp only [lower, Matrix.of_apply, Matrix.one_apply, Fin.mk.injEq]
  have hdiag := il_diag quot n d j hj
  have hlow := il_low quot n d i j hi
  generalize run (stepIL quot) (posIL n) d = E at *
  rw [sum_window n j (i + 1) (fun k => (if k ≤ i then d (i, k) else 0) * (if j ≤ k then E (k, j) else 0)) (by omega)]
  · rcases Nat.lt_trichotomy i j with h | h | h
    · have h1 : ¬ i = j := by omega
      rw [Finset.Ico_eq_empty (by omega), Finset.sum_empty, if_neg h1]
    · subst h
      rw [Finset.sum_Ico_succ_top le_rfl, Finset.Ico_self, Finset.sum_empty, if_pos le_rfl, if_pos le_rfl, if_pos rfl, hdiag, hquot _ _ (hp i hi)]
      have := hp i hi
      field_simp
      ring
    · have h1 : ¬ i = j := by omega
      rw [Finset.sum_Ico_succ_top h.le, if_pos le_rfl, if_pos h.le, if_neg h1, hlow h, hquot _ _ (hp i hi)]
      have e : ∑ k ∈ Finset.Ico j i, (if k ≤ i then d (i, k) else 0) * (if j ≤ k then E (k, j) else 0) =
          ∑ k ∈ Finset.Ico j i, d (i, k) * E (k, j) := by
        apply Finset.sum_congr rfl
        intro k hk
        rw [Finset.mem_Ico] at hk
        rw [if_pos hk.2.le, if_pos hk.1]
      rw [e, mul_div_cancel₀ _ (hp i hi)]
      ring
  · intro k hk hk'
    beta_reduce
    by_cases h1 : k ≤ i
    · have h2 : ¬ j ≤ k := by omega
      rw [if_neg h2, mul_zero]
    · rw [if_neg h1, zero_mul]

omit hquot quot

theorem inverse_upper (n : Nat) (d : Data K) :
    upper n (run stepIU (posIU n) d) * upper n d = 1 := by
  ext i j
  rw [Matrix.mul_apply]
  obtain ⟨j, hj⟩ := j
  obtain ⟨i, hi⟩ := i
  simp only [upper, Matrix.of_apply, Matrix.one_apply, Fin.mk.injEq]
  have hup := iu_up n d i j hj
  generalize run stepIU (posIU n) d = E at *
  rw [sum_window n i (j + 1) (fun k => (if i = k then 1 else if i < k then E (i, k) else 0) * (if k = j then 1 else if k < j then d (k, j) else 0))
    (by omega)]
  · rcases Nat.lt_trichotomy i j with h | h | h
    · have h1 : ¬ i = j := by omega
      rw [Finset.sum_Ico_succ_top h.le, if_neg h1, if_pos h, if_pos rfl, if_neg h1, mul_one, hup h]
      have e : ∑ k ∈ Finset.Ico i j, (if i = k then 1 else if i < k then E (i, k) else 0) * (if k = j then 1 else if k < j then d (k, j) else 0) =
          ∑ k ∈ Finset.Ico i j, d (k, j) * (if i = k then 1 else E (i, k)) := by
        apply Finset.sum_congr rfl
        intro k hk
        rw [Finset.mem_Ico] at hk
        have h2 : ¬ k = j := by omega
        rw [if_neg h2, if_pos hk.2, mul_comm]
        congr 1
        by_cases h3 : i = k
        · rw [if_pos h3, if_pos h3]
        · have h4 : i < k := by omega
          rw [if_neg h3, if_neg h3, if_pos h4]
      rw [e, add_neg_cancel]
    · subst h
      rw [Finset.sum_Ico_succ_top le_rfl, Finset.Ico_self, Finset.sum_empty, if_pos rfl]
      simp
    · have h1 : ¬ i = j := by omega
      rw [Finset.Ico_eq_empty (by omega), Finset.sum_empty, if_neg h1]
  · intro k hk hk'
    beta_reduce
    by_cases h1 : i ≤ k
    · have h2 : ¬ k = j := by omega
      have h3 : ¬ k < j := by omega
      rw [if_neg h2, if_neg h3, mul_zero]
    · have h2 : ¬ i = k := by omega
      have h3 : ¬ i < k := by omega
      rw [if_neg h2, if_neg h3, zero_mul]

theorem product_matrix (n : Nat) (d : Data K) : matrix n (run (stepM n) (posM n) d) = upper n d * lower n d := by
  ext j i
  rw [Matrix.mul_apply]
  obtain ⟨j, hj⟩ := j
  obtain ⟨i, hi⟩ := i
  simp only [matrix, upper, lower, Matrix.of_apply]
  rw [m_eq n d j i hj hi]
  rw [sum_window n (max i j) n (fun k => (if j = k then 1 else if j < k then d (j, k) else 0) * (if i ≤ k then d (k, i) else 0)) le_rfl]
  · apply Finset.sum_congr rfl
    intro k hk
    rw [Finset.mem_Ico] at hk
    have h1 : i ≤ k := by omega
    rw [if_pos h1]
    congr 1
    by_cases h2 : j = k
    · rw [if_pos h2, if_pos h2]
    · have h3 : j < k := by omega
      rw [if_neg h2, if_neg h2, if_pos h3]
  · intro k hk hk'
    beta_reduce
    by_cases h1 : i ≤ k
    · have h2 : ¬ j = k := by omega
      have h3 : ¬ j < k := by omega
      rw [if_neg h2, if_neg h3, zero_mul]
    · rw [if_neg h1, mul_zero]

theorem upper_congr (n : Nat) (d e : Data K) (h : ∀ i j, i < j → d (i, j) = e (i, j)) : upper n d = upper n e := by
  ext i j
  simp only [upper, Matrix.of_apply]
  by_cases h1 : i.1 = j.1
  · simp [h1]
  · by_cases h2 : i.1 < j.1
    · simp [h2, h _ _ h2]
    · simp [h1, h2]

theorem lower_congr (n : Nat) (d e : Data K) (h : ∀ i j, j ≤ i → d (i, j) = e (i, j)) : lower n d = lower n e := by
  ext i j
  simp only [lower, Matrix.of_apply]
  by_cases h2 : j.1 ≤ i.1
  · simp [h2, h _ _ h2]
  · simp [h2]

end AmpGen.KMatrix
