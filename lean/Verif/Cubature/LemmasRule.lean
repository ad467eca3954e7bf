import Verif.Cubature.Model
import Verif.Cubature.Spec
import Mathlib.Analysis.SpecialFunctions.Pow.Real
import Mathlib.Analysis.SpecialFunctions.Integrals.Basic
import Mathlib.MeasureTheory.Integral.Pi
import Mathlib.Algebra.MvPolynomial.Degrees
import Mathlib.Algebra.MvPolynomial.Eval
import Mathlib.Tactic.LinearCombination
import Mathlib.Tactic.FieldSimp
import Mathlib.Tactic.NormNum
/-
The rule of integration on shifted monomials: helper lemmas.
-/
namespace AmpGen.Cubature
open Spec
variable {n : ℕ}

/-- The constants of the rule as real numbers: what the literals of the code are approximations of. -/
noncomputable def ideal : Consts where
  xl2 := √(9 / 70)
  xl4 := √(9 / 10)
  xl5 := √(9 / 19)
  w2 := 980 / 6561
  w4 := 200 / 19683
  wp2 := 245 / 486
  wp4 := 25 / 729
  wn1 k := (12824 - 9120 * (k + 2) + 400 * (k + 2) ^ 2) / 19683
  wn3 k := (1820 - 400 * (k + 2)) / 19683
  wn5 k := 6859 / 19683 / 2 ^ (k + 2)
  wpn1 k := (729 - 950 * (k + 2) + 50 * (k + 2) ^ 2) / 729
  wpn3 k := (265 - 100 * (k + 2)) / 1458

/-- A product of powers of the distances from a point. -/
def mono (a : Fin n → ℝ) (α : Fin n → ℕ) (x : Fin n → ℝ) : ℝ := ∏ i, (x i - a i) ^ α i

/-! ### The rule on products of powers -/

theorem mono_update (a : Fin n → ℝ) (α : Fin n → ℕ) (j : Fin n) (p : ℝ) :
    mono a α (Function.update a j (a j + p)) = if ∀ i, i ≠ j → α i = 0 then p ^ α j else 0 := by
  unfold mono
  split
  · rename_i h
    rw [Finset.prod_eq_single j]
    · rw [Function.update_self]; congr 1; ring
    · intro i _ hi
      rw [h i hi, pow_zero]
    · intro h; exact absurd (Finset.mem_univ j) h
  · rename_i h
    simp only [not_forall] at h
    obtain ⟨i, hi, h0⟩ := h
    refine Finset.prod_eq_zero (Finset.mem_univ i) ?_
    rw [Function.update_of_ne hi, sub_self, zero_pow h0]

theorem mono_update2 (a : Fin n → ℝ) (α : Fin n → ℕ) (j k : Fin n) (hjk : j ≠ k) (p q : ℝ) :
    mono a α (Function.update (Function.update a j (a j + p)) k ((Function.update a j (a j + p)) k + q)) =
      if ∀ i, i ≠ j → i ≠ k → α i = 0 then p ^ α j * q ^ α k else 0 := by
  unfold mono
  rw [Function.update_of_ne hjk.symm]
  split
  · rename_i h
    rw [← Finset.prod_subset (Finset.subset_univ {j, k})]
    · rw [Finset.prod_pair hjk, Function.update_self, Function.update_of_ne hjk, Function.update_self]
      congr 1 <;> congr 1 <;> ring
    · intro i _ hi
      simp only [Finset.mem_insert, Finset.mem_singleton, not_or] at hi
      rw [h i hi.1 hi.2, pow_zero]
  · rename_i h
    simp only [not_forall] at h
    obtain ⟨i, hi, hk, h0⟩ := h
    refine Finset.prod_eq_zero (Finset.mem_univ i) ?_
    rw [Function.update_of_ne hk, Function.update_of_ne hi, sub_self, zero_pow h0]

theorem sum_bits (n : ℕ) (h : ℕ → Bool → ℝ) :
    ∑ j ∈ Finset.range (2 ^ n), ∏ k ∈ Finset.range n, h k (j.testBit k) = ∏ k ∈ Finset.range n, (h k false + h k true) := by
  induction n with
  | zero => simp
  | succ n ih =>
    rw [pow_succ, mul_two, Finset.sum_range_add, Finset.prod_range_succ, ← ih, mul_add, Finset.sum_mul, Finset.sum_mul]
    congr 1
    · refine Finset.sum_congr rfl fun j hj => ?_
      rw [Finset.prod_range_succ, Nat.testBit_lt_two_pow (Finset.mem_range.1 hj)]
    · refine Finset.sum_congr rfl fun j hj => ?_
      rw [Finset.prod_range_succ, Nat.testBit_two_pow_add_eq, Nat.testBit_lt_two_pow (Finset.mem_range.1 hj), Bool.not_false]
      congr 1
      refine Finset.prod_congr rfl fun k hk => ?_
      rw [Nat.testBit_two_pow_add_gt (Finset.mem_range.1 hk)]

theorem sum5_mono (c : Consts) (a b : Fin n → ℝ) (α : Fin n → ℕ) :
    sum5 c (mono a α) a b = ∏ i, ((-(c.xl5 * b i)) ^ α i + (c.xl5 * b i) ^ α i) := by
  unfold sum5 mono
  have := sum_bits n (fun k t => if h : k < n then ((if t then 1 else -1) * c.xl5 * b ⟨k, h⟩) ^ α ⟨k, h⟩ else 1)
  rw [← Fin.prod_univ_eq_prod_range (fun k => (fun k t => if h : k < n then ((if t then (1 : ℝ) else -1) * c.xl5 * b ⟨k, h⟩) ^ α ⟨k, h⟩ else 1) k false +
    (fun k t => if h : k < n then ((if t then (1 : ℝ) else -1) * c.xl5 * b ⟨k, h⟩) ^ α ⟨k, h⟩ else 1) k true) n] at this
  have e : ∀ i : Fin n, (fun k t => if h : k < n then ((if t then (1 : ℝ) else -1) * c.xl5 * b ⟨k, h⟩) ^ α ⟨k, h⟩ else 1) (↑i) false +
      (fun k t => if h : k < n then ((if t then (1 : ℝ) else -1) * c.xl5 * b ⟨k, h⟩) ^ α ⟨k, h⟩ else 1) (↑i) true =
      (-(c.xl5 * b i)) ^ α i + (c.xl5 * b i) ^ α i := by
    intro i
    simp
  rw [Finset.prod_congr rfl fun i _ => e i] at this
  rw [← this]
  refine Finset.sum_congr rfl fun j _ => ?_
  rw [← Fin.prod_univ_eq_prod_range (fun k => (fun k t => if h : k < n then ((if t then (1 : ℝ) else -1) * c.xl5 * b ⟨k, h⟩) ^ α ⟨k, h⟩ else 1) k
    (j.testBit k)) n]
  refine Finset.prod_congr rfl fun i _ => ?_
  simp

end AmpGen.Cubature
