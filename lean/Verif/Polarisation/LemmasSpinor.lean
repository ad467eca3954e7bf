import Verif.Polarisation.LemmasVector
import Mathlib.LinearAlgebra.Matrix.Notation
/-
The bispinors of the code, from two-component spinors at rest.
-/
namespace AmpGen.Polarisation
open Complex Spec
open AmpGen.Transform (V4 M4 minkowski slash gamma)

/-- Two two-component spinors that are a basis. -/
structure Basis (χ : ℤ → Fin 2 → ℂ) : Prop where
  orth : ∀ l l', l = 1 ∨ l = -1 → l' = 1 ∨ l' = -1 → (starRingEnd ℂ) (χ l 0) * χ l' 0 + (starRingEnd ℂ) (χ l 1) * χ l' 1 = if l = l' then 1 else 0
  sum : ∀ i j, χ 1 i * (starRingEnd ℂ) (χ 1 j) + χ (-1) i * (starRingEnd ℂ) (χ (-1) j) = if i = j then 1 else 0

/-- The bispinor of a fermion, and of an antifermion. -/
noncomputable def uSpinor (m : ℝ) (p : Mom) (x : Fin 2 → ℂ) : V4 :=
  spinorNorm m p • ![x 0, x 1, (p 2 * x 0 + zedb p * x 1) / (p 3 + m), (zed p * x 0 - p 2 * x 1) / (p 3 + m)]
noncomputable def vSpinor (m : ℝ) (p : Mom) (x : Fin 2 → ℂ) : V4 :=
  spinorNorm m p • ![(p 2 * x 0 + zedb p * x 1) / (p 3 + m), (zed p * x 0 - p 2 * x 1) / (p 3 + m), x 0, x 1]

theorem zed_conj (p : Mom) : (starRingEnd ℂ) (zed p) = zedb p := by
  unfold zed zedb; simp [conj_ofReal]; ring

theorem zedb_conj (p : Mom) : (starRingEnd ℂ) (zedb p) = zed p := by
  unfold zed zedb; simp [conj_ofReal]

/-- What the numbers in a bispinor obey. -/
theorem spinor_numbers {m : ℝ} {p : Mom} (h : OnShell m p) : ∃ N k M : ℂ, spinorNorm m p = N ∧ (∀ x : ℂ, x / (p 3 + m) = x * k) ∧ (1 / (2 * m) : ℂ) = M ∧
    (starRingEnd ℂ) N = N ∧ (starRingEnd ℂ) k = k ∧ k * (p 3 + m) = 1 ∧ zed p * zedb p + p 2 * p 2 = (p 3 - m) * (p 3 + m) ∧ N * N = (p 3 + m) * M ∧ M * (2 * m) = 1 := by
  obtain ⟨hm, hE, hs⟩ := h
  have hEm : ((p 3 : ℂ) + m) ≠ 0 := by
    have : p 3 + m ≠ 0 := by linarith
    exact_mod_cast this
  have hmc : (m : ℂ) ≠ 0 := by exact_mod_cast hm.ne'
  refine ⟨_, 1 / (p 3 + m), _, rfl, fun x => by ring, rfl, conj_ofReal _, ?_, ?_, ?_, ?_, ?_⟩
  · simp [conj_ofReal]
  · field_simp
  · unfold zed zedb
    have hI : I * I = -1 := I_mul_I
    have hs' : (p 3 : ℂ) ^ 2 = m ^ 2 + p 0 ^ 2 + p 1 ^ 2 + p 2 ^ 2 := by exact_mod_cast congrArg (fun x : ℝ => (x : ℂ)) hs
    linear_combination (-(p 1 : ℂ) ^ 2) * hI - hs'
  · unfold spinorNorm
    rw [← ofReal_mul, Real.mul_self_sqrt (by positivity)]
    push_cast
    ring
  · field_simp

theorem slash_apply (p : Mom) (v : V4) : (slash (cx p)).mulVec v =
    ![p 3 * v 0 - (p 2 * v 2 + zedb p * v 3), p 3 * v 1 - (zed p * v 2 - p 2 * v 3), p 2 * v 0 + zedb p * v 1 - p 3 * v 2, zed p * v 0 - p 2 * v 1 - p 3 * v 3] := by
  unfold zed zedb
  funext i
  fin_cases i <;> simp [Matrix.mulVec, dotProduct, Fin.sum_univ_four, slash, gamma, cx] <;> ring

theorem uSpinor_basis {m : ℝ} {p : Mom} (h : OnShell m p) {χ : ℤ → Fin 2 → ℂ} (hχ : Basis χ) : SpinHalf 1 m p (fun l => uSpinor m p (χ l)) := by
  obtain ⟨N, k, M, hN, hk, hM, cN, ck, kE, zz, NN, MM⟩ := spinor_numbers h
  have cz := zed_conj p
  have czb := zedb_conj p
  refine ⟨?_, ?_, ?_⟩
  · intro l _
    rw [slash_apply]
    simp only [uSpinor, hN, hk]
    generalize zed p = z at *
    generalize zedb p = zb at *
    funext i
    fin_cases i <;> simp
    · linear_combination (-(N * χ l 0 * k)) * zz - N * χ l 0 * (p 3 - m) * kE
    · linear_combination (-(N * χ l 1 * k)) * zz - N * χ l 1 * (p 3 - m) * kE
    · linear_combination (-(N * (p 2 * χ l 0 + zb * χ l 1))) * kE
    · linear_combination (-(N * (z * χ l 0 - p 2 * χ l 1))) * kE
  · intro l l' hl hl'
    have ho := hχ.orth l l' hl hl'
    simp only [uSpinor, hN, hk, barDot]
    generalize zed p = z at *
    generalize zedb p = zb at *
    simp [cN, ck, cz, czb, conj_ofReal]
    generalize (starRingEnd ℂ) (χ l 0) = a at *
    generalize (starRingEnd ℂ) (χ l 1) = b at *
    generalize χ l' 0 = c at *
    generalize χ l' 1 = d at *
    rw [← ho]
    have key : N * N * (1 - k * k * (z * zb + p 2 * p 2)) = 1 := by
      rw [zz, NN]
      linear_combination (-(M * (p 3 - m) * (k * (p 3 + m) + 1))) * kE + MM
    linear_combination (a * c + b * d) * key
  · intro v
    have hv : ((1 * m : ℝ) : ℂ) • v = ![m * v 0, m * v 1, m * v 2, m * v 3] := by
      funext i
      fin_cases i <;> simp
    rw [slash_apply, hM, hv]
    have s00 := hχ.sum 0 0
    have s01 := hχ.sum 0 1
    have s10 := hχ.sum 1 0
    have s11 := hχ.sum 1 1
    simp only [uSpinor, hN, hk, barDot]
    generalize zed p = z at *
    generalize zedb p = zb at *
    simp only [Pi.smul_apply, smul_eq_mul, map_mul, map_add, map_sub, cN, ck, cz, czb, conj_ofReal, Matrix.cons_val]
    simp at s00 s01 s10 s11
    generalize (starRingEnd ℂ) (χ 1 0) = a at *
    generalize (starRingEnd ℂ) (χ 1 1) = b at *
    generalize (starRingEnd ℂ) (χ (-1) 0) = a' at *
    generalize (starRingEnd ℂ) (χ (-1) 1) = b' at *
    generalize χ 1 0 = c at *
    generalize χ 1 1 = d at *
    generalize χ (-1) 0 = c' at *
    generalize χ (-1) 1 = d' at *
    have nk : N * N * k = M := by rw [NN]; linear_combination M * kE
    have w0 : ∀ A B : ℂ, (c * a + c' * a') * A + (c * b + c' * b') * B = A := by intro A B; rw [s00, s01]; ring
    have w1 : ∀ A B : ℂ, (d * a + d' * a') * A + (d * b + d' * b') * B = B := by intro A B; rw [s10, s11]; ring
    have f0 := w0 (v 0 - k * (p 2 * v 2 + zb * v 3)) (v 1 - k * (z * v 2 - p 2 * v 3))
    have f1 := w1 (v 0 - k * (p 2 * v 2 + zb * v 3)) (v 1 - k * (z * v 2 - p 2 * v 3))
    funext i
    fin_cases i <;> simp
    · linear_combination N * N * f0 + v 0 * NN - (p 2 * v 2 + zb * v 3) * nk
    · linear_combination N * N * f1 + v 1 * NN - (z * v 2 - p 2 * v 3) * nk
    · linear_combination N * N * k * (p 2 * f0 + zb * f1) + (p 2 * v 0 + zb * v 1 - k * (z * zb + p 2 * p 2) * v 2) * nk - M * k * v 2 * zz - (p 3 - m) * M * v 2 * kE
    · linear_combination N * N * k * (z * f0 - p 2 * f1) + (z * v 0 - p 2 * v 1 - k * (z * zb + p 2 * p 2) * v 3) * nk - M * k * v 3 * zz - (p 3 - m) * M * v 3 * kE

theorem vSpinor_basis {m : ℝ} {p : Mom} (h : OnShell m p) {χ : ℤ → Fin 2 → ℂ} (hχ : Basis χ) : SpinHalf (-1) m p (fun l => vSpinor m p (χ l)) := by
  obtain ⟨N, k, M, hN, hk, hM, cN, ck, kE, zz, NN, MM⟩ := spinor_numbers h
  have cz := zed_conj p
  have czb := zedb_conj p
  refine ⟨?_, ?_, ?_⟩
  · intro l _
    rw [slash_apply]
    simp only [vSpinor, hN, hk]
    generalize zed p = z at *
    generalize zedb p = zb at *
    funext i
    fin_cases i <;> simp
    · linear_combination N * (p 2 * χ l 0 + zb * χ l 1) * kE
    · linear_combination N * (z * χ l 0 - p 2 * χ l 1) * kE
    · linear_combination N * χ l 0 * k * zz + N * χ l 0 * (p 3 - m) * kE
    · linear_combination N * χ l 1 * k * zz + N * χ l 1 * (p 3 - m) * kE
  · intro l l' hl hl'
    have ho := hχ.orth l l' hl hl'
    simp only [vSpinor, hN, hk, barDot]
    generalize zed p = z at *
    generalize zedb p = zb at *
    simp [cN, ck, cz, czb, conj_ofReal]
    generalize (starRingEnd ℂ) (χ l 0) = a at *
    generalize (starRingEnd ℂ) (χ l 1) = b at *
    generalize χ l' 0 = c at *
    generalize χ l' 1 = d at *
    have ho' : (if l = l' then (-1 : ℂ) else 0) = -(a * c + b * d) := by rw [ho]; split_ifs <;> simp
    rw [ho']
    have key : N * N * (1 - k * k * (z * zb + p 2 * p 2)) = 1 := by
      rw [zz, NN]
      linear_combination (-(M * (p 3 - m) * (k * (p 3 + m) + 1))) * kE + MM
    linear_combination (-(a * c + b * d)) * key
  · intro v
    have hv : ((-1 * m : ℝ) : ℂ) • v = ![-m * v 0, -m * v 1, -m * v 2, -m * v 3] := by
      funext i
      fin_cases i <;> simp
    rw [slash_apply, hM, hv]
    have s00 := hχ.sum 0 0
    have s01 := hχ.sum 0 1
    have s10 := hχ.sum 1 0
    have s11 := hχ.sum 1 1
    simp only [vSpinor, hN, hk, barDot]
    generalize zed p = z at *
    generalize zedb p = zb at *
    simp only [Pi.smul_apply, smul_eq_mul, map_mul, map_add, map_sub, cN, ck, cz, czb, conj_ofReal, Matrix.cons_val]
    simp at s00 s01 s10 s11
    generalize (starRingEnd ℂ) (χ 1 0) = a at *
    generalize (starRingEnd ℂ) (χ 1 1) = b at *
    generalize (starRingEnd ℂ) (χ (-1) 0) = a' at *
    generalize (starRingEnd ℂ) (χ (-1) 1) = b' at *
    generalize χ 1 0 = c at *
    generalize χ 1 1 = d at *
    generalize χ (-1) 0 = c' at *
    generalize χ (-1) 1 = d' at *
    have nk : N * N * k = M := by rw [NN]; linear_combination M * kE
    have w0 : ∀ A B : ℂ, (c * a + c' * a') * A + (c * b + c' * b') * B = A := by intro A B; rw [s00, s01]; ring
    have w1 : ∀ A B : ℂ, (d * a + d' * a') * A + (d * b + d' * b') * B = B := by intro A B; rw [s10, s11]; ring
    have f0 := w0 (k * (p 2 * v 0 + zb * v 1) - v 2) (k * (z * v 0 - p 2 * v 1) - v 3)
    have f1 := w1 (k * (p 2 * v 0 + zb * v 1) - v 2) (k * (z * v 0 - p 2 * v 1) - v 3)
    funext i
    fin_cases i <;> simp
    · linear_combination N * N * k * (p 2 * f0 + zb * f1) - (p 2 * v 2 + zb * v 3 - k * (z * zb + p 2 * p 2) * v 0) * nk + M * k * v 0 * zz + (p 3 - m) * M * v 0 * kE
    · linear_combination N * N * k * (z * f0 - p 2 * f1) - (z * v 2 - p 2 * v 3 - k * (z * zb + p 2 * p 2) * v 1) * nk + M * k * v 1 * zz + (p 3 - m) * M * v 1 * kE
    · linear_combination N * N * f0 - v 2 * NN + (p 2 * v 0 + zb * v 1) * nk
    · linear_combination N * N * f1 - v 3 * NN + (z * v 0 - p 2 * v 1) * nk

end AmpGen.Polarisation
