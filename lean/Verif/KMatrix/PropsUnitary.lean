import Verif.KMatrix.Props
import Mathlib.Analysis.Matrix.Hermitian
import Mathlib.Tactic.NoncommRing
/-
Theorems about K-matrices.  The words are those of `Spec.lean`.
-/
namespace AmpGen.KMatrix
open Spec Complex

theorem matrix_propagator (n : Nat) (k : Data ℂ) (ρ : Nat → ℂ) :
    matrix n (propagatorMatrix I k ρ) = 1 - I • (matrix n k * Matrix.diagonal fun i : Fin n => ρ i) := by
  ext i j
  simp only [matrix, propagatorMatrix, Matrix.of_apply, Matrix.sub_apply, Matrix.smul_apply, Matrix.mul_diagonal, smul_eq_mul,
    Matrix.one_apply, Fin.ext_iff, mul_assoc]

theorem matrix_hermitian (n : Nat) (k : Data ℂ) (hk : RealSymmetric k) : (matrix n k).IsHermitian := by
  ext i j
  simp only [Matrix.conjTranspose_apply, matrix, Matrix.of_apply]
  rw [hk.2 j i]
  exact conj_eq_iff_im.2 (hk.1 i j)

theorem matrix_symm (n : Nat) (k : Data ℂ) (hk : RealSymmetric k) : (matrix n k).transpose = matrix n k := by
  ext i j
  simp only [Matrix.transpose_apply, matrix, Matrix.of_apply]
  exact hk.2 j i

/-- With a real symmetric K-matrix and real phase space the matrix to invert is regular, and so are its blocks. -/
theorem propagator_minors (n : Nat) (k : Data ℂ) (ρ : Nat → ℝ) (hk : RealSymmetric k) (hρ : ∀ i, 0 ≤ ρ i) :
    LeadingMinors n (propagatorMatrix I k fun i => (ρ i : ℂ)) := by
  intro m _ hdet
  rw [← Matrix.exists_mulVec_eq_zero_iff] at hdet
  obtain ⟨v, hv, h0⟩ := hdet
  rw [matrix_propagator, Matrix.sub_mulVec, Matrix.one_mulVec, Matrix.smul_mulVec, ← Matrix.mulVec_mulVec, sub_eq_zero] at h0
  obtain ⟨w, hw⟩ : ∃ w, (Matrix.diagonal fun i : Fin m => (ρ i : ℂ)).mulVec v = w := ⟨_, rfl⟩
  rw [hw] at h0
  have hwi : ∀ i, w i = (ρ i : ℂ) * v i := fun i => by rw [← hw, Matrix.mulVec_diagonal]
  have hb := (matrix_hermitian m k hk).im_star_dotProduct_mulVec_self w
  have e1 : star w ⬝ᵥ v = ((∑ i : Fin m, ρ i * normSq (v i) : ℝ) : ℂ) := by
    simp only [dotProduct, Pi.star_apply, hwi]
    push_cast
    apply Finset.sum_congr rfl
    intro i _
    rw [star_mul', show star ((ρ i : ℂ)) = (ρ i : ℂ) from conj_ofReal _, normSq_eq_conj_mul_self, mul_assoc]
    rfl
  have e2 : star w ⬝ᵥ v = I * (star w ⬝ᵥ (matrix m k).mulVec w) := by
    conv_lhs => rw [h0]
    rw [dotProduct_smul, smul_eq_mul]
  have e3 : (∑ i : Fin m, ρ i * normSq (v i) : ℝ) = 0 := by
    have := congrArg re (e1.symm.trans e2)
    rw [ofReal_re, I_mul_re] at this
    rw [this, neg_eq_zero]
    exact hb
  have e4 : ∀ i : Fin m, ρ i * normSq (v i) = 0 := by
    intro i
    exact (Finset.sum_eq_zero_iff_of_nonneg (s := Finset.univ) (f := fun i : Fin m => ρ i * normSq (v i))
      (fun i _ => mul_nonneg (hρ i) (normSq_nonneg _))).1 e3 i (Finset.mem_univ i)
  have e5 : w = 0 := by
    funext i
    rw [hwi]
    rcases mul_eq_zero.1 (e4 i) with h | h
    · simp [h]
    · simp [normSq_eq_zero.1 h]
  rw [e5, Matrix.mulVec_zero, smul_zero] at h0
  exact hv h0

/-- The amplitude of the modifier `scatt` is an element of the product of propagator and K-matrix. -/
theorem scatt_eq (n : Nat) (k f : Data ℂ) (i j : Fin n) : scatt n k f i j = (matrix n f * matrix n k) j i := by
  unfold scatt
  rw [loop_sum, ← sum_window n 0 n (fun x => k (x, i) * f (j, x)) le_rfl (fun x h1 h2 => absurd ⟨Nat.zero_le _, h1⟩ h2), Matrix.mul_apply]
  apply Finset.sum_congr rfl
  intro x _
  simp only [matrix, Matrix.of_apply]
  ring

/-- Whenever the code inverts the matrix at all, with open and closed channels: the scattering amplitude is symmetric and unitary. -/
theorem kmatrix_unitary_general (quot : ℂ → ℂ → ℂ) (hq : IsDivision quot) (n : Nat) (k : Data ℂ) (ρ : Nat → ℂ) (hk : RealSymmetric k)
    (hm : LeadingMinors n (propagatorMatrix I k ρ)) :
    Unitary n ρ (scatt n k (getPropagator quot I n k ρ)) := by
  obtain ⟨h1, h2⟩ := invert_partial quot hq n (propagatorMatrix I k ρ) hm
  change matrix n (propagatorMatrix I k ρ) * matrix n (getPropagator quot I n k ρ) = 1 at h1
  change matrix n (getPropagator quot I n k ρ) * matrix n (propagatorMatrix I k ρ) = 1 at h2
  obtain ⟨f, hf⟩ : ∃ f, getPropagator quot I n k ρ = f := ⟨_, rfl⟩
  rw [hf] at h1 h2 ⊢
  have hS := fun i j => scatt_eq n k f i j
  have hsym := matrix_symm n k hk
  have hher := matrix_hermitian n k hk
  obtain ⟨F, hF⟩ : ∃ F, matrix n f = F := ⟨_, rfl⟩
  obtain ⟨A, hA⟩ : ∃ A, matrix n k = A := ⟨_, rfl⟩
  obtain ⟨R, hR⟩ : ∃ R, (Matrix.diagonal fun i : Fin n => ρ i) = R := ⟨_, rfl⟩
  rw [matrix_propagator, hA, hR, hF] at h1 h2
  simp only [hF, hA] at hS
  rw [hA] at hsym hher
  have hRt : R.transpose = R := by rw [← hR, Matrix.diagonal_transpose]
  obtain ⟨P, hP⟩ : ∃ P, 1 - I • (A * R) = P := ⟨_, rfl⟩
  rw [hP] at h1 h2
  -- symmetry
  have hPt : P.transpose = 1 - I • (R * A) := by
    rw [← hP, Matrix.transpose_sub, Matrix.transpose_one, Matrix.transpose_smul, Matrix.transpose_mul, hsym, hRt]
  have hPA : P * A = A * P.transpose := by
    rw [hPt, ← hP, Matrix.sub_mul, Matrix.mul_sub, Matrix.one_mul, Matrix.mul_one, Matrix.smul_mul, Matrix.mul_smul, Matrix.mul_assoc]
  have h2t : P.transpose * F.transpose = 1 := by rw [← Matrix.transpose_mul, h2, Matrix.transpose_one]
  have hT : (F * A).transpose = F * A := by
    rw [Matrix.transpose_mul, hsym]
    calc A * F.transpose = (F * P) * A * F.transpose := by rw [h2, Matrix.one_mul]
      _ = F * (P * A) * F.transpose := by rw [Matrix.mul_assoc F P A]
      _ = F * A * (P.transpose * F.transpose) := by rw [hPA]; simp only [Matrix.mul_assoc]
      _ = F * A := by rw [h2t, Matrix.mul_one]
  -- unitarity
  obtain ⟨Rc, hRc⟩ : ∃ Rc, R.conjTranspose = Rc := ⟨_, rfl⟩
  have hAc : A.conjTranspose = A := hher
  have hPc : P.conjTranspose = 1 + I • (Rc * A) := by
    rw [← hP, Matrix.conjTranspose_sub, Matrix.conjTranspose_one, Matrix.conjTranspose_smul, Matrix.conjTranspose_mul, hAc, hRc]
    rw [show star I = -I from conj_I, neg_smul, sub_neg_eq_add]
  have h2c : P.conjTranspose * F.conjTranspose = 1 := by rw [← Matrix.conjTranspose_mul, h2, Matrix.conjTranspose_one]
  have hmid : A * P.conjTranspose - P * A = I • (A * (R + Rc) * A) := by
    rw [hPc, ← hP, Matrix.mul_add, Matrix.sub_mul, Matrix.mul_one, Matrix.one_mul, Matrix.mul_smul, Matrix.smul_mul,
      Matrix.mul_add, Matrix.add_mul, smul_add, Matrix.mul_assoc A Rc A]
    abel
  have hU : F * A - (F * A).conjTranspose = I • (F * A * (R + Rc) * (F * A).conjTranspose) := by
    rw [Matrix.conjTranspose_mul, hAc]
    calc F * A - A * F.conjTranspose
        = F * (A * P.conjTranspose) * F.conjTranspose - F * (P * A) * F.conjTranspose := by
          rw [← Matrix.mul_assoc F P A, h2, Matrix.one_mul, ← Matrix.mul_assoc F A, Matrix.mul_assoc (F * A), h2c, Matrix.mul_one]
      _ = F * (A * P.conjTranspose - P * A) * F.conjTranspose := by rw [Matrix.mul_sub, Matrix.sub_mul]
      _ = _ := by
          rw [hmid, Matrix.mul_smul, Matrix.smul_mul]
          simp only [Matrix.mul_assoc]
  have hTs : ∀ i j : Fin n, (F * A) i j = (F * A) j i := fun i j => by
    conv_lhs => rw [← hT]
    rfl
  have hSij : ∀ i j : Fin n, scatt n k f i j = (F * A) i j := fun i j => by rw [hS i j, hTs]
  have hRR : R + Rc = Matrix.diagonal fun i : Fin n => ((2 * (ρ i).re : ℝ) : ℂ) := by
    rw [← hRc, ← hR, Matrix.diagonal_conjTranspose, Matrix.diagonal_add]
    congr 1
    funext i
    exact add_conj (ρ i)
  refine ⟨fun i j hi hj => ?_, fun i j hi hj => ?_⟩
  · have := hTs ⟨i, hi⟩ ⟨j, hj⟩
    rw [← hSij, ← hSij] at this
    exact this
  · have h := congrFun (congrFun hU ⟨i, hi⟩) ⟨j, hj⟩
    rw [hRR, Matrix.sub_apply, Matrix.conjTranspose_apply, Matrix.smul_apply,
      Matrix.mul_apply (M := F * A * Matrix.diagonal fun i : Fin n => ((2 * (ρ i).re : ℝ) : ℂ))] at h
    rw [show (fun k' : Fin n => ((F * A) * Matrix.diagonal fun i : Fin n => ((2 * (ρ i).re : ℝ) : ℂ)) ⟨i, hi⟩ k' * (F * A).conjTranspose k' ⟨j, hj⟩) =
      fun k' : Fin n => (2 : ℂ) * (((ρ k').re : ℂ) * (scatt n k f i k' * (starRingEnd ℂ) (scatt n k f j k'))) from ?_] at h
    · rw [← hSij, ← hSij] at h
      rw [Fin.sum_univ_eq_sum_range (fun k' => (2 : ℂ) * (((ρ k').re : ℂ) * (scatt n k f i k' * (starRingEnd ℂ) (scatt n k f j k')))) n,
        ← Finset.mul_sum, smul_eq_mul, ← mul_assoc, mul_comm I 2] at h
      exact h
    · funext k'
      rw [Matrix.mul_diagonal, Matrix.conjTranspose_apply, ← hSij ⟨i, hi⟩ k', ← hSij ⟨j, hj⟩ k']
      push_cast
      change _ * _ * (starRingEnd ℂ) _ = _
      ring

/-- With real phase space nothing else is needed: no division by zero happens, and the amplitude is unitary. -/
theorem kmatrix_unitary (quot : ℂ → ℂ → ℂ) (hq : IsDivision quot) (n : Nat) (k : Data ℂ) (ρ : Nat → ℝ) (hk : RealSymmetric k)
    (hρ : ∀ i, 0 ≤ ρ i) :
    Unitary n (fun i => ρ i) (scatt n k (getPropagator quot I n k fun i => (ρ i : ℂ))) :=
  kmatrix_unitary_general quot hq n k _ hk (propagator_minors n k ρ hk hρ)

/-- Coupled channels with one open and one closed, and the division of the field. -/
example : RealSymmetric (fun p => ((p.1 + p.2 + 1 : ℕ) : ℂ)) ∧ (∀ i, 0 ≤ (fun i : ℕ => if i = 0 then (1 : ℝ) else 0) i) ∧
    IsDivision (fun x y : ℂ => x / y) := by
  refine ⟨⟨fun i j => natCast_im _, fun i j => ?_⟩, fun i => ?_, fun _ _ _ => rfl⟩
  · beta_reduce
    rw [Nat.add_comm i j]
  · beta_reduce
    split <;> norm_num

/-- A channel below its threshold has imaginary phase space; the hypothesis of the general theorem is met there too. -/
example : LeadingMinors 2 (propagatorMatrix I (fun _ => (1 : ℂ)) fun i => if i = 0 then 1 else I) := by
  intro m hm
  interval_cases m
  · simp [matrix]
  · simp [matrix, propagatorMatrix, Complex.ext_iff]
  · simp [matrix, propagatorMatrix, Matrix.det_fin_two, Complex.ext_iff]

end AmpGen.KMatrix
