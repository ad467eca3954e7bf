import Verif.Vertex.PropsVertex
import Mathlib.LinearAlgebra.Matrix.NonsingularInverse
/-
The vertices without fermions do not depend on the frame of reference: with all momenta and states in another frame, the result is the one
in the other frame.  The vertices with the totally antisymmetric tensor change sign if the change of frame includes a reflection.
-/
namespace AmpGen.Vertex
open Spec Matrix

section
variable {K : Type} [Field K]

/-- The metric as a matrix. -/
def eta : Matrix (Fin 4) (Fin 4) K := Matrix.diagonal g

theorem eta_sq : (eta : Matrix (Fin 4) (Fin 4) K) * eta = 1 := by
  unfold eta
  rw [Matrix.diagonal_mul_diagonal]
  simp only [g_sq]
  exact Matrix.diagonal_one

theorem dot_mat (u v : V4 K) : dot u v = u ⬝ᵥ (eta *ᵥ v) := by
  unfold dot eta dotProduct
  exact Finset.sum_congr rfl fun μ _ => by rw [Matrix.mulVec_diagonal]; ring

theorem lorentz_mat {Λ : Matrix (Fin 4) (Fin 4) K} (h : Lorentz Λ) : Λᵀ * eta * Λ = eta := by
  ext i j
  have h1 := h (Pi.single i 1) (Pi.single j 1)
  rw [← dot_eq, ← dot_eq, dot_mat, dot_mat, Matrix.mulVec_mulVec, Matrix.dotProduct_mulVec, Matrix.vecMul_mulVec] at h1
  simp only [Matrix.mulVec_single_one, Matrix.single_one_vecMul, dotProduct_single_one,
    single_one_dotProduct, Matrix.col_apply, Matrix.row_apply] at h1
  rw [← h1, Matrix.mul_assoc]

theorem lorentz_dot {Λ : Matrix (Fin 4) (Fin 4) K} (h : Lorentz Λ) (u v : V4 K) : dot (Λ *ᵥ u) (Λ *ᵥ v) = dot u v := by
  rw [dot_eq, dot_eq]
  exact h u v

theorem lorentz_right {Λ : Matrix (Fin 4) (Fin 4) K} (h : Lorentz Λ) : Λ * eta * Λᵀ = eta := by
  have h1 : (eta * Λᵀ * eta) * Λ = 1 := by
    rw [Matrix.mul_assoc, Matrix.mul_assoc, ← Matrix.mul_assoc (Λᵀ), lorentz_mat h, eta_sq]
  have h2 := mul_eq_one_comm.mp h1
  calc Λ * eta * Λᵀ = (Λ * (eta * Λᵀ * eta)) * eta := by
        rw [Matrix.mul_assoc, Matrix.mul_assoc, Matrix.mul_assoc (eta * Λᵀ), eta_sq, Matrix.mul_one]
    _ = eta := by rw [h2, Matrix.one_mul]

/-- A vector is known by its products with all vectors of the other frame. -/
theorem eq_of_dot {Λ : Matrix (Fin 4) (Fin 4) K} (h : Lorentz Λ) (u v : V4 K) (e : ∀ a, dot (Λ *ᵥ a) u = dot (Λ *ᵥ a) v) : u = v := by
  have h1 : ∀ a : V4 K, a ⬝ᵥ ((Λᵀ * eta) *ᵥ u) = a ⬝ᵥ ((Λᵀ * eta) *ᵥ v) := by
    intro a
    have := e a
    rw [dot_mat, dot_mat, ← Matrix.vecMul_transpose, ← Matrix.dotProduct_mulVec, ← Matrix.dotProduct_mulVec, Matrix.mulVec_mulVec,
      Matrix.mulVec_mulVec] at this
    exact this
  have h2 : (Λᵀ * eta) *ᵥ u = (Λᵀ * eta) *ᵥ v := by
    funext i
    have := h1 (Pi.single i 1)
    rwa [single_one_dotProduct, single_one_dotProduct] at this
  have h3 : (Λ * eta) * (Λᵀ * eta) = 1 := by
    rw [← Matrix.mul_assoc, lorentz_right h, eta_sq]
  calc u = ((Λ * eta) * (Λᵀ * eta)) *ᵥ u := by rw [h3, Matrix.one_mulVec]
    _ = v := by rw [← Matrix.mulVec_mulVec, h2, Matrix.mulVec_mulVec, h3, Matrix.one_mulVec]

variable {Λ : Matrix (Fin 4) (Fin 4) K}

theorem pWave_cov (h : Lorentz Λ) (P Q : V4 K) : pWave (Λ *ᵥ P) (Λ *ᵥ Q) = Λ *ᵥ pWave P Q := by
  unfold pWave
  rw [lorentz_dot h, lorentz_dot h]
  have e : (fun μ => Q μ - P μ * (dot P Q * (1 / dot P P))) = Q - (dot P Q * (1 / dot P P)) • P := by
    funext μ
    simp only [Pi.sub_apply, Pi.smul_apply, smul_eq_mul]
    ring
  rw [e, Matrix.mulVec_sub, Matrix.mulVec_smul]
  funext μ
  simp only [Pi.sub_apply, Pi.smul_apply, smul_eq_mul]
  ring

theorem cross_cov (h : Lorentz Λ) (x y z : V4 K) : cross (Λ *ᵥ x) (Λ *ᵥ y) (Λ *ᵥ z) = Λ.det • (Λ *ᵥ cross x y z) := by
  refine eq_of_dot h _ _ fun a => ?_
  have e : dot (Λ *ᵥ a) (Λ.det • (Λ *ᵥ cross x y z)) = Λ.det * dot a (cross x y z) := by
    rw [← lorentz_dot h a]
    exact dot_smul' _ _ _
  have hm : Matrix.of ![Λ *ᵥ a, Λ *ᵥ x, Λ *ᵥ y, Λ *ᵥ z] = Matrix.of ![a, x, y, z] * Λᵀ := by
    ext i j
    rw [Matrix.mul_apply]
    fin_cases i <;> simp [Matrix.mulVec, dotProduct, mul_comm]
  rw [e, dot_cross, dot_cross, hm, Matrix.det_mul, Matrix.det_transpose]
  ring

theorem move_mat (Λ : Matrix (Fin 4) (Fin 4) K) (T : T4 K) : move Λ T = (Λ * Matrix.of T * Λᵀ : Matrix (Fin 4) (Fin 4) K) := by
  funext μ ν
  unfold move
  rw [Matrix.mul_apply]
  simp only [Matrix.mul_apply, Finset.sum_mul, Matrix.of_apply, Matrix.transpose_apply]
  rw [Finset.sum_comm]
  exact Finset.sum_congr rfl fun α _ => Finset.sum_congr rfl fun β _ => by ring

theorem move_outer (Λ : Matrix (Fin 4) (Fin 4) K) (u v : V4 K) (μ ν : Fin 4) :
    move Λ (fun α β => u α * v β) μ ν = (Λ *ᵥ u) μ * (Λ *ᵥ v) ν := by
  unfold move Matrix.mulVec dotProduct
  rw [Finset.sum_mul_sum]
  exact Finset.sum_congr rfl fun α _ => Finset.sum_congr rfl fun β _ => by ring

theorem move_sub (Λ : Matrix (Fin 4) (Fin 4) K) (A B : T4 K) (μ ν : Fin 4) :
    move Λ (fun α β => A α β - B α β) μ ν = move Λ A μ ν - move Λ B μ ν := by
  unfold move
  simp only [mul_sub, Finset.sum_sub_distrib]

theorem move_add (Λ : Matrix (Fin 4) (Fin 4) K) (A B : T4 K) (μ ν : Fin 4) :
    move Λ (fun α β => A α β + B α β) μ ν = move Λ A μ ν + move Λ B μ ν := by
  unfold move
  simp only [mul_add, Finset.sum_add_distrib]

theorem move_smul (Λ : Matrix (Fin 4) (Fin 4) K) (A : T4 K) (c : K) (μ ν : Fin 4) :
    move Λ (fun α β => c * A α β) μ ν = c * move Λ A μ ν := by
  unfold move
  simp only [Finset.mul_sum]
  exact Finset.sum_congr rfl fun α _ => Finset.sum_congr rfl fun β _ => by ring

theorem move_metric (h : Lorentz Λ) : move Λ metric = metric := by
  rw [move_mat]
  have e : Matrix.of (metric : T4 K) = eta := by
    ext i j
    unfold eta metric
    rw [Matrix.diagonal_apply, Matrix.of_apply]
  rw [e, lorentz_right h, ← e]
  rfl

theorem spin1_cov (h : Lorentz Λ) (P : V4 K) : spin1 (Λ *ᵥ P) = move Λ (spin1 P) := by
  funext μ ν
  have e : spin1 P = fun μ ν => metric μ ν - (fun μ ν => (1 / dot P P) * (fun μ ν => P μ * P ν) μ ν) μ ν := by
    funext μ ν
    unfold spin1
    ring
  rw [e, move_sub, move_smul, move_metric h, move_outer]
  unfold spin1
  rw [lorentz_dot h]
  ring

theorem dWave_cov (h : Lorentz Λ) (P Q : V4 K) : dWave (Λ *ᵥ P) (Λ *ᵥ Q) = move Λ (dWave P Q) := by
  funext μ ν
  have e : dWave P Q = fun μ ν => (fun μ ν => pWave P Q μ * pWave P Q ν) μ ν -
      (fun μ ν => dot (pWave P Q) (pWave P Q) / 3 * spin1 P μ ν) μ ν := funext fun μ => funext fun ν => dWave_eq P Q μ ν
  rw [e, move_sub, move_smul, move_outer, dWave_eq, pWave_cov h, spin1_cov h, lorentz_dot h]

/-- A tensor applied to a vector, in the other frame. -/
theorem contract_cov (h : Lorentz Λ) (T : T4 K) (v : V4 K) :
    (fun μ => ∑ ν, g ν * move Λ T μ ν * (Λ *ᵥ v) ν) = Λ *ᵥ (fun μ => ∑ ν, g ν * T μ ν * v ν) := by
  have e : ∀ (A : Matrix (Fin 4) (Fin 4) K) (w : V4 K), (fun μ => ∑ ν, g ν * A μ ν * w ν) = (A * eta) *ᵥ w := by
    intro A w
    funext μ
    unfold eta
    rw [Matrix.mulVec, dotProduct]
    exact Finset.sum_congr rfl fun ν _ => by rw [Matrix.mul_diagonal]; ring
  have e1 := e (Λ * Matrix.of T * Λᵀ) (Λ *ᵥ v)
  have e2 := e (Matrix.of T) v
  rw [move_mat, e1]
  change _ = Λ *ᵥ (fun μ => ∑ ν, g ν * (Matrix.of T) μ ν * v ν)
  rw [e2, Matrix.mulVec_mulVec, Matrix.mulVec_mulVec]
  congr 1
  rw [Matrix.mul_assoc, Matrix.mul_assoc, ← Matrix.mul_assoc Λᵀ, lorentz_mat h, Matrix.mul_assoc]

theorem dot2_vec (A B : T4 K) : dot2 A B = ∑ μ, g μ * dot (A μ) (B μ) := by
  unfold dot2 dot
  refine Finset.sum_congr rfl fun μ _ => ?_
  rw [Finset.mul_sum]
  exact Finset.sum_congr rfl fun ν _ => by ring

theorem dot2_cov (h : Lorentz Λ) (A B : T4 K) : dot2 (move Λ A) (move Λ B) = dot2 A B := by
  have e : ∀ A B : T4 K, dot2 A B = Matrix.trace (eta * Matrix.of A * eta * (Matrix.of B)ᵀ) := by
    intro A B
    unfold dot2 Matrix.trace
    refine Finset.sum_congr rfl fun μ _ => ?_
    rw [Matrix.diag_apply, Matrix.mul_apply]
    refine Finset.sum_congr rfl fun ν _ => ?_
    unfold eta
    rw [Matrix.mul_diagonal, Matrix.diagonal_mul, Matrix.transpose_apply, Matrix.of_apply, Matrix.of_apply]
    ring
  rw [e, e, move_mat, move_mat]
  change Matrix.trace (eta * (Λ * Matrix.of A * Λᵀ) * eta * (Λ * Matrix.of B * Λᵀ)ᵀ) = _
  rw [Matrix.transpose_mul, Matrix.transpose_mul, Matrix.transpose_transpose]
  have h1 : eta * (Λ * Matrix.of A * Λᵀ) * eta * (Λ * ((Matrix.of B)ᵀ * Λᵀ)) =
      (eta * Λ * Matrix.of A * (Λᵀ * eta * Λ) * (Matrix.of B)ᵀ) * Λᵀ := by
    simp only [Matrix.mul_assoc]
  rw [h1, lorentz_mat h, Matrix.trace_mul_comm]
  have h2 : Λᵀ * (eta * Λ * Matrix.of A * eta * (Matrix.of B)ᵀ) = (Λᵀ * eta * Λ) * Matrix.of A * eta * (Matrix.of B)ᵀ := by
    simp only [Matrix.mul_assoc]
  rw [h2, lorentz_mat h]

theorem smul_vec (Λ : Matrix (Fin 4) (Fin 4) K) (v : V4 K) (c : K) (μ : Fin 4) : (Λ *ᵥ fun μ => v μ * c) μ = (Λ *ᵥ v) μ * c := by
  have e : (fun μ => v μ * c) = c • v := funext fun μ => by simp only [Pi.smul_apply, smul_eq_mul]; ring
  rw [e, Matrix.mulVec_smul]
  simp only [Pi.smul_apply, smul_eq_mul]
  ring

/-- The scalar products of the decay products: the same number in every frame; the vertex with the antisymmetric tensor changes sign under a
reflection. -/
theorem scalar_vertices_frame (h : Lorentz Λ) (P Q V1 V2 : V4 K) (T1 T2 : T4 K) (s2 : K) :
    S_VV_S (Λ *ᵥ V1) (Λ *ᵥ V2) = S_VV_S V1 V2 ∧
      S_VV_S1 (Λ *ᵥ P) (Λ *ᵥ V1) (Λ *ᵥ V2) = S_VV_S1 P V1 V2 ∧
      S_VV_D (Λ *ᵥ P) (Λ *ᵥ Q) (Λ *ᵥ V1) (Λ *ᵥ V2) = S_VV_D P Q V1 V2 ∧
      S_VV_P (Λ *ᵥ P) (Λ *ᵥ Q) (Λ *ᵥ V1) (Λ *ᵥ V2) = Λ.det * S_VV_P P Q V1 V2 ∧
      S_VS_P (Λ *ᵥ P) (Λ *ᵥ Q) (Λ *ᵥ V1) s2 = S_VS_P P Q V1 s2 ∧
      S_TV_P (Λ *ᵥ P) (Λ *ᵥ Q) (move Λ T1) (Λ *ᵥ V2) = S_TV_P P Q T1 V2 ∧
      S_TS_D (Λ *ᵥ P) (Λ *ᵥ Q) (move Λ T1) s2 = S_TS_D P Q T1 s2 ∧
      S_TV_D (Λ *ᵥ P) (Λ *ᵥ Q) (move Λ T1) (Λ *ᵥ V2) = Λ.det * S_TV_D P Q T1 V2 ∧
      S_TT_S (move Λ T1) (move Λ T2) = S_TT_S T1 T2 := by
  refine ⟨lorentz_dot h V1 V2, ?_, ?_, ?_, ?_, ?_, ?_, ?_, dot2_cov h T1 T2⟩
  · have e : ∀ P V1 V2 : V4 K, S_VV_S1 P V1 V2 = dot (pWave P V1) V2 := by
      intro P V1 V2
      unfold S_VV_S1 dot
      refine Finset.sum_congr rfl fun ν _ => ?_
      rw [← spin1_apply']
      congr 2
      exact Finset.sum_congr rfl fun μ _ => by ring
    rw [e, e, pWave_cov h, lorentz_dot h]
  · have e : ∀ P Q V1 V2 : V4 K, S_VV_D P Q V1 V2 = dot V1 (fun μ => ∑ ν, g ν * dWave P Q μ ν * V2 ν) := by
      intro P Q V1 V2
      unfold S_VV_D dot
      generalize dWave P Q = D
      simp only [Fin.sum_univ_four]
      ring
    rw [e, e, dWave_cov h, contract_cov h, lorentz_dot h]
  · have e : ∀ P Q V1 V2 : V4 K, S_VV_P P Q V1 V2 = dot V1 (cross V2 (pWave P Q) P) := by
      intro P Q V1 V2
      rw [show cross V2 (pWave P Q) P = fun μ => ∑ ν, g ν * coupling (pWave P Q) P μ ν * V2 ν from
        funext fun μ => (coupling_cross _ _ _ _).symm]
      unfold S_VV_P dot
      simp only
      generalize coupling (pWave P Q) P = c
      simp only [Fin.sum_univ_four]
      ring
    have hd : dot (Λ *ᵥ V1) (Λ.det • (Λ *ᵥ cross V2 (pWave P Q) P)) = Λ.det * dot V1 (cross V2 (pWave P Q) P) := by
      rw [← lorentz_dot h V1]
      exact dot_smul' _ _ _
    rw [e, e, pWave_cov h, cross_cov h, hd]
  · have e : ∀ P Q V1 : V4 K, S_VS_P P Q V1 s2 = dot V1 (pWave P Q) * s2 := fun P Q V1 => rfl
    rw [e, e, pWave_cov h, lorentz_dot h]
  · have e : ∀ (P Q : V4 K) (T1 : T4 K) (V2 : V4 K), S_TV_P P Q T1 V2 = dot (pWave P Q) (fun μ => ∑ ν, g ν * T1 μ ν * V2 ν) := by
      intro P Q T1 V2
      unfold S_TV_P dot
      simp only
      generalize pWave P Q = L
      simp only [Fin.sum_univ_four]
      ring
    rw [e, e, pWave_cov h, contract_cov h, lorentz_dot h]
  · unfold S_TS_D
    rw [dWave_cov h, dot2_cov h]
  · have e : ∀ (P Q : V4 K) (T1 : T4 K) (V2 : V4 K),
        S_TV_D P Q T1 V2 = dot2 (fun α ν => ∑ β, g β * T1 α β * dWave P Q β ν) (coupling P V2) := fun P Q T1 V2 => rfl
    have ec : coupling (Λ *ᵥ P) (Λ *ᵥ V2) = fun μ ν => Λ.det * move Λ (coupling P V2) μ ν := by
      funext μ
      refine eq_of_dot h _ _ fun a => ?_
      have e1 : ∀ w : V4 K, dot (Λ *ᵥ a) w = ∑ ν, g ν * w ν * (Λ *ᵥ a) ν := fun w => by
        unfold dot
        exact Finset.sum_congr rfl fun ν _ => by ring
      rw [e1, e1, coupling_cross, cross_cov h]
      have e2 := congrFun (contract_cov h (coupling P V2) a) μ
      beta_reduce at e2
      have e3 : ∑ ν, g ν * (Λ.det * move Λ (coupling P V2) μ ν) * (Λ *ᵥ a) ν =
          Λ.det * ∑ ν, g ν * move Λ (coupling P V2) μ ν * (Λ *ᵥ a) ν := by
        rw [Finset.mul_sum]
        exact Finset.sum_congr rfl fun ν _ => by ring
      rw [e3, e2, show (fun μ => ∑ ν, g ν * coupling P V2 μ ν * a ν) = cross a P V2 from funext fun μ => coupling_cross _ _ _ _]
      rfl
    have e4 : ∀ A B : T4 K, dot2 A (fun μ ν => Λ.det * B μ ν) = Λ.det * dot2 A B := by
      intro A B
      unfold dot2
      simp only [Finset.mul_sum]
      exact Finset.sum_congr rfl fun μ _ => Finset.sum_congr rfl fun ν _ => by ring
    have e5 : (fun α ν => ∑ β, g β * move Λ T1 α β * move Λ (dWave P Q) β ν) = move Λ (fun α ν => ∑ β, g β * T1 α β * dWave P Q β ν) := by
      funext μ ν
      have em : ∀ S T : T4 K, (fun μ ν => ∑ β, g β * S μ β * T β ν) = (Matrix.of S * eta * Matrix.of T : Matrix (Fin 4) (Fin 4) K) := by
        intro S T
        funext μ ν
        unfold eta
        rw [Matrix.mul_apply]
        exact Finset.sum_congr rfl fun β _ => by rw [Matrix.mul_diagonal, Matrix.of_apply, Matrix.of_apply]; ring
      rw [em T1 (dWave P Q)]
      refine Eq.trans (congrFun (congrFun (em (move Λ T1) (move Λ (dWave P Q))) μ) ν) ?_
      rw [move_mat, move_mat]
      refine Eq.trans ?_ (congrFun (congrFun (move_mat Λ (Matrix.of T1 * eta * Matrix.of (dWave P Q))) μ) ν).symm
      change ((Λ * Matrix.of T1 * Λᵀ) * eta * (Λ * Matrix.of (dWave P Q) * Λᵀ) : Matrix (Fin 4) (Fin 4) K) μ ν =
        (Λ * (Matrix.of T1 * eta * Matrix.of (dWave P Q)) * Λᵀ : Matrix (Fin 4) (Fin 4) K) μ ν
      have : (Λ * Matrix.of T1 * Λᵀ) * eta * (Λ * Matrix.of (dWave P Q) * Λᵀ) =
          Λ * Matrix.of T1 * (Λᵀ * eta * Λ) * Matrix.of (dWave P Q) * Λᵀ := by
        simp only [Matrix.mul_assoc]
      rw [this, lorentz_mat h]
      simp only [Matrix.mul_assoc]
    rw [e, e, ec, e4, dWave_cov h, e5, dot2_cov h]

theorem move_symm_apply (h : Lorentz Λ) (T : T4 K) (v : V4 K) :
    (fun ν => ∑ μ, g μ * (Λ *ᵥ v) μ * move Λ T μ ν) = Λ *ᵥ (fun ν => ∑ μ, g μ * v μ * T μ ν) := by
  have e : ∀ μ ν, move Λ T μ ν = move Λ (fun μ ν => T ν μ) ν μ := by
    intro μ ν
    unfold move
    rw [Finset.sum_comm]
    exact Finset.sum_congr rfl fun α _ => Finset.sum_congr rfl fun β _ => by ring
  have := contract_cov h (fun μ ν => T ν μ) v
  rw [show (fun ν => ∑ μ, g μ * (Λ *ᵥ v) μ * move Λ T μ ν) = (fun ν => ∑ μ, g μ * move Λ (fun μ ν => T ν μ) ν μ * (Λ *ᵥ v) μ) from
    funext fun ν => Finset.sum_congr rfl fun μ _ => by rw [e μ ν]; ring, this]
  congr 1
  exact funext fun ν => Finset.sum_congr rfl fun μ _ => by ring

theorem phi2_eq (P V1 V2 : V4 K) (α β : Fin 4) : ∑ ν, g ν * (∑ μ, g μ * spin2 P μ ν α β * V1 μ) * V2 ν =
    -(1 / 3) * dot (pWave P V1) V2 * spin1 P α β + 1 / 2 * (pWave P V1 α * pWave P V2 β + pWave P V1 β * pWave P V2 α) := by
  have e : ∀ ν, ∑ μ, g μ * spin2 P μ ν α β * V1 μ =
      -(1 / 3) * pWave P V1 ν * spin1 P α β + 1 / 2 * (pWave P V1 α * spin1 P ν β + pWave P V1 β * spin1 P ν α) := by
    intro ν
    rw [← spin1_apply', ← spin1_apply', ← spin1_apply']
    unfold spin2
    simp only [Fin.sum_univ_four]
    ring
  rw [Finset.sum_congr rfl fun ν _ => by rw [e ν]]
  rw [← spin1_apply' P V2 α, ← spin1_apply' P V2 β]
  unfold dot
  simp only [Fin.sum_univ_four]
  ring

/-- Vertices of a particle of spin one: the result is a vector.  Those with the antisymmetric tensor give an axial vector. -/
theorem vector_vertices_frame (h : Lorentz Λ) (P Q V1 V2 : V4 K) (T1 : T4 K) (s1 s2 : K) :
    V_SS_P (Λ *ᵥ P) (Λ *ᵥ Q) s1 s2 = Λ *ᵥ V_SS_P P Q s1 s2 ∧
      V_VS_P (Λ *ᵥ P) (Λ *ᵥ Q) (Λ *ᵥ V1) s2 = Λ.det • (Λ *ᵥ V_VS_P P Q V1 s2) ∧
      V_VS_S (Λ *ᵥ P) (Λ *ᵥ V1) s2 = Λ *ᵥ V_VS_S P V1 s2 ∧
      V_VS_D (Λ *ᵥ P) (Λ *ᵥ Q) (Λ *ᵥ V1) s2 = Λ *ᵥ V_VS_D P Q V1 s2 ∧
      V_VV_P (Λ *ᵥ P) (Λ *ᵥ Q) (Λ *ᵥ V1) (Λ *ᵥ V2) = Λ *ᵥ V_VV_P P Q V1 V2 ∧
      V_VV_P1 (Λ *ᵥ P) (Λ *ᵥ Q) (Λ *ᵥ V1) (Λ *ᵥ V2) = (Λ.det * Λ.det) • (Λ *ᵥ V_VV_P1 P Q V1 V2) ∧
      V_VV_P2 (Λ *ᵥ P) (Λ *ᵥ Q) (Λ *ᵥ V1) (Λ *ᵥ V2) = Λ *ᵥ V_VV_P2 P Q V1 V2 ∧
      V_VV_S (Λ *ᵥ P) (Λ *ᵥ V1) (Λ *ᵥ V2) = Λ.det • (Λ *ᵥ V_VV_S P V1 V2) ∧
      V_TS_P (Λ *ᵥ P) (Λ *ᵥ Q) (move Λ T1) s2 = Λ *ᵥ V_TS_P P Q T1 s2 ∧
      V_TS_D (Λ *ᵥ P) (Λ *ᵥ Q) (move Λ T1) s2 = Λ.det • (Λ *ᵥ V_TS_D P Q T1 s2) := by
  have pw : ∀ (P v : V4 K) (c : K), pWave P (c • v) = c • pWave P v := by
    intro P v c
    funext μ
    unfold pWave
    have : dot P (c • v) = c * dot P v := dot_smul' P v c
    rw [this]
    simp only [Pi.smul_apply, smul_eq_mul]
    ring
  refine ⟨?_, ?_, ?_, ?_, ?_, ?_, ?_, ?_, ?_, ?_⟩
  · have e : ∀ P Q : V4 K, V_SS_P P Q s1 s2 = fun μ => pWave P Q μ * (s1 * s2) := fun P Q => funext fun μ => by unfold V_SS_P; ring
    rw [e, e, pWave_cov h]
    exact funext fun μ => (smul_vec Λ _ _ μ).symm
  · funext μ
    rw [V_VS_P_eq, pWave_cov h, cross_cov h, show V_VS_P P Q V1 s2 = _ from funext fun μ => V_VS_P_eq P Q V1 s2 μ]
    simp only [Pi.smul_apply, smul_eq_mul]
    rw [smul_vec]
    ring
  · funext μ
    rw [V_VS_S_eq, pWave_cov h, show V_VS_S P V1 s2 = _ from funext fun μ => V_VS_S_eq P V1 s2 μ, smul_vec]
  · funext μ
    rw [V_VS_D_eq, dWave_cov h, contract_cov h, pWave_cov h, show V_VS_D P Q V1 s2 = _ from funext fun μ => V_VS_D_eq P Q V1 s2 μ, smul_vec]
  · funext μ
    unfold V_VV_P
    rw [pWave_cov h, lorentz_dot h, smul_vec]
  · have e : ∀ P Q V1 V2 : V4 K, V_VV_P1 P Q V1 V2 = (-1 : K) • cross P (pWave P Q) (pWave P (cross P V1 V2)) := by
      intro P Q V1 V2
      funext μ
      rw [V_VV_P1_eq]
      simp
    have hc : ∀ (x y z : V4 K) (c : K), cross x y (c • z) = c • cross x y z := by
      intro x y z c
      funext μ
      fin_cases μ
      · change cross x y (c • z) 0 = c * cross x y z 0
        rw [cross_0, cross_0]; simp only [Pi.smul_apply, smul_eq_mul]; ring
      · change cross x y (c • z) 1 = c * cross x y z 1
        rw [cross_1, cross_1]; simp only [Pi.smul_apply, smul_eq_mul]; ring
      · change cross x y (c • z) 2 = c * cross x y z 2
        rw [cross_2, cross_2]; simp only [Pi.smul_apply, smul_eq_mul]; ring
      · change cross x y (c • z) 3 = c * cross x y z 3
        rw [cross_3, cross_3]; simp only [Pi.smul_apply, smul_eq_mul]; ring
    rw [e, e, pWave_cov h, cross_cov h, pw, pWave_cov h, hc, cross_cov h, Matrix.mulVec_smul, smul_smul, smul_smul, smul_smul]
    congr 1
    ring
  · have hphi : ∀ P V1 V2 : V4 K, (fun α β => ∑ ν, g ν * (∑ μ, g μ * spin2 P μ ν α β * V1 μ) * V2 ν) =
        fun α β => (fun α β => (-(1 / 3) * dot (pWave P V1) V2) * spin1 P α β) α β + (fun α β => 1 / 2 * (fun α β =>
          (fun α β => pWave P V1 α * pWave P V2 β) α β + (fun α β => pWave P V2 α * pWave P V1 β) α β) α β) α β := by
      intro P V1 V2
      funext α β
      rw [phi2_eq]
      ring
    have hmv : (fun α β => ∑ ν, g ν * (∑ μ, g μ * spin2 (Λ *ᵥ P) μ ν α β * (Λ *ᵥ V1) μ) * (Λ *ᵥ V2) ν) =
        move Λ (fun α β => ∑ ν, g ν * (∑ μ, g μ * spin2 P μ ν α β * V1 μ) * V2 ν) := by
      rw [hphi, hphi]
      funext α β
      rw [move_add, move_smul, move_smul, move_add, move_outer, move_outer, pWave_cov h, pWave_cov h, spin1_cov h, lorentz_dot h]
    have e : ∀ P Q V1 V2 : V4 K, V_VV_P2 P Q V1 V2 = fun ν => ∑ μ, g μ * pWave P Q μ *
      (fun α β => ∑ ν, g ν * (∑ μ, g μ * spin2 P μ ν α β * V1 μ) * V2 ν) μ ν := fun P Q V1 V2 => rfl
    rw [e, e, hmv, pWave_cov h, move_symm_apply h]
  · rw [V_VV_S_eq, V_VV_S_eq, cross_cov h, pw, pWave_cov h]
  · have e : ∀ (P Q : V4 K) (T1 : T4 K), V_TS_P P Q T1 s2 = fun μ => pWave P (fun ν => ∑ α, g α * T1 ν α * pWave P Q α) μ * s2 := by
      intro P Q T1
      funext μ
      rw [V_TS_P_eq]
      congr 2
      exact funext fun ν => Finset.sum_congr rfl fun α _ => by ring
    rw [e, e, pWave_cov h, contract_cov h, pWave_cov h]
    exact funext fun μ => (smul_vec Λ _ _ μ).symm
  · have e : ∀ (P Q : V4 K) (T1 : T4 K), V_TS_D P Q T1 s2 = cross P Q (fun ν => ∑ α, g α * T1 ν α * ((-1 : K) • pWave P Q) α) :=
      fun P Q T1 => funext fun μ => V_TS_D_eq P Q T1 s2 μ
    rw [e, e, pWave_cov h, ← Matrix.mulVec_smul, contract_cov h, cross_cov h]

/-- Vertices of a particle of spin two: the result is a tensor. -/
theorem tensor_vertices_frame (h : Lorentz Λ) (P Q V1 : V4 K) (T1 : T4 K) (s1 s2 : K) :
    T_VS_D (Λ *ᵥ P) (Λ *ᵥ Q) (Λ *ᵥ V1) s2 = (fun μ ν => Λ.det * move Λ (T_VS_D P Q V1 s2) μ ν) ∧
      T_TS_S (Λ *ᵥ P) (move Λ T1) s2 = move Λ (T_TS_S P T1 s2) ∧
      T_VS_P (Λ *ᵥ P) (Λ *ᵥ Q) (Λ *ᵥ V1) s2 = move Λ (T_VS_P P Q V1 s2) ∧
      T_SS_D (Λ *ᵥ P) (Λ *ᵥ Q) s1 s2 = move Λ (T_SS_D P Q s1 s2) := by
  refine ⟨?_, ?_, ?_, ?_⟩
  · have e : ∀ P Q V1 : V4 K, T_VS_D P Q V1 s2 = fun μ ν => (-(1 / 2) * s2) * (fun μ ν => (fun μ ν => cross P Q V1 μ * pWave P Q ν) μ ν +
        (fun μ ν => pWave P Q μ * cross P Q V1 ν) μ ν) μ ν := by
      intro P Q V1
      funext μ ν
      unfold T_VS_D
      simp only [nest_cross]
      ring
    rw [e, e]
    funext μ ν
    rw [move_smul, move_add, move_outer, move_outer, cross_cov h, pWave_cov h]
    simp only [Pi.smul_apply, smul_eq_mul]
    ring
  · have e : ∀ (P : V4 K) (T1 : T4 K), T_TS_S P T1 s2 = fun μ ν => s2 * (fun μ ν => (fun μ ν =>
        ∑ β, g β * (∑ α, g α * spin1 P μ α * T1 α β) * spin1 P β ν) μ ν - (fun μ ν => (dot2 T1 (spin1 P) / 3) * spin1 P μ ν) μ ν) μ ν := by
      intro P T1
      funext μ ν
      unfold T_TS_S
      ring
    have em : ∀ S T : T4 K, (fun μ ν => ∑ β, g β * (∑ α, g α * S μ α * T α β) * S β ν) =
        (Matrix.of S * eta * Matrix.of T * eta * Matrix.of S : Matrix (Fin 4) (Fin 4) K) := by
      intro S T
      funext μ ν
      unfold eta
      rw [Matrix.mul_apply]
      refine Finset.sum_congr rfl fun β _ => ?_
      rw [Matrix.mul_diagonal, Matrix.mul_apply, Matrix.of_apply]
      have : ∀ α, (Matrix.of S * Matrix.diagonal g : Matrix (Fin 4) (Fin 4) K) μ α * (Matrix.of T) α β = g α * S μ α * T α β := fun α => by
        rw [Matrix.mul_diagonal, Matrix.of_apply, Matrix.of_apply]; ring
      rw [Finset.sum_congr rfl fun α _ => this α]
      ring
    rw [e, e]
    funext μ ν
    rw [move_smul, move_sub, move_smul, spin1_cov h, dot2_cov h]
    beta_reduce
    congr 2
    have e1 := em (move Λ (spin1 P)) (move Λ T1)
    have e2 := em (spin1 P) T1
    rw [e2, congrFun (congrFun e1 μ) ν, move_mat, move_mat]
    refine Eq.trans ?_ (congrFun (congrFun (move_mat Λ (Matrix.of (spin1 P) * eta * Matrix.of T1 * eta * Matrix.of (spin1 P))) μ) ν).symm
    change ((Λ * Matrix.of (spin1 P) * Λᵀ) * eta * (Λ * Matrix.of T1 * Λᵀ) * eta * (Λ * Matrix.of (spin1 P) * Λᵀ) :
        Matrix (Fin 4) (Fin 4) K) μ ν =
      (Λ * (Matrix.of (spin1 P) * eta * Matrix.of T1 * eta * Matrix.of (spin1 P)) * Λᵀ : Matrix (Fin 4) (Fin 4) K) μ ν
    have : (Λ * Matrix.of (spin1 P) * Λᵀ) * eta * (Λ * Matrix.of T1 * Λᵀ) * eta * (Λ * Matrix.of (spin1 P) * Λᵀ) =
      Λ * Matrix.of (spin1 P) * (Λᵀ * eta * Λ) * Matrix.of T1 * (Λᵀ * eta * Λ) * Matrix.of (spin1 P) * Λᵀ := by
      simp only [Matrix.mul_assoc]
    rw [this, lorentz_mat h]
    simp only [Matrix.mul_assoc]
  · have e : ∀ P Q V1 : V4 K, T_VS_P P Q V1 s2 = fun μ ν => (fun μ ν => (s2 / 2) * (fun μ ν => (fun μ ν => pWave P Q μ * pWave P V1 ν) μ ν +
        (fun μ ν => pWave P V1 μ * pWave P Q ν) μ ν) μ ν) μ ν - (fun μ ν => (s2 * dot (pWave P Q) V1 / 3) * spin1 P μ ν) μ ν := by
      intro P Q V1
      funext μ ν
      unfold T_VS_P
      simp only [spin1_apply]
      ring
    rw [e, e]
    funext μ ν
    rw [move_sub, move_smul, move_smul, move_add, move_outer, move_outer, pWave_cov h, pWave_cov h, spin1_cov h, lorentz_dot h]
  · have e : ∀ P Q : V4 K, T_SS_D P Q s1 s2 = fun μ ν => (s1 * s2) * dWave P Q μ ν := by
      intro P Q
      funext μ ν
      unfold T_SS_D
      ring
    rw [e, e]
    funext μ ν
    rw [move_smul, dWave_cov h]

/-- The spin factor of a three-body decay changes like an axial vector. -/
theorem three_body_frame (h : Lorentz Λ) (p1 p2 p3 : V4 K) :
    nBody (Λ *ᵥ p1) (Λ *ᵥ p2) (Λ *ᵥ p3) = Λ.det • (Λ *ᵥ nBody p1 p2 p3) := by
  have e : ∀ p1 p2 p3 : V4 K, nBody p1 p2 p3 = cross p1 p2 p3 := fun p1 p2 p3 => funext fun μ => nest_cross p1 p2 p3 μ
  rw [e, e, cross_cov h]

/-- A boost along the first axis and a rotation by a right angle meet the hypothesis. -/
example : Lorentz (!![5/4, 0, 0, 3/4; 0, 1, 0, 0; 0, 0, 1, 0; 3/4, 0, 0, 5/4] : Matrix (Fin 4) (Fin 4) ℚ) := by
  intro u v
  simp [minkowski, Matrix.mulVec, dotProduct, Fin.sum_univ_four]
  ring

example : Lorentz (!![0, -1, 0, 0; 1, 0, 0, 0; 0, 0, 1, 0; 0, 0, 0, 1] : Matrix (Fin 4) (Fin 4) ℚ) := by
  intro u v
  simp [minkowski, Matrix.mulVec, dotProduct, Fin.sum_univ_four]
  ring

end
end AmpGen.Vertex
