import Verif.Vertex.PropsFermion
import Verif.Vertex.PropsCov
import Mathlib.LinearAlgebra.Matrix.ConjTranspose
/-
The vertices with fermions do not depend on the frame of reference.
-/
namespace AmpGen.Vertex
open Spec Matrix

section
variable {Λ S inv : M4}

theorem conj_mul (h : inv * S = 1) (M N : M4) : (S * M * inv) * (S * N * inv) = S * (M * N) * inv := by
  calc (S * M * inv) * (S * N * inv) = S * M * (inv * S) * N * inv := by simp only [mul_assoc]
    _ = _ := by rw [h, mul_one]; simp only [mul_assoc]

theorem conj_vec (h : inv * S = 1) (M : M4) (ψ : V4 ℂ) : (S * M * inv) *ᵥ (S *ᵥ ψ) = S *ᵥ (M *ᵥ ψ) := by
  rw [Matrix.mulVec_mulVec, Matrix.mulVec_mulVec, mul_assoc, h, mul_one]

theorem conj_gamma5 (hS : SpinorFrame Gamma4Vec (Gamma 4) Λ S inv) : S * Gamma 4 * inv = Gamma 4 := by
  rw [hS.2.2.1, mul_assoc, hS.1, mul_one]

theorem slash_cov (hS : SpinorFrame Gamma4Vec (Gamma 4) Λ S inv) (v : V4 ℂ) : slash (Λ *ᵥ v) = S * slash v * inv := by
  rw [slash_eq, slash_eq]
  exact hS.2.2.2 v

theorem spin1h_cov (hS : SpinorFrame Gamma4Vec (Gamma 4) Λ S inv) (m : ℂ) (P : V4 ℂ) : spin1h m (Λ *ᵥ P) = S * spin1h m P * inv := by
  unfold spin1h
  rw [slash_cov hS, mul_smul_comm, smul_mul_assoc, mul_add, add_mul, mul_smul_comm, smul_mul_assoc, mul_one, hS.1]

theorem spin1hb_cov (hS : SpinorFrame Gamma4Vec (Gamma 4) Λ S inv) (m : ℂ) (P : V4 ℂ) : spin1hb m (Λ *ᵥ P) = S * spin1hb m P * inv := by
  unfold spin1hb
  rw [slash_cov hS, mul_smul_comm, smul_mul_assoc, mul_add, add_mul, mul_neg, neg_mul, mul_smul_comm, smul_mul_assoc, mul_one, hS.1]

theorem twiddle_cov (h : Lorentz Λ) (hS : SpinorFrame Gamma4Vec (Gamma 4) Λ S inv) (P : V4 ℂ) (i j : Fin 4) :
    (fun μ => gammaTwiddle (Λ *ᵥ P) μ i j) = Λ *ᵥ (fun ν => (S * gammaTwiddle P ν * inv) i j) := by
  refine eq_of_dot h _ _ fun a => ?_
  rw [lorentz_dot h]
  have e1 : ∀ (a : V4 ℂ) (M : Fin 4 → M4), dot a (fun μ => M μ i j) = (∑ μ, (g μ * a μ) • M μ) i j := by
    intro a M
    unfold dot
    rw [Matrix.sum_apply]
    exact Finset.sum_congr rfl fun μ _ => by rw [Matrix.smul_apply, smul_eq_mul]
  rw [e1, e1 a (fun ν => S * gammaTwiddle P ν * inv), twiddle_sum, pWave_cov h, slash_cov hS, ← twiddle_sum, Finset.mul_sum, Finset.sum_mul]
  refine congrFun (congrFun (Finset.sum_congr rfl fun μ _ => ?_) i) j
  rw [mul_smul_comm, smul_mul_assoc]

/-! The vertices in a form that shows how they change. -/

theorem sum_twiddle_vec (A : M4) (P v ψ : V4 ℂ) :
    (fun a => ∑ μ, g μ * ((A * gammaTwiddle P μ) *ᵥ ψ) a * v μ) = (A * slash (pWave P v)) *ᵥ ψ := by
  rw [← twiddle_sum, Finset.mul_sum, Matrix.sum_mulVec]
  funext a
  rw [Finset.sum_apply]
  refine Finset.sum_congr rfl fun μ _ => ?_
  rw [mul_smul_comm, Matrix.smul_mulVec, Pi.smul_apply, smul_eq_mul]
  ring

theorem sum_gamma_vec (A B : M4) (v ψ : V4 ℂ) :
    (fun a => ∑ μ, g μ * ((A * Gamma4Vec μ * B) *ᵥ ψ) a * v μ) = (A * slash v * B) *ᵥ ψ := by
  unfold slash
  rw [Finset.mul_sum, Finset.sum_mul, Matrix.sum_mulVec]
  funext a
  rw [Finset.sum_apply]
  refine Finset.sum_congr rfl fun μ _ => ?_
  rw [mul_smul_comm, smul_mul_assoc, Matrix.smul_mulVec, Pi.smul_apply, smul_eq_mul]
  ring

theorem scale_vec (ψ : V4 ℂ) (c : ℂ) : (fun a => ψ a * c) = c • ψ := funext fun a => by simp [mul_comm]

theorem contract_eq (P Q V1 : V4 ℂ) : (fun μ => ∑ ν, g ν * dWave P Q μ ν * V1 ν) = apply (dWave P Q) V1 := funext fun μ => (apply_eq _ _ _).symm

theorem apply_cov (h : Lorentz Λ) (T : T4 ℂ) (v : V4 ℂ) : apply (move Λ T) (Λ *ᵥ v) = Λ *ᵥ apply T v := by
  have := contract_cov h T v
  rw [show apply (move Λ T) (Λ *ᵥ v) = _ from funext fun μ => apply_eq _ _ _, this]
  congr 1
  exact funext fun μ => (apply_eq _ _ _).symm

/-- The vertices of decaying fermions and antifermions: with all momenta and states of the decay products in another frame, the result is the
spinor in the other frame.  The tensor of a decay product of spin two is symmetric.  Missing: `f_fS_SL` and `f_fS_SR`, which read
the scalar where the spinor should be. -/
theorem half_vertices_frame_partial (h : Lorentz Λ) (hdet : Λ.det = 1) (hS : SpinorFrame Gamma4Vec (Gamma 4) Λ S inv) (m : ℂ) (P Q : V4 ℂ) (F F' : M4)
    (hF : (F = spin1h m P ∧ F' = spin1h m (Λ *ᵥ P)) ∨ (F = spin1hb m P ∧ F' = spin1hb m (Λ *ᵥ P)))
    (V1 ψ : V4 ℂ) (T1 : T4 ℂ) (hT : ∀ μ ν, T1 μ ν = T1 ν μ) (R1 : Fin 4 → V4 ℂ) (s2 : ℂ) :
    f_fS_S F' (S *ᵥ ψ) s2 = S *ᵥ f_fS_S F ψ s2 ∧
      f_fS_P F' (Λ *ᵥ P) (Λ *ᵥ Q) (S *ᵥ ψ) s2 = S *ᵥ f_fS_P F P Q ψ s2 ∧
      f_fS_S1 F' (S *ᵥ ψ) s2 = S *ᵥ f_fS_S1 F ψ s2 ∧
      f_fS_P1 F' (Λ *ᵥ P) (Λ *ᵥ Q) (S *ᵥ ψ) s2 = S *ᵥ f_fS_P1 F P Q ψ s2 ∧
      f_Vf_S F' (Λ *ᵥ P) (Λ *ᵥ V1) (S *ᵥ ψ) = S *ᵥ f_Vf_S F P V1 ψ ∧
      f_Vf_P F' (Λ *ᵥ P) (Λ *ᵥ Q) (Λ *ᵥ V1) (S *ᵥ ψ) = S *ᵥ f_Vf_P F P Q V1 ψ ∧
      f_Vf_P1 F' (Λ *ᵥ P) (Λ *ᵥ Q) (Λ *ᵥ V1) (S *ᵥ ψ) = S *ᵥ f_Vf_P1 F P Q V1 ψ ∧
      f_Vf_D F' (Λ *ᵥ P) (Λ *ᵥ Q) (Λ *ᵥ V1) (S *ᵥ ψ) = S *ᵥ f_Vf_D F P Q V1 ψ ∧
      f_Vf_S1 F' (Λ *ᵥ P) (Λ *ᵥ V1) (S *ᵥ ψ) = S *ᵥ f_Vf_S1 F P V1 ψ ∧
      f_Vf_SL F' (Λ *ᵥ V1) (S *ᵥ ψ) = S *ᵥ f_Vf_SL F V1 ψ ∧
      f_Vf_SR F' (Λ *ᵥ V1) (S *ᵥ ψ) = S *ᵥ f_Vf_SR F V1 ψ ∧
      f_Tf_P F' (Λ *ᵥ P) (Λ *ᵥ Q) (move Λ T1) (S *ᵥ ψ) = S *ᵥ f_Tf_P F P Q T1 ψ ∧
      f_Vf_P2 F' (Λ *ᵥ P) (Λ *ᵥ Q) (Λ *ᵥ V1) (S *ᵥ ψ) = S *ᵥ f_Vf_P2 F P Q V1 ψ ∧
      f_Vf_P3 F' (Λ *ᵥ P) (Λ *ᵥ Q) (Λ *ᵥ V1) (S *ᵥ ψ) = S *ᵥ f_Vf_P3 F P Q V1 ψ ∧
      f_Vf_D1 F' (Λ *ᵥ P) (Λ *ᵥ Q) (Λ *ᵥ V1) (S *ᵥ ψ) = S *ᵥ f_Vf_D1 F P Q V1 ψ ∧
      f_rS_D F' (Λ *ᵥ P) (Λ *ᵥ Q) (spinMove Λ S R1) s2 = S *ᵥ f_rS_D F P Q R1 s2 ∧
      f_rS_P F' (Λ *ᵥ P) (Λ *ᵥ Q) (spinMove Λ S R1) s2 = S *ᵥ f_rS_P F P Q R1 s2 ∧
      f_rS_P1 F' (Λ *ᵥ P) (Λ *ᵥ Q) (spinMove Λ S R1) s2 = S *ᵥ f_rS_P1 F P Q R1 s2 := by
  have hi := hS.2.1
  have hFc : F' = S * F * inv := by
    rcases hF with ⟨rfl, rfl⟩ | ⟨rfl, rfl⟩
    · exact spin1h_cov hS m P
    · exact spin1hb_cov hS m P
  have h5 : Gamma 4 = S * Gamma 4 * inv := (conj_gamma5 hS).symm
  have hF5 : F' * Gamma 4 = S * (F * Gamma 4) * inv := by
    rw [hFc]
    conv_lhs => rw [h5]
    rw [conj_mul hi]
  have cv : ∀ (A A' : M4) (v : V4 ℂ), A' = S * A * inv → (A' * slash (Λ *ᵥ v)) *ᵥ (S *ᵥ ψ) = S *ᵥ ((A * slash v) *ᵥ ψ) := by
    intro A A' v hA
    rw [hA, slash_cov hS, conj_mul hi, conj_vec hi]
  have hcr : ∀ x y z : V4 ℂ, cross (Λ *ᵥ x) (Λ *ᵥ y) (Λ *ᵥ z) = Λ *ᵥ cross x y z := by
    intro x y z
    rw [cross_cov h, hdet, one_smul]
  have eD1 : ∀ (F : M4) (P Q V1 ψ : V4 ℂ), f_Vf_D1 F P Q V1 ψ = (F * slash (pWave P (apply (dWave P Q) V1))) *ᵥ ψ := by
    intro F P Q V1 ψ
    rw [← sum_twiddle_vec, ← contract_eq]
    funext a
    unfold f_Vf_D1
    simp only [Matrix.mulVec, dotProduct]
    generalize (fun μ => ∑ ν, g ν * dWave P Q μ ν * V1 ν) = w
    simp only [Fin.sum_univ_four]
    ring
  have rs : ∀ (A A' : M4), A' = S * A * inv →
      (fun a => (∑ μ, g μ * (A' *ᵥ spinMove Λ S R1 μ) a * pWave (Λ *ᵥ P) (Λ *ᵥ Q) μ) * s2) =
        S *ᵥ (fun a => (∑ μ, g μ * (A *ᵥ R1 μ) a * pWave P Q μ) * s2) := by
    intro A A' hA
    have e1 : ∀ μ, A' *ᵥ spinMove Λ S R1 μ = ∑ ν, Λ μ ν • (S *ᵥ (A *ᵥ R1 ν)) := by
      intro μ
      unfold spinMove
      rw [Matrix.mulVec_sum]
      exact Finset.sum_congr rfl fun ν _ => by rw [Matrix.mulVec_smul, hA, conj_vec hi]
    have e2 : (fun a => (∑ μ, g μ * (A *ᵥ R1 μ) a * pWave P Q μ) * s2) = s2 • ∑ μ, (g μ * pWave P Q μ) • (A *ᵥ R1 μ) := by
      funext a
      simp only [Pi.smul_apply, Finset.sum_apply, smul_eq_mul]
      rw [mul_comm]
      congr 1
      exact Finset.sum_congr rfl fun μ _ => by ring
    rw [e2, Matrix.mulVec_smul, Matrix.mulVec_sum, pWave_cov h]
    funext a
    have e3 : ∑ μ, g μ * (A' *ᵥ spinMove Λ S R1 μ) a * (Λ *ᵥ pWave P Q) μ =
        dot (Λ *ᵥ fun ν => (S *ᵥ (A *ᵥ R1 ν)) a) (Λ *ᵥ pWave P Q) := by
      unfold dot
      refine Finset.sum_congr rfl fun μ _ => ?_
      rw [e1 μ]
      congr 2
    rw [e3, lorentz_dot h]
    simp only [Pi.smul_apply, Finset.sum_apply, Matrix.mulVec_smul, smul_eq_mul]
    unfold dot
    rw [mul_comm]
    congr 1
    exact Finset.sum_congr rfl fun μ _ => by ring
  refine ⟨?_, ?_, ?_, ?_, ?_, ?_, ?_, ?_, ?_, ?_, ?_, ?_, ?_, ?_, ?_, ?_, ?_, ?_⟩
  · unfold f_fS_S
    rw [scale_vec, scale_vec, hFc, conj_vec hi, Matrix.mulVec_smul]
  · unfold f_fS_P
    rw [pWave_cov h, cv _ _ _ hF5]
  · unfold f_fS_S1
    rw [scale_vec, scale_vec, hF5, conj_vec hi, Matrix.mulVec_smul]
  · unfold f_fS_P1
    rw [scale_vec, scale_vec, pWave_cov h, cv _ _ _ hFc, Matrix.mulVec_smul]
  · unfold f_Vf_S
    rw [sum_twiddle_vec, sum_twiddle_vec, pWave_cov h, cv _ _ _ hF5]
  · unfold f_Vf_P
    rw [scale_vec, scale_vec, pWave_cov h, lorentz_dot h, hFc, conj_vec hi, Matrix.mulVec_smul]
  · unfold f_Vf_P1
    simp only [nest_cross]
    rw [sum_twiddle_vec, sum_twiddle_vec, pWave_cov h, hcr, pWave_cov h, cv _ _ _ hF5]
  · unfold f_Vf_D
    simp only
    rw [sum_twiddle_vec, sum_twiddle_vec, contract_eq, contract_eq, dWave_cov h, apply_cov h, pWave_cov h, cv _ _ _ hF5]
  · unfold f_Vf_S1
    simp only
    rw [twiddle_sum, twiddle_sum, pWave_cov h, cv _ _ _ hFc]
  · unfold f_Vf_SL
    rw [sum_gamma_vec, sum_gamma_vec]
    have e : (1 : M4) - Gamma 4 = S * (1 - Gamma 4) * inv := by
      rw [mul_sub, sub_mul, ← h5, mul_one, hS.1]
    conv_lhs => rw [e]
    rw [hFc, slash_cov hS, conj_mul hi, conj_mul hi, conj_vec hi]
  · unfold f_Vf_SR
    rw [sum_gamma_vec, sum_gamma_vec]
    have e : (1 : M4) + Gamma 4 = S * (1 + Gamma 4) * inv := by
      rw [mul_add, add_mul, ← h5, mul_one, hS.1]
    conv_lhs => rw [e]
    rw [hFc, slash_cov hS, conj_mul hi, conj_mul hi, conj_vec hi]
  · have his : ∀ T : T4 ℂ, (∀ μ ν, T μ ν = T ν μ) → imposeSymmetry T = T := by
      intro T hT
      funext μ ν
      unfold imposeSymmetry
      split
      · exact hT ν μ
      · rfl
    have hmv : ∀ μ ν, move Λ T1 μ ν = move Λ T1 ν μ := by
      intro μ ν
      unfold move
      rw [Finset.sum_comm]
      exact Finset.sum_congr rfl fun α _ => Finset.sum_congr rfl fun β _ => by rw [hT α β]; ring
    have e : ∀ (F : M4) (P Q : V4 ℂ) (T : T4 ℂ) (ψ : V4 ℂ), (∀ μ ν, T μ ν = T ν μ) →
        f_Tf_P F P Q T ψ = (F * slash (pWave P (apply T (pWave P Q)))) *ᵥ ψ := by
      intro F P Q T ψ hT
      rw [← sum_twiddle_vec, show apply T (pWave P Q) = _ from funext fun μ => apply_eq T _ μ]
      funext a
      unfold f_Tf_P
      simp only [his T hT]
      generalize (fun μ => ((F * gammaTwiddle P μ) *ᵥ ψ) a) = w
      generalize pWave P Q = L
      simp only [Fin.sum_univ_four]
      ring
    rw [e _ _ _ _ _ hmv, e _ _ _ _ _ hT, pWave_cov h, apply_cov h, pWave_cov h, cv _ _ _ hFc]
  · unfold f_Vf_P2
    rw [scale_vec, scale_vec, pWave_cov h, lorentz_dot h, hF5, conj_vec hi, Matrix.mulVec_smul]
  · unfold f_Vf_P3
    simp only [nest_cross]
    rw [sum_twiddle_vec, sum_twiddle_vec, pWave_cov h, hcr, pWave_cov h, cv _ _ _ hFc]
  · rw [eD1, eD1, dWave_cov h, apply_cov h, pWave_cov h, cv _ _ _ hFc]
  · have e : ∀ (F : M4) (P Q : V4 ℂ) (R : Fin 4 → V4 ℂ), f_rS_D F P Q R s2 =
        s2 • ((F * Gamma 4) *ᵥ ((slash (pWave P (pWave P Q)) *ᵥ ∑ α, (g α * pWave P Q α) • R α) -
          (dot (pWave P Q) (pWave P Q) / 3) • ∑ α, (g α : ℂ) • (slash (pWave P (fun μ => spin1 P μ α)) *ᵥ R α))) := by
      intro F P Q R
      have e1 : f_rS_D F P Q R s2 = s2 • ∑ α, (g α : ℂ) • (fun a => ∑ μ, g μ * ((F * Gamma 4 * gammaTwiddle P μ) *ᵥ R α) a * dWave P Q μ α) := by
        funext a
        unfold f_rS_D
        rw [Finset.sum_comm]
        simp only [Pi.smul_apply, Finset.sum_apply, smul_eq_mul]
        rw [mul_comm]
        congr 1
        refine Finset.sum_congr rfl fun α _ => ?_
        rw [Finset.mul_sum]
        exact Finset.sum_congr rfl fun μ _ => by ring
      have e2 : ∀ α, pWave P (fun μ => dWave P Q μ α) =
          pWave P Q α • pWave P (pWave P Q) - (dot (pWave P Q) (pWave P Q) / 3) • pWave P (fun μ => spin1 P μ α) := by
        intro α
        have ed : (fun μ => dWave P Q μ α) = fun μ => (fun μ => pWave P Q μ * pWave P Q α) μ -
            (fun μ => spin1 P μ α * (dot (pWave P Q) (pWave P Q) / 3)) μ := by
          funext μ
          rw [dWave_eq]
          ring
        rw [ed]
        generalize pWave P Q = L
        funext μ
        unfold pWave
        rw [dot_sub, dot_smul, dot_smul]
        simp only [Pi.sub_apply, Pi.smul_apply, smul_eq_mul]
        ring
      rw [e1]
      congr 1
      rw [Matrix.mulVec_sub, Matrix.mulVec_sum, Matrix.mulVec_smul, Matrix.mulVec_sum, Matrix.mulVec_sum, Finset.smul_sum, ← Finset.sum_sub_distrib]
      refine Finset.sum_congr rfl fun α _ => ?_
      rw [sum_twiddle_vec, e2, slash_sub, slash_smul, slash_smul, mul_sub, Matrix.sub_mulVec]
      simp only [Matrix.mulVec_smul, Matrix.smul_mulVec, Matrix.mulVec_mulVec, mul_smul_comm]
      module
    have t1 : ∑ α, (g α * (Λ *ᵥ pWave P Q) α) • spinMove Λ S R1 α = S *ᵥ ∑ α, (g α * pWave P Q α) • R1 α := by
      funext a
      rw [Matrix.mulVec_sum]
      simp only [Finset.sum_apply, Pi.smul_apply, smul_eq_mul, Matrix.mulVec_smul]
      have := lorentz_dot h (pWave P Q) (fun ν => (S *ᵥ R1 ν) a)
      unfold dot at this
      rw [← this]
      refine Finset.sum_congr rfl fun α _ => ?_
      congr 1
    have t2 : ∑ α, (g α : ℂ) • (slash (pWave (Λ *ᵥ P) (fun μ => spin1 (Λ *ᵥ P) μ α)) *ᵥ spinMove Λ S R1 α) =
        S *ᵥ ∑ α, (g α : ℂ) • (slash (pWave P (fun μ => spin1 P μ α)) *ᵥ R1 α) := by
      have key : ∀ i j, (fun α => slash (pWave (Λ *ᵥ P) (fun μ => spin1 (Λ *ᵥ P) μ α)) i j) =
          Λ *ᵥ (fun α => (S * slash (pWave P (fun μ => spin1 P μ α)) * inv) i j) := by
        intro i j
        refine eq_of_dot h _ _ fun a => ?_
        rw [lorentz_dot h]
        have e1 : ∀ (a : V4 ℂ) (M : Fin 4 → M4), dot a (fun μ => M μ i j) = (∑ μ, (g μ * a μ) • M μ) i j := by
          intro a M
          unfold dot
          rw [Matrix.sum_apply]
          exact Finset.sum_congr rfl fun μ _ => by rw [Matrix.smul_apply, smul_eq_mul]
        have e2 : ∀ P a : V4 ℂ, ∑ α, (g α * a α) • slash (pWave P (fun μ => spin1 P μ α)) = slash (pWave P (pWave P a)) := by
          intro P a
          have e3 : pWave P (pWave P a) = ∑ α, (g α * a α) • pWave P (fun μ => spin1 P μ α) := by
            conv_lhs => rw [show pWave P a = fun ν => ∑ μ, g μ * a μ * spin1 P μ ν from funext fun ν => (spin1_apply' P a ν).symm]
            have hsym : ∀ α, (fun μ => spin1 P μ α) = fun μ => spin1 P α μ := fun α => funext fun μ => spin1_symm P μ α
            simp only [hsym]
            funext ν
            simp only [Finset.sum_apply, Pi.smul_apply, smul_eq_mul]
            unfold pWave dot
            generalize 1 / ∑ μ, g μ * P μ * P μ = c
            simp only [Fin.sum_univ_four]
            ring
          rw [e3]
          simp only [Fin.sum_univ_four, slash_add, slash_smul]
        rw [e1, e1 a (fun α => S * slash (pWave P (fun μ => spin1 P μ α)) * inv), e2, pWave_cov h, pWave_cov h, slash_cov hS, ← e2,
          Finset.mul_sum, Finset.sum_mul]
        refine congrFun (congrFun (Finset.sum_congr rfl fun μ _ => ?_) i) j
        rw [mul_smul_comm, smul_mul_assoc]
      funext a
      have l1 : (∑ α, (g α : ℂ) • (slash (pWave (Λ *ᵥ P) (fun μ => spin1 (Λ *ᵥ P) μ α)) *ᵥ spinMove Λ S R1 α)) a =
          ∑ c, dot (Λ *ᵥ (fun α => (S * slash (pWave P (fun μ => spin1 P μ α)) * inv) a c)) (Λ *ᵥ fun α => (S *ᵥ R1 α) c) := by
        simp only [Finset.sum_apply, Pi.smul_apply, smul_eq_mul, Matrix.mulVec, dotProduct, Finset.mul_sum]
        rw [Finset.sum_comm]
        refine Finset.sum_congr rfl fun c _ => ?_
        rw [← show (fun α => slash (pWave (Λ *ᵥ P) (fun μ => spin1 (Λ *ᵥ P) μ α)) a c) = _ from key a c]
        unfold dot
        refine Finset.sum_congr rfl fun α _ => ?_
        unfold spinMove
        simp only [Finset.sum_apply, Pi.smul_apply, smul_eq_mul]
        rw [mul_assoc]
        rfl
      rw [l1]
      simp only [lorentz_dot h]
      have l2 : ∀ α, S *ᵥ (slash (pWave P (fun μ => spin1 P μ α)) *ᵥ R1 α) = (S * slash (pWave P (fun μ => spin1 P μ α)) * inv) *ᵥ (S *ᵥ R1 α) :=
        fun α => (conj_vec hi _ _).symm
      rw [Matrix.mulVec_sum]
      simp only [Matrix.mulVec_smul, l2]
      simp only [Finset.sum_apply, Pi.smul_apply, smul_eq_mul]
      generalize (fun α => S * slash (pWave P (fun μ => spin1 P μ α)) * inv) = A
      generalize (fun α => S *ᵥ R1 α) = B
      unfold dot
      rw [Finset.sum_comm]
      refine Finset.sum_congr rfl fun α _ => ?_
      rw [Matrix.mulVec, dotProduct, Finset.mul_sum]
      exact Finset.sum_congr rfl fun c _ => by ring
    rw [e, e, pWave_cov h, pWave_cov h, t1, t2, lorentz_dot h, slash_cov hS, conj_vec hi, hF5, ← Matrix.mulVec_smul S (dot (pWave P Q) (pWave P Q) / 3),
      ← Matrix.mulVec_sub, conj_vec hi, Matrix.mulVec_smul]
  · exact rs F F' hFc
  · exact rs (F * Gamma 4) (F' * Gamma 4) hF5

/-- The vertices of a particle of spin three half. -/
theorem three_half_vertices_frame (h : Lorentz Λ) (hS : SpinorFrame Gamma4Vec (Gamma 4) Λ S inv) (m : ℂ) (P Q : V4 ℂ) (F F' : M4)
    (hF : (F = spin1h m P ∧ F' = spin1h m (Λ *ᵥ P)) ∨ (F = spin1hb m P ∧ F' = spin1hb m (Λ *ᵥ P))) (ψ : V4 ℂ) (s2 : ℂ) :
    r_fS_P F' (Λ *ᵥ P) (Λ *ᵥ Q) (S *ᵥ ψ) s2 = spinMove Λ S (r_fS_P F P Q ψ s2) ∧
      r_fS_D F' (Λ *ᵥ P) (Λ *ᵥ Q) (S *ᵥ ψ) s2 = spinMove Λ S (r_fS_D F P Q ψ s2) := by
  have hi := hS.2.1
  have hFc : F' = S * F * inv := by
    rcases hF with ⟨rfl, rfl⟩ | ⟨rfl, rfl⟩
    · exact spin1h_cov hS m P
    · exact spin1hb_cov hS m P
  have h5 : Gamma 4 = S * Gamma 4 * inv := (conj_gamma5 hS).symm
  have htw : ∀ μ, gammaTwiddle (Λ *ᵥ P) μ = S * (∑ ν, Λ μ ν • gammaTwiddle P ν) * inv := by
    intro μ
    ext i j
    have := congrFun (twiddle_cov h hS P i j) μ
    rw [this, Finset.mul_sum, Finset.sum_mul, Matrix.sum_apply]
    simp only [mul_smul_comm, smul_mul_assoc, Matrix.smul_apply, smul_eq_mul]
    rfl
  have hL : ∀ μ, (Λ *ᵥ pWave P Q) μ = ∑ ν, Λ μ ν * pWave P Q ν := fun μ => rfl
  constructor
  · funext μ
    unfold r_fS_P spinMove
    simp only
    rw [pWave_cov h, htw, slash_cov hS, hFc, conj_mul hi, conj_mul hi]
    have e : (-1 * (Λ *ᵥ pWave P Q) μ) • (S * F * inv) + (1 / 3 : ℂ) • (S * (F * (∑ ν, Λ μ ν • gammaTwiddle P ν) * slash (pWave P Q)) * inv) =
        S * (∑ ν, Λ μ ν • ((-1 * pWave P Q ν) • F + (1 / 3 : ℂ) • (F * gammaTwiddle P ν * slash (pWave P Q)))) * inv := by
      rw [hL]
      simp only [smul_add, Finset.sum_add_distrib, mul_add, add_mul]
      congr 1
      · simp only [smul_smul]
        rw [← Finset.sum_smul, mul_smul_comm, smul_mul_assoc, Finset.mul_sum]
        congr 1
        exact Finset.sum_congr rfl fun ν _ => by ring
      · rw [Finset.mul_sum, Finset.sum_mul]
        simp only [mul_smul_comm, smul_mul_assoc, Finset.mul_sum, Finset.sum_mul, Finset.smul_sum]
        exact Finset.sum_congr rfl fun ν _ => by rw [smul_comm]
    rw [e, conj_vec hi, Matrix.sum_mulVec, Matrix.mulVec_sum]
    exact Finset.sum_congr rfl fun ν _ => by rw [Matrix.smul_mulVec, Matrix.mulVec_smul]
  · funext μ
    unfold r_fS_D spinMove
    simp only
    rw [pWave_cov h, lorentz_dot h, htw, slash_cov hS, hFc, conj_mul hi, conj_mul hi]
    have e : ((Λ *ᵥ pWave P Q) μ • (S * (F * slash (pWave P Q)) * inv) -
          (dot (pWave P Q) (pWave P Q) / 3) • (S * (F * ∑ ν, Λ μ ν • gammaTwiddle P ν) * inv)) * Gamma 4 =
        S * (∑ ν, Λ μ ν • ((pWave P Q ν • (F * slash (pWave P Q)) - (dot (pWave P Q) (pWave P Q) / 3) • (F * gammaTwiddle P ν)) * Gamma 4)) * inv := by
      conv_lhs => rw [h5]
      have e2 : (Λ *ᵥ pWave P Q) μ • (S * (F * slash (pWave P Q)) * inv) -
          (dot (pWave P Q) (pWave P Q) / 3) • (S * (F * ∑ ν, Λ μ ν • gammaTwiddle P ν) * inv) =
          S * (∑ ν, Λ μ ν • (pWave P Q ν • (F * slash (pWave P Q)) - (dot (pWave P Q) (pWave P Q) / 3) • (F * gammaTwiddle P ν))) * inv := by
        rw [hL]
        simp only [smul_sub, Finset.sum_sub_distrib, mul_sub, sub_mul]
        congr 1
        · simp only [smul_smul]
          rw [← Finset.sum_smul, mul_smul_comm, smul_mul_assoc]
        · simp only [mul_smul_comm, smul_mul_assoc, Finset.mul_sum, Finset.sum_mul, Finset.smul_sum]
          exact Finset.sum_congr rfl fun ν _ => by rw [smul_comm]
      rw [e2, conj_mul hi, Finset.sum_mul]
      simp only [smul_mul_assoc]
    rw [e, conj_vec hi, Matrix.sum_mulVec, Matrix.mulVec_sum]
    exact Finset.sum_congr rfl fun ν _ => by rw [Matrix.smul_mulVec, Matrix.mulVec_smul]

/-- The vertices of a decay to a fermion and an antifermion: scalars are the same in every frame, vectors change like vectors.  The matrix of the
spinors is the one of a real change of frame that keeps the direction of time: its adjoint is the inverse between two `γ⁰`. -/
theorem fermion_pair_frame (h : Lorentz Λ) (hS : SpinorFrame Gamma4Vec (Gamma 4) Λ S inv) (hreal : Sᴴ * Gamma 3 = Gamma 3 * inv)
    (P V1 V2 : V4 ℂ) :
    S_fF_S (S *ᵥ V1) (S *ᵥ V2) = S_fF_S V1 V2 ∧ S_fF_S1 (S *ᵥ V1) (S *ᵥ V2) = S_fF_S1 V1 V2 ∧
      V_fF_S (Λ *ᵥ P) (S *ᵥ V1) (S *ᵥ V2) = Λ *ᵥ V_fF_S P V1 V2 ∧ V_fF_S1 (S *ᵥ V1) (S *ᵥ V2) = Λ *ᵥ V_fF_S1 V1 V2 ∧
      V_fF_PL (Λ *ᵥ P) (S *ᵥ V1) (S *ᵥ V2) = Λ *ᵥ V_fF_PL P V1 V2 ∧ V_fF_PR (Λ *ᵥ P) (S *ᵥ V1) (S *ᵥ V2) = Λ *ᵥ V_fF_PR P V1 V2 := by
  have hi := hS.2.1
  have h5 : Gamma 4 = S * Gamma 4 * inv := (conj_gamma5 hS).symm
  have hb : ∀ ψ : V4 ℂ, bar ψ = (star ψ) ᵥ* Gamma 3 := by
    intro ψ
    rfl
  have hbar : ∀ ψ : V4 ℂ, bar (S *ᵥ ψ) = bar ψ ᵥ* inv := by
    intro ψ
    rw [hb, hb, Matrix.star_mulVec, Matrix.vecMul_vecMul, Matrix.vecMul_vecMul, hreal]
  have hsw : ∀ (x : V4 ℂ) (M : M4) (y : V4 ℂ), sandwich x M y = x ⬝ᵥ (M *ᵥ y) := by
    intro x M y
    rw [Matrix.dotProduct_mulVec]
    rfl
  have hcv : ∀ (ψ φ : V4 ℂ) (M M' : M4), M' = S * M * inv → sandwich (bar (S *ᵥ ψ)) M' (S *ᵥ φ) = sandwich (bar ψ) M φ := by
    intro ψ φ M M' hM
    rw [hsw, hsw, hM, conj_vec hi, hbar, ← Matrix.dotProduct_mulVec, Matrix.mulVec_mulVec, hi, Matrix.one_mulVec]
  have hlin : ∀ (x y a : V4 ℂ) (M : Fin 4 → M4), dot a (fun μ => sandwich x (M μ) y) = sandwich x (∑ μ, (g μ * a μ) • M μ) y := by
    intro x y a M
    rw [hsw, Matrix.sum_mulVec]
    unfold dot
    rw [dotProduct_sum]
    exact Finset.sum_congr rfl fun μ _ => by beta_reduce; rw [hsw, Matrix.smul_mulVec, dotProduct_smul, smul_eq_mul]
  have hgam : ∀ (ψ φ : V4 ℂ) (B : M4), B = S * B * inv →
      (fun μ => sandwich (bar (S *ᵥ ψ)) (Gamma4Vec μ * B) (S *ᵥ φ)) = Λ *ᵥ fun μ => sandwich (bar ψ) (Gamma4Vec μ * B) φ := by
    intro ψ φ B hB
    refine eq_of_dot h _ _ fun a => ?_
    rw [lorentz_dot h, hlin, hlin]
    have e : ∀ a : V4 ℂ, ∑ μ, (g μ * a μ) • (Gamma4Vec μ * B) = slash a * B := by
      intro a
      unfold slash
      rw [Finset.sum_mul]
      exact Finset.sum_congr rfl fun μ _ => (smul_mul_assoc _ _ _).symm
    rw [e, e]
    refine hcv _ _ _ _ ?_
    rw [slash_cov hS]
    conv_lhs => rw [hB]
    rw [conj_mul hi]
  have hm : ∀ B : M4, B = S * B * inv → ∀ ψ φ : V4 ℂ,
      (fun μ => ∑ ν, g ν * spin1 (Λ *ᵥ P) μ ν * sandwich (bar (S *ᵥ ψ)) (Gamma4Vec ν * B) (S *ᵥ φ)) =
        Λ *ᵥ fun μ => ∑ ν, g ν * spin1 P μ ν * sandwich (bar ψ) (Gamma4Vec ν * B) φ := by
    intro B hB ψ φ
    have e : ∀ (P : V4 ℂ) (w : V4 ℂ), (fun μ => ∑ ν, g ν * spin1 P μ ν * w ν) = pWave P w := fun P w => funext fun μ => spin1_apply P w μ
    have e1 := e (Λ *ᵥ P) (fun ν => sandwich (bar (S *ᵥ ψ)) (Gamma4Vec ν * B) (S *ᵥ φ))
    have e2 := e P (fun ν => sandwich (bar ψ) (Gamma4Vec ν * B) φ)
    beta_reduce at e1 e2
    rw [e1, e2, hgam ψ φ B hB, pWave_cov h]
  refine ⟨?_, hcv _ _ _ _ h5, ?_, ?_, ?_, ?_⟩
  · have e : ∀ V1 V2 : V4 ℂ, S_fF_S V1 V2 = sandwich (bar V2) 1 V1 := by
      intro V1 V2
      rw [hsw, Matrix.one_mulVec]
      rfl
    rw [e, e]
    exact hcv _ _ _ _ (by rw [mul_one, hS.1])
  · unfold V_fF_S
    refine eq_of_dot h _ _ fun a => ?_
    rw [lorentz_dot h, hlin, hlin, twiddle_sum, twiddle_sum, pWave_cov h]
    exact hcv _ _ _ _ (slash_cov hS _)
  · unfold V_fF_S1
    have e : ∀ (x y : V4 ℂ), (fun μ => sandwich x (Gamma 4 * Gamma4Vec μ) y) = (-1 : ℂ) • fun μ => sandwich x (Gamma4Vec μ * Gamma 4) y := by
      intro x y
      funext μ
      rw [gamma5_anti, hsw, Matrix.neg_mulVec, dotProduct_neg, Pi.smul_apply, hsw]
      simp
    rw [e, e, Matrix.mulVec_smul, hgam V2 V1 (Gamma 4) h5]
  · exact hm (1 - Gamma 4) (by rw [mul_sub, sub_mul, ← h5, mul_one, hS.1]) V1 V2
  · exact hm (1 + Gamma 4) (by rw [mul_add, add_mul, ← h5, mul_one, hS.1]) V1 V2

end

/-- A boost along the third axis meets all hypotheses: its spinor matrix is `5/4 - 3/4 γ⁰γ³`, up to the sign. -/
example : let Λ : M4 := !![1, 0, 0, 0; 0, 1, 0, 0; 0, 0, 17/8, 15/8; 0, 0, 15/8, 17/8]
    let S : M4 := !![5/4, 0, 3/4, 0; 0, 5/4, 0, -3/4; 3/4, 0, 5/4, 0; 0, -3/4, 0, 5/4]
    let inv : M4 := !![5/4, 0, -3/4, 0; 0, 5/4, 0, 3/4; -3/4, 0, 5/4, 0; 0, 3/4, 0, 5/4]
    Lorentz Λ ∧ Λ.det = 1 ∧ SpinorFrame Gamma4Vec (Gamma 4) Λ S inv ∧ Sᴴ * Gamma 3 = Gamma 3 * inv := by
  intro Λ S inv
  refine ⟨?_, ?_, ⟨?_, ?_, ?_, ?_⟩, ?_⟩
  · intro u v
    simp [Λ, minkowski, Matrix.mulVec, dotProduct, Fin.sum_univ_four]
    ring
  · simp [Λ, Matrix.det_succ_row_zero, Fin.sum_univ_succ, Fin.succAbove]
    norm_num
  · ext i j
    fin_cases i <;> fin_cases j <;> simp [S, inv, Matrix.mul_apply, Fin.sum_univ_four] <;> norm_num
  · ext i j
    fin_cases i <;> fin_cases j <;> simp [S, inv, Matrix.mul_apply, Fin.sum_univ_four] <;> norm_num
  · ext i j
    fin_cases i <;> fin_cases j <;> simp [S, Gamma, Matrix.mul_apply, Fin.sum_univ_four]
  · intro v
    unfold dirac
    simp only [Gamma4Vec_eq]
    ext i j
    fin_cases i <;> fin_cases j <;>
      simp [S, inv, Λ, Gamma, Matrix.mul_apply, Matrix.mulVec, dotProduct, Fin.sum_univ_four] <;> ring
  · have c3 : (starRingEnd ℂ) 3 = 3 := map_ofNat _ 3
    have c4 : (starRingEnd ℂ) 4 = 4 := map_ofNat _ 4
    have c5 : (starRingEnd ℂ) 5 = 5 := map_ofNat _ 5
    ext i j
    fin_cases i <;> fin_cases j <;> simp [S, inv, Gamma, Matrix.mul_apply, Fin.sum_univ_four, c3, c4, c5] <;> norm_num

end AmpGen.Vertex
