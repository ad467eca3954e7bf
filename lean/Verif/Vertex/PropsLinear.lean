import Verif.Vertex.PropsFermionCov
import Mathlib.Algebra.Module.LinearMap.Defs
import Mathlib.Algebra.Module.Pi
/-
The result of a vertex is linear in the state of each decay product, so that the amplitude of a cascade is the product of its parts.
-/
namespace AmpGen.Vertex
open Spec Matrix

section
variable {K : Type} [Field K]

theorem dot_lin (u : V4 K) : IsLinearMap K (dot u) := by
  constructor <;> intros <;> simp only [dot, Pi.add_apply, Pi.smul_apply, smul_eq_mul, Fin.sum_univ_four] <;> ring

theorem pWave_lin (P : V4 K) : IsLinearMap K (pWave P) := by
  constructor
  · intro x y
    funext μ
    unfold pWave
    rw [(dot_lin P).map_add]
    simp only [Pi.add_apply]
    ring
  · intro c x
    funext μ
    unfold pWave
    rw [(dot_lin P).map_smul]
    simp only [Pi.smul_apply, smul_eq_mul]
    ring

theorem cross_lin3 (x y : V4 K) : IsLinearMap K (cross x y) := by
  constructor <;> intros <;> funext μ <;>
    simp only [cross, Pi.add_apply, Pi.smul_apply, smul_eq_mul, Fin.sum_univ_four] <;> ring

theorem cross_lin2 (x z : V4 K) : IsLinearMap K (fun y => cross x y z) := by
  constructor <;> intros <;> funext μ <;>
    simp only [cross, Pi.add_apply, Pi.smul_apply, smul_eq_mul, Fin.sum_univ_four] <;> ring

theorem cross_lin1 (y z : V4 K) : IsLinearMap K (fun x => cross x y z) := by
  constructor <;> intros <;> funext μ <;>
    simp only [cross, Pi.add_apply, Pi.smul_apply, smul_eq_mul, Fin.sum_univ_four] <;> ring

/-- Linear in the state of the first decay product. -/
theorem vertices_linear_first (P Q V2 : V4 K) (T2 : T4 K) (s2 : K) :
    IsLinearMap K (fun s1 => S_SS_S s1 s2) ∧ IsLinearMap K (fun V1 => S_VV_S V1 V2) ∧ IsLinearMap K (fun V1 => S_VV_S1 P V1 V2) ∧
      IsLinearMap K (fun V1 => S_VV_D P Q V1 V2) ∧ IsLinearMap K (fun V1 => S_VV_P P Q V1 V2) ∧ IsLinearMap K (fun V1 => S_VS_P P Q V1 s2) ∧
      IsLinearMap K (fun s1 => V_SS_P P Q s1 s2) ∧ IsLinearMap K (fun V1 => V_VS_P P Q V1 s2) ∧ IsLinearMap K (fun V1 => V_VS_S P V1 s2) ∧
      IsLinearMap K (fun V1 => V_VS_D P Q V1 s2) ∧ IsLinearMap K (fun V1 => V_VV_P P Q V1 V2) ∧ IsLinearMap K (fun V1 => V_VV_P1 P Q V1 V2) ∧
      IsLinearMap K (fun V1 => V_VV_P2 P Q V1 V2) ∧ IsLinearMap K (fun V1 => V_VV_S P V1 V2) ∧ IsLinearMap K (fun V1 => T_VS_D P Q V1 s2) ∧
      IsLinearMap K (fun T1 => T_TS_S P T1 s2) ∧ IsLinearMap K (fun V1 => T_VS_P P Q V1 s2) ∧ IsLinearMap K (fun s1 => T_SS_D P Q s1 s2) ∧
      IsLinearMap K (fun T1 => S_TV_P P Q T1 V2) ∧ IsLinearMap K (fun T1 => S_TS_D P Q T1 s2) ∧ IsLinearMap K (fun T1 => S_TV_D P Q T1 V2) ∧
      IsLinearMap K (fun T1 => S_TT_S T1 T2) ∧ IsLinearMap K (fun T1 => V_TS_P P Q T1 s2) ∧ IsLinearMap K (fun T1 => V_TS_D P Q T1 s2) := by
  have cP : IsLinearMap K (fun V1 => pWave P (cross P V1 V2)) := by
    constructor
    · intro x y
      rw [(cross_lin2 P V2).map_add, (pWave_lin P).map_add]
    · intro c x
      rw [(cross_lin2 P V2).map_smul, (pWave_lin P).map_smul]
  refine ⟨?_, ?_, ?_, ?_, ?_, ?_, ?_, ?_, ?_, ?_, ?_, ?_, ?_, ?_, ?_, ?_, ?_, ?_, ?_, ?_, ?_, ?_, ?_, ?_⟩
  · constructor <;> intros <;> simp only [S_SS_S, smul_eq_mul] <;> ring
  · constructor <;> intros <;> simp only [S_VV_S, Pi.add_apply, Pi.smul_apply, smul_eq_mul, Fin.sum_univ_four] <;> ring
  · constructor <;> intros <;> simp only [S_VV_S1, Pi.add_apply, Pi.smul_apply, smul_eq_mul, Fin.sum_univ_four] <;> ring
  · constructor <;> intros <;> simp only [S_VV_D, Pi.add_apply, Pi.smul_apply, smul_eq_mul, Fin.sum_univ_four] <;> ring
  · constructor <;> intros <;> simp only [S_VV_P] <;> generalize coupling (pWave P Q) P = c <;>
      simp only [Pi.add_apply, Pi.smul_apply, smul_eq_mul, Fin.sum_univ_four] <;> ring
  · constructor <;> intros <;> simp only [S_VS_P, Pi.add_apply, Pi.smul_apply, smul_eq_mul, Fin.sum_univ_four] <;> ring
  · constructor <;> intros <;> funext μ <;> simp only [V_SS_P, Pi.add_apply, Pi.smul_apply, smul_eq_mul] <;> ring
  · constructor <;> intros <;> funext μ <;> simp only [V_VS_P] <;> generalize coupling (pWave P Q) P = c <;>
      simp only [Pi.add_apply, Pi.smul_apply, smul_eq_mul, Fin.sum_univ_four] <;> ring
  · constructor <;> intros <;> funext μ <;> simp only [V_VS_S, Pi.add_apply, Pi.smul_apply, smul_eq_mul, Fin.sum_univ_four] <;> ring
  · constructor <;> intros <;> funext μ <;> simp only [V_VS_D, Pi.add_apply, Pi.smul_apply, smul_eq_mul, Fin.sum_univ_four] <;> ring
  · constructor <;> intros <;> funext μ <;> simp only [V_VV_P, dot, Pi.add_apply, Pi.smul_apply, smul_eq_mul, Fin.sum_univ_four] <;> ring
  · constructor
    · intro x y
      funext μ
      simp only [V_VV_P1_eq, Pi.add_apply]
      rw [cP.map_add, (cross_lin3 P (pWave P Q)).map_add]
      simp only [Pi.add_apply]
      ring
    · intro c x
      funext μ
      simp only [V_VV_P1_eq, Pi.smul_apply]
      rw [cP.map_smul, (cross_lin3 P (pWave P Q)).map_smul]
      simp only [Pi.smul_apply, smul_eq_mul]
      ring
  · constructor <;> intros <;> funext μ <;> simp only [V_VV_P2, phi2_eq]
    · rw [(pWave_lin P).map_add]
      simp only [dot, Pi.add_apply, Fin.sum_univ_four]
      ring
    · rw [(pWave_lin P).map_smul]
      simp only [dot, Pi.smul_apply, smul_eq_mul, Fin.sum_univ_four]
      ring
  · simp only [V_VV_S_eq]
    exact cP
  · constructor <;> intros <;> funext μ ν <;> simp only [T_VS_D, nest_cross]
    · rw [(cross_lin3 P Q).map_add]
      simp only [Pi.add_apply]
      ring
    · rw [(cross_lin3 P Q).map_smul]
      simp only [Pi.smul_apply, smul_eq_mul]
      ring
  · constructor <;> intros <;> funext μ ν <;> simp only [T_TS_S, dot2, Pi.add_apply, Pi.smul_apply, smul_eq_mul, Fin.sum_univ_four] <;> ring
  · constructor <;> intros <;> funext μ ν <;> simp only [T_VS_P, dot, Pi.add_apply, Pi.smul_apply, smul_eq_mul, Fin.sum_univ_four] <;> ring
  · constructor <;> intros <;> funext μ ν <;> simp only [T_SS_D, Pi.add_apply, Pi.smul_apply, smul_eq_mul] <;> ring
  · constructor <;> intros <;> simp only [S_TV_P, Pi.add_apply, Pi.smul_apply, smul_eq_mul, Fin.sum_univ_four] <;> ring
  · constructor <;> intros <;> simp only [S_TS_D, dot2, Pi.add_apply, Pi.smul_apply, smul_eq_mul, Fin.sum_univ_four] <;> ring
  · have e : ∀ T1 : T4 K, S_TV_D P Q T1 V2 = dot2 (fun α ν => ∑ β, g β * T1 α β * dWave P Q β ν) (coupling P V2) := fun T1 => rfl
    simp only [e]
    generalize coupling P V2 = c
    constructor <;> intros <;> simp only [dot2, Pi.add_apply, Pi.smul_apply, smul_eq_mul, Fin.sum_univ_four] <;> ring
  · constructor <;> intros <;> simp only [S_TT_S, dot2, Pi.add_apply, Pi.smul_apply, smul_eq_mul, Fin.sum_univ_four] <;> ring
  · constructor <;> intros <;> funext μ <;> simp only [V_TS_P, Pi.add_apply, Pi.smul_apply, smul_eq_mul, Fin.sum_univ_four] <;> ring
  · have hw : IsLinearMap K (fun T1 : T4 K => (fun ν => ∑ α, g α * T1 ν α * (-1 * pWave P Q α))) := by
      constructor <;> intros <;> funext ν <;> simp only [Pi.add_apply, Pi.smul_apply, smul_eq_mul, Fin.sum_univ_four] <;> ring
    have e : ∀ T1 : T4 K, V_TS_D P Q T1 s2 = cross P Q (fun ν => ∑ α, g α * T1 ν α * (-1 * pWave P Q α)) :=
      fun T1 => funext fun μ => V_TS_D_eq P Q T1 s2 μ
    simp only [e]
    constructor
    · intro x y
      rw [hw.map_add, (cross_lin3 P Q).map_add]
    · intro c x
      rw [hw.map_smul, (cross_lin3 P Q).map_smul]

/-- Linear in the state of the second decay product.  Missing: `V_TS_D`. -/
theorem vertices_linear_second_partial (P Q V1 : V4 K) (T1 : T4 K) (s1 : K) :
    IsLinearMap K (fun s2 => S_SS_S s1 s2) ∧ IsLinearMap K (fun V2 => S_VV_S V1 V2) ∧ IsLinearMap K (fun V2 => S_VV_S1 P V1 V2) ∧
      IsLinearMap K (fun V2 => S_VV_D P Q V1 V2) ∧ IsLinearMap K (fun V2 => S_VV_P P Q V1 V2) ∧ IsLinearMap K (fun s2 => S_VS_P P Q V1 s2) ∧
      IsLinearMap K (fun s2 => V_SS_P P Q s1 s2) ∧ IsLinearMap K (fun s2 => V_VS_P P Q V1 s2) ∧ IsLinearMap K (fun s2 => V_VS_S P V1 s2) ∧
      IsLinearMap K (fun s2 => V_VS_D P Q V1 s2) ∧ IsLinearMap K (fun V2 => V_VV_P P Q V1 V2) ∧ IsLinearMap K (fun V2 => V_VV_P1 P Q V1 V2) ∧
      IsLinearMap K (fun V2 => V_VV_P2 P Q V1 V2) ∧ IsLinearMap K (fun V2 => V_VV_S P V1 V2) ∧ IsLinearMap K (fun s2 => T_VS_D P Q V1 s2) ∧
      IsLinearMap K (fun s2 => T_TS_S P T1 s2) ∧ IsLinearMap K (fun s2 => T_VS_P P Q V1 s2) ∧ IsLinearMap K (fun s2 => T_SS_D P Q s1 s2) ∧
      IsLinearMap K (fun V2 => S_TV_P P Q T1 V2) ∧ IsLinearMap K (fun s2 => S_TS_D P Q T1 s2) ∧ IsLinearMap K (fun V2 => S_TV_D P Q T1 V2) ∧
      IsLinearMap K (fun T2 => S_TT_S T1 T2) ∧ IsLinearMap K (fun s2 => V_TS_P P Q T1 s2) := by
  have cP : IsLinearMap K (fun V2 => pWave P (cross P V1 V2)) := by
    constructor
    · intro x y
      rw [(cross_lin3 P V1).map_add, (pWave_lin P).map_add]
    · intro c x
      rw [(cross_lin3 P V1).map_smul, (pWave_lin P).map_smul]
  refine ⟨?_, ?_, ?_, ?_, ?_, ?_, ?_, ?_, ?_, ?_, ?_, ?_, ?_, ?_, ?_, ?_, ?_, ?_, ?_, ?_, ?_, ?_, ?_⟩
  · constructor <;> intros <;> simp only [S_SS_S, smul_eq_mul] <;> ring
  · constructor <;> intros <;> simp only [S_VV_S, Pi.add_apply, Pi.smul_apply, smul_eq_mul, Fin.sum_univ_four] <;> ring
  · constructor <;> intros <;> simp only [S_VV_S1, Pi.add_apply, Pi.smul_apply, smul_eq_mul, Fin.sum_univ_four] <;> ring
  · constructor <;> intros <;> simp only [S_VV_D, Pi.add_apply, Pi.smul_apply, smul_eq_mul, Fin.sum_univ_four] <;> ring
  · constructor <;> intros <;> simp only [S_VV_P] <;> generalize coupling (pWave P Q) P = c <;>
      simp only [Pi.add_apply, Pi.smul_apply, smul_eq_mul, Fin.sum_univ_four] <;> ring
  · constructor <;> intros <;> simp only [S_VS_P, smul_eq_mul] <;> ring
  · constructor <;> intros <;> funext μ <;> simp only [V_SS_P, Pi.add_apply, Pi.smul_apply, smul_eq_mul] <;> ring
  · constructor <;> intros <;> funext μ <;> simp only [V_VS_P, Pi.add_apply, Pi.smul_apply, smul_eq_mul] <;> ring
  · constructor <;> intros <;> funext μ <;> simp only [V_VS_S, Pi.add_apply, Pi.smul_apply, smul_eq_mul] <;> ring
  · constructor <;> intros <;> funext μ <;> simp only [V_VS_D, Pi.add_apply, Pi.smul_apply, smul_eq_mul] <;> ring
  · constructor <;> intros <;> funext μ <;> simp only [V_VV_P, dot, Pi.add_apply, Pi.smul_apply, smul_eq_mul, Fin.sum_univ_four] <;> ring
  · constructor
    · intro x y
      funext μ
      simp only [V_VV_P1_eq, Pi.add_apply]
      rw [cP.map_add, (cross_lin3 P (pWave P Q)).map_add]
      simp only [Pi.add_apply]
      ring
    · intro c x
      funext μ
      simp only [V_VV_P1_eq, Pi.smul_apply]
      rw [cP.map_smul, (cross_lin3 P (pWave P Q)).map_smul]
      simp only [Pi.smul_apply, smul_eq_mul]
      ring
  · constructor <;> intros <;> funext μ <;> simp only [V_VV_P2, phi2_eq]
    · rw [(pWave_lin P).map_add]
      simp only [dot, Pi.add_apply, Fin.sum_univ_four]
      ring
    · rw [(pWave_lin P).map_smul]
      simp only [dot, Pi.smul_apply, smul_eq_mul, Fin.sum_univ_four]
      ring
  · simp only [V_VV_S_eq]
    exact cP
  · constructor <;> intros <;> funext μ ν <;> simp only [T_VS_D, Pi.add_apply, Pi.smul_apply, smul_eq_mul] <;> ring
  · constructor <;> intros <;> funext μ ν <;> simp only [T_TS_S, Pi.add_apply, Pi.smul_apply, smul_eq_mul] <;> ring
  · constructor <;> intros <;> funext μ ν <;> simp only [T_VS_P, Pi.add_apply, Pi.smul_apply, smul_eq_mul] <;> ring
  · constructor <;> intros <;> funext μ ν <;> simp only [T_SS_D, Pi.add_apply, Pi.smul_apply, smul_eq_mul] <;> ring
  · constructor <;> intros <;> simp only [S_TV_P, Pi.add_apply, Pi.smul_apply, smul_eq_mul, Fin.sum_univ_four] <;> ring
  · constructor <;> intros <;> simp only [S_TS_D, smul_eq_mul] <;> ring
  · have e : ∀ V2 : V4 K, S_TV_D P Q T1 V2 = dot2 (fun α ν => ∑ β, g β * T1 α β * dWave P Q β ν) (coupling P V2) := fun V2 => rfl
    have hc : IsLinearMap K (coupling P) := by
      constructor <;> intros <;> funext μ ν <;> simp only [coupling, Pi.add_apply, Pi.smul_apply, smul_eq_mul, Fin.sum_univ_four] <;> ring
    simp only [e]
    generalize (fun α ν => ∑ β, g β * T1 α β * dWave P Q β ν) = A
    constructor <;> intros
    · rw [hc.map_add]
      simp only [dot2, Pi.add_apply, Fin.sum_univ_four]
      ring
    · rw [hc.map_smul]
      simp only [dot2, Pi.smul_apply, smul_eq_mul, Fin.sum_univ_four]
      ring
  · constructor <;> intros <;> simp only [S_TT_S, dot2, Pi.add_apply, Pi.smul_apply, smul_eq_mul, Fin.sum_univ_four] <;> ring
  · constructor <;> intros <;> funext μ <;> simp only [V_TS_P, Pi.add_apply, Pi.smul_apply, smul_eq_mul] <;> ring

/-- `V_TS_D` does not contain the state of the second decay product: for a scalar that decays further, its amplitude is missing. -/
theorem vertices_linear_second_counterexample :
    (∀ (P Q : V4 K) (T1 : T4 K) (s2 s2' : K), V_TS_D P Q T1 s2 = V_TS_D P Q T1 s2') ∧
      ∃ (P Q : V4 ℚ) (T1 : T4 ℚ), V_TS_D P Q T1 0 ≠ 0 := by
  refine ⟨fun P Q T1 s2 s2' => rfl, ![0, 0, 0, 1], ![1, 0, 0, 1], fun μ ν => if μ = 1 ∧ ν = 0 then 1 else 0, fun h => ?_⟩
  have := congrFun h 2
  revert this
  decide +kernel

end

theorem mulVec_lin (A : M4) : IsLinearMap ℂ (fun ψ : V4 ℂ => A *ᵥ ψ) :=
  ⟨fun x y => Matrix.mulVec_add A x y, fun c x => Matrix.mulVec_smul A c x⟩

/-- The vertices of decaying fermions are linear in the spinor of the fermion among the decay products.  Missing: `f_fS_SL` and `f_fS_SR`. -/
theorem half_vertices_linear_spinor_partial (F : M4) (P Q V1 : V4 ℂ) (T1 : T4 ℂ) (s2 : ℂ) :
    IsLinearMap ℂ (fun ψ => f_fS_S F ψ s2) ∧ IsLinearMap ℂ (fun ψ => f_fS_P F P Q ψ s2) ∧ IsLinearMap ℂ (fun ψ => f_fS_S1 F ψ s2) ∧
      IsLinearMap ℂ (fun ψ => f_fS_P1 F P Q ψ s2) ∧ IsLinearMap ℂ (fun ψ => f_Vf_S F P V1 ψ) ∧ IsLinearMap ℂ (fun ψ => f_Vf_P F P Q V1 ψ) ∧
      IsLinearMap ℂ (fun ψ => f_Vf_P1 F P Q V1 ψ) ∧ IsLinearMap ℂ (fun ψ => f_Vf_D F P Q V1 ψ) ∧ IsLinearMap ℂ (fun ψ => f_Vf_S1 F P V1 ψ) ∧
      IsLinearMap ℂ (fun ψ => f_Vf_SL F V1 ψ) ∧ IsLinearMap ℂ (fun ψ => f_Vf_SR F V1 ψ) ∧ IsLinearMap ℂ (fun ψ => f_Tf_P F P Q T1 ψ) ∧
      IsLinearMap ℂ (fun ψ => f_Vf_P2 F P Q V1 ψ) ∧ IsLinearMap ℂ (fun ψ => f_Vf_P3 F P Q V1 ψ) ∧ IsLinearMap ℂ (fun ψ => f_Vf_D1 F P Q V1 ψ) ∧
      IsLinearMap ℂ (fun R => f_rS_D F P Q R s2) ∧ IsLinearMap ℂ (fun R => f_rS_P F P Q R s2) ∧ IsLinearMap ℂ (fun R => f_rS_P1 F P Q R s2) ∧
      IsLinearMap ℂ (fun ψ => r_fS_P F P Q ψ s2) ∧ IsLinearMap ℂ (fun ψ => r_fS_D F P Q ψ s2) := by
  have sc : ∀ A : M4, ∀ c : ℂ, IsLinearMap ℂ (fun ψ : V4 ℂ => fun a => (A *ᵥ ψ) a * c) := by
    intro A c
    constructor <;> intros <;> funext a
    · rw [Matrix.mulVec_add]
      simp only [Pi.add_apply]
      ring
    · rw [Matrix.mulVec_smul]
      simp only [Pi.smul_apply, smul_eq_mul]
      ring
  have sm : ∀ (A : Fin 4 → M4) (v : V4 ℂ), IsLinearMap ℂ (fun ψ : V4 ℂ => fun a => ∑ μ, g μ * (A μ *ᵥ ψ) a * v μ) := by
    intro A v
    constructor <;> intros <;> funext a
    · simp only [Matrix.mulVec_add, Pi.add_apply]
      rw [← Finset.sum_add_distrib]
      exact Finset.sum_congr rfl fun μ _ => by ring
    · simp only [Matrix.mulVec_smul, Pi.smul_apply, smul_eq_mul]
      rw [Finset.mul_sum]
      exact Finset.sum_congr rfl fun μ _ => by ring
  have rm : ∀ (A : M4) (v : V4 ℂ) (c : ℂ), IsLinearMap ℂ (fun R : Fin 4 → V4 ℂ => fun a => (∑ μ, g μ * (A *ᵥ R μ) a * v μ) * c) := by
    intro A v c
    constructor <;> intros <;> funext a
    · simp only [Pi.add_apply, Matrix.mulVec_add]
      rw [← add_mul, ← Finset.sum_add_distrib]
      congr 1
      exact Finset.sum_congr rfl fun μ _ => by ring
    · simp only [Pi.smul_apply, Matrix.mulVec_smul, smul_eq_mul]
      rw [← mul_assoc, Finset.mul_sum]
      congr 1
      exact Finset.sum_congr rfl fun μ _ => by ring
  have mm : ∀ A : Fin 4 → M4, IsLinearMap ℂ (fun ψ : V4 ℂ => fun μ => A μ *ᵥ ψ) := by
    intro A
    constructor <;> intros <;> funext μ
    · rw [Matrix.mulVec_add]; rfl
    · rw [Matrix.mulVec_smul]; rfl
  refine ⟨sc _ _, mulVec_lin _, sc _ _, sc _ _, sm _ _, sc _ _, sm _ _, sm _ _, mulVec_lin _, sm _ _, sm _ _, ?_, sc _ _, sm _ _, ?_, ?_, rm _ _ _,
    rm _ _ _, mm _, mm _⟩
  · constructor <;> intros <;> funext a <;> simp only [f_Tf_P, Matrix.mulVec_add, Matrix.mulVec_smul, Pi.add_apply, Pi.smul_apply, smul_eq_mul,
      Fin.sum_univ_four] <;> ring
  · constructor <;> intros <;> funext a <;> simp only [f_Vf_D1, Pi.add_apply, Pi.smul_apply, smul_eq_mul]
    · rw [← Finset.sum_add_distrib]
      exact Finset.sum_congr rfl fun c _ => by ring
    · rw [Finset.mul_sum]
      exact Finset.sum_congr rfl fun c _ => by ring
  · constructor <;> intros <;> funext a <;> simp only [f_rS_D, Matrix.mulVec_add, Matrix.mulVec_smul, Pi.add_apply, Pi.smul_apply, smul_eq_mul]
    · rw [← add_mul, ← Finset.sum_add_distrib]
      congr 1
      refine Finset.sum_congr rfl fun μ _ => ?_
      rw [← Finset.sum_add_distrib]
      exact Finset.sum_congr rfl fun c _ => by ring
    · rw [← mul_assoc, Finset.mul_sum]
      congr 1
      refine Finset.sum_congr rfl fun μ _ => ?_
      rw [Finset.mul_sum]
      exact Finset.sum_congr rfl fun c _ => by ring

/-- The vertices of decaying fermions are linear in the state of the other decay product, where they use it.  Missing: `f_fS_P`, `r_fS_P` and
`r_fS_D`. -/
theorem half_vertices_linear_boson_partial (F : M4) (P Q ψ : V4 ℂ) (R : Fin 4 → V4 ℂ) :
    IsLinearMap ℂ (fun s2 => f_fS_S F ψ s2) ∧ IsLinearMap ℂ (fun s2 => f_fS_S1 F ψ s2) ∧ IsLinearMap ℂ (fun s2 => f_fS_P1 F P Q ψ s2) ∧
      IsLinearMap ℂ (fun V1 => f_Vf_S F P V1 ψ) ∧ IsLinearMap ℂ (fun V1 => f_Vf_P F P Q V1 ψ) ∧ IsLinearMap ℂ (fun V1 => f_Vf_P1 F P Q V1 ψ) ∧
      IsLinearMap ℂ (fun V1 => f_Vf_D F P Q V1 ψ) ∧ IsLinearMap ℂ (fun V1 => f_Vf_S1 F P V1 ψ) ∧ IsLinearMap ℂ (fun V1 => f_Vf_SL F V1 ψ) ∧
      IsLinearMap ℂ (fun V1 => f_Vf_SR F V1 ψ) ∧ IsLinearMap ℂ (fun T1 => f_Tf_P F P Q T1 ψ) ∧ IsLinearMap ℂ (fun V1 => f_Vf_P2 F P Q V1 ψ) ∧
      IsLinearMap ℂ (fun V1 => f_Vf_P3 F P Q V1 ψ) ∧ IsLinearMap ℂ (fun V1 => f_Vf_D1 F P Q V1 ψ) ∧ IsLinearMap ℂ (fun s2 => f_rS_D F P Q R s2) ∧
      IsLinearMap ℂ (fun s2 => f_rS_P F P Q R s2) ∧ IsLinearMap ℂ (fun s2 => f_rS_P1 F P Q R s2) := by
  have sc : ∀ φ : V4 ℂ, IsLinearMap ℂ (fun c : ℂ => fun a => φ a * c) := by
    intro φ
    constructor <;> intros <;> funext a <;> simp only [Pi.add_apply, Pi.smul_apply, smul_eq_mul] <;> ring
  have sm : ∀ (B : Fin 4 → V4 ℂ) (f : V4 ℂ → V4 ℂ), IsLinearMap ℂ f → IsLinearMap ℂ (fun V1 => fun a => ∑ μ, g μ * B μ a * f V1 μ) := by
    intro B f hf
    constructor <;> intros <;> funext a
    · rw [hf.map_add]
      simp only [Pi.add_apply]
      rw [← Finset.sum_add_distrib]
      exact Finset.sum_congr rfl fun μ _ => by ring
    · rw [hf.map_smul]
      simp only [Pi.smul_apply, smul_eq_mul]
      rw [Finset.mul_sum]
      exact Finset.sum_congr rfl fun μ _ => by ring
  have dl : ∀ (φ L : V4 ℂ), IsLinearMap ℂ (fun V1 => fun a => φ a * dot V1 L) := by
    intro φ L
    constructor <;> intros <;> funext a <;> simp only [dot, Pi.add_apply, Pi.smul_apply, smul_eq_mul, Fin.sum_univ_four] <;> ring
  have hD : IsLinearMap ℂ (fun V1 : V4 ℂ => (fun μ => ∑ ν, g ν * dWave P Q μ ν * V1 ν)) := by
    constructor <;> intros <;> funext μ <;> simp only [Pi.add_apply, Pi.smul_apply, smul_eq_mul, Fin.sum_univ_four] <;> ring
  have hid : IsLinearMap ℂ (fun V1 : V4 ℂ => V1) := ⟨fun _ _ => rfl, fun _ _ => rfl⟩
  refine ⟨sc _, sc _, sc _, sm _ _ hid, dl _ _, ?_, sm _ _ hD, ?_, sm _ _ hid, sm _ _ hid, ?_, dl _ _, ?_, ?_, sc _, sc _, sc _⟩
  · simp only [f_Vf_P1, nest_cross]
    exact sm _ _ (cross_lin1 (pWave P Q) P)
  · simp only [f_Vf_S1, twiddle_sum]
    constructor
    · intro x y
      rw [(pWave_lin P).map_add, slash_add, mul_add, Matrix.add_mulVec]
    · intro c x
      rw [(pWave_lin P).map_smul, slash_smul, mul_smul_comm, Matrix.smul_mulVec]
  · have hi : IsLinearMap ℂ (imposeSymmetry : T4 ℂ → T4 ℂ) := by
      constructor <;> intros <;> funext μ ν <;> simp only [imposeSymmetry, Pi.add_apply, Pi.smul_apply, smul_eq_mul] <;> split <;> ring
    simp only [f_Tf_P]
    generalize (fun μ => (F * gammaTwiddle P μ) *ᵥ ψ) = B
    constructor
    · intro x y
      funext a
      rw [hi.map_add]
      simp only [Pi.add_apply, Fin.sum_univ_four]
      ring
    · intro c x
      funext a
      rw [hi.map_smul]
      simp only [Pi.smul_apply, smul_eq_mul, Fin.sum_univ_four]
      ring
  · simp only [f_Vf_P3, nest_cross]
    exact sm _ _ (cross_lin2 (pWave P Q) P)
  · simp only [f_Vf_D1]
    constructor
    · intro x y
      funext a
      have := hD.map_add x y
      beta_reduce at this
      simp only [Pi.add_apply] at this ⊢
      have e : ∀ μ, ∑ ν, g ν * dWave P Q μ ν * (x ν + y ν) = (∑ ν, g ν * dWave P Q μ ν * x ν) + ∑ ν, g ν * dWave P Q μ ν * y ν :=
        fun μ => congrFun this μ
      simp only [e, mul_add, Finset.sum_add_distrib, add_mul]
    · intro c x
      funext a
      have e : ∀ μ, ∑ ν, g ν * dWave P Q μ ν * (c • x) ν = c * ∑ ν, g ν * dWave P Q μ ν * x ν := fun μ => congrFun (hD.map_smul c x) μ
      simp only [e]
      rw [Pi.smul_apply, smul_eq_mul]
      rw [Finset.mul_sum]
      refine Finset.sum_congr rfl fun b _ => ?_
      rw [← mul_assoc, Finset.mul_sum]
      congr 1
      exact Finset.sum_congr rfl fun μ _ => by ring

/-- `f_fS_P`, `r_fS_P` and `r_fS_D` do not contain the amplitude of the scalar, and `f_fS_SL` and `f_fS_SR` do not contain the spinor of the
fermion: the spinor that comes out is not zero for a fermion with the spinor zero. -/
theorem half_vertices_linear_counterexample :
    (∀ (F : M4) (P Q ψ : V4 ℂ) (s s' : ℂ), f_fS_P F P Q ψ s = f_fS_P F P Q ψ s' ∧ r_fS_P F P Q ψ s = r_fS_P F P Q ψ s' ∧
      r_fS_D F P Q ψ s = r_fS_D F P Q ψ s') ∧
      (∀ (F : M4) (ψ ψ' V2 : V4 ℂ), f_fS_SL F ψ V2 = f_fS_SL F ψ' V2 ∧ f_fS_SR F ψ V2 = f_fS_SR F ψ' V2) ∧
      ∃ (m : ℂ) (P V2 : V4 ℂ), m ≠ 0 ∧ m ^ 2 = minkowski P P ∧ f_fS_SL (spin1h m P) 0 V2 ≠ 0 ∧ f_fS_SR (spin1h m P) 0 V2 ≠ 0 := by
  refine ⟨fun _ _ _ _ _ _ => ⟨rfl, rfl, rfl⟩, fun _ _ _ _ => ⟨rfl, rfl⟩, 1, ![0, 0, 0, 1], ![1, 0, 0, 0], one_ne_zero, by simp [minkowski], ?_, ?_⟩
  all_goals
    intro h
    have h0 := congrFun h 0
    have hsl : slash (![0, 0, 0, 1] : V4 ℂ) = Gamma 3 := by
      rw [slash_eq]
      unfold dirac
      rw [Gamma4Vec_eq, Gamma4Vec_eq, Gamma4Vec_eq, Gamma4Vec_eq]
      simp
    simp only [f_fS_SL, f_fS_SR, spin1h, hsl] at h0
    simp [Gamma, Matrix.mulVec, dotProduct, Fin.sum_univ_four, Matrix.mul_apply] at h0

end AmpGen.Vertex
