import Verif.Vertex.LemmasCross
import Verif.Vertex.Props
/-
Every vertex with a decaying particle of spin one or two gives a spin state of that particle, whatever the decay products are.
-/
namespace AmpGen.Vertex
open Spec

section
variable {K : Type} [Field K]

theorem cross_first (x y z : V4 K) : dot x (cross x y z) = 0 := by
  rw [dot_eq]; unfold minkowski; rw [cross_0, cross_1, cross_2, cross_3]; ring

theorem cross_second (x y z : V4 K) : dot y (cross x y z) = 0 := by
  rw [dot_eq]; unfold minkowski; rw [cross_0, cross_1, cross_2, cross_3]; ring

theorem cross_third (x y z : V4 K) : dot z (cross x y z) = 0 := by
  rw [dot_eq]; unfold minkowski; rw [cross_0, cross_1, cross_2, cross_3]; ring

theorem V_VS_P_eq (P Q V1 : V4 K) (s2 : K) (μ : Fin 4) : V_VS_P P Q V1 s2 μ = cross V1 (pWave P Q) P μ * s2 := by
  unfold V_VS_P
  rw [coupling_cross]

theorem V_VS_S_eq (P V1 : V4 K) (s2 : K) (μ : Fin 4) : V_VS_S P V1 s2 μ = pWave P V1 μ * s2 := by
  unfold V_VS_S
  rw [spin1_apply]

theorem V_VS_D_eq (P Q V1 : V4 K) (s2 : K) (μ : Fin 4) :
    V_VS_D P Q V1 s2 μ = pWave P (fun ν => ∑ α, g α * dWave P Q ν α * V1 α) μ * s2 := by
  unfold V_VS_D
  rw [← spin1_apply]
  congr 1
  generalize dWave P Q = D
  simp only [Fin.sum_univ_four]
  ring

theorem term_eq (P V1 V2 : V4 K) : term P V1 V2 = cross P V1 V2 := funext fun μ => nest_cross P V1 V2 μ

theorem V_VV_S_eq (P V1 V2 : V4 K) : V_VV_S P V1 V2 = pWave P (cross P V1 V2) := by
  funext ν
  unfold V_VV_S
  rw [← term_eq, spin1_apply']

theorem leviCivita_shift (μ ν α β : Fin 4) : (leviCivita μ ν α β : K) = -leviCivita β μ ν α := by
  revert μ ν α β
  have h : ∀ μ ν α β : Fin 4, let d (x y : Fin 4) : Int := (x.val : Int) - (y.val : Int)
      (d μ ν * d μ α * d μ β * d ν α * d ν β * d α β) / 12 = -((d β μ * d β ν * d β α * d μ ν * d μ α * d ν α) / 12) := by decide
  intro μ ν α β
  unfold leviCivita
  simp only
  rw [h μ ν α β]
  push_cast
  rfl

theorem V_VV_P1_eq (P Q V1 V2 : V4 K) (μ : Fin 4) :
    V_VV_P1 P Q V1 V2 μ = -cross P (pWave P Q) (pWave P (cross P V1 V2)) μ := by
  unfold V_VV_P1
  simp only [spin1_apply', term_eq]
  rw [← nest_cross, ← Finset.sum_neg_distrib]
  refine Finset.sum_congr rfl fun α _ => ?_
  have e : ∀ ν, ∑ μ', g μ' * leviCivita μ' ν α μ * P μ' = -∑ μ', g μ' * leviCivita μ μ' ν α * P μ' := fun ν => by
    rw [← Finset.sum_neg_distrib]
    exact Finset.sum_congr rfl fun μ' _ => by rw [leviCivita_shift μ' ν α μ]; ring
  have e2 : ∑ ν, g ν * (∑ μ', g μ' * leviCivita μ' ν α μ * P μ') * pWave P Q ν =
      -∑ ν, g ν * (∑ μ', g μ' * leviCivita μ μ' ν α * P μ') * pWave P Q ν := by
    rw [← Finset.sum_neg_distrib]
    exact Finset.sum_congr rfl fun ν _ => by rw [e ν]; ring
  rw [e2]
  ring

/-- The tensor `phi2` of `V_VV_P2`: the projector on spin two between two vectors. -/
theorem phi2_state [CharZero K] (P V1 V2 : V4 K) (hP : dot P P ≠ 0) :
    SpinTwo P (fun α β => ∑ ν, g ν * (∑ μ, g μ * spin2 P μ ν α β * V1 μ) * V2 ν) := by
  have hsw : ∀ μ ν α β, spin2 P μ ν α β = spin2 P α β μ ν := by
    intro μ ν α β
    unfold spin2
    simp only
    rw [spin1_symm P μ β, spin1_symm P ν α, spin1_symm P μ α, spin1_symm P ν β]
    ring
  have e : (fun α β => ∑ ν, g ν * (∑ μ, g μ * spin2 P μ ν α β * V1 μ) * V2 ν) =
      fun α β => ∑ ν, (g ν * V2 ν) * (fun ν α β => ∑ μ, (g μ * V1 μ) * spin2 P α β μ ν) ν α β := by
    funext α β
    refine Finset.sum_congr rfl fun ν _ => ?_
    have : ∑ μ, g μ * spin2 P μ ν α β * V1 μ = ∑ μ, (g μ * V1 μ) * spin2 P α β μ ν :=
      Finset.sum_congr rfl fun μ _ => by rw [hsw]; ring
    rw [this]
    ring
  rw [e]
  exact SpinTwo.sum _ _ _ fun ν => SpinTwo.sum _ _ (fun μ α β => spin2 P α β μ ν) fun μ => spin2_state P hP μ ν

theorem V_TS_P_eq (P Q : V4 K) (V1 : T4 K) (s2 : K) (μ : Fin 4) :
    V_TS_P P Q V1 s2 μ = pWave P (fun ν => ∑ α, g α * pWave P Q α * V1 ν α) μ * s2 := by
  unfold V_TS_P
  rw [← spin1_apply]
  congr 1
  refine Finset.sum_congr rfl fun ν _ => ?_
  rw [Finset.mul_sum]
  exact Finset.sum_congr rfl fun α _ => by ring

theorem V_TS_D_eq (P Q : V4 K) (V1 : T4 K) (s2 : K) (μ : Fin 4) :
    V_TS_D P Q V1 s2 μ = cross P Q (fun ν => ∑ α, g α * V1 ν α * (-1 * pWave P Q α)) μ := by
  unfold V_TS_D
  simp only
  rw [← nest_cross]
  generalize (fun β => ∑ α, g α * (∑ ν, g ν * leviCivita μ ν α β * P ν) * Q α) = c
  generalize pWave P Q = L
  simp only [Fin.sum_univ_four]
  ring

theorem vector_of_pWave (P v : V4 K) (hP : dot P P ≠ 0) (c : K) : SpinOne P (fun μ => pWave P v μ * c) := by
  unfold SpinOne
  rw [← dot_eq, dot_smul, pWave_transverse P v hP, zero_mul]

/-- Every vertex of a decaying particle of spin one gives a state of spin one, for all momenta and all states of the decay products. -/
theorem vector_vertices [CharZero K] (P Q : V4 K) (hP : minkowski P P ≠ 0) (V1 V2 : V4 K) (T1 : T4 K) (s1 s2 : K) :
    SpinOne P (V_SS_P P Q s1 s2) ∧ SpinOne P (V_VS_P P Q V1 s2) ∧ SpinOne P (V_VS_S P V1 s2) ∧ SpinOne P (V_VS_D P Q V1 s2) ∧
      SpinOne P (V_VV_P P Q V1 V2) ∧ SpinOne P (V_VV_P1 P Q V1 V2) ∧ SpinOne P (V_VV_P2 P Q V1 V2) ∧ SpinOne P (V_VV_S P V1 V2) ∧
      SpinOne P (V_TS_P P Q T1 s2) ∧ SpinOne P (V_TS_D P Q T1 s2) := by
  rw [← dot_eq] at hP
  refine ⟨?_, ?_, ?_, ?_, ?_, ?_, ?_, ?_, ?_, ?_⟩
  · have e : V_SS_P P Q s1 s2 = fun μ => pWave P Q μ * (s1 * s2) := funext fun μ => by unfold V_SS_P; ring
    rw [e]
    exact vector_of_pWave P Q hP _
  · rw [show V_VS_P P Q V1 s2 = _ from funext fun μ => V_VS_P_eq P Q V1 s2 μ]
    unfold SpinOne
    rw [← dot_eq, dot_smul, cross_third, zero_mul]
  · rw [show V_VS_S P V1 s2 = _ from funext fun μ => V_VS_S_eq P V1 s2 μ]
    exact vector_of_pWave P _ hP _
  · rw [show V_VS_D P Q V1 s2 = _ from funext fun μ => V_VS_D_eq P Q V1 s2 μ]
    exact vector_of_pWave P _ hP _
  · exact vector_of_pWave P Q hP _
  · rw [show V_VV_P1 P Q V1 V2 = _ from funext fun μ => V_VV_P1_eq P Q V1 V2 μ]
    have e : (fun μ => -cross P (pWave P Q) (pWave P (cross P V1 V2)) μ) =
        fun μ => cross P (pWave P Q) (pWave P (cross P V1 V2)) μ * (-1) := funext fun μ => by ring
    unfold SpinOne
    rw [e, ← dot_eq, dot_smul, cross_first, zero_mul]
  · obtain ⟨hs, ht, -⟩ := phi2_state P V1 V2 hP
    have hV : V_VV_P2 P Q V1 V2 = fun ν => ∑ μ, g μ * pWave P Q μ *
      (fun α β => ∑ ν, g ν * (∑ μ, g μ * spin2 P μ ν α β * V1 μ) * V2 ν) μ ν := rfl
    rw [hV]
    clear hV
    generalize (fun α β => ∑ ν, g ν * (∑ μ, g μ * spin2 P μ ν α β * V1 μ) * V2 ν) = X at hs ht ⊢
    have hX : ∀ μ, dot P (X μ) = 0 := fun μ => by
      rw [← ht μ, dot_eq]
      exact congrArg (minkowski P) (funext fun ν => hs μ ν)
    unfold SpinOne
    rw [← dot_eq]
    have e : dot P (fun ν => ∑ μ, g μ * pWave P Q μ * X μ ν) = ∑ μ, g μ * pWave P Q μ * dot P (X μ) := by
      generalize pWave P Q = L
      unfold dot
      simp only [Fin.sum_univ_four]
      ring
    rw [e]
    exact Finset.sum_eq_zero fun μ _ => by rw [hX, mul_zero]
  · rw [V_VV_S_eq]
    unfold SpinOne
    rw [← dot_eq, pWave_transverse P _ hP]
  · rw [show V_TS_P P Q T1 s2 = _ from funext fun μ => V_TS_P_eq P Q T1 s2 μ]
    exact vector_of_pWave P _ hP _
  · rw [show V_TS_D P Q T1 s2 = _ from funext fun μ => V_TS_D_eq P Q T1 s2 μ]
    unfold SpinOne
    rw [← dot_eq, cross_first]

/-- A symmetric product of two vectors with no component along the momentum, less its trace. -/
theorem tensor_of_vectors [CharZero K] (P u v : V4 K) (hP : dot P P ≠ 0) (hu : dot P u = 0) (hv : dot P v = 0) (c : K) :
    SpinTwo P (fun μ ν => c * ((u μ * v ν + u ν * v μ) / 2 - spin1 P μ ν * dot u v / 3)) := by
  refine ⟨fun μ ν => ?_, fun ν => ?_, ?_⟩
  · beta_reduce
    rw [spin1_symm P μ ν]
    ring
  · rw [← dot_eq]
    have e : (fun μ => c * ((u μ * v ν + u ν * v μ) / 2 - spin1 P μ ν * dot u v / 3)) =
        fun μ => (fun μ => u μ * (c * v ν / 2) + (fun μ => v μ * (c * u ν / 2)) μ) μ - (fun μ => spin1 P μ ν * (c * dot u v / 3)) μ := by
      funext μ
      ring
    rw [e, dot_sub, dot_add, dot_smul, dot_smul, dot_smul, hu, hv, spin1_transverse P hP]
    ring
  · rw [← sum_g (fun μ => c * ((u μ * v μ + u μ * v μ) / 2 - spin1 P μ μ * dot u v / 3))]
    have e : ∀ μ, g μ * (c * ((u μ * v μ + u μ * v μ) / 2 - spin1 P μ μ * dot u v / 3)) =
        c * (g μ * u μ * v μ) - (c * dot u v / 3) * (g μ * spin1 P μ μ) := fun μ => by
      field_simp
      ring
    rw [Finset.sum_congr rfl fun μ _ => e μ, Finset.sum_sub_distrib, ← Finset.mul_sum, ← Finset.mul_sum, spin1_trace P hP]
    change c * dot u v - _ = 0
    field_simp
    ring

/-- Every vertex of a decaying particle of spin two gives a state of spin two, for all momenta and states of the decay products; a decay
product of spin two is a symmetric tensor. -/
theorem tensor_vertices [CharZero K] (P Q : V4 K) (hP : minkowski P P ≠ 0) (V1 : V4 K) (T1 : T4 K) (hT : ∀ μ ν, T1 μ ν = T1 ν μ) (s1 s2 : K) :
    SpinTwo P (T_VS_D P Q V1 s2) ∧ SpinTwo P (T_TS_S P T1 s2) ∧ SpinTwo P (T_VS_P P Q V1 s2) ∧ SpinTwo P (T_SS_D P Q s1 s2) := by
  have hD := (orbital_states P Q hP).2
  rw [← dot_eq] at hP
  refine ⟨?_, ?_, ?_, ?_⟩
  · unfold T_VS_D
    simp only [nest_cross]
    have hLG : dot (cross P Q V1) (pWave P Q) = 0 := by
      unfold pWave
      rw [dot_sub, dot_smul, dot_comm, cross_second, dot_comm, cross_first]
      ring
    have := tensor_of_vectors P (cross P Q V1) (pWave P Q) hP (cross_first _ _ _) (pWave_transverse P Q hP) (-s2)
    rw [hLG] at this
    convert this using 3
    ring
  · have hc : ∀ μ ν, ∑ β, g β * (∑ α, g α * spin1 P μ α * T1 α β) * spin1 P β ν =
        ∑ α, ∑ β, g α * g β * spin1 P μ α * spin1 P ν β * T1 α β := by
      intro μ ν
      rw [Finset.sum_comm]
      refine Finset.sum_congr rfl fun β _ => ?_
      rw [Finset.mul_sum, Finset.sum_mul]
      exact Finset.sum_congr rfl fun α _ => by rw [spin1_symm P ν β]; ring
    have hstate : T_TS_S P T1 s2 = apply2 (spin2 P) (fun α β => s2 * T1 α β) := by
      funext μ ν
      rw [apply2_eq]
      unfold T_TS_S spin2 dot2
      simp only
      rw [hc]
      have h2 : ∀ μ ν, ∑ α, ∑ β, g α * g β * spin1 P μ α * spin1 P ν β * T1 α β =
          ∑ α, ∑ β, g α * g β * spin1 P μ β * spin1 P ν α * T1 α β := by
        intro μ ν
        rw [Finset.sum_comm]
        exact Finset.sum_congr rfl fun α _ => Finset.sum_congr rfl fun β _ => by rw [hT β α]; ring
      have e : ∀ α, g α * ∑ β, g β * (-(1 / 3) * spin1 P μ ν * spin1 P α β +
            1 / 2 * (spin1 P μ α * spin1 P ν β + spin1 P μ β * spin1 P ν α)) * (s2 * T1 α β) =
          ∑ β, ((s2 / 2) * (g α * g β * spin1 P μ α * spin1 P ν β * T1 α β) + (s2 / 2) * (g α * g β * spin1 P μ β * spin1 P ν α * T1 α β) -
            (s2 * spin1 P μ ν / 3) * (g α * g β * T1 α β * spin1 P α β)) := by
        intro α
        rw [Finset.mul_sum]
        exact Finset.sum_congr rfl fun β _ => by ring
      simp only [e, Finset.sum_sub_distrib, Finset.sum_add_distrib, ← Finset.mul_sum]
      rw [← h2]
      field_simp
      ring
    rw [hstate]
    exact (spin2_projector P (by rw [← dot_eq]; exact hP)).1 _
  · have e : T_VS_P P Q V1 s2 = fun μ ν => s2 * ((pWave P Q μ * pWave P V1 ν + pWave P Q ν * pWave P V1 μ) / 2 -
        spin1 P μ ν * dot (pWave P Q) (pWave P V1) / 3) := by
      funext μ ν
      have h : dot (pWave P Q) (pWave P V1) = dot (pWave P Q) V1 := by
        conv_lhs => unfold pWave
        have := pWave_transverse P Q hP
        rw [dot_comm] at this
        change dot (pWave P Q) (fun μ => V1 μ - P μ * (dot P V1 * (1 / dot P P))) = _
        rw [dot_sub, dot_smul, this]
        ring
      unfold T_VS_P
      simp only [spin1_apply]
      rw [h]
    rw [e]
    exact tensor_of_vectors P _ _ hP (pWave_transverse P Q hP) (pWave_transverse P V1 hP) s2
  · have := SpinTwo.sum (P := P) (Finset.univ : Finset (Fin 1)) (fun _ => s1 * s2) (fun _ => dWave P Q) fun _ => hD
    convert this using 3
    unfold T_SS_D
    simp
    ring

/-- The spin factor of a decay of a particle of spin one to three scalars is orthogonal to the momenta of all three, and to their sum. -/
theorem three_body_vector (p1 p2 p3 : V4 K) :
    minkowski p1 (nBody p1 p2 p3) = 0 ∧ minkowski p2 (nBody p1 p2 p3) = 0 ∧ minkowski p3 (nBody p1 p2 p3) = 0 ∧
      SpinOne (p1 + p2 + p3) (nBody p1 p2 p3) := by
  have e : nBody p1 p2 p3 = cross p1 p2 p3 := funext fun μ => nest_cross p1 p2 p3 μ
  have h1 := cross_first p1 p2 p3
  have h2 := cross_second p1 p2 p3
  have h3 := cross_third p1 p2 p3
  rw [dot_eq] at h1 h2 h3
  rw [e]
  refine ⟨h1, h2, h3, ?_⟩
  unfold SpinOne
  unfold minkowski at *
  simp only [Pi.add_apply]
  linear_combination h1 + h2 + h3

/-- The vertices are not zero: a state of a moving particle from two vectors. -/
example : minkowski (![3, 0, 0, 5] : V4 ℚ) ![3, 0, 0, 5] ≠ 0 ∧ V_VV_S (![3, 0, 0, 5] : V4 ℚ) ![0, 1, 0, 0] ![0, 0, 1, 0] ≠ 0 := by
  constructor
  · unfold minkowski; decide +kernel
  · intro h
    have h0 := congrFun h 0
    revert h0
    decide +kernel

end
end AmpGen.Vertex
