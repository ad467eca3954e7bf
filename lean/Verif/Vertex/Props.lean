import Verif.Vertex.Lemmas
import Mathlib.Algebra.CharZero.Defs
import Mathlib.Tactic.NormNum
/-
Properties of spin tensors without fermions: the projection operators keep exactly the spin states, orbital tensors are states of their
orbital angular momentum, and every vertex gives a state of the spin of the decaying particle.
-/
namespace AmpGen.Vertex
open Spec

section
variable {K : Type} [Field K]

theorem sum_g (f : Fin 4 → K) : ∑ μ, g μ * f μ = f 3 - f 0 - f 1 - f 2 := by
  rw [Fin.sum_univ_four, g0, g1, g2, g3]
  ring

theorem apply_eq (T : T4 K) (v : V4 K) (μ : Fin 4) : apply T v μ = ∑ ν, g ν * T μ ν * v ν := by
  unfold apply
  rw [← dot_eq]
  rfl

theorem apply2_eq (W : Fin 4 → Fin 4 → Fin 4 → Fin 4 → K) (X : T4 K) (μ ν : Fin 4) :
    apply2 W X μ ν = ∑ α, g α * (∑ β, g β * W μ ν α β * X α β) := by
  rw [sum_g]
  unfold apply2
  rw [← dot_eq, ← dot_eq, ← dot_eq, ← dot_eq]
  rfl

/-- The projector on spin one gives a spin state for every vector, keeps every spin state, and has three independent states. -/
theorem spin1_projector (P : V4 K) (hP : minkowski P P ≠ 0) :
    (∀ v, SpinOne P (apply (spin1 P) v)) ∧ (∀ v, SpinOne P v → apply (spin1 P) v = v) ∧
      spin1 P 3 3 - spin1 P 0 0 - spin1 P 1 1 - spin1 P 2 2 = 3 := by
  rw [← dot_eq] at hP
  refine ⟨fun v => ?_, fun v hv => ?_, ?_⟩
  · have e : apply (spin1 P) v = pWave P v := funext fun μ => by rw [apply_eq, spin1_apply]
    unfold SpinOne
    rw [e, ← dot_eq]
    exact pWave_transverse P v hP
  · unfold SpinOne at hv
    rw [← dot_eq] at hv
    exact funext fun μ => by rw [apply_eq, spin1_keep P v hv]
  · rw [← spin1_trace P hP, sum_g (fun μ => spin1 P μ μ)]

theorem dot_add (u v w : V4 K) : dot u (fun μ => v μ + w μ) = dot u v + dot u w := by
  unfold dot
  rw [← Finset.sum_add_distrib]
  exact Finset.sum_congr rfl fun μ _ => by ring

/-- The projector on spin one applied to both sides of itself. -/
theorem spin1_square (P : V4 K) (hP : dot P P ≠ 0) (α β : Fin 4) : ∑ μ, g μ * spin1 P μ α * spin1 P μ β = spin1 P α β := by
  have h := spin1_keep P (fun μ => spin1 P μ β) (spin1_transverse P hP β) α
  beta_reduce at h
  rw [← h]
  exact Finset.sum_congr rfl fun μ _ => by rw [spin1_symm P μ α]

theorem spin2_state (P : V4 K) [CharZero K] (hP : dot P P ≠ 0) (α β : Fin 4) : SpinTwo P (fun μ ν => spin2 P μ ν α β) := by
  refine ⟨fun μ ν => ?_, fun ν => ?_, ?_⟩
  · beta_reduce
    unfold spin2
    simp only
    rw [spin1_symm P μ ν]
    ring
  · rw [← dot_eq]
    have e : (fun μ => spin2 P μ ν α β) = fun μ => (fun μ => (fun μ => spin1 P μ ν * (-(1 / 3) * spin1 P α β)) μ +
        (fun μ => spin1 P μ α * (1 / 2 * spin1 P ν β)) μ) μ + (fun μ => spin1 P μ β * (1 / 2 * spin1 P ν α)) μ := by
      funext μ
      unfold spin2
      ring
    rw [e, dot_add, dot_add, dot_smul, dot_smul, dot_smul, spin1_transverse P hP, spin1_transverse P hP, spin1_transverse P hP]
    ring
  · rw [← sum_g (fun μ => spin2 P μ μ α β)]
    have e : ∀ μ, g μ * spin2 P μ μ α β = (g μ * spin1 P μ μ) * (-(1 / 3) * spin1 P α β) + g μ * spin1 P μ α * spin1 P μ β := by
      intro μ
      unfold spin2
      field_simp
      ring
    rw [Finset.sum_congr rfl fun μ _ => e μ, Finset.sum_add_distrib, ← Finset.sum_mul, spin1_trace P hP, spin1_square P hP]
    field_simp
    ring

theorem spin2_keep (P : V4 K) [CharZero K] (X : T4 K) (hX : SpinTwo P X) (μ ν : Fin 4) :
    ∑ α, g α * (∑ β, g β * spin2 P μ ν α β * X α β) = X μ ν := by
  obtain ⟨hs, ht, h0⟩ := hX
  have hcol : ∀ ν, dot P (fun μ => X μ ν) = 0 := fun ν => by rw [dot_eq]; exact ht ν
  have hrow : ∀ α, dot P (X α) = 0 := fun α => by
    rw [← hcol α]
    exact congrArg (dot P) (funext fun β => hs α β)
  have k1 : ∀ ν α, ∑ β, g β * spin1 P ν β * X α β = X α ν := fun ν α => spin1_keep P (X α) (hrow α) ν
  have k2 : ∀ μ ν, ∑ α, g α * spin1 P μ α * X α ν = X μ ν := fun μ ν => spin1_keep P (fun α => X α ν) (hcol ν) μ
  have e : ∀ α, g α * (∑ β, g β * spin2 P μ ν α β * X α β) =
      (-(1 / 3) * spin1 P μ ν) * (g α * X α α) + 1 / 2 * (g α * spin1 P μ α * X α ν) + 1 / 2 * (g α * spin1 P ν α * X α μ) := by
    intro α
    have e2 : ∀ β, g β * spin2 P μ ν α β * X α β = (-(1 / 3) * spin1 P μ ν) * (g β * spin1 P α β * X α β) +
        (1 / 2 * spin1 P μ α) * (g β * spin1 P ν β * X α β) + (1 / 2 * spin1 P ν α) * (g β * spin1 P μ β * X α β) := by
      intro β
      unfold spin2
      ring
    rw [Finset.sum_congr rfl fun β _ => e2 β, Finset.sum_add_distrib, Finset.sum_add_distrib, ← Finset.mul_sum, ← Finset.mul_sum,
      ← Finset.mul_sum, k1, k1, k1]
    ring
  rw [Finset.sum_congr rfl fun α _ => e α, Finset.sum_add_distrib, Finset.sum_add_distrib, ← Finset.mul_sum, ← Finset.mul_sum,
    ← Finset.mul_sum, k2, k2, sum_g (fun α => X α α), h0, hs ν μ]
  field_simp
  ring

theorem SpinTwo.sum {P : V4 K} {ι : Type} (s : Finset ι) (c : ι → K) (X : ι → T4 K) (h : ∀ i, SpinTwo P (X i)) :
    SpinTwo P (fun μ ν => ∑ i ∈ s, c i * X i μ ν) := by
  refine ⟨fun μ ν => Finset.sum_congr rfl fun i _ => by rw [(h i).1 μ ν], fun ν => ?_, ?_⟩
  · rw [← dot_eq]
    unfold dot
    have e : ∀ μ, g μ * P μ * ∑ i ∈ s, c i * X i μ ν = ∑ i ∈ s, c i * (g μ * P μ * X i μ ν) := fun μ => by
      rw [Finset.mul_sum]
      exact Finset.sum_congr rfl fun i _ => by ring
    rw [Finset.sum_congr rfl fun μ _ => e μ, Finset.sum_comm]
    refine Finset.sum_eq_zero fun i _ => ?_
    rw [← Finset.mul_sum]
    have := (h i).2.1 ν
    rw [← dot_eq] at this
    unfold dot at this
    rw [this, mul_zero]
  · rw [← Finset.sum_sub_distrib, ← Finset.sum_sub_distrib, ← Finset.sum_sub_distrib]
    refine Finset.sum_eq_zero fun i _ => ?_
    linear_combination c i * (h i).2.2

theorem spin2_trace (P : V4 K) [CharZero K] (hP : dot P P ≠ 0) : ∑ μ, ∑ ν, g μ * g ν * spin2 P μ ν μ ν = 5 := by
  have e : ∀ μ ν, g μ * g ν * spin2 P μ ν μ ν = 1 / 2 * ((g μ * spin1 P μ μ) * (g ν * spin1 P ν ν)) +
      (1 / 2 - 1 / 3) * (g μ * (g ν * spin1 P ν μ * spin1 P ν μ)) := by
    intro μ ν
    unfold spin2
    simp only
    rw [spin1_symm P ν μ]
    ring
  simp only [e]
  simp only [Finset.sum_add_distrib, ← Finset.mul_sum, spin1_square P hP, ← Finset.sum_mul, spin1_trace P hP]
  norm_num

/-- The projector on spin two gives a spin state for every tensor, keeps every spin state, and has five independent states. -/
theorem spin2_projector (P : V4 K) [CharZero K] (hP : minkowski P P ≠ 0) :
    (∀ X, SpinTwo P (apply2 (spin2 P) X)) ∧ (∀ X, SpinTwo P X → apply2 (spin2 P) X = X) ∧
      (let t (μ : Fin 4) := spin2 P μ 3 μ 3 - spin2 P μ 0 μ 0 - spin2 P μ 1 μ 1 - spin2 P μ 2 μ 2
       t 3 - t 0 - t 1 - t 2 = 5) := by
  rw [← dot_eq] at hP
  refine ⟨fun X => ?_, fun X hX => ?_, ?_⟩
  · have e : apply2 (spin2 P) X = fun μ ν => ∑ α ∈ Finset.univ, g α * (fun α μ ν => ∑ β, (g β * X α β) * spin2 P μ ν α β) α μ ν := by
      funext μ ν
      rw [apply2_eq]
      refine Finset.sum_congr rfl fun α _ => ?_
      congr 1
      exact Finset.sum_congr rfl fun β _ => by ring
    rw [e]
    exact SpinTwo.sum _ _ _ fun α => SpinTwo.sum _ _ (fun β μ ν => spin2 P μ ν α β) fun β => spin2_state P hP α β
  · funext μ ν
    rw [apply2_eq, spin2_keep P X hX]
  · intro t
    rw [← spin2_trace P hP, ← sum_g t]
    refine Finset.sum_congr rfl fun μ _ => ?_
    have ht : t μ = ∑ ν, g ν * spin2 P μ ν μ ν := (sum_g (fun ν => spin2 P μ ν μ ν)).symm
    rw [ht, Finset.mul_sum]
    exact Finset.sum_congr rfl fun ν _ => by ring

/-- The orbital tensors of angular momentum one and two are states of spin one and two. -/
theorem orbital_states (P Q : V4 K) [CharZero K] (hP : minkowski P P ≠ 0) : SpinOne P (pWave P Q) ∧ SpinTwo P (dWave P Q) := by
  rw [← dot_eq] at hP
  refine ⟨?_, dWave_symm P Q, fun ν => ?_, ?_⟩
  · unfold SpinOne
    rw [← dot_eq]
    exact pWave_transverse P Q hP
  · rw [← dot_eq]
    exact dWave_transverse P Q hP ν
  · rw [← sum_g (fun μ => dWave P Q μ μ)]
    have e : ∀ μ, g μ * dWave P Q μ μ =
        g μ * pWave P Q μ * pWave P Q μ - dot (pWave P Q) (pWave P Q) / 3 * (g μ * spin1 P μ μ) := fun μ => by
      rw [dWave_eq]
      ring
    rw [Finset.sum_congr rfl fun μ _ => e μ, Finset.sum_sub_distrib, ← Finset.mul_sum, spin1_trace P hP]
    change dot _ _ - _ = 0
    field_simp
    ring

/-- In the rest frame of the decaying particle the orbital tensors are those of the three-momentum `q`: the vector itself, and
`q_i q_j - δ_ij |q|²/3`; the elements with an energy index are zero. -/
theorem orbital_rest_frame (m E : K) [CharZero K] (q : Fin 3 → K) (hm : m ≠ 0) :
    let P : V4 K := ![0, 0, 0, m]
    let Q : V4 K := ![q 0, q 1, q 2, E]
    (∀ i : Fin 3, pWave P Q i.castSucc = q i) ∧ pWave P Q 3 = 0 ∧
      (∀ i j : Fin 3, dWave P Q i.castSucc j.castSucc = q i * q j - (if i = j then (q 0 ^ 2 + q 1 ^ 2 + q 2 ^ 2) / 3 else 0)) ∧
      ∀ μ, dWave P Q μ 3 = 0 ∧ dWave P Q 3 μ = 0 := by
  intro P Q
  have hPP : dot P P = m * m := by
    rw [dot_eq]; simp [minkowski, P]
  have hPQ : dot P Q = m * E := by
    rw [dot_eq]; simp [minkowski, P, Q]
  have hL : ∀ i : Fin 3, pWave P Q i.castSucc = q i := by
    intro i
    unfold pWave
    fin_cases i <;> simp [P, Q]
  have hL3 : pWave P Q 3 = 0 := by
    unfold pWave
    rw [hPP, hPQ]
    simp only [P, Q]
    simp
    field_simp
    ring
  have hLL : dot (pWave P Q) (pWave P Q) = -(q 0 ^ 2 + q 1 ^ 2 + q 2 ^ 2) := by
    have h0 := hL 0
    have h1 := hL 1
    have h2 := hL 2
    simp only [Fin.castSucc_zero] at h0
    have e1 : (1 : Fin 3).castSucc = (1 : Fin 4) := rfl
    have e2 : (2 : Fin 3).castSucc = (2 : Fin 4) := rfl
    rw [e1] at h1
    rw [e2] at h2
    rw [dot_eq]
    unfold minkowski
    rw [h0, h1, h2, hL3]
    ring
  have hS3 : ∀ μ, spin1 P μ 3 = 0 := by
    intro μ
    unfold spin1
    rw [hPP]
    fin_cases μ <;> simp [metric, P, g]
    field_simp
    ring
  refine ⟨hL, hL3, fun i j => ?_, fun μ => ?_⟩
  · rw [dWave_eq, hL, hL, hLL]
    have : spin1 P i.castSucc j.castSucc = if i = j then -1 else 0 := by
      unfold spin1
      fin_cases i <;> fin_cases j <;> simp [metric, P, g]
    rw [this]
    split <;> ring
  · have : dWave P Q μ 3 = 0 := by
      rw [dWave_eq, hL3, hS3]
      ring
    exact ⟨this, by rw [dWave_symm, this]⟩

/-- A moving particle meets the hypothesis, with a state of spin one that is kept and a vector that is not. -/
example : minkowski (![3, 0, 0, 5] : V4 ℚ) ![3, 0, 0, 5] ≠ 0 ∧ SpinOne (![3, 0, 0, 5] : V4 ℚ) ![5, 7, 0, 3] ∧
    ¬ SpinOne (![3, 0, 0, 5] : V4 ℚ) ![1, 0, 0, 0] := by
  unfold SpinOne minkowski
  decide +kernel

end
end AmpGen.Vertex
