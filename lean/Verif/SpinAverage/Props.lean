import Verif.SpinAverage.Lemmas
import Mathlib.Tactic.NormNum
/-
C152: the matrix element summed over polarisations.
-/
namespace AmpGen.SpinAverage

open AmpGen.Tensor
open Spec
open ComplexConjugate

/-- **C152** For a particle of any integer spin and any chains, the matrix element is the contraction of the sum of their currents with its complex conjugate, with the sign of the spin:
a real number, in which chains and orderings of identical particles interfere. The lineshape of the head is its form factor in every ordering. -/
theorem spin_average_value (poison : ℂ) (J : Nat) (chains : List Chain) (hd : ∀ c ∈ chains, ∀ p ∈ c.orderings, (c.spinTensor p).dim = shape J) :
    spinAverageMatrixElement poison (2 * J) chains = some (((-1) ^ J * square (total poison chains : (Fin J → Fin 4) → ℂ) : ℝ) : ℂ) := by
  unfold spinAverageMatrixElement powMinusOne
  simp only
  rw [total_square poison chains hd, if_pos (by omega), Option.map_some, Nat.mul_div_cancel_left J (by norm_num)]
  push_cast
  rfl

theorem component_plain (poison : ℂ) {J : Nat} (hJ : J ≠ 0) (F : List Nat → ℂ) (c : Fin J → Fin 4) :
    component poison (⟨List.replicate J 4, List.range (List.replicate J 4).prod, List.range (List.replicate J 4).prod,
      (List.range (List.replicate J 4).prod).map fun i => F (indexToCoordinates i (List.replicate J 4))⟩ : Tensor ℂ) c = F (List.ofFn fun i => (c i : Nat)) := by
  have hv : Valid (List.ofFn fun i => (c i : Nat)) (List.replicate J 4) := by
    unfold Valid
    rw [List.forall₂_iff_get]
    refine ⟨by simp, fun i h1 h2 => ?_⟩
    simp
  unfold component
  rw [if_neg hJ, fill_at _ _ hv, toCoords_toIndex hv]

/-- The vector with a single component. -/
noncomputable def unitVector (k : Nat) : Tensor ℂ :=
  ⟨List.replicate 1 4, List.range (List.replicate 1 4).prod, List.range (List.replicate 1 4).prod,
    (List.range (List.replicate 1 4).prod).map fun i => if indexToCoordinates i (List.replicate 1 4) = [k] then 1 else 0⟩

theorem component_unitVector (poison : ℂ) (k : Nat) (c : Fin 1 → Fin 4) : component poison (unitVector k) c = if (c 0 : Nat) = k then 1 else 0 := by
  unfold unitVector
  rw [component_plain poison (by decide) fun l => if l = [k] then 1 else 0]
  simp

/-- A vector along x, in a chain with one ordering. -/
noncomputable def exampleChain (z : ℂ) : Chain := ⟨z, "BW".toList, [[0, 1, 2]], fun _ _ => 1, fun _ => unitVector 0⟩

/-- The contraction has the sign of spin one. -/
example (poison z : ℂ) : spinAverageMatrixElement poison (2 * 1) [exampleChain z] = some (Complex.normSq z : ℝ) := by
  rw [spin_average_value poison 1 [exampleChain z] (by intro c hc p _; simp at hc; subst hc; rfl)]
  congr 2
  unfold square
  rw [sum_cons, Fin.sum_univ_four]
  have e : ∀ F : (Fin 0 → Fin 4) → ℝ, ∑ c, F c = F fun i => i.elim0 := fun F => Fintype.sum_eq_single _ fun c hc => absurd (Subsingleton.elim _ _) hc
  have h : ∀ c : Fin 1 → Fin 4, total poison [exampleChain z] c = if (c 0 : Nat) = 0 then z else 0 := by
    intro c
    unfold total current exampleChain
    simp [component_unitVector]
  simp only [e, h, Fin.prod_univ_one, Fin.cons_zero]
  unfold g
  simp

/-- **C152** If the spin tensors are transverse to the momentum of the decaying particle, the matrix element is never negative, and zero only if the sum of the currents vanishes. -/
theorem spin_average_nonneg (poison : ℂ) (J : Nat) (chains : List Chain) (hd : ∀ c ∈ chains, ∀ p ∈ c.orderings, (c.spinTensor p).dim = shape J) (P : Fin 4 → ℝ)
    (hP : Timelike P) (ht : ∀ c ∈ chains, ∀ p ∈ c.orderings, Transverse P (component poison (c.spinTensor p) : (Fin J → Fin 4) → ℂ)) :
    ∃ x : ℝ, spinAverageMatrixElement poison (2 * J) chains = some (x : ℂ) ∧ 0 ≤ x ∧ (x = 0 ↔ ∀ c : Fin J → Fin 4, total poison chains c = 0) := by
  refine ⟨_, spin_average_value poison J chains hd, ?_⟩
  have htot : Transverse P (total poison chains : (Fin J → Fin 4) → ℂ) := by
    intro i c
    have hq : ∀ q ∈ pairs chains, Transverse P (component poison q.2 : (Fin J → Fin 4) → ℂ) := by
      intro q hq
      unfold pairs at hq
      rw [List.mem_flatMap] at hq
      obtain ⟨c, hc, hq⟩ := hq
      rw [List.mem_map] at hq
      obtain ⟨p, hp, rfl⟩ := hq
      exact ht c hc p hp
    have e : ∀ μ, ((g μ * P μ : ℝ) : ℂ) * total poison chains (Function.update c i μ) =
        ((pairs chains).map fun q => q.1 * (((g μ * P μ : ℝ) : ℂ) * component poison q.2 (Function.update c i μ))).sum := by
      intro μ
      rw [total_pairs, ← list_mul_sum]
      congr 1
      refine List.map_congr_left fun q _ => ?_
      ring
    simp only [e]
    rw [← finset_sum_list]
    have z : (pairs chains).map (fun q => ∑ μ, q.1 * (((g μ * P μ : ℝ) : ℂ) * component poison q.2 (Function.update c i μ))) = (pairs chains).map fun _ => (0 : ℂ) := by
      refine List.map_congr_left fun q hm => ?_
      rw [← Finset.mul_sum, hq q hm i c, mul_zero]
    rw [z]
    simp
  have := square_sign P hP J _ htot
  refine ⟨this.1, this.2, fun h => ?_⟩
  unfold square
  simp [h]

/-- A vector along x is transverse to the momentum of a particle at rest, and of one that moves along z. -/
example (poison : ℂ) : Timelike ![0, 0, 3, 5] ∧ Transverse ![0, 0, 3, 5] (component poison (unitVector 0) : (Fin 1 → Fin 4) → ℂ) := by
  constructor
  · show (0 : ℝ) ^ 2 + 0 ^ 2 + 3 ^ 2 < 5 ^ 2
    norm_num
  · intro i c
    have : i = 0 := Subsingleton.elim _ _
    subst this
    simp only [component_unitVector, Function.update_self, Fin.sum_univ_four]
    simp

/-- **C152** The sign is not that of the contraction for other spin tensors: with the projection on the momentum left in, it can be negative. -/
theorem not_transverse_counterexample (poison : ℂ) : ∃ chains : List Chain, (∀ c ∈ chains, ∀ p ∈ c.orderings, (c.spinTensor p).dim = shape 1) ∧
    spinAverageMatrixElement poison (2 * 1) chains = some ((-1 : ℝ) : ℂ) := by
  have hd : ∀ c ∈ [(⟨1, [], [[0]], fun _ _ => 1, fun _ => unitVector 3⟩ : Chain)], ∀ p ∈ c.orderings, (c.spinTensor p).dim = shape 1 := by
    intro c hc p _; simp at hc; subst hc; rfl
  refine ⟨_, hd, ?_⟩
  rw [spin_average_value poison 1 _ hd]
  congr 2
  unfold square
  rw [sum_cons, Fin.sum_univ_four]
  have e : ∀ F : (Fin 0 → Fin 4) → ℝ, ∑ c, F c = F fun i => i.elim0 := fun F => Fintype.sum_eq_single _ fun c hc => absurd (Subsingleton.elim _ _) hc
  have h : ∀ c : Fin 1 → Fin 4, total poison [(⟨1, [], [[0]], fun _ _ => 1, fun _ => unitVector 3⟩ : Chain)] c = if (c 0 : Nat) = 3 then 1 else 0 := by
    intro c
    unfold total current
    simp [component_unitVector]
  simp only [e, h, Fin.prod_univ_one, Fin.cons_zero]
  unfold g
  simp

/-- **C152** The matrix element is the same in every frame. -/
theorem spin_average_frame (poison : ℂ) (J : Nat) (chains chains' : List Chain) (hd : ∀ c ∈ chains, ∀ p ∈ c.orderings, (c.spinTensor p).dim = shape J)
    (hd' : ∀ c ∈ chains', ∀ p ∈ c.orderings, (c.spinTensor p).dim = shape J) (L : Fin 4 → Fin 4 → ℝ) (hL : Lorentz L)
    (h : (total poison chains' : (Fin J → Fin 4) → ℂ) = transform L (total poison chains)) :
    spinAverageMatrixElement poison (2 * J) chains' = spinAverageMatrixElement poison (2 * J) chains := by
  rw [spin_average_value poison J chains hd, spin_average_value poison J chains' hd', h, square_transform hL]

/-- A rotation by a right angle about z. -/
noncomputable def turn (μ ν : Fin 4) : ℝ := if μ = 0 ∧ ν = 1 then 1 else if μ = 1 ∧ ν = 0 then -1 else if μ = ν ∧ 2 ≤ μ then 1 else 0

/-- The current it turns. -/
example (poison z : ℂ) : Lorentz turn ∧ (total poison [{ exampleChain z with spinTensor := fun _ => unitVector 0 }] : (Fin 1 → Fin 4) → ℂ) =
      transform turn (total poison [{ exampleChain z with spinTensor := fun _ => unitVector 1 }]) := by
  constructor
  · intro ν ρ
    rw [Fin.sum_univ_four]
    fin_cases ν <;> fin_cases ρ <;> simp [turn, g]
  · funext c
    have h : ∀ (k : Nat) (c : Fin 1 → Fin 4), total poison [{ exampleChain z with spinTensor := fun _ => unitVector k }] c = if (c 0 : Nat) = k then z else 0 := by
      intro k c
      unfold total current exampleChain
      simp [component_unitVector]
    unfold transform
    rw [sum_cons', Fin.sum_univ_four]
    have e : ∀ F : (Fin 0 → Fin 4) → ℂ, ∑ c, F c = F fun i => i.elim0 := fun F => Fintype.sum_eq_single _ fun c hc => absurd (Subsingleton.elim _ _) hc
    simp only [e, h, Fin.prod_univ_one, Fin.cons_zero]
    obtain ⟨k, hk⟩ : ∃ k, c 0 = k := ⟨_, rfl⟩
    rw [hk]
    fin_cases k <;> simp [turn]

/-- **C152** The order of the chains does not matter. -/
theorem spin_average_order (poison : ℂ) (J : Nat) (chains chains' : List Chain) (hp : chains.Perm chains')
    (hd : ∀ c ∈ chains, ∀ p ∈ c.orderings, (c.spinTensor p).dim = shape J) :
    spinAverageMatrixElement poison (2 * J) chains = spinAverageMatrixElement poison (2 * J) chains' := by
  rw [spin_average_value poison J chains hd, spin_average_value poison J chains' fun c hc => hd c (hp.mem_iff.mpr hc)]
  have : (total poison chains : (Fin J → Fin 4) → ℂ) = total poison chains' := by
    funext c
    exact (hp.map _).sum_eq
  rw [this]

example (poison z w : ℂ) : spinAverageMatrixElement poison (2 * 1) [exampleChain z, exampleChain w] = spinAverageMatrixElement poison (2 * 1) [exampleChain w, exampleChain z] :=
  spin_average_order poison 1 _ _ (List.Perm.swap _ _ _) (by
    intro c hc p _
    simp at hc
    rcases hc with rfl | rfl <;> rfl)

/-- **C152** Widths of chains do not add up: `n` times the same chain has `n²` times its matrix element. -/
theorem spin_average_interference (poison : ℂ) (J n : Nat) (c : Chain) (hd : ∀ p ∈ c.orderings, (c.spinTensor p).dim = shape J) :
    ∃ x : ℝ, spinAverageMatrixElement poison (2 * J) [c] = some (x : ℂ) ∧
      spinAverageMatrixElement poison (2 * J) (List.replicate n c) = some (((n : ℝ) ^ 2 * x : ℝ) : ℂ) := by
  refine ⟨_, spin_average_value poison J [c] (by intro d hd'; rw [List.mem_singleton.mp hd']; exact hd), ?_⟩
  rw [spin_average_value poison J (List.replicate n c) (by intro d hd'; rw [List.eq_of_mem_replicate hd']; exact hd)]
  have : (total poison (List.replicate n c) : (Fin J → Fin 4) → ℂ) = fun i => ((n : ℝ) : ℂ) * total poison [c] i := by
    funext i
    unfold total
    simp
  rw [this, square_smul]
  congr 2
  ring

/-- **C152** For a particle of half-integer spin the matrix element is not a number, whatever the chains. -/
theorem spin_average_half_integer_counterexample (poison : ℂ) (k : Nat) (chains : List Chain) : spinAverageMatrixElement poison (2 * k + 1) chains = none := by
  unfold spinAverageMatrixElement powMinusOne
  simp only
  rw [if_neg (by omega)]
  rfl

end AmpGen.SpinAverage
