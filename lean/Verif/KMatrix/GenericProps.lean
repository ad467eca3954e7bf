import Verif.KMatrix.GenericModel
import Verif.KMatrix.PropsProd
/-
The lineshape `GenericKmatrix` (C160).
-/
namespace AmpGen.KMatrix
open Spec Complex

/-- The parameters of a pair of channels are real. -/
def PairOptions.Real (o : PairOptions) : Prop := o.f1.im = 0 ∧ o.f2.im = 0 ∧ o.s0.im = 0

theorem im_add {x y : ℂ} (hx : x.im = 0) (hy : y.im = 0) : (x + y).im = 0 := by rw [Complex.add_im, hx, hy, add_zero]

theorem im_mul {x y : ℂ} (hx : x.im = 0) (hy : y.im = 0) : (x * y).im = 0 := by rw [Complex.mul_im, hx, hy]; ring

theorem im_div {x y : ℂ} (hx : x.im = 0) (hy : y.im = 0) : (x / y).im = 0 := by
  rw [Complex.div_im, hx, hy]; ring

theorem im_sub {x y : ℂ} (hx : x.im = 0) (hy : y.im = 0) : (x - y).im = 0 := by rw [Complex.sub_im, hx, hy, sub_zero]

/-- Each element of the K-matrix is the sum over the poles and the smooth term of the pair of channels.  The options are those with the smaller number first: those with the larger number first are
never used. -/
theorem generic_element (poles : List (ℂ × (Nat → ℂ))) (look : Nat → Nat → PairOptions) (s sqrtS : ℂ) (i j : Nat) (hij : i ≤ j) :
    let smooth := fun o : PairOptions => if o.shape = "flat" then o.f1 else if o.shape = "pole" then (o.f1 + o.f2 * sqrtS) / (s - o.s0) else 0
    genericKMatrix poles look s sqrtS (i, j) = (poles.map fun p => p.2 (i + 1) * p.2 (j + 1) / (p.1 ^ 2 - s)).sum + smooth (look (i + 1) (j + 1)) ∧
      genericKMatrix poles look s sqrtS (j, i) = genericKMatrix poles look s sqrtS (i, j) ∧
      ∀ look' : Nat → Nat → PairOptions, (∀ a b, a ≤ b → look' a b = look a b) → genericKMatrix poles look' s sqrtS = genericKMatrix poles look s sqrtS := by
  intro smooth
  have hp : ∀ i j, constructKMatrix s (genericPoles poles) (i, j) = (poles.map fun p => p.2 (i + 1) * p.2 (j + 1) / (p.1 ^ 2 - s)).sum := by
    intro i j
    unfold constructKMatrix genericPoles
    rw [foldl_add, zero_add, List.map_map]
    congr 1
    apply List.map_congr_left
    intro p _
    simp only [Function.comp]
    rw [sq]
  refine ⟨?_, ?_, ?_⟩
  · unfold genericKMatrix nonResonant
    have hn : ¬ i + 1 > j + 1 := by omega
    simp only [hp]
    rw [if_neg hn]
  · unfold genericKMatrix nonResonant
    simp only [hp]
    have e : (poles.map fun p => p.2 (j + 1) * p.2 (i + 1) / (p.1 ^ 2 - s)).sum = (poles.map fun p => p.2 (i + 1) * p.2 (j + 1) / (p.1 ^ 2 - s)).sum := by
      congr 1
      apply List.map_congr_left
      intro p _
      rw [mul_comm (p.2 (j + 1))]
    have hn : ¬ i + 1 > j + 1 := by omega
    rw [e, if_neg hn]
    rcases Nat.lt_or_ge i j with h | h
    · have h' : j + 1 > i + 1 := by omega
      rw [if_pos h']
    · have h' : i = j := by omega
      subst h'
      rw [if_neg hn]
  · intro look' hl
    funext p
    unfold genericKMatrix nonResonant
    simp only
    congr 1
    by_cases h : p.1 + 1 > p.2 + 1
    · rw [if_pos h, if_pos h, hl _ _ (by omega)]
    · rw [if_neg h, if_neg h, hl _ _ (by omega)]

/-- With real parameters the matrix of scattering amplitudes is symmetric and unitary, and the production amplitude `QVec` is its first element: it stays in the circle of unitarity. -/
theorem generic_unitary (quot : ℂ → ℂ → ℂ) (hq : IsDivision quot) (n : Nat) (hn : 0 < n) (poles : List (ℂ × (Nat → ℂ))) (look : Nat → Nat → PairOptions) (ρ : Nat → ℝ) (s sqrtS : ℝ)
    (hp : ∀ p ∈ poles, p.1.im = 0 ∧ ∀ c, (p.2 c).im = 0) (hl : ∀ a b, (look a b).Real) (hρ : ∀ i, 0 ≤ ρ i) :
    ∃ T : Nat → Nat → ℂ, Unitary n (fun i => ρ i) T ∧ genericQVec quot n poles look (fun i => ρ i) s sqrtS = T 0 0 ∧
      (T 0 0).im = ∑ k ∈ Finset.range n, ρ k * normSq (T 0 k) ∧ normSq (1 + 2 * I * ρ 0 * T 0 0) ≤ 1 := by
  have hk : RealSymmetric (genericKMatrix poles look s sqrtS) := by
    constructor
    · intro i j
      unfold genericKMatrix
      apply im_add
      · unfold constructKMatrix genericPoles
        rw [foldl_add, zero_add, List.map_map]
        clear hl
        induction poles with
        | nil => simp
        | cons p l ih =>
          obtain ⟨h1, h2⟩ := hp p List.mem_cons_self
          rw [List.map_cons, List.sum_cons]
          apply im_add
          · exact im_div (im_mul (h2 _) (h2 _)) (im_sub (im_mul h1 h1) (ofReal_im s))
          · exact ih fun q hqm => hp q (List.mem_cons_of_mem _ hqm)
      · unfold nonResonant
        simp only
        have key : ∀ o : PairOptions, o.Real → (if o.shape = "flat" then o.f1 else if o.shape = "pole" then (o.f1 + o.f2 * (sqrtS : ℂ)) / ((s : ℂ) - o.s0) else 0).im = 0 := by
          intro o ho
          split
          · exact ho.1
          · split
            · exact im_div (im_add ho.1 (im_mul ho.2.1 (ofReal_im _))) (im_sub (ofReal_im _) ho.2.2)
            · rfl
        apply key
        split <;> exact hl _ _
    · intro i j
      rcases Nat.le_total i j with h | h
      · exact ((generic_element poles look s sqrtS i j h).2.1).symm
      · exact (generic_element poles look s sqrtS j i h).2.1
  have hu := kmatrix_unitary quot hq n _ ρ hk hρ
  refine ⟨_, hu, qvector_elastic n _ _, ?_⟩
  obtain ⟨T, hT⟩ : ∃ T, scatt n (genericKMatrix poles look s sqrtS) (getPropagator quot I n (genericKMatrix poles look s sqrtS) fun i => (ρ i : ℂ)) = T := ⟨_, rfl⟩
  rw [hT] at hu ⊢
  have him : (T 0 0).im = ∑ k ∈ Finset.range n, ρ k * normSq (T 0 k) := by
    have h := hu.2 0 0 hn hn
    have e : ∑ k ∈ Finset.range n, (((ρ k : ℂ).re : ℝ) : ℂ) * (T 0 k * (starRingEnd ℂ) (T 0 k)) = ((∑ k ∈ Finset.range n, ρ k * normSq (T 0 k) : ℝ) : ℂ) := by
      push_cast
      apply Finset.sum_congr rfl
      intro k _
      rw [mul_conj, ofReal_re]
    rw [e] at h
    have h2 := congrArg im h
    have e2 : (2 * I * ((∑ k ∈ Finset.range n, ρ k * normSq (T 0 k) : ℝ) : ℂ)).im = 2 * ∑ k ∈ Finset.range n, ρ k * normSq (T 0 k) := by
      rw [mul_assoc, show (2 : ℂ) = ((2 : ℝ) : ℂ) by norm_num, im_ofReal_mul, I_mul_im, ofReal_re]
    rw [e2, sub_im, conj_im] at h2
    linarith
  refine ⟨him, ?_⟩
  have hge : ρ 0 * normSq (T 0 0) ≤ (T 0 0).im := by
    rw [him]
    exact Finset.single_le_sum (f := fun k => ρ k * normSq (T 0 k)) (fun k _ => mul_nonneg (hρ k) (normSq_nonneg _)) (Finset.mem_range.mpr hn)
  have e3 : normSq (1 + 2 * I * ρ 0 * T 0 0) = 1 - 4 * ρ 0 * ((T 0 0).im - ρ 0 * normSq (T 0 0)) := by
    rw [normSq_apply, normSq_apply]
    simp
    ring
  rw [e3]
  have := mul_nonneg (hρ 0) (sub_nonneg.mpr hge)
  linarith

/-- Two channels, one pole that couples to both and a smooth term of each shape. -/
example : let look : Nat → Nat → PairOptions := fun a b => if a = b then ⟨"flat", 1, 0, 0⟩ else ⟨"pole", 1, 2, -1⟩
    (∀ a b, (look a b).Real) ∧ (∀ p ∈ [((3 : ℂ), fun c : Nat => (c : ℂ))], p.1.im = 0 ∧ ∀ c, (p.2 c).im = 0) ∧
      genericKMatrix [((3 : ℂ), fun c : Nat => (c : ℂ))] look 4 2 (0, 1) = 2 / 5 + 1 := by
  intro look
  refine ⟨?_, ?_, ?_⟩
  · intro a b
    simp only [look]
    split <;> simp [PairOptions.Real]
  · intro p hp
    rw [List.mem_singleton] at hp
    subst hp
    exact ⟨by simp, fun c => natCast_im c⟩
  · rw [(generic_element _ look 4 2 0 1 (by norm_num)).1]
    simp [look]
    norm_num

end AmpGen.KMatrix
