import Verif.KMatrix.SimpleModel
import Verif.KMatrix.SimpleSpec
import Verif.KMatrix.PropsProd
/-
The lineshape `kMatrixSimple` (C159).
-/
namespace AmpGen.KMatrix
open Spec Complex

/-- The masses and widths of the options. -/
noncomputable def options (all : List Resonance) : List (ℂ × (Nat → ℂ)) := all.map fun r => ((r.mass : ℂ), fun c => (r.width c : ℂ))

theorem phsp_real {root : ℂ → ℂ} (hr : ∀ x : ℝ, 0 ≤ x → root x = Real.sqrt x) {m0 m1 s : ℝ} (hs : 0 < s) (ho : (m0 + m1) ^ 2 ≤ s) :
    phspTwoBody root s m0 m1 = phase m0 m1 s := by
  unfold phspTwoBody phase
  rw [← hr _ (by rw [sub_nonneg, div_le_one hs]; exact ho)]
  congr 1
  push_cast
  ring

theorem phase_nonneg (m0 m1 s : ℝ) : 0 ≤ phase m0 m1 s := Real.sqrt_nonneg _

theorem coupling_real {root : ℂ → ℂ} (hr : ∀ x : ℝ, 0 ≤ x → root x = Real.sqrt x) {masses : Nat → ℝ × ℝ} {r : Resonance} (hm : 0 < r.mass) (hw : ∀ c, 0 ≤ r.width c)
    (ho : ∀ c, ((masses c).1 + (masses c).2) ^ 2 < r.mass ^ 2) :
    simplePole root (fun c => (((masses c).1 : ℂ), ((masses c).2 : ℂ))) r.mass (fun c => (r.width c : ℂ)) = ⟨((r.mass ^ 2 : ℝ) : ℂ), fun c => (coupling masses r c : ℂ)⟩ := by
  unfold simplePole
  congr 1
  · push_cast; ring
  · funext c
    have e : ((r.mass : ℂ) * r.mass) = ((r.mass ^ 2 : ℝ) : ℂ) := by push_cast; ring
    rw [e, phsp_real hr (by positivity) (ho c).le]
    unfold gFromGamma coupling
    rw [← hr _ (div_nonneg (mul_nonneg hm.le (hw c)) (phase_nonneg _ _ _))]
    congr 1
    push_cast
    rfl

section
variable (quot : ℂ → ℂ → ℂ) (hq : IsDivision quot) (root : ℂ → ℂ) (hr : ∀ x : ℝ, 0 ≤ x → root x = Real.sqrt x) (n : Nat) (masses : Nat → ℝ × ℝ) (all : List Resonance)
  (hall : ∀ r ∈ all, 0 < r.mass ∧ (∀ c, 0 ≤ r.width c) ∧ ∀ c, ((masses c).1 + (masses c).2) ^ 2 < r.mass ^ 2) (s : ℝ) (hs : 0 < s) (ho : ∀ c, ((masses c).1 + (masses c).2) ^ 2 ≤ s)
include hq hr hall hs ho

/-- Above all thresholds, and with resonances above the thresholds: the modifier `k` gives the amplitude to the first channel after the production of the resonance number `k`, counted
from zero.  It is the only solution of the equations of rescattering, through all resonances and channels. -/
theorem simple_amplitude (k : Nat) (r : Resonance) (hk : all[k]? = some r) :
    ∃ F : Nat → ℂ, Rescattered n masses all r s F ∧ (∀ F', Rescattered n masses all r s F' → ∀ i, i < n → F' i = F i) ∧
      (0 < n → kMatrixSimple quot root n (fun c => (((masses c).1 : ℂ), ((masses c).2 : ℂ))) (options all) (some k) s = some (F 0)) := by
  obtain ⟨K, hK⟩ : ∃ K : Data ℂ, K = constructKMatrix (s : ℂ) (all.map fun r => (⟨((r.mass ^ 2 : ℝ) : ℂ), fun c => (coupling masses r c : ℂ)⟩ : Pole ℂ)) := ⟨_, rfl⟩
  have hKv : ∀ i j, K (i, j) = (all.map fun q => (coupling masses q i * coupling masses q j / (q.mass ^ 2 - s) : ℂ)).sum := by
    intro i j
    rw [hK]
    unfold constructKMatrix
    rw [foldl_add, zero_add, List.map_map]
    congr 1
    apply List.map_congr_left
    intro q _
    simp
  have hKr : RealSymmetric K := by
    constructor
    · intro i j
      rw [hKv]
      have : (all.map fun q => (coupling masses q i * coupling masses q j / (q.mass ^ 2 - s) : ℂ)).sum =
          (((all.map fun q => coupling masses q i * coupling masses q j / (q.mass ^ 2 - s)).sum : ℝ) : ℂ) := by
        clear * -
        induction all with
        | nil => simp
        | cons q l ih => rw [List.map_cons, List.map_cons, List.sum_cons, List.sum_cons, ih]; push_cast; rfl
      rw [this]
      exact ofReal_im _
    · intro i j
      rw [hKv, hKv]
      congr 1
      apply List.map_congr_left
      intro q _
      rw [mul_comm ((coupling masses q i : ℂ))]
  have hmin := propagator_minors n K (fun c => phase (masses c).1 (masses c).2 s) hKr fun c => Real.sqrt_nonneg _
  have hinv := invert_partial quot hq n _ hmin
  obtain ⟨G, hG⟩ : ∃ G : Data ℂ, G = getPropagator quot I n K fun c => (phase (masses c).1 (masses c).2 s : ℂ) := ⟨_, rfl⟩
  have hA : matrix n (propagatorMatrix I K fun c => (phase (masses c).1 (masses c).2 s : ℂ)) * matrix n G = 1 := by rw [hG]; exact hinv.1
  have hB : matrix n G * matrix n (propagatorMatrix I K fun c => (phase (masses c).1 (masses c).2 s : ℂ)) = 1 := by rw [hG]; exact hinv.2
  obtain ⟨A, hAdef⟩ : ∃ A, A = matrix n (propagatorMatrix I K fun c => (phase (masses c).1 (masses c).2 s : ℂ)) := ⟨_, rfl⟩
  rw [← hAdef] at hA hB
  obtain ⟨p, hp⟩ : ∃ p : Fin n → ℂ, p = fun i : Fin n => (coupling masses r i : ℂ) / (r.mass ^ 2 - s) := ⟨_, rfl⟩
  have system : ∀ F : Nat → ℂ, Rescattered n masses all r s F ↔ A.mulVec (fun i : Fin n => F i) = p := by
    intro F
    have row : ∀ i : Fin n, A.mulVec (fun i : Fin n => F i) i =
        F i - I * ∑ j ∈ Finset.range n, (all.map fun q => (coupling masses q i * coupling masses q j / (q.mass ^ 2 - s) : ℂ)).sum * phase (masses j).1 (masses j).2 s * F j := by
      intro i
      rw [hAdef, matrix_propagator, Matrix.sub_mulVec, Matrix.one_mulVec, Matrix.smul_mulVec, ← Matrix.mulVec_mulVec, Pi.sub_apply, Pi.smul_apply, smul_eq_mul]
      congr 2
      rw [← Fin.sum_univ_eq_sum_range (fun j => (all.map fun q => (coupling masses q i * coupling masses q j / (q.mass ^ 2 - s) : ℂ)).sum * phase (masses j).1 (masses j).2 s * F j)]
      have hdiag : (Matrix.diagonal fun i : Fin n => (phase (masses i).1 (masses i).2 s : ℂ)).mulVec (fun i : Fin n => F i) =
          fun j : Fin n => (phase (masses j).1 (masses j).2 s : ℂ) * F j := by
        funext j
        rw [Matrix.mulVec_diagonal]
      rw [hdiag]
      simp only [Matrix.mulVec, dotProduct]
      apply Finset.sum_congr rfl
      intro j _
      rw [← hKv]
      simp only [matrix, Matrix.of_apply]
      ring
    constructor
    · intro h
      funext i
      rw [row i, h i i.2, hp]
      ring
    · intro h i hi
      have := congrFun h ⟨i, hi⟩
      rw [row ⟨i, hi⟩, hp] at this
      simp only at this
      rw [← this]
      ring
  refine ⟨fun i => if h : i < n then (matrix n G).mulVec p ⟨i, h⟩ else 0, ?_, ?_, ?_⟩
  · rw [system]
    have : (fun i : Fin n => if h : (i : Nat) < n then (matrix n G).mulVec p ⟨i, h⟩ else 0) = (matrix n G).mulVec p := by
      funext i
      rw [dif_pos i.2]
    rw [this, Matrix.mulVec_mulVec, hA, Matrix.one_mulVec]
  · intro F' hF' i hi
    rw [system] at hF'
    simp only
    rw [dif_pos hi, ← hF', Matrix.mulVec_mulVec, hB, Matrix.one_mulVec]
  · intro hn
    have hc : ((options all).map fun p => simplePole root (fun c => (((masses c).1 : ℂ), ((masses c).2 : ℂ))) p.1 p.2) =
        all.map fun r => (⟨((r.mass ^ 2 : ℝ) : ℂ), fun c => (coupling masses r c : ℂ)⟩ : Pole ℂ) := by
      unfold options
      rw [List.map_map]
      apply List.map_congr_left
      intro q hqm
      obtain ⟨h1, h2, h3⟩ := hall q hqm
      exact coupling_real hr h1 h2 h3
    have hph : (fun c => phspTwoBody root s ((masses c).1 : ℂ) ((masses c).2 : ℂ)) = fun c => (phase (masses c).1 (masses c).2 s : ℂ) := by
      funext c
      exact phsp_real hr hs (ho c)
    unfold kMatrixSimple
    simp only [hc, hph, pTerm, Option.getD_some, List.getElem?_map, hk, Option.map_some, ← hK, ← hG]
    rw [dif_pos hn, (zvector_value n (s : ℂ) _ G 0).2]
    congr 1
    rw [← Fin.sum_univ_eq_sum_range (fun i => G (0, i) * (coupling masses r i : ℂ)), Finset.sum_div]
    unfold Matrix.mulVec dotProduct
    apply Finset.sum_congr rfl
    intro i _
    simp only [matrix, Matrix.of_apply, hp]
    push_cast
    ring

/-- With one resonance it is a Breit-Wigner amplitude in which the width to each channel grows with its phase space, and is the one in the options at the mass of the resonance. -/
theorem simple_one_pole (r : Resonance) (h1 : all = [r]) (hne : r.mass ^ 2 ≠ s) (hn : 0 < n) :
    kMatrixSimple quot root n (fun c => (((masses c).1 : ℂ), ((masses c).2 : ℂ))) (options all) (some 0) s =
      some (coupling masses r 0 / (r.mass ^ 2 - s -
        I * (r.mass * ∑ c ∈ Finset.range n, r.width c * (phase (masses c).1 (masses c).2 s / phase (masses c).1 (masses c).2 (r.mass ^ 2)) : ℝ))) := by
  obtain ⟨F, hF, hu, he⟩ := simple_amplitude quot hq root hr n masses all hall s hs ho 0 r (by rw [h1]; rfl)
  rw [he hn]
  obtain ⟨hm, hw, ht⟩ := hall r (by rw [h1]; exact List.mem_singleton_self _)
  obtain ⟨w, hwd⟩ : ∃ w : ℝ, w = r.mass * ∑ c ∈ Finset.range n, r.width c * (phase (masses c).1 (masses c).2 s / phase (masses c).1 (masses c).2 (r.mass ^ 2)) := ⟨_, rfl⟩
  have hd0 : ((r.mass ^ 2 - s : ℝ) : ℂ) ≠ 0 := by rw [Ne, ofReal_eq_zero, sub_eq_zero]; exact hne
  have hd : ((r.mass ^ 2 - s : ℝ) : ℂ) - I * (w : ℂ) ≠ 0 := by
    intro h
    have := congrArg re h
    rw [sub_re, ofReal_re, I_mul_re, ofReal_im, neg_zero, sub_zero, zero_re] at this
    exact hne (by linarith)
  have hg : ∀ c, coupling masses r c * coupling masses r c * phase (masses c).1 (masses c).2 s =
      r.mass * (r.width c * (phase (masses c).1 (masses c).2 s / phase (masses c).1 (masses c).2 (r.mass ^ 2))) := by
    intro c
    unfold coupling
    rw [Real.mul_self_sqrt (div_nonneg (mul_nonneg hm.le (hw c)) (phase_nonneg _ _ _))]
    ring
  have hsum : (∑ c ∈ Finset.range n, (coupling masses r c * coupling masses r c * phase (masses c).1 (masses c).2 s : ℂ)) = (w : ℂ) := by
    rw [hwd, Finset.mul_sum]
    push_cast
    apply Finset.sum_congr rfl
    intro c _
    have := congrArg (fun x : ℝ => (x : ℂ)) (hg c)
    push_cast at this
    exact this
  have hsol : Rescattered n masses all r s fun i => (coupling masses r i : ℂ) / (((r.mass ^ 2 - s : ℝ) : ℂ) - I * (w : ℂ)) := by
    intro i _
    have e : ∑ j ∈ Finset.range n, (all.map fun q => (coupling masses q i * coupling masses q j / (q.mass ^ 2 - s) : ℂ)).sum * phase (masses j).1 (masses j).2 s *
        ((coupling masses r j : ℂ) / (((r.mass ^ 2 - s : ℝ) : ℂ) - I * (w : ℂ))) =
        (coupling masses r i : ℂ) / ((r.mass ^ 2 - s : ℝ) : ℂ) / (((r.mass ^ 2 - s : ℝ) : ℂ) - I * (w : ℂ)) * w := by
      obtain ⟨d, hdd⟩ : ∃ d, ((r.mass ^ 2 - s : ℝ) : ℂ) - I * (w : ℂ) = d := ⟨_, rfl⟩
      rw [hdd, ← hsum, Finset.mul_sum]
      apply Finset.sum_congr rfl
      intro j _
      rw [h1]
      simp only [List.map_cons, List.map_nil, List.sum_cons, List.sum_nil, add_zero]
      push_cast
      ring
    rw [e]
    have e2 : ((r.mass : ℂ) ^ 2 - s) = ((r.mass ^ 2 - s : ℝ) : ℂ) := by push_cast; ring
    rw [e2]
    field_simp
    ring
  rw [← hu _ hsol 0 hn]
  congr 2
  rw [hwd]
  push_cast
  ring

end

/-- The numbers of the modifier are those of the poles less one: the number of the last pole, no number, and every number beyond lead to a pole that does not exist. -/
theorem simple_number (quot : ℂ → ℂ → ℂ) (root : ℂ → ℂ) (n : Nat) (masses : Nat → ℂ × ℂ) (poles : List (ℂ × (Nat → ℂ))) (s : ℂ) :
    (∀ k, kMatrixSimple quot root n masses poles (some k) s = none ↔ poles.length ≤ k) ∧
      (kMatrixSimple quot root n masses poles none s = none ↔ poles.length ≤ 999) := by
  have key : ∀ o, kMatrixSimple quot root n masses poles o s = none ↔ poles.length ≤ pTerm o := by
    intro o
    unfold kMatrixSimple
    simp only
    split
    · rename_i h
      rw [List.getElem?_eq_none_iff, List.length_map] at h
      simp [h]
    · rename_i p h
      have : ¬ poles.length ≤ pTerm o := by
        intro hle
        rw [List.getElem?_eq_none (by rw [List.length_map]; exact hle)] at h
        cases h
      simp [this]
  exact ⟨fun k => key (some k), key none⟩

/-- A resonance below the threshold of a channel it couples to, such as the f0(980) and two kaons: the square of its coupling, and with it its term in the K-matrix, is not real. -/
theorem simple_threshold_counterexample (root : ℂ → ℂ) (hr : ∀ z, root z ^ 2 = z) (masses : Nat → ℝ × ℝ) (r : Resonance) (c : Nat) (hm : 0 < r.mass) (hw : 0 < r.width c)
    (ht : r.mass ^ 2 < ((masses c).1 + (masses c).2) ^ 2) (s : ℝ) (hs : s ≠ r.mass ^ 2) :
    (constructKMatrix (s : ℂ) [simplePole root (fun c => (((masses c).1 : ℂ), ((masses c).2 : ℂ))) r.mass fun c => (r.width c : ℂ)] (c, c)).im ≠ 0 := by
  obtain ⟨x, hx⟩ : ∃ x : ℝ, x = 1 - ((masses c).1 + (masses c).2) ^ 2 / r.mass ^ 2 := ⟨_, rfl⟩
  have hxn : x < 0 := by
    rw [hx, sub_neg, one_lt_div (by positivity)]
    exact ht
  obtain ⟨ρ, hρ⟩ : ∃ ρ : ℂ, ρ = phspTwoBody root ((r.mass : ℂ) * r.mass) (masses c).1 (masses c).2 := ⟨_, rfl⟩
  have hρ2 : ρ ^ 2 = (x : ℂ) := by
    rw [hρ, phspTwoBody, hr, hx]
    push_cast
    ring
  obtain ⟨g, hg⟩ : ∃ g : ℂ, g = root ((r.mass : ℂ) * r.width c / ρ) := ⟨_, rfl⟩
  have hg2 : g * g = (r.mass : ℂ) * r.width c / ρ := by rw [← hr ((r.mass : ℂ) * r.width c / ρ), hg]; ring
  have e : constructKMatrix (s : ℂ) [simplePole root (fun c => (((masses c).1 : ℂ), ((masses c).2 : ℂ))) r.mass fun c => (r.width c : ℂ)] (c, c) =
      (r.mass : ℂ) * r.width c / ρ / ((r.mass * r.mass - s : ℝ) : ℂ) := by
    simp only [constructKMatrix, List.foldl_cons, List.foldl_nil, zero_add, simplePole, gFromGamma, ← hρ, ← hg]
    rw [hg2]
    push_cast
    rfl
  rw [e]
  obtain ⟨y, hy⟩ : ∃ y : ℂ, y = (r.mass : ℂ) * r.width c / ρ / ((r.mass * r.mass - s : ℝ) : ℂ) := ⟨_, rfl⟩
  rw [← hy]
  intro him
  have hd : r.mass * r.mass - s ≠ 0 := by
    intro h
    apply hs
    rw [sq]
    linarith
  have hsq : y ^ 2 = (((r.mass * r.width c) ^ 2 / x / (r.mass * r.mass - s) ^ 2 : ℝ) : ℂ) := by
    rw [hy, div_pow, div_pow, hρ2]
    push_cast
    rfl
  have hre : y = (y.re : ℂ) := by
    apply Complex.ext
    · simp
    · simp [him]
  rw [hre, ← ofReal_pow] at hsq
  have h1 := ofReal_injective hsq
  have h2 : (r.mass * r.width c) ^ 2 / x / (r.mass * r.mass - s) ^ 2 < 0 := by
    apply div_neg_of_neg_of_pos
    · exact div_neg_of_pos_of_neg (by positivity) hxn
    · positivity
  rw [← h1] at h2
  exact absurd (sq_nonneg y.re) (not_le.mpr h2)

/-- There is a square root as in the code, and a resonance and an energy above the thresholds of two channels, with widths to both. -/
example : (∃ root : ℂ → ℂ, ∀ x : ℝ, 0 ≤ x → root x = Real.sqrt x) ∧
    let masses : Nat → ℝ × ℝ := fun c => if c = 0 then (1, 1) else (2, 1)
    let r : Resonance := ⟨4, fun c => if c = 0 then 1 else 2⟩
    (∀ q ∈ [r], 0 < q.mass ∧ (∀ c, 0 ≤ q.width c) ∧ ∀ c, ((masses c).1 + (masses c).2) ^ 2 < q.mass ^ 2) ∧ (0 : ℝ) < 10 ∧
      (∀ c, ((masses c).1 + (masses c).2) ^ 2 ≤ 10) ∧ r.mass ^ 2 ≠ 10 ∧ coupling masses r 0 ≠ 0 := by
  refine ⟨⟨fun z => (Real.sqrt z.re : ℂ), fun x _ => by simp⟩, ?_⟩
  refine ⟨?_, by norm_num, ?_, by norm_num, ?_⟩
  · intro q hq
    rw [List.mem_singleton] at hq
    subst hq
    refine ⟨by norm_num, fun c => ?_, fun c => ?_⟩
    · by_cases h : c = 0 <;> simp [h]
    · by_cases h : c = 0 <;> simp [h] <;> norm_num
  · intro c
    by_cases h : c = 0 <;> simp [h] <;> norm_num
  · unfold coupling phase
    apply ne_of_gt
    apply Real.sqrt_pos.mpr
    apply div_pos (by norm_num)
    apply Real.sqrt_pos.mpr
    norm_num

end AmpGen.KMatrix
