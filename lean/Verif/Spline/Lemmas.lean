import Verif.Spline.Spec
import Mathlib.Analysis.Calculus.Deriv.Pow
import Mathlib.Analysis.Calculus.Deriv.Add
import Mathlib.Analysis.Calculus.Deriv.Mul
import Mathlib.Analysis.Calculus.ContDiff.Defs
import Mathlib.Analysis.Calculus.IteratedDeriv.Defs
import Mathlib.LinearAlgebra.Matrix.Gershgorin
import Mathlib.LinearAlgebra.Matrix.NonsingularInverse
import Mathlib.Tactic.LinearCombination
import Mathlib.Tactic.Positivity
import Mathlib.Tactic.FieldSimp
/-
Gluing of functions at equally spaced knots, and the tridiagonal system.
-/
namespace AmpGen.Spline
open Finset

/-! ### Gluing -/

/-- The function that is `g i` between knots `i` and `i + 1`. -/
noncomputable def glue (g : Nat → ℝ → ℝ) (a h : ℝ) (x : ℝ) : ℝ := g ⌊(x - a) / h⌋₊ x

theorem glue_eq {g : Nat → ℝ → ℝ} {a h : ℝ} (hh : 0 < h) {i : Nat} {x : ℝ} (h1 : a + i * h ≤ x) (h2 : x < a + (i + 1) * h) : glue g a h x = g i x := by
  unfold glue
  have : ⌊(x - a) / h⌋₊ = i := by
    rw [Nat.floor_eq_iff]
    · constructor
      · rw [le_div_iff₀ hh]; linarith
      · rw [div_lt_iff₀ hh]; linarith
    · apply div_nonneg _ hh.le
      have : (0 : ℝ) ≤ i * h := by positivity
      linarith
  rw [this]

/-- Where a point lies: between two knots, or at a knot. -/
theorem locate {a h x : ℝ} (hh : 0 < h) (hx : a < x) :
    (∃ i : Nat, a + i * h < x ∧ x < a + (i + 1) * h) ∨ ∃ i : Nat, x = a + (i + 1) * h := by
  have h0 : 0 ≤ (x - a) / h := div_nonneg (by linarith) hh.le
  have h1 := Nat.floor_le h0
  have h2 := Nat.lt_floor_add_one ((x - a) / h)
  rw [le_div_iff₀ hh] at h1
  rw [div_lt_iff₀ hh] at h2
  rcases h1.lt_or_eq with h3 | h3
  · exact Or.inl ⟨⌊(x - a) / h⌋₊, by linarith, by linarith⟩
  · right
    obtain ⟨k, hk⟩ : ∃ k, ⌊(x - a) / h⌋₊ = k := ⟨_, rfl⟩
    rw [hk] at h3
    cases k with
    | zero => simp at h3; linarith
    | succ k => exact ⟨k, by push_cast at h3; linarith⟩

/-- Around a point between two knots the glued function is one of the pieces. -/
theorem glue_eventually {g : Nat → ℝ → ℝ} {a h x : ℝ} (hh : 0 < h) {i : Nat} (h1 : a + i * h < x) (h2 : x < a + (i + 1) * h) :
    glue g a h =ᶠ[nhds x] g i := by
  filter_upwards [isOpen_Ioo.mem_nhds (⟨h1, h2⟩ : x ∈ Set.Ioo _ _)] with z hz
  exact glue_eq hh hz.1.le hz.2

theorem glue_left {g : Nat → ℝ → ℝ} {a h : ℝ} (hh : 0 < h) {i : Nat} (hg : g i (a + (i + 1) * h) = g (i + 1) (a + (i + 1) * h)) :
    ∀ z ∈ Set.Ioc (a + i * h) (a + (i + 1) * h), glue g a h z = g i z := by
  intro z hz
  rcases hz.2.lt_or_eq with h1 | h1
  · exact glue_eq hh hz.1.le h1
  · rw [h1, hg]
    refine glue_eq hh ?_ ?_
    · push_cast; exact le_refl _
    · push_cast; nlinarith

theorem glue_right {g : Nat → ℝ → ℝ} {a h : ℝ} (hh : 0 < h) {i : Nat} :
    ∀ z ∈ Set.Ico (a + (i + 1) * h) (a + (i + 2) * h), glue g a h z = g (i + 1) z := by
  intro z hz
  refine glue_eq hh ?_ ?_
  · push_cast; exact hz.1
  · have := hz.2; push_cast; linarith

theorem glue_hasDerivAt {g g' : Nat → ℝ → ℝ} {a h x : ℝ} (N : Nat) (hh : 0 < h) (hd : ∀ i y, HasDerivAt (g i) (g' i y) y)
    (hg : ∀ i, i + 1 < N → g i (a + (i + 1) * h) = g (i + 1) (a + (i + 1) * h))
    (hg' : ∀ i, i + 1 < N → g' i (a + (i + 1) * h) = g' (i + 1) (a + (i + 1) * h))
    (hx : a < x) (hxN : x < a + N * h) : HasDerivAt (glue g a h) (glue g' a h x) x := by
  rcases locate hh hx with ⟨i, h1, h2⟩ | ⟨i, rfl⟩
  · rw [glue_eq hh h1.le h2]
    exact (hd i x).congr_of_eventuallyEq (glue_eventually hh h1 h2)
  · have hi : i + 1 < N := by
      have : ((i + 1 : Nat) : ℝ) * h < N * h := by push_cast; linarith
      exact_mod_cast lt_of_mul_lt_mul_right this hh.le
    have hv : glue g' a h (a + (i + 1) * h) = g' (i + 1) (a + (i + 1) * h) :=
      glue_right hh _ ⟨le_refl _, by nlinarith⟩
    have hl : HasDerivWithinAt (glue g a h) (g' (i + 1) (a + (i + 1) * h)) (Set.Iic (a + (i + 1) * h)) (a + (i + 1) * h) := by
      have h3 : HasDerivWithinAt (g i) (g' (i + 1) (a + (i + 1) * h)) (Set.Iic (a + (i + 1) * h)) (a + (i + 1) * h) := by
        rw [← hg' i hi]; exact (hd i _).hasDerivWithinAt
      refine h3.congr_of_eventuallyEq ?_ (glue_left hh (hg i hi) _ ⟨by nlinarith, le_refl _⟩)
      have : Set.Ioi (a + i * h) ∈ nhds (a + (i + 1) * h) := isOpen_Ioi.mem_nhds (by show a + i * h < _; nlinarith)
      filter_upwards [mem_nhdsWithin_of_mem_nhds this, self_mem_nhdsWithin] with z hz1 hz2
      exact glue_left hh (hg i hi) z ⟨hz1, hz2⟩
    have hr : HasDerivWithinAt (glue g a h) (g' (i + 1) (a + (i + 1) * h)) (Set.Ici (a + (i + 1) * h)) (a + (i + 1) * h) := by
      refine (hd (i + 1) _).hasDerivWithinAt.congr_of_eventuallyEq ?_ (glue_right hh _ ⟨le_refl _, by nlinarith⟩)
      have : Set.Iio (a + (i + 2) * h) ∈ nhds (a + (i + 1) * h) := isOpen_Iio.mem_nhds (by show _ < a + (i + 2) * h; nlinarith)
      filter_upwards [mem_nhdsWithin_of_mem_nhds this, self_mem_nhdsWithin] with z hz1 hz2
      exact glue_right hh z ⟨hz2, hz1⟩
    rw [hv]
    have := hl.union hr
    rw [Set.Iic_union_Ici] at this
    exact hasDerivWithinAt_univ.mp this

theorem glue_continuousAt {g : Nat → ℝ → ℝ} {a h x : ℝ} (N : Nat) (hh : 0 < h) (hd : ∀ i, Continuous (g i))
    (hg : ∀ i, i + 1 < N → g i (a + (i + 1) * h) = g (i + 1) (a + (i + 1) * h))
    (hx : a < x) (hxN : x < a + N * h) : ContinuousAt (glue g a h) x := by
  rcases locate hh hx with ⟨i, h1, h2⟩ | ⟨i, rfl⟩
  · exact ((hd i).continuousAt).congr_of_eventuallyEq (glue_eventually hh h1 h2)
  · have hi : i + 1 < N := by
      have : ((i + 1 : Nat) : ℝ) * h < N * h := by push_cast; linarith
      exact_mod_cast lt_of_mul_lt_mul_right this hh.le
    have hl : ContinuousWithinAt (glue g a h) (Set.Iic (a + (i + 1) * h)) (a + (i + 1) * h) := by
      refine (hd i).continuousWithinAt.congr_of_eventuallyEq ?_ (glue_left hh (hg i hi) _ ⟨by nlinarith, le_refl _⟩)
      have : Set.Ioi (a + i * h) ∈ nhds (a + (i + 1) * h) := isOpen_Ioi.mem_nhds (by show a + i * h < _; nlinarith)
      filter_upwards [mem_nhdsWithin_of_mem_nhds this, self_mem_nhdsWithin] with z hz1 hz2
      exact glue_left hh (hg i hi) z ⟨hz1, hz2⟩
    have hr : ContinuousWithinAt (glue g a h) (Set.Ici (a + (i + 1) * h)) (a + (i + 1) * h) := by
      refine (hd (i + 1)).continuousWithinAt.congr_of_eventuallyEq ?_ (glue_right hh _ ⟨le_refl _, by nlinarith⟩)
      have : Set.Iio (a + (i + 2) * h) ∈ nhds (a + (i + 1) * h) := isOpen_Iio.mem_nhds (by show _ < a + (i + 2) * h; nlinarith)
      filter_upwards [mem_nhdsWithin_of_mem_nhds this, self_mem_nhdsWithin] with z hz1 hz2
      exact glue_right hh z ⟨hz2, hz1⟩
    have := hl.union hr
    rw [Set.Iic_union_Ici] at this
    exact (continuousWithinAt_univ _ _).mp this

/-! ### The system -/

theorem system_fold (size k : Nat) (hk : k ≤ size) (a b : Nat) :
    (List.range k).foldl (fun (M : Nat → Nat → ℝ) (i : Nat) =>
      let M := setEntry M i i 4
      if i ≠ size - 1 then setEntry (setEntry M i (i + 1) 1) (i + 1) i 1 else M) (fun _ _ => 0) a b =
    (if a = b ∧ a < k then 4 else 0) + ((if b = a + 1 ∧ a < k ∧ a + 1 < size then 1 else 0) + (if a = b + 1 ∧ b < k ∧ b + 1 < size then 1 else 0)) := by
  induction k with
  | zero => simp
  | succ k ih =>
    have ih := ih (by omega)
    rw [List.range_succ, List.foldl_append, List.foldl_cons, List.foldl_nil]
    generalize hM : (List.range k).foldl _ _ = M at ih ⊢
    by_cases hl : k = size - 1
    · simp only [ne_eq, hl, not_true_eq_false, if_false]
      rw [← hl]
      unfold setEntry
      by_cases h1 : a = k ∧ b = k
      · rw [if_pos h1]
        rw [if_pos (by omega), if_neg (by omega), if_neg (by omega)]
        norm_num
      · rw [if_neg h1, ih]
        congr 1
        · refine if_congr (by omega) rfl rfl
        · congr 1
          · refine if_congr (by omega) rfl rfl
          · refine if_congr (by omega) rfl rfl
    · simp only [ne_eq, hl, not_false_eq_true, if_true]
      unfold setEntry
      by_cases h1 : a = k + 1 ∧ b = k
      · rw [if_pos h1]
        rw [if_neg (by omega), if_neg (by omega), if_pos (by omega)]
        norm_num
      · rw [if_neg h1]
        by_cases h2 : a = k ∧ b = k + 1
        · rw [if_pos h2]
          rw [if_neg (by omega), if_pos (by omega), if_neg (by omega)]
          norm_num
        · rw [if_neg h2]
          by_cases h3 : a = k ∧ b = k
          · rw [if_pos h3]
            rw [if_pos (by omega), if_neg (by omega), if_neg (by omega)]
            norm_num
          · rw [if_neg h3, ih]
            congr 1
            · refine if_congr (by omega) rfl rfl
            · congr 1
              · refine if_congr (by omega) rfl rfl
              · refine if_congr (by omega) rfl rfl

theorem system_entry (size a b : Nat) (ha : a < size) (hb : b < size) :
    system size a b = (if a = b then 4 else 0) + ((if b = a + 1 then 1 else 0) + (if a = b + 1 then 1 else 0)) := by
  unfold system
  rw [system_fold size size (le_refl _) a b]
  congr 1
  · refine if_congr (by omega) rfl rfl
  · congr 1
    · refine if_congr (by omega) rfl rfl
    · refine if_congr (by omega) rfl rfl

theorem system_row (size i : Nat) (hi : i < size) (v : Nat → ℝ) (hv : v size = 0) :
    ∑ j ∈ range size, system size i j * v j = 4 * v i + (v (i + 1) + if i = 0 then 0 else v (i - 1)) := by
  have h1 : ∑ j ∈ range size, system size i j * v j =
      ∑ j ∈ range size, (if j = i then 4 * v j else 0) + (∑ j ∈ range size, (if j = i + 1 then v j else 0) + ∑ j ∈ range size, (if i = j + 1 then v j else 0)) := by
    rw [← Finset.sum_add_distrib, ← Finset.sum_add_distrib]
    refine Finset.sum_congr rfl fun j hj => ?_
    rw [system_entry size i j hi (Finset.mem_range.mp hj), add_mul, add_mul]
    congr 1
    · by_cases h : j = i
      · rw [if_pos h, if_pos h.symm]
      · rw [if_neg h, if_neg (fun h' => h h'.symm), zero_mul]
    · congr 1
      · rw [ite_mul, one_mul, zero_mul]
      · rw [ite_mul, one_mul, zero_mul]
  rw [h1, Finset.sum_ite_eq' , if_pos (Finset.mem_range.mpr hi), Finset.sum_ite_eq']
  congr 1
  congr 1
  · by_cases h : i + 1 < size
    · rw [if_pos (Finset.mem_range.mpr h)]
    · rw [if_neg (by rwa [Finset.mem_range])]
      have : i + 1 = size := by omega
      rw [this, hv]
  · cases i with
    | zero => rw [if_pos rfl]; exact Finset.sum_eq_zero fun j _ => if_neg (by omega)
    | succ k =>
      rw [if_neg (by omega)]
      have : ∀ j, (if k + 1 = j + 1 then v j else 0) = if j = k then v j else 0 := fun j => if_congr (by omega) rfl rfl
      simp only [this]
      rw [Finset.sum_ite_eq', if_pos (Finset.mem_range.mpr (by omega))]
      rfl

end AmpGen.Spline
