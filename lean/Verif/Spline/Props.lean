import Verif.Spline.Lemmas2
import Mathlib.Analysis.Calculus.ContDiff.Basic
/-
Splines.
-/
namespace AmpGen.Spline

variable (mem : Memory) (T : Nat → Nat → ℝ) (y : Nat → ℝ) (address n : Nat) (min max : ℝ)

/-- The value of the spline at `x`, once the values `y` of its parameters have been transferred. -/
noncomputable def spline (x : ℝ) : ℝ := eval (transfer mem T y address n min max) address n min max x

/-- C41 (part).  A spline through at least three knots takes the value `y i` at every knot but the first, tends to `y 0` at the first from above, is a cubic
between neighbouring knots, and is twice continuously differentiable between the first and the last knot; it is continuous at the last knot and constant
behind it.  Missing: at the first knot, see `spline_first_knot_counterexample`. -/
theorem spline_smooth_partial (hn : 3 ≤ n) (hlt : min < max) (hT : Inverse (n - 2) (system (n - 2)) T) :
    (∀ i, 0 < i → i < n → spline mem T y address n min max (knot n min max i) = y i) ∧
    Filter.Tendsto (spline mem T y address n min max) (nhdsWithin min (Set.Ioi min)) (nhds (y 0)) ∧
    (∀ i, i + 1 < n → IsCubicOn (spline mem T y address n min max) (Set.Ioo (knot n min max i) (knot n min max (i + 1)))) ∧
    ContDiffOn ℝ 2 (spline mem T y address n min max) (Set.Ioo min max) ∧
    ContinuousAt (spline mem T y address n min max) max ∧
    ∀ x, max ≤ x → spline mem T y address n min max x = y (n - 1) := by
  obtain ⟨h, hh⟩ : ∃ h, (max - min) / ((n : ℝ) - 1) = h := ⟨_, rfl⟩
  have hn1 : (0 : ℝ) < (n : ℝ) - 1 := by
    have : (3 : ℝ) ≤ n := by exact_mod_cast hn
    linarith
  have hpos : 0 < h := by rw [← hh]; exact div_pos (by linarith) hn1
  have hcast : ((n - 1 : Nat) : ℝ) = (n : ℝ) - 1 := by rw [Nat.cast_sub (by omega), Nat.cast_one]
  have hN : min + ((n - 1 : Nat) : ℝ) * h = max := by
    rw [← hh, hcast]
    field_simp
    ring
  have hrel := curvature_relation hT y (h := h) (by rw [hcast]; exact hh : (max - min) / ((n - 1 : Nat) : ℝ) = h)
  have hin : ∀ x, min < x → x < max → spline mem T y address n min max x = glue (piece y (curvatures T y n min max) min h) min h x :=
    fun x h1 h2 => eval_inside mem T y address n (by omega) hh hpos h1 h2
  have hout : ∀ x, max ≤ x → spline mem T y address n min max x = y (n - 1) :=
    fun x h1 => eval_outside mem T y address n (by omega) (fun h2 => absurd h2.2 (not_lt.mpr h1))
  have hm0 : ∀ i, i + 1 < n - 1 → piece y (curvatures T y n min max) min h i (min + (i + 1) * h) =
      piece y (curvatures T y n min max) min h (i + 1) (min + (i + 1) * h) := fun i _ => piece_match _ _ hpos i
  have hm1 : ∀ i, i + 1 < n - 1 → piece' y (curvatures T y n min max) min h i (min + (i + 1) * h) =
      piece' y (curvatures T y n min max) min h (i + 1) (min + (i + 1) * h) := fun i hi => piece'_match _ _ hpos i (hrel i (by omega))
  have hm2 : ∀ i, i + 1 < n - 1 → piece'' (curvatures T y n min max) min h i (min + (i + 1) * h) =
      piece'' (curvatures T y n min max) min h (i + 1) (min + (i + 1) * h) := fun i _ => piece''_match _ hpos i
  have hkn : ∀ i, knot n min max i = min + i * h := fun i => by unfold knot; rw [hh]
  have hlt' : ∀ i, i < n - 1 → min + (i : ℝ) * h < max := by
    intro i hi
    rw [← hN]
    have : (i : ℝ) < ((n - 1 : Nat) : ℝ) := by exact_mod_cast hi
    nlinarith
  refine ⟨?_, ?_, ?_, ?_, ?_, hout⟩
  · intro i hi hin'
    rw [hkn]
    by_cases hl : i = n - 1
    · subst hl
      rw [hN]; exact hout _ (le_refl _)
    · have hi0 : (0 : ℝ) < i := by exact_mod_cast hi
      rw [hin _ (by nlinarith) (hlt' i (by omega)), glue_eq hpos (le_refl _) (by nlinarith)]
      simp [piece]
  · have h1 : Filter.Tendsto (piece y (curvatures T y n min max) min h 0) (nhdsWithin min (Set.Ioi min)) (nhds (y 0)) := by
      have h2 := (piece_deriv y (curvatures T y n min max) min h 0 min).continuousAt.tendsto
      have h3 : piece y (curvatures T y n min max) min h 0 min = y 0 := by simp [piece]
      rw [h3] at h2
      exact h2.mono_left nhdsWithin_le_nhds
    refine h1.congr' ?_
    have h4 : Set.Iio (min + h) ∈ nhds min := isOpen_Iio.mem_nhds (by show min < min + h; linarith)
    have h5 : Set.Iio max ∈ nhds min := isOpen_Iio.mem_nhds hlt
    filter_upwards [mem_nhdsWithin_of_mem_nhds h4, mem_nhdsWithin_of_mem_nhds h5, self_mem_nhdsWithin] with z hz1 hz2 hz3
    rw [hin z hz3 hz2, glue_eq (i := 0) hpos]
    · have : min < z := hz3
      simp; exact this.le
    · have : z < min + h := hz1
      simp; exact this
  · intro i hi
    rw [hkn, hkn]
    have e : ∀ m : Nat → ℝ, ∃ a b c d : ℝ, ∀ x, piece y m min h i x = a + b * x + c * x ^ 2 + d * x ^ 3 := by
      intro m
      obtain ⟨k, hk⟩ : ∃ k, min + (i : ℝ) * h = k := ⟨_, rfl⟩
      obtain ⟨B, hB⟩ : ∃ B, (y (i + 1) - y i) / h - (m (i + 1) + 2 * m i) * h / 6 = B := ⟨_, rfl⟩
      obtain ⟨D, hD⟩ : ∃ D, (m (i + 1) - m i) / (6 * h) = D := ⟨_, rfl⟩
      refine ⟨y i - B * k + m i / 2 * k ^ 2 - D * k ^ 3, B - m i * k + 3 * D * k ^ 2, m i / 2 - 3 * D * k, D, fun x => ?_⟩
      simp only [piece, hk, hB]
      rw [mul_div_assoc _ (m (i + 1) - m i) (6 * h), hD]
      ring
    obtain ⟨a, b, c, d, he⟩ := e (curvatures T y n min max)
    refine ⟨a, b, c, d, fun x hx => ?_⟩
    have hx1 := hx.1
    have hx2 := hx.2
    push_cast at hx2
    have hi0 : (0 : ℝ) ≤ i * h := by positivity
    have hle : min + ((i : ℝ) + 1) * h ≤ max := by
      rw [← hN]
      have : ((i + 1 : Nat) : ℝ) ≤ ((n - 1 : Nat) : ℝ) := by exact_mod_cast (by omega : i + 1 ≤ n - 1)
      push_cast at this ⊢
      nlinarith
    rw [hin x (by linarith) (by linarith), glue_eq hpos hx1.le hx2, he]
  · have hN' : ∀ x ∈ Set.Ioo min max, x < min + ((n - 1 : Nat) : ℝ) * h := fun x hx => by rw [hN]; exact hx.2
    have d0 : ∀ x ∈ Set.Ioo min max, HasDerivAt (glue (piece y (curvatures T y n min max) min h) min h)
        (glue (piece' y (curvatures T y n min max) min h) min h x) x :=
      fun x hx => glue_hasDerivAt (n - 1) hpos (piece_deriv _ _ _ _) hm0 hm1 hx.1 (hN' x hx)
    have d1 : ∀ x ∈ Set.Ioo min max, HasDerivAt (glue (piece' y (curvatures T y n min max) min h) min h)
        (glue (piece'' (curvatures T y n min max) min h) min h x) x :=
      fun x hx => glue_hasDerivAt (n - 1) hpos (piece'_deriv _ _ _ _) hm1 hm2 hx.1 (hN' x hx)
    have d2 : ContinuousOn (glue (piece'' (curvatures T y n min max) min h) min h) (Set.Ioo min max) :=
      fun x hx => (glue_continuousAt (n - 1) hpos (piece''_continuous _ _ _) hm2 hx.1 (hN' x hx)).continuousWithinAt
    have c0 : ContDiffOn ℝ 0 (glue (piece'' (curvatures T y n min max) min h) min h) (Set.Ioo min max) := contDiffOn_zero.mpr d2
    have c1 : ContDiffOn ℝ (0 + 1) (glue (piece' y (curvatures T y n min max) min h) min h) (Set.Ioo min max) := by
      rw [contDiffOn_succ_iff_deriv_of_isOpen isOpen_Ioo]
      exact ⟨fun x hx => (d1 x hx).differentiableAt.differentiableWithinAt, by simp, c0.congr fun x hx => (d1 x hx).deriv⟩
    have c2 : ContDiffOn ℝ (0 + 1 + 1) (glue (piece y (curvatures T y n min max) min h) min h) (Set.Ioo min max) := by
      rw [contDiffOn_succ_iff_deriv_of_isOpen isOpen_Ioo]
      exact ⟨fun x hx => (d0 x hx).differentiableAt.differentiableWithinAt, by simp, c1.congr fun x hx => (d0 x hx).deriv⟩
    have : (2 : WithTop ℕ∞) = 0 + 1 + 1 := by norm_num
    rw [this]
    exact c2.congr fun x hx => hin x hx.1 hx.2
  · have hl : ContinuousWithinAt (spline mem T y address n min max) (Set.Iic max) max := by
      obtain ⟨k, hk⟩ : ∃ k, n - 1 = k + 1 := ⟨n - 2, by omega⟩
      have hmax : max = min + ((k : ℝ) + 1) * h := by rw [← hN, hk]; push_cast; ring
      have hv : piece y (curvatures T y n min max) min h k max = y (n - 1) := by
        rw [hmax, piece_match _ _ hpos k, hk]
        simp only [piece]; push_cast; ring
      refine ((piece_deriv y (curvatures T y n min max) min h k max).continuousAt.continuousWithinAt (s := Set.Iic max)).congr_of_eventuallyEq ?_ ?_
      · have hgt : min + (k : ℝ) * h < max := by rw [hmax]; nlinarith
        have hge : min ≤ min + (k : ℝ) * h := by have : (0 : ℝ) ≤ k * h := by positivity
                                                 linarith
        filter_upwards [mem_nhdsWithin_of_mem_nhds (isOpen_Ioi.mem_nhds (hgt : max ∈ Set.Ioi _)), self_mem_nhdsWithin] with z hz1 hz2
        have hz1 : min + (k : ℝ) * h < z := hz1
        rcases (show z ≤ max from hz2).lt_or_eq with h3 | h3
        · rw [hin z (by linarith) h3, glue_eq hpos hz1.le (by rw [← hmax]; exact h3)]
        · rw [h3, hout _ (le_refl _), hv]
      · rw [hout _ (le_refl _), hv]
    have hr : ContinuousWithinAt (spline mem T y address n min max) (Set.Ici max) max :=
      (continuousWithinAt_const (b := y (n - 1))).congr (fun z hz => hout z hz) (hout _ (le_refl _))
    have := hl.union hr
    rw [Set.Iic_union_Ici] at this
    exact (continuousWithinAt_univ _ _).mp this

/-- C41 (part).  The system that determines the curvatures can always be solved. -/
theorem spline_system_solvable (size : Nat) : ∃ T, Inverse size (system size) T := system_invertible size

example : ∃ T, (3 ≤ 5 ∧ (0 : ℝ) < 1) ∧ Inverse (5 - 2) (system (5 - 2)) T ∧
    spline (fun _ => 0) T (fun i => (i : ℝ) ^ 2) 7 5 0 1 (knot 5 0 1 2) = 4 := by
  obtain ⟨T, hT⟩ := spline_system_solvable 3
  refine ⟨T, ⟨by norm_num, by norm_num⟩, hT, ?_⟩
  have := (spline_smooth_partial (fun _ => 0) T (fun i => (i : ℝ) ^ 2) 7 5 0 1 (by norm_num) (by norm_num) hT).1 2 (by norm_num) (by norm_num)
  rw [this]; norm_num

/-- C41 (counterexample).  At the first knot, and below it, a spline takes the value of the last knot. -/
theorem spline_first_knot_counterexample (hn : 3 ≤ n) (x : ℝ) (hx : x ≤ min) :
    spline mem T y address n min max x = y (n - 1) ∧ knot n min max 0 = min ∧ (y 0 ≠ y (n - 1) → spline mem T y address n min max (knot n min max 0) ≠ y 0) := by
  have h1 : ∀ x, x ≤ min → spline mem T y address n min max x = y (n - 1) :=
    fun x hx => eval_outside mem T y address n (by omega) (fun h2 => absurd h2.1 (not_lt.mpr hx))
  have h2 : knot n min max 0 = min := by simp [knot]
  refine ⟨h1 x hx, h2, fun h => ?_⟩
  rw [h2, h1 min (le_refl _)]
  exact fun h3 => h h3.symm

example : ∃ y : Nat → ℝ, y 0 ≠ y (4 - 1) := ⟨fun i => i, by norm_num⟩

end AmpGen.Spline
