import Verif.SplineShapes.Model
import Verif.Strings.Lemmas
import Verif.Lineshapes.Props
import Mathlib.Analysis.SpecialFunctions.ExpDeriv
/-
C147: lineshapes given by splines.
-/
namespace AmpGen.SplineShapes

open AmpGen.Lineshapes (Q2 kFactor)
open AmpGen.Shapes (quot)
open AmpGen.Strings (Str)
open AmpGen.Spline
open Complex (I)

/-! ### Splines are linear in their knots -/

theorem second_affine (y : Nat → ℝ) (c d : ℝ) (j : Nat) : second (fun i => c * y i + d) j = c * second y j := by
  unfold second; ring

theorem curvatures_affine (T : Nat → Nat → ℝ) (y : Nat → ℝ) (n : Nat) (min max c d : ℝ) (k : Nat) :
    curvatures T (fun i => c * y i + d) n min max k = c * curvatures T y n min max k := by
  rw [curvatures_eq, curvatures_eq]
  split
  · rw [Finset.mul_sum]
    refine Finset.sum_congr rfl fun j _ => ?_
    rw [second_affine]; ring
  · rw [mul_zero]

theorem piece_affine (y m m' : Nat → ℝ) (a h c d : ℝ) (hm : ∀ k, m' k = c * m k) (i : Nat) (x : ℝ) :
    piece (fun i => c * y i + d) m' a h i x = c * piece y m a h i x + d := by
  simp only [piece, hm]; ring

/-- C147.  A spline is linear in its knots: scaled and shifted knots give the scaled and shifted spline. -/
theorem spline_affine (mem : Memory) (T : Nat → Nat → ℝ) (y : Nat → ℝ) (address n : Nat) (min max : ℝ) (hn : 2 ≤ n) (hlt : min < max) (c d x : ℝ) :
    spline mem T (fun i => c * y i + d) address n min max x = c * spline mem T y address n min max x + d := by
  unfold spline
  have hn1 : (0 : ℝ) < (n : ℝ) - 1 := by
    have : (2 : ℝ) ≤ n := by exact_mod_cast hn
    linarith
  by_cases hx : min < x ∧ x < max
  · rw [eval_inside mem T _ address n hn rfl (div_pos (by linarith) hn1) hx.1 hx.2,
      eval_inside mem T _ address n hn rfl (div_pos (by linarith) hn1) hx.1 hx.2]
    unfold glue
    exact piece_affine _ _ _ _ _ _ _ (curvatures_affine T y n min max c d) _ _
  · rw [eval_outside mem T _ address n hn hx, eval_outside mem T _ address n hn hx]

/-! ### MIPWA -/

/-- C147.  The model-independent amplitude takes at every knot but the first the complex number of that knot, given by its real and imaginary part or, with the
modifier `Polar`, by modulus and phase, and has two continuous derivatives in between. -/
theorem mipwa_partial (mem : Memory) (T : Nat → Nat → ℝ) (re im : Nat → ℝ) (a b n : Nat) (min max : ℝ) (hn : 3 ≤ n) (hlt : min < max)
    (hT : Inverse (n - 2) (system (n - 2)) T) (modifier : Str) :
    let A := MIPWA modifier (spline mem T re a n min max) (spline mem T im b n min max)
    (∀ i, 0 < i → i < n → A (knot n min max i) =
      if modifier = "Polar".toList then (re i : ℂ) * Complex.exp (I * im i) else (re i : ℂ) + I * im i) ∧
    ContDiffOn ℝ 2 A (Set.Ioo min max) := by
  intro A
  obtain ⟨r1, _, _, r2, _⟩ := spline_smooth_partial mem T re a n min max hn hlt hT
  obtain ⟨i1, _, _, i2, _⟩ := spline_smooth_partial mem T im b n min max hn hlt hT
  have hA : ∀ s, A s = if modifier = "Polar".toList then (spline mem T re a n min max s : ℂ) * Complex.exp (I * spline mem T im b n min max s)
      else (spline mem T re a n min max s : ℂ) + I * spline mem T im b n min max s := by
    intro s
    show MIPWA _ _ _ _ = _
    unfold MIPWA
    simp only
    by_cases h : modifier = "Polar".toList
    · rw [if_neg (not_not.mpr h), if_pos h, mul_comm I (spline mem T im b n min max s : ℂ), Complex.exp_mul_I, Complex.ofReal_cos, Complex.ofReal_sin,
        mul_comm I]
    · rw [if_pos h, if_neg h]
  have ofReal : ∀ f : ℝ → ℝ, ContDiffOn ℝ 2 f (Set.Ioo min max) → ContDiffOn ℝ 2 (fun s => (f s : ℂ)) (Set.Ioo min max) :=
    fun f hf => (Complex.ofRealCLM.contDiff.of_le le_top).comp_contDiffOn hf
  constructor
  · intro i h0 hi
    rw [hA, r1 i h0 hi, i1 i h0 hi]
  · rw [show A = _ from funext hA]
    by_cases h : modifier = "Polar".toList
    · simp only [if_pos h]
      exact ContDiffOn.mul (ofReal _ r2) (ContDiffOn.cexp (ContDiffOn.mul contDiffOn_const (ofReal _ i2)))
    · simp only [if_neg h]
      exact ContDiffOn.add (ofReal _ r2) (ContDiffOn.mul contDiffOn_const (ofReal _ i2))

/-- C147.  Outside the range of the knots, and at the first knot, the amplitude is that of the last knot, with and without the modifier `continue`. -/
theorem mipwa_outside_counterexample (mem : Memory) (T : Nat → Nat → ℝ) (re im : Nat → ℝ) (a b n : Nat) (min max : ℝ) (hn : 3 ≤ n) (s : ℝ)
    (hs : s ≤ min) :
    MIPWA [] (spline mem T re a n min max) (spline mem T im b n min max) s = (re (n - 1) : ℂ) + I * im (n - 1) ∧
    MIPWA "continue".toList (spline mem T re a n min max) (spline mem T im b n min max) s = (re (n - 1) : ℂ) + I * im (n - 1) := by
  have h1 := (spline_first_knot_counterexample mem T re a n min max hn s hs).1
  have h2 := (spline_first_knot_counterexample mem T im b n min max hn s hs).1
  unfold MIPWA
  simp only [h1, h2]
  exact ⟨if_pos (by decide), if_pos (by decide)⟩

/-- C147.  With two modifiers the amplitude is not polar: a modulus of one and a phase of zero give one, and one plus zero times `i` too, but a phase of `π`
gives `1 + π i` and not `-1`. -/
theorem mipwa_polar_counterexample :
    MIPWA "Polar".toList (fun _ => 1) (fun _ => Real.pi) 1 = -1 ∧
    MIPWA "Polar.continue".toList (fun _ => 1) (fun _ => Real.pi) 1 = 1 + I * Real.pi := by
  constructor
  · unfold MIPWA
    simp only [ne_eq, not_true_eq_false, if_false, Real.cos_pi, Real.sin_pi]
    simp
  · unfold MIPWA
    simp only
    rw [if_pos (by decide)]
    simp

/-! ### GSpline -/

/-- C147.  The resonance with a width from a spline: a Breit-Wigner whose width runs like the spline and is the width of the resonance at its mass, and whose
mass is shifted like the other spline and not at the mass.  The density has the corresponding form. -/
theorem gspline (modifier : Str) (gamma dm2 : ℝ → ℝ) (mass width0 radius : ℝ) (L : Nat) (s1 s2 : ℝ)
    (hm : mass ≠ 0) (hw : width0 ≠ 0) (hg : gamma (mass * mass) ≠ 0) :
    ∃ Γ Δ : ℝ → ℝ, Γ (mass ^ 2) = width0 ∧ Δ (mass ^ 2) = 0 ∧ (∀ s, Γ s * gamma (mass ^ 2) = width0 * gamma s) ∧
      (has modifier "Dis".toList = false → ∀ s, Δ s = 0) ∧
      (has modifier "Dis".toList = true → ∀ s, Δ s = dm2 s - dm2 (mass ^ 2)) ∧
      ∀ s, gamma s ≠ 0 → ∃ A, GSpline modifier gamma dm2 s s1 s2 mass width0 radius L = some A ∧
        A * (mass ^ 2 + Δ s - s - I * mass * Γ s) = (kFactor mass width0 * formFactor modifier s s1 s2 radius L : ℝ) ∧
        Complex.normSq A * ((mass ^ 2 + Δ s - s) ^ 2 + (mass * Γ s) ^ 2) = (kFactor mass width0 * formFactor modifier s s1 s2 radius L) ^ 2 := by
  have e : mass ^ 2 = mass * mass := pow_two mass
  refine ⟨fun s => width0 * gamma s / gamma (mass * mass), fun s => if has modifier "Dis".toList then dm2 s - dm2 (mass * mass) else 0, ?_, ?_, ?_, ?_, ?_, ?_⟩
  · simp only [e]
    exact mul_div_cancel_right₀ _ hg
  · simp only [e, sub_self, ite_self]
  · intro s
    simp only [e]
    exact div_mul_cancel₀ _ hg
  · intro h s
    simp only [h]
    rfl
  · intro h s
    simp only [h, e]
    rfl
  · intro s hs
    simp only
    obtain ⟨G, hG⟩ : ∃ G, width0 * gamma s / gamma (mass * mass) = G := ⟨_, rfl⟩
    obtain ⟨D, hD⟩ : ∃ D, (if has modifier "Dis".toList = true then dm2 s - dm2 (mass * mass) else 0) = D := ⟨_, rfl⟩
    obtain ⟨k, hk⟩ : ∃ k, kFactor mass width0 * formFactor modifier s s1 s2 radius L = k := ⟨_, rfl⟩
    have hG0 : G ≠ 0 := by
      rw [← hG]
      exact div_ne_zero (mul_ne_zero hw hs) hg
    have hne : ((mass : ℂ) ^ 2 + D - s - I * mass * G) ≠ 0 := by
      intro h
      have := congrArg Complex.im h
      simp [pow_two] at this
      rcases this with h | h
      · exact hm h
      · exact hG0 h
    have hval : GSpline modifier gamma dm2 s s1 s2 mass width0 radius L = some ((k : ℂ) / ((mass : ℂ) ^ 2 + D - s - I * mass * G)) := by
      unfold GSpline
      simp only
      rw [if_neg hg, hG, hk]
      have hden : (((if has modifier "Dis".toList = true then mass * mass + dm2 s - dm2 (mass * mass) else mass * mass : ℝ) : ℂ) - I * mass * G - s)
          = (mass : ℂ) ^ 2 + D - s - I * mass * G := by
        rw [← hD]
        split <;> push_cast <;> ring
      rw [hden]
      exact if_neg hne
    rw [hG, hD, hk]
    refine ⟨_, hval, div_mul_cancel₀ _ hne, ?_⟩
    have hns : Complex.normSq ((mass : ℂ) ^ 2 + D - s - I * mass * G) = (mass ^ 2 + D - s) ^ 2 + (mass * G) ^ 2 := by
      rw [show (mass : ℂ) ^ 2 + D - s - I * mass * G = ((mass ^ 2 + D - s : ℝ) : ℂ) + ((-(mass * G) : ℝ) : ℂ) * I by push_cast; ring,
        Complex.normSq_add_mul_I]
      ring
    have hpos : (mass ^ 2 + D - s) ^ 2 + (mass * G) ^ 2 ≠ 0 := by
      rw [← hns]
      exact (Complex.normSq_pos.mpr hne).ne'
    rw [Complex.normSq_div, hns, Complex.normSq_ofReal]
    field_simp

/-- C147.  Only the shape of the spline of the width matters, and only differences in the spline of the mass: other units for the knots, or another origin of
the mass shift, do not change the lineshape. -/
theorem gspline_units (mem : Memory) (T : Nat → Nat → ℝ) (g d : Nat → ℝ) (a b n : Nat) (min max : ℝ) (hn : 2 ≤ n) (hlt : min < max)
    (modifier : Str) (c e : ℝ) (hc : c ≠ 0) (s s1 s2 mass width0 radius : ℝ) (L : Nat) :
    GSpline modifier (spline mem T (fun i => c * g i) a n min max) (spline mem T (fun i => d i + e) b n min max) s s1 s2 mass width0 radius L =
    GSpline modifier (spline mem T g a n min max) (spline mem T d b n min max) s s1 s2 mass width0 radius L := by
  have h1 : ∀ x, spline mem T (fun i => c * g i) a n min max x = c * spline mem T g a n min max x := by
    intro x
    have := spline_affine mem T g a n min max hn hlt c 0 x
    simpa using this
  have h2 : ∀ x, spline mem T (fun i => d i + e) b n min max x = spline mem T d b n min max x + e := by
    intro x
    have := spline_affine mem T d b n min max hn hlt 1 e x
    simpa using this
  unfold GSpline
  simp only [h1, h2]
  obtain ⟨x, hx⟩ : ∃ x, spline mem T g a n min max (mass * mass) = x := ⟨_, rfl⟩
  obtain ⟨y, hy⟩ : ∃ y, spline mem T g a n min max s = y := ⟨_, rfl⟩
  rw [hx, hy]
  by_cases h : x = 0
  · rw [if_pos (by rw [h, mul_zero]), if_pos h]
  · rw [if_neg (mul_ne_zero hc h), if_neg h]
    have hw : width0 * (c * y) / (c * x) = width0 * y / x := by field_simp
    have hs : ∀ p q : ℝ, mass * mass + (p + e) - (q + e) = mass * mass + p - q := fun p q => by ring
    rw [hw, hs]

/-- A word is found in a modifier when it is a part of it. -/
theorem has_iff (modifier word : Str) : has modifier word = true ↔ word <:+: modifier := by
  unfold has
  rw [Option.isSome_iff_exists]
  constructor
  · rintro ⟨p, h⟩
    obtain ⟨_, _, h3, _⟩ := Strings.find_some h
    exact h3.isInfix.trans (List.drop_suffix p modifier).isInfix
  · rintro ⟨a, b, h⟩
    cases hf : Strings.find modifier word 0 with
    | some p => exact ⟨p, rfl⟩
    | none =>
      refine absurd ?_ (Strings.find_none hf a.length (Nat.zero_le _) (by rw [← h]; simp))
      rw [← h, List.append_assoc, List.drop_left]
      exact List.prefix_append _ _

/-- C147.  The form factor of the resonance, for the momentum `q` of the decay in units of the inverse radius: a Gaussian with `EFF`, otherwise with `BL` the
Blatt-Weisskopf factor that is one at `q = 1`, otherwise the one that is one at `q = 0` (up to `L = 3`). -/
theorem gspline_form_factor_partial (modifier : Str) (s s1 s2 radius z : ℝ) (L : Nat) (hz : z = |Q2 s s1 s2| * radius ^ 2) :
    let F := formFactor modifier s s1 s2 radius L
    0 ≤ F ∧
    ("EFF".toList <:+: modifier → F = Real.exp (-(z / 2))) ∧
    (¬ "EFF".toList <:+: modifier → "BL".toList <:+: modifier → L ≤ 4 → F ^ 2 = Lineshapes.Spec.penetration L z / Lineshapes.Spec.penetration L 1) ∧
    (¬ "EFF".toList <:+: modifier → ¬ "BL".toList <:+: modifier → L ≤ 3 → F ^ 2 * Lineshapes.Spec.hankel L z = Lineshapes.Spec.hankel L 0) := by
  intro F
  have hz0 : 0 ≤ z := by rw [hz]; positivity
  have e1 : |Q2 s s1 s2| * radius * radius = z := by rw [hz]; ring
  have e2 : -|Q2 s s1 s2| * radius * radius / 2 = -(z / 2) := by rw [hz]; ring
  have hF : F = if has modifier "EFF".toList then Real.exp (-(z / 2)) else
      if has modifier "BL".toList then √(Lineshapes.blattWeisskopf z L) else √(Lineshapes.blattWeisskopfNorm z 0 L) := by
    show formFactor _ _ _ _ _ _ = _
    unfold formFactor
    simp only [e1, e2]
  refine ⟨?_, ?_, ?_, ?_⟩
  · rw [hF]
    split
    · positivity
    · split <;> positivity
  · intro h
    rw [hF, if_pos ((has_iff _ _).mpr h)]
  · intro h1 h2 hL
    rw [hF, if_neg (mt (has_iff _ _).mp h1), if_pos ((has_iff _ _).mpr h2), Lineshapes.barrier_normalised L hL z hz0,
      Real.sq_sqrt (div_nonneg (Lineshapes.penetration_nonneg L z hz0) (Lineshapes.penetration_nonneg L 1 zero_le_one))]
  · intro h1 h2 hL
    have hp := Lineshapes.hankel_pos L z hz0
    rw [hF, if_neg (mt (has_iff _ _).mp h1), if_neg (mt (has_iff _ _).mp h2), Lineshapes.barrier_ratio_partial L hL,
      Real.sq_sqrt (div_nonneg (Lineshapes.hankel_pos L 0 le_rfl).le hp.le), div_mul_cancel₀ _ hp.ne']

/-- C147.  The other two lineshapes: the spline in the break-up momentum, and a Breit-Wigner with the spline as form factor. -/
theorem form_factor_splines (ff : ℝ → ℝ) (s s1 s2 mass width0 radius : ℝ) (L : Nat) :
    DecaySpline ff s s1 s2 = ff (Q2 s s1 s2) ∧
    ∀ A, FormFactorSpline ff s s1 s2 mass width0 radius L = some A →
      A * (mass ^ 2 - s - I * mass * (Lineshapes.runningWidth s s1 s2 mass width0 radius L : ℝ)) = ff s := by
  refine ⟨rfl, fun A hA => ?_⟩
  unfold FormFactorSpline quot at hA
  split at hA
  · exact absurd hA (by simp)
  · rename_i h
    rw [← Option.some.inj hA, show (mass : ℂ) ^ 2 - s - I * mass * (Lineshapes.runningWidth s s1 s2 mass width0 radius L : ℝ) =
      -(s : ℂ) + mass * mass - I * mass * (Lineshapes.runningWidth s s1 s2 mass width0 radius L : ℝ) by ring]
    exact div_mul_cancel₀ _ h

/-- C147.  Three numbers in one option or in three options configure the same spline. -/
theorem spline_options (n : Nat) (min max N a b : ℝ) :
    configuration [(n : ℝ), min, max] N a b = (n, min, max) ∧ configuration [] (n : ℝ) min max = (n, min, max) := by
  unfold configuration
  simp

example : ∃ T, Inverse (5 - 2) (system (5 - 2)) T ∧
    MIPWA [] (spline (fun _ => 0) T (fun i => (i : ℝ)) 7 5 0 1) (spline (fun _ => 0) T (fun i => (i : ℝ) ^ 2) 17 5 0 1) (knot 5 0 1 2) = 2 + I * 4 := by
  obtain ⟨T, hT⟩ := spline_system_solvable 3
  refine ⟨T, hT, ?_⟩
  have := (mipwa_partial (fun _ => 0) T (fun i => (i : ℝ)) (fun i => (i : ℝ) ^ 2) 7 17 5 0 1 (by norm_num) (by norm_num) hT []).1 2 (by norm_num) (by norm_num)
  rw [this, if_neg (by decide)]
  norm_num

example : formFactor "Dis.EFF".toList 5 0 0 2 1 = Real.exp (-(5 / 2)) := by
  have h := (gspline_form_factor_partial "Dis.EFF".toList 5 0 0 2 5 1 (by norm_num [Lineshapes.Q2])).2.1 ⟨"Dis.".toList, [], by decide⟩
  exact h

example : ∃ A, GSpline "EFF".toList (fun s => s) (fun s => s) 2 0.1 0.1 1 0.3 1.5 0 = some A := by
  obtain ⟨_, _, _, _, _, _, _, h⟩ := gspline "EFF".toList (fun s => s) (fun s => s) 1 0.3 1.5 0 0.1 0.1 (by norm_num) (by norm_num) (by norm_num)
  obtain ⟨A, hA, _⟩ := h 2 (by norm_num)
  exact ⟨A, hA⟩

end AmpGen.SplineShapes
