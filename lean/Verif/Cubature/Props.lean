import Verif.Cubature.LemmasSame
import Mathlib.MeasureTheory.Constructions.Pi
/-
C89: the rule for a box.  C90: the adaptive integration over a box of two dimensions or more.  C91: the integral over one dimension.
-/
namespace AmpGen.Cubature
open Spec
variable {n : ℕ}

/-! ### C89 -/

/-- The rule of degree seven: with the constants that the literals of the code stand for, a polynomial of degree at most seven is integrated
exactly, in any number of dimensions from two, and one of degree at most five is given no uncertainty. -/
theorem rule_exact [NeZero n] (hn : 2 ≤ n) (B : Box n) (hB : ∀ i, 0 ≤ B.half i) (p : MvPolynomial (Fin n) ℝ) :
    (p.totalDegree ≤ 7 → (integrateFp ideal (fun x => MvPolynomial.eval x p) B.mid B.half).1 = ∫ x in B.points, MvPolynomial.eval x p) ∧
      (p.totalDegree ≤ 5 → (integrateFp ideal (fun x => MvPolynomial.eval x p) B.mid B.half).2.1 = 0) := by
  refine ⟨fun h => rgnval_poly hn B hB p h, fun h => ?_⟩
  show |rgnval ideal _ B.mid B.half - rgncmp ideal _ B.mid B.half| = 0
  rw [rgnval_poly hn B hB p (h.trans (by norm_num)), rgncmp_poly hn B hB p h, sub_self, abs_zero]

example : (MvPolynomial.X 0 ^ 4 * MvPolynomial.X 1 ^ 2 + MvPolynomial.X 2 : MvPolynomial (Fin 3) ℝ).totalDegree ≤ 7 := by
  refine (MvPolynomial.totalDegree_add _ _).trans (max_le ((MvPolynomial.totalDegree_mul _ _).trans ?_) ?_)
  · rw [MvPolynomial.totalDegree_X_pow, MvPolynomial.totalDegree_X_pow]
    norm_num
  · rw [MvPolynomial.totalDegree_X]
    norm_num

/-- The literals of the code: in the dimensions for which there are weights, two to fifteen, the rule gives the integral of a polynomial of degree
at most seven, written in powers of the distance from the middle of the box, to within `10⁻¹⁵` of the sum of the sizes of its terms, and a
polynomial of degree at most five is given an uncertainty not above twice that. -/
theorem rule_literal [NeZero n] (hn : 2 ≤ n) (hn15 : n ≤ 15) (B : Box n) (hB : ∀ i, 0 ≤ B.half i) (A : Finset (Fin n → ℕ)) (k : (Fin n → ℕ) → ℝ)
    (F : (Fin n → ℝ) → ℝ) (hF : F = fun x => ∑ α ∈ A, k α * ∏ i, (x i - B.mid i) ^ α i) :
    ((∀ α ∈ A, ∑ i, α i ≤ 7) → |(integrateFp literal F B.mid B.half).1 - ∫ x in B.points, F x| ≤
        1e-15 * ∑ α ∈ A, |k α| * ((∏ i, 2 * B.half i) * ∏ i, B.half i ^ α i)) ∧
      ((∀ α ∈ A, ∑ i, α i ≤ 5) → (integrateFp literal F B.mid B.half).2.1 ≤
        2e-15 * ∑ α ∈ A, |k α| * ((∏ i, 2 * B.half i) * ∏ i, B.half i ^ α i)) := by
  have hF' : F = fun x => ∑ α ∈ A, k α * mono B.mid α x := hF
  have hvol : rgnvol B.half = ∏ i, 2 * B.half i := by
    unfold rgnvol
    rw [Finset.prod_mul_distrib, Finset.prod_const, Finset.card_univ, Fintype.card_fin]
  have hvol0 : 0 ≤ ∏ i, 2 * B.half i := Finset.prod_nonneg fun i _ => by have := hB i; linarith
  have hsize : ∀ α, size B.half α = ∏ i, B.half i ^ α i := fun α => by
    unfold size
    exact Finset.prod_congr rfl fun i _ => by rw [abs_of_nonneg (hB i)]
  have hint : B.integral F = ∑ α ∈ A, k α * (rgnvol B.half * mean B.half α) := by
    rw [hF', integral_linear _ _ _ _ (fun α => continuous_mono _ _)]
    exact Finset.sum_congr rfl fun α _ => by rw [integral_mono _ hB]
  have hval : (∀ α ∈ A, ∑ i, α i ≤ 7) → |rgnval literal F B.mid B.half - B.integral F| ≤
      1e-15 * ∑ α ∈ A, |k α| * ((∏ i, 2 * B.half i) * ∏ i, B.half i ^ α i) := by
    intro hA
    rw [hint, hF', rgnval_linear, ← Finset.sum_sub_distrib, Finset.mul_sum]
    refine (Finset.abs_sum_le_sum_abs _ _).trans (Finset.sum_le_sum fun α hα => ?_)
    rw [← mul_sub, abs_mul]
    have := rgnval_literal hn hn15 B.mid B.half α (hA α hα)
    rw [hsize, hvol, abs_of_nonneg hvol0] at this
    rw [hvol]
    calc |k α| * _ ≤ |k α| * _ := mul_le_mul_of_nonneg_left this (abs_nonneg _)
      _ = _ := by ring
  refine ⟨hval, fun hA => ?_⟩
  have hcmp : |rgncmp literal F B.mid B.half - B.integral F| ≤ 1e-15 * ∑ α ∈ A, |k α| * ((∏ i, 2 * B.half i) * ∏ i, B.half i ^ α i) := by
    rw [hint, hF', rgncmp_linear, ← Finset.sum_sub_distrib, Finset.mul_sum]
    refine (Finset.abs_sum_le_sum_abs _ _).trans (Finset.sum_le_sum fun α hα => ?_)
    rw [← mul_sub, abs_mul]
    have := rgncmp_literal hn hn15 B.mid B.half α (hA α hα)
    rw [hsize, hvol, abs_of_nonneg hvol0] at this
    rw [hvol]
    calc |k α| * _ ≤ |k α| * _ := mul_le_mul_of_nonneg_left this (abs_nonneg _)
      _ = _ := by ring
  have hv := hval fun α hα => (hA α hα).trans (by norm_num)
  show |rgnval literal F B.mid B.half - rgncmp literal F B.mid B.half| ≤ _
  have e : rgnval literal F B.mid B.half - rgncmp literal F B.mid B.half =
      (rgnval literal F B.mid B.half - B.integral F) - (rgncmp literal F B.mid B.half - B.integral F) := by ring
  rw [e]
  refine (abs_sub _ _).trans ?_
  calc _ ≤ 1e-15 * _ + 1e-15 * _ := add_le_add hv hcmp
    _ = _ := by ring

example : ∃ A : Finset (Fin 2 → ℕ), A.Nonempty ∧ (∀ α ∈ A, ∑ i, α i ≤ 5) :=
  ⟨{![4, 1], ![0, 0]}, ⟨![4, 1], by simp⟩, by intro α hα; fin_cases hα <;> simp⟩

/-- The function is evaluated in the box only: functions that agree there are given the same value, uncertainty and axis. -/
theorem rule_inside [NeZero n] (B : Box n) (hB : ∀ i, 0 ≤ B.half i) (F G : (Fin n → ℝ) → ℝ) (h : ∀ x ∈ B.points, F x = G x) :
    integrateFp literal F B.mid B.half = integrateFp literal G B.mid B.half :=
  rule_congr literal literal_le.1 literal_le.2.1 literal_le.2.2 B hB F G h

example : (⟨fun _ => 0, fun _ => 1⟩ : Box 2).points ≠ Set.univ ∧ ∀ i, 0 ≤ (⟨fun _ => 0, fun _ => 1⟩ : Box 2).half i := by
  refine ⟨fun h => ?_, fun _ => zero_le_one⟩
  have : (fun _ => 2 : Fin 2 → ℝ) ∈ (⟨fun _ => 0, fun _ => 1⟩ : Box 2).points := by rw [h]; trivial
  have := this.2 0
  simp only [Pi.add_apply] at this
  norm_num at this

/-- The axis is one along which the fourth difference of the function, taken from the five points on it, is the largest. -/
theorem rule_axis [NeZero n] (F : (Fin n → ℝ) → ℝ) (mid half : Fin n → ℝ) (j : Fin n) :
    let at_ (i : Fin n) (t : ℝ) : ℝ := F (Function.update mid i (mid i + t * half i))
    let fourth (i : Fin n) : ℝ := |7 * (at_ i (-literal.xl2) + at_ i literal.xl2) - (at_ i (-literal.xl4) + at_ i literal.xl4) - 12 * F mid|
    fourth j ≤ fourth (integrateFp literal F mid half).2.2 :=
  axis_max literal F mid half j

/-! ### C90 -/

theorem between_points (xmin xmax : Fin n → ℝ) : (between xmin xmax).points = Set.Icc xmin xmax := by
  have e1 : (between xmin xmax).mid - (between xmin xmax).half = xmin := by
    funext j; simp only [between, Pi.sub_apply]; ring
  have e2 : (between xmin xmax).mid + (between xmin xmax).half = xmax := by
    funext j; simp only [between, Pi.add_apply]; ring
  unfold Box.points
  rw [e1, e2]

/-- The integration ends, within a million and two turns of its loop whatever the function is.  The value is the sum of the values of the rule over a
collection of pieces obtained from the box by cutting again and again a piece of largest uncertainty in two, across the axis of the rule.  The
number of evaluations of the function, `irlcls` for every application of the rule, is at most a million.  The uncertainties add up to
less than `10⁻¹⁰` of the value, or the array is full, or another cut would need more than a million evaluations. -/
theorem integrate_adaptive [NeZero n] (hn15 : n ≤ 15) (c : Consts) (F : (Fin n → ℝ) → ℝ) (pi0 : ℕ → Region n) (xmin xmax : Fin n → ℝ) :
    ∃ r S, integrate c F pi0 xmin xmax (maxpts + 2) = some r ∧ Adaptive (integrateFp c F) (between xmin xmax) S ∧
      r = (S.map Piece.value).sum ∧ irlcls n * (2 * S.card - 1) ≤ maxpts ∧
      (((S.map Piece.error).sum < 1e-10 * (if r = 0 then 1 else |r|) ∧ 2 ≤ S.card) ∨
        arraySize n ≤ S.card + 1 ∨ maxpts < irlcls n * (2 * (S.card + 1) - 1)) := by
  obtain ⟨r, e, S, h1, h2, h3, h4⟩ := loop_inv (B := between xmin xmax) 1e-10 0 (maxpts + 2) (start pi0 xmin xmax) (start_inv pi0 xmin xmax)
    (by intro h; cases h) (fun _ => Nat.zero_le _) (by simp)
  refine ⟨r, S, e, h1, h2, h3.trans (max_le (irlcls_le hn15) le_rfl), ?_⟩
  have herr : 0 ≤ (S.map Piece.error).sum := by
    refine Multiset.sum_nonneg ?_
    intro x hx
    obtain ⟨P, hP, rfl⟩ := Multiset.mem_map.1 hx
    have : P.error = (P.box.piece (integrateFp c F)).error := by
      have hall : ∀ {T}, Adaptive (integrateFp c F) (between xmin xmax) T → ∀ Q ∈ T, Q = Q.box.piece (integrateFp c F) := by
        intro T hT
        induction hT with
        | start => intro Q hQ; rw [Multiset.mem_singleton] at hQ; subst hQ; rfl
        | cut P S _ _ ih =>
          intro Q hQ
          rw [Multiset.mem_cons, Multiset.mem_cons] at hQ
          rcases hQ with rfl | rfl | hQ
          · rfl
          · rfl
          · exact ih Q (Multiset.mem_cons_of_mem hQ)
      exact congrArg Piece.error (hall h1 P hP)
    rw [this]
    exact abs_nonneg _
  dsimp only at h4
  rcases h4 with (⟨_, h⟩ | ⟨h, hc⟩) | h | h
  · exact absurd h (not_lt.2 (abs_nonneg _))
  · refine .inl ⟨?_, hc⟩
    rcases h with h | h
    · by_cases h0 : r = 0
      · rw [if_pos (by rw [h0, abs_zero])] at h
        rw [if_pos h0, mul_one]
        exact h
      · rw [if_neg (by rwa [abs_eq_zero])] at h
        rw [if_neg h0]
        rwa [div_lt_iff₀ (abs_pos.2 h0)] at h
    · exact absurd h (not_lt.2 herr)
  · exact .inr (.inl (by omega))
  · exact .inr (.inr (by rwa [show 2 * (S.card + 1) - 1 = 2 * S.card + 1 by omega]))

/-- The pieces cover the box without overlap: the integration is off by the sum over the pieces of what the rule is off. -/
theorem integrate_error [NeZero n] (hn15 : n ≤ 15) (c : Consts) (F : (Fin n → ℝ) → ℝ) (pi0 : ℕ → Region n) (xmin xmax : Fin n → ℝ)
    (hle : xmin ≤ xmax) (hF : MeasureTheory.IntegrableOn F (Set.Icc xmin xmax)) :
    ∃ r, integrate c F pi0 xmin xmax (maxpts + 2) = some r ∧ ∃ S, Adaptive (integrateFp c F) (between xmin xmax) S ∧
      r - ∫ x in Set.Icc xmin xmax, F x = (S.map fun P => (integrateFp c F P.box.mid P.box.half).1 - ∫ x in P.box.points, F x).sum := by
  obtain ⟨r, S, e, h1, h2, -⟩ := integrate_adaptive hn15 c F pi0 xmin xmax
  refine ⟨r, e, S, h1, ?_⟩
  have hB : ∀ i, 0 ≤ (between xmin xmax).half i := fun i => by
    have := hle i; simp only [between]; linarith
  obtain ⟨g1, g2⟩ := adaptive_integral h1 hB F (by rwa [between_points])
  have e2 : (between xmin xmax).integral F = ∫ x in Set.Icc xmin xmax, F x := by unfold Box.integral; rw [between_points]
  rw [← e2, ← g2, h2, ← Multiset.sum_map_sub]
  refine congrArg _ (Multiset.map_congr rfl fun P hP => ?_)
  have : P.value = (P.box.piece (integrateFp c F)).value := congrArg Piece.value (g1 P hP).2.2
  rw [this]
  rfl

/-- With the constants that the literals stand for, polynomials of degree at most seven are integrated exactly. -/
theorem integrate_polynomial [NeZero n] (hn : 2 ≤ n) (hn15 : n ≤ 15) (p : MvPolynomial (Fin n) ℝ) (hp : p.totalDegree ≤ 7) (pi0 : ℕ → Region n)
    (xmin xmax : Fin n → ℝ) (hle : xmin ≤ xmax) :
    integrate ideal (fun x => MvPolynomial.eval x p) pi0 xmin xmax (maxpts + 2) = some (∫ x in Set.Icc xmin xmax, MvPolynomial.eval x p) := by
  have hcont : Continuous fun x : Fin n → ℝ => MvPolynomial.eval x p := MvPolynomial.continuous_eval p
  obtain ⟨r, e, S, h1, h2⟩ := integrate_error hn15 ideal (fun x => MvPolynomial.eval x p) pi0 xmin xmax hle
    (hcont.continuousOn.integrableOn_compact isCompact_Icc)
  have hB : ∀ i, 0 ≤ (between xmin xmax).half i := fun i => by
    have := hle i; simp only [between]; linarith
  rw [e]
  congr 1
  have : (S.map fun P => (integrateFp ideal (fun x => MvPolynomial.eval x p) P.box.mid P.box.half).1 - ∫ x in P.box.points, MvPolynomial.eval x p).sum = 0 := by
    refine Multiset.sum_eq_zero ?_
    intro x hx
    obtain ⟨P, hP, rfl⟩ := Multiset.mem_map.1 hx
    rw [sub_eq_zero]
    exact (rule_exact hn P.box (adaptive_inside h1 hB P hP).1 p).1 hp
  linarith

/-- The integration evaluates the function in the box only. -/
theorem integrate_inside [NeZero n] (F G : (Fin n → ℝ) → ℝ) (pi0 : ℕ → Region n) (xmin xmax : Fin n → ℝ) (hle : xmin ≤ xmax)
    (h : ∀ x ∈ Set.Icc xmin xmax, F x = G x) (fuel : ℕ) : integrate literal F pi0 xmin xmax fuel = integrate literal G pi0 xmin xmax fuel := by
  have hB : ∀ i, 0 ≤ (between xmin xmax).half i := fun i => by
    have := hle i; simp only [between]; linarith
  refine loop_congr hB 1e-10 0 (fun C hC hCB => ?_) fuel _ (start_inv pi0 xmin xmax)
  refine rule_inside C hC F G fun x hx => h x ?_
  have := hCB hx
  rwa [between_points] at this

/-- The values of the variables that come up in the loop. -/
inductive Visited [NeZero n] (c : Consts) (F : (Fin n → ℝ) → ℝ) (pi0 : ℕ → Region n) (xmin xmax : Fin n → ℝ) : State n → Prop where
  | start : Visited c F pi0 xmin xmax (start pi0 xmin xmax)
  | turn (s s' : State n) : Visited c F pi0 xmin xmax s → turn (integrateFp c F) 1e-10 0 s = .go s' → Visited c F pi0 xmin xmax s'

/-- The loop stays in the array, and the content of the array before the loop does not matter. -/
theorem integrate_array [NeZero n] (hn15 : n ≤ 15) (c : Consts) (F : (Fin n → ℝ) → ℝ) (pi0 : ℕ → Region n) (xmin xmax : Fin n → ℝ) :
    (∀ s, Visited c F pi0 xmin xmax s → s.cur < arraySize n ∧ s.isbrgn < arraySize n ∧ s.isbrgs < arraySize n) ∧
      ∀ (pi1 : ℕ → Region n) (fuel : ℕ), integrate c F pi1 xmin xmax fuel = integrate c F pi0 xmin xmax fuel := by
  constructor
  · intro s hs
    have hi : Inv (integrateFp c F) (between xmin xmax) s := by
      induction hs with
      | start => exact start_inv pi0 xmin xmax
      | turn s s' _ e ih =>
        cases hl : s.ldv
        · rcases turn_up 1e-10 0 hl ih with ⟨t, e', hi', _⟩ | ⟨r, e', _⟩
          · rw [e'] at e; cases e; exact hi'
          · rw [e'] at e; cases e
        · obtain ⟨t, e', hi', _⟩ := turn_down 1e-10 0 hl ih
          rw [e'] at e; cases e; exact hi'
    have := inv_bounds hn15 hi
    exact ⟨this.1, this.2.1, this.2.2.1⟩
  · intro pi1 fuel
    refine loop_same (B := between xmin xmax) 1e-10 0 fuel _ _ (start_inv pi1 xmin xmax) ⟨rfl, rfl, rfl, rfl, rfl, rfl, rfl, rfl, ?_, ?_, ?_⟩
    · intro k hk1 hk2 hk3
      have hk2' : k ≤ 1 := hk2
      have hk3' : k ≠ 1 := hk3
      omega
    · simp only [start, Function.update_self]
    · simp only [start, Function.update_self]

/-- Weights of ones everywhere: an integration that cuts the box at least once. -/
example : arraySize 2 = 29412 ∧ irlcls 2 = 17 := by decide +kernel

/-! ### C91 -/

/-- The integral of a function of one number is dropped: it is zero whatever the library gives. -/
theorem integrateOne_counterexample :
    ∃ (gsl : (ℝ → ℝ) → ℝ → ℝ → ℝ) (F : ℝ → ℝ), (∀ G a b, gsl G a b = ∫ x in a..b, G x) ∧ gsl F 0 1 = 1 ∧ integrateOne gsl F 0 1 = 0 :=
  ⟨fun G a b => ∫ x in a..b, G x, fun _ => 1, fun _ _ _ => rfl, by simp, rfl⟩

/-- The integral of a function of an array of one number is that of the library. -/
theorem integrateOne_array_partial (gsl : (ℝ → ℝ) → ℝ → ℝ → ℝ) (hgsl : ∀ G a b, gsl G a b = ∫ x in a..b, G x) (F : (Fin 1 → ℝ) → ℝ) (a b : ℝ) (hab : a ≤ b) :
    integrateOneArray gsl F a b = ∫ x in Set.Icc (fun _ => a) (fun _ => b), F x := by
  unfold integrateOneArray
  rw [hgsl, intervalIntegral.integral_of_le hab, ← MeasureTheory.integral_Icc_eq_integral_Ioc]
  have hmp := MeasureTheory.volume_preserving_funUnique (Fin 1) ℝ
  have := hmp.setIntegral_preimage_emb (MeasurableEquiv.measurableEmbedding _) (fun x => F fun _ => x) (Set.Icc a b)
  rw [← this]
  have hset : ⇑(MeasurableEquiv.funUnique (Fin 1) ℝ) ⁻¹' Set.Icc a b = Set.Icc (fun _ => a) (fun _ => b) := by
    ext x
    simp [MeasurableEquiv.funUnique, Pi.le_def]
  rw [hset]
  refine MeasureTheory.setIntegral_congr_fun measurableSet_Icc fun x _ => ?_
  show (F fun _ => x default) = F x
  congr 1
  funext i
  rw [Subsingleton.elim i default]

end AmpGen.Cubature
