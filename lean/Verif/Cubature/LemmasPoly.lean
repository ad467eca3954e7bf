import Verif.Cubature.LemmasExact
import Mathlib.Algebra.MvPolynomial.Degrees
import Mathlib.Algebra.MvPolynomial.Monad
import Mathlib.Topology.Algebra.MvPolynomial
/-
From products of powers to polynomials, and from a box to its halves: helper lemmas.
-/
namespace AmpGen.Cubature
open Spec
variable {n : ℕ}

/-! ### The rule is linear -/

theorem sum_linear {ι : Type*} (s : Finset ι) (k : ι → ℝ) (c : Consts) (F : ι → (Fin n → ℝ) → ℝ) (a b : Fin n → ℝ) :
    sum1 (fun x => ∑ t ∈ s, k t * F t x) a = ∑ t ∈ s, k t * sum1 (F t) a ∧
      sum2 c (fun x => ∑ t ∈ s, k t * F t x) a b = ∑ t ∈ s, k t * sum2 c (F t) a b ∧
      sum3 c (fun x => ∑ t ∈ s, k t * F t x) a b = ∑ t ∈ s, k t * sum3 c (F t) a b ∧
      sum4 c (fun x => ∑ t ∈ s, k t * F t x) a b = ∑ t ∈ s, k t * sum4 c (F t) a b ∧
      sum5 c (fun x => ∑ t ∈ s, k t * F t x) a b = ∑ t ∈ s, k t * sum5 c (F t) a b := by
  refine ⟨rfl, ?_, ?_, ?_, ?_⟩
  · unfold sum2 f2 eval
    simp only [Finset.mul_sum]
    rw [Finset.sum_comm]
    refine Finset.sum_congr rfl fun j _ => ?_
    rw [← Finset.sum_add_distrib]
    exact Finset.sum_congr rfl fun t _ => by ring
  · unfold sum3 f3 eval
    simp only [Finset.mul_sum]
    rw [Finset.sum_comm]
    refine Finset.sum_congr rfl fun j _ => ?_
    rw [← Finset.sum_add_distrib]
    exact Finset.sum_congr rfl fun t _ => by ring
  · unfold sum4 eval2
    simp only [Finset.mul_sum]
    conv_rhs => rw [Finset.sum_comm]
    refine Finset.sum_congr rfl fun j _ => ?_
    conv_rhs => rw [Finset.sum_comm]
    refine Finset.sum_congr rfl fun l _ => ?_
    split
    · rw [← Finset.sum_add_distrib, ← Finset.sum_add_distrib, ← Finset.sum_add_distrib]
      exact Finset.sum_congr rfl fun t _ => by ring
    · simp
  · unfold sum5
    simp only [Finset.mul_sum]
    rw [Finset.sum_comm]

theorem rgnval_linear {ι : Type*} (s : Finset ι) (k : ι → ℝ) (c : Consts) (F : ι → (Fin n → ℝ) → ℝ) (a b : Fin n → ℝ) :
    rgnval c (fun x => ∑ t ∈ s, k t * F t x) a b = ∑ t ∈ s, k t * rgnval c (F t) a b := by
  obtain ⟨e1, e2, e3, e4, e5⟩ := sum_linear s k c F a b
  unfold rgnval
  rw [e1, e2, e3, e4, e5]
  simp only [Finset.mul_sum, mul_add, Finset.sum_add_distrib]
  refine congrArg₂ (· + ·) (congrArg₂ (· + ·) (congrArg₂ (· + ·) (congrArg₂ (· + ·) ?_ ?_) ?_) ?_) ?_ <;>
    exact Finset.sum_congr rfl fun t _ => by ring

theorem rgncmp_linear {ι : Type*} (s : Finset ι) (k : ι → ℝ) (c : Consts) (F : ι → (Fin n → ℝ) → ℝ) (a b : Fin n → ℝ) :
    rgncmp c (fun x => ∑ t ∈ s, k t * F t x) a b = ∑ t ∈ s, k t * rgncmp c (F t) a b := by
  obtain ⟨e1, e2, e3, e4, -⟩ := sum_linear s k c F a b
  unfold rgncmp
  rw [e1, e2, e3, e4]
  simp only [Finset.mul_sum, mul_add, Finset.sum_add_distrib]
  refine congrArg₂ (· + ·) (congrArg₂ (· + ·) (congrArg₂ (· + ·) ?_ ?_) ?_) ?_ <;>
    exact Finset.sum_congr rfl fun t _ => by ring

theorem continuous_mono (a : Fin n → ℝ) (α : Fin n → ℕ) : Continuous (mono a α) := by
  unfold mono
  fun_prop

theorem integrableOn_box (B : Box n) {F : (Fin n → ℝ) → ℝ} (hF : Continuous F) : MeasureTheory.IntegrableOn F B.points :=
  hF.continuousOn.integrableOn_compact isCompact_Icc

theorem integral_linear {ι : Type*} (s : Finset ι) (k : ι → ℝ) (F : ι → (Fin n → ℝ) → ℝ) (B : Box n) (hF : ∀ t, Continuous (F t)) :
    B.integral (fun x => ∑ t ∈ s, k t * F t x) = ∑ t ∈ s, k t * B.integral (F t) := by
  unfold Box.integral
  rw [MeasureTheory.integral_finsetSum]
  · exact Finset.sum_congr rfl fun t _ => MeasureTheory.integral_const_mul _ _
  · intro t _
    exact integrableOn_box B (continuous_const.mul (hF t))

/-! ### A polynomial around a point -/

theorem expand (a : Fin n → ℝ) (p : MvPolynomial (Fin n) ℝ) :
    ∃ (A : Finset (Fin n →₀ ℕ)) (k : (Fin n →₀ ℕ) → ℝ), (∀ α ∈ A, ∑ i, α i ≤ p.totalDegree) ∧
      (fun x => MvPolynomial.eval x p) = fun x => ∑ α ∈ A, k α * mono a α x := by
  obtain ⟨q, hq⟩ : ∃ q, MvPolynomial.bind₁ (fun i => MvPolynomial.X i + MvPolynomial.C (a i)) p = q := ⟨_, rfl⟩
  have hdeg : q.totalDegree ≤ p.totalDegree := by
    rw [← hq]
    conv_lhs => rw [p.as_sum]
    rw [map_sum]
    refine (MvPolynomial.totalDegree_finsetSum _ _).trans (Finset.sup_le fun m hm => ?_)
    rw [MvPolynomial.bind₁_monomial]
    refine (MvPolynomial.totalDegree_mul _ _).trans ?_
    rw [MvPolynomial.totalDegree_C, zero_add]
    refine (MvPolynomial.totalDegree_finsetProd _ _).trans ?_
    refine le_trans ?_ (MvPolynomial.le_totalDegree hm)
    refine Finset.sum_le_sum fun i _ => ?_
    refine (MvPolynomial.totalDegree_pow _ _).trans ?_
    have : (MvPolynomial.X i + MvPolynomial.C (a i) : MvPolynomial (Fin n) ℝ).totalDegree ≤ 1 := by
      refine (MvPolynomial.totalDegree_add _ _).trans ?_
      rw [MvPolynomial.totalDegree_X, MvPolynomial.totalDegree_C]
      simp
    calc m i * _ ≤ m i * 1 := Nat.mul_le_mul_left _ this
      _ = m i := Nat.mul_one _
  refine ⟨q.support, q.coeff, fun α hα => ?_, ?_⟩
  · have := MvPolynomial.le_totalDegree hα
    rw [Finsupp.sum_fintype _ _ (fun _ => rfl)] at this
    exact this.trans hdeg
  · funext x
    have e : MvPolynomial.eval x p = MvPolynomial.eval (fun i => x i - a i) q := by
      rw [← hq]
      unfold MvPolynomial.eval
      rw [MvPolynomial.eval₂Hom_bind₁]
      congr 2
      funext i
      simp
    rw [e, MvPolynomial.eval_eq']
    rfl

theorem rgnval_poly (hn : 2 ≤ n) (B : Box n) (hB : ∀ i, 0 ≤ B.half i) (p : MvPolynomial (Fin n) ℝ) (hp : p.totalDegree ≤ 7) :
    rgnval ideal (fun x => MvPolynomial.eval x p) B.mid B.half = B.integral (fun x => MvPolynomial.eval x p) := by
  obtain ⟨A, k, hA, e⟩ := expand B.mid p
  rw [e, rgnval_linear, integral_linear _ _ _ _ (fun α => continuous_mono _ _)]
  refine Finset.sum_congr rfl fun α hα => ?_
  rw [rgnval_mono hn _ _ _ ((hA α hα).trans hp), integral_mono _ hB]

theorem rgncmp_poly (hn : 2 ≤ n) (B : Box n) (hB : ∀ i, 0 ≤ B.half i) (p : MvPolynomial (Fin n) ℝ) (hp : p.totalDegree ≤ 5) :
    rgncmp ideal (fun x => MvPolynomial.eval x p) B.mid B.half = B.integral (fun x => MvPolynomial.eval x p) := by
  obtain ⟨A, k, hA, e⟩ := expand B.mid p
  rw [e, rgncmp_linear, integral_linear _ _ _ _ (fun α => continuous_mono _ _)]
  refine Finset.sum_congr rfl fun α hα => ?_
  rw [rgncmp_mono hn _ _ _ ((hA α hα).trans hp), integral_mono _ hB]

/-! ### The two halves of a box -/

theorem halves (B : Box n) (hB : ∀ i, 0 ≤ B.half i) (k : Fin n) (F : (Fin n → ℝ) → ℝ) (hF : MeasureTheory.IntegrableOn F B.points) :
    (∀ i, 0 ≤ (B.lower k).half i) ∧ (∀ i, 0 ≤ (B.upper k).half i) ∧ MeasureTheory.IntegrableOn F (B.lower k).points ∧
      MeasureTheory.IntegrableOn F (B.upper k).points ∧ (B.lower k).integral F + (B.upper k).integral F = B.integral F := by
  have hh : ∀ i, 0 ≤ Function.update B.half k (B.half k / 2) i := by
    intro i
    by_cases hi : i = k
    · subst hi; rw [Function.update_self]; have := hB i; linarith
    · rw [Function.update_of_ne hi]; exact hB i
  have hl : ∀ x, x ∈ (B.lower k).points ↔ x ∈ B.points ∧ x k ≤ B.mid k := by
    intro x
    have hb := hB k
    constructor
    · rintro ⟨h1, h2⟩
      have k1 := h1 k
      have k2 := h2 k
      simp only [Box.lower, Pi.sub_apply, Pi.add_apply, Function.update_self] at k1 k2
      refine ⟨⟨fun i => ?_, fun i => ?_⟩, by linarith⟩
      · have := h1 i
        simp only [Box.lower, Pi.sub_apply] at this ⊢
        by_cases hi : i = k
        · subst hi; linarith
        · rwa [Function.update_of_ne hi, Function.update_of_ne hi] at this
      · have := h2 i
        simp only [Box.lower, Pi.add_apply] at this ⊢
        by_cases hi : i = k
        · subst hi; linarith
        · rwa [Function.update_of_ne hi, Function.update_of_ne hi] at this
    · rintro ⟨⟨h1, h2⟩, h3⟩
      refine ⟨fun i => ?_, fun i => ?_⟩
      · have := h1 i
        simp only [Box.lower, Pi.sub_apply] at this ⊢
        by_cases hi : i = k
        · subst hi; rw [Function.update_self, Function.update_self]; linarith
        · rwa [Function.update_of_ne hi, Function.update_of_ne hi]
      · have := h2 i
        simp only [Box.lower, Pi.add_apply] at this ⊢
        by_cases hi : i = k
        · subst hi; rw [Function.update_self, Function.update_self]; linarith
        · rwa [Function.update_of_ne hi, Function.update_of_ne hi]
  have hu : ∀ x, x ∈ (B.upper k).points ↔ x ∈ B.points ∧ B.mid k ≤ x k := by
    intro x
    have hb := hB k
    constructor
    · rintro ⟨h1, h2⟩
      have k1 := h1 k
      have k2 := h2 k
      simp only [Box.upper, Pi.sub_apply, Pi.add_apply, Function.update_self] at k1 k2
      refine ⟨⟨fun i => ?_, fun i => ?_⟩, by linarith⟩
      · have := h1 i
        simp only [Box.upper, Pi.sub_apply] at this ⊢
        by_cases hi : i = k
        · subst hi; linarith
        · rwa [Function.update_of_ne hi, Function.update_of_ne hi] at this
      · have := h2 i
        simp only [Box.upper, Pi.add_apply] at this ⊢
        by_cases hi : i = k
        · subst hi; linarith
        · rwa [Function.update_of_ne hi, Function.update_of_ne hi] at this
    · rintro ⟨⟨h1, h2⟩, h3⟩
      refine ⟨fun i => ?_, fun i => ?_⟩
      · have := h1 i
        simp only [Box.upper, Pi.sub_apply] at this ⊢
        by_cases hi : i = k
        · subst hi; rw [Function.update_self, Function.update_self]; linarith
        · rwa [Function.update_of_ne hi, Function.update_of_ne hi]
      · have := h2 i
        simp only [Box.upper, Pi.add_apply] at this ⊢
        by_cases hi : i = k
        · subst hi; rw [Function.update_self, Function.update_self]; linarith
        · rwa [Function.update_of_ne hi, Function.update_of_ne hi]
  have hsl : (B.lower k).points ⊆ B.points := fun x hx => ((hl x).1 hx).1
  have hsu : (B.upper k).points ⊆ B.points := fun x hx => ((hu x).1 hx).1
  have hun : (B.lower k).points ∪ (B.upper k).points = B.points := by
    refine Set.Subset.antisymm (Set.union_subset hsl hsu) fun x hx => ?_
    rcases le_total (x k) (B.mid k) with h | h
    · exact .inl ((hl x).2 ⟨hx, h⟩)
    · exact .inr ((hu x).2 ⟨hx, h⟩)
  refine ⟨hh, hh, hF.mono_set hsl, hF.mono_set hsu, ?_⟩
  have hdis : MeasureTheory.AEDisjoint MeasureTheory.volume (B.lower k).points (B.upper k).points := by
    refine MeasureTheory.measure_mono_null (t := {x : Fin n → ℝ | x k = B.mid k}) ?_ (MeasureTheory.Measure.pi_hyperplane (fun _ : Fin n => (MeasureTheory.volume : MeasureTheory.Measure ℝ)) k (B.mid k))
    rintro x ⟨h1, h2⟩
    exact le_antisymm ((hl x).1 h1).2 ((hu x).1 h2).2
  unfold Box.integral
  rw [← hun, MeasureTheory.setIntegral_union₀ hdis measurableSet_Icc.nullMeasurableSet (hF.mono_set hsl) (hF.mono_set hsu)]

/-- Every collection of pieces covers the box: the integrals over the pieces add to the integral. -/
theorem adaptive_integral {rule : (Fin n → ℝ) → (Fin n → ℝ) → ℝ × ℝ × Fin n} {B : Box n} {S : Multiset (Piece n)} (h : Adaptive rule B S)
    (hB : ∀ i, 0 ≤ B.half i) (F : (Fin n → ℝ) → ℝ) (hF : MeasureTheory.IntegrableOn F B.points) :
    (∀ P ∈ S, (∀ i, 0 ≤ P.box.half i) ∧ MeasureTheory.IntegrableOn F P.box.points ∧ P = P.box.piece rule) ∧
      (S.map fun P => P.box.integral F).sum = B.integral F := by
  induction h with
  | start =>
    refine ⟨?_, by simp [Box.piece]⟩
    intro P hP
    rw [Multiset.mem_singleton] at hP
    subst hP
    exact ⟨hB, hF, rfl⟩
  | cut P S hA hmax ih =>
    obtain ⟨h1, h2⟩ := ih
    obtain ⟨hP, hPF, _⟩ := h1 P (Multiset.mem_cons_self _ _)
    obtain ⟨g1, g2, g3, g4, g5⟩ := halves P.box hP P.axis F hPF
    constructor
    · intro Q hQ
      rw [Multiset.mem_cons, Multiset.mem_cons] at hQ
      rcases hQ with rfl | rfl | hQ
      · exact ⟨g1, g3, rfl⟩
      · exact ⟨g2, g4, rfl⟩
      · exact h1 Q (Multiset.mem_cons_of_mem hQ)
    · rw [Multiset.map_cons, Multiset.sum_cons] at h2
      rw [Multiset.map_cons, Multiset.sum_cons, Multiset.map_cons, Multiset.sum_cons, ← h2, ← g5, ← add_assoc]
      rfl

end AmpGen.Cubature
