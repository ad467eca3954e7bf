import Verif.Simd.Lemmas
import Mathlib.Algebra.BigOperators.Fin
namespace AmpGen.Simd
open Spec

variable {isa : Isa} {i : Fin isa.size}

theorem and_lane {a b : Mask isa} {x y : Bool} (ha : a i = some x) (hb : b i = some y) : and a b i = some (x && y) := by simp [and, ha, hb]

/-- An element of an array in code for four doubles. -/
theorem element_lane {i : Fin Isa.avx2d.size} {a : RealV .avx2d} {x : ℝ} (mem : Nat → ℝ) (address size : Nat) (ha : a i = some x) :
    element mem address size a i = some (elementAt mem address size x) := by
  have hm := and_lane (ge_lane (by decide) ha (splat_lane 0)) (lt_lane ha (splat_lane (size : ℝ)))
  have hs : select (and (ge a (splat 0)) (lt a (splat size))) a (splat 0) i = some (if 0 ≤ x ∧ x < size then x else 0) := by
    rw [select_lane hm, ha, splat_lane]
    by_cases h : 0 ≤ x ∧ x < (size : ℝ)
    · simp [h.1, h.2]
    · rw [if_neg h, if_neg]; intro h'; apply h; simpa using h'
  unfold element gather toInt lift1 elementAt
  simp only
  rw [hs]
  simp only [Option.bind_some, if_true]
  by_cases h : 0 ≤ x ∧ x < (size : ℝ)
  · rw [if_pos h, if_pos h, if_pos (Int.floor_nonneg.mpr h.1), Int.floor_toNat]
  · rw [if_neg h, if_neg h]; simp

theorem spline_lane {i : Fin Isa.avx2d.size} {a : RealV .avx2d} {x : ℝ} (mem : Nat → ℝ) (address nKnots : Nat) {min max : ℝ} (hn : 2 ≤ nKnots) (hm : min < max)
    (ha : a i = some x) : spline mem address nKnots min max a i = some (Spline.eval mem address nKnots min max x) := by
  have hn' : (0 : ℝ) < (nKnots : ℝ) - 1 := by have : (2 : ℝ) ≤ nKnots := by exact_mod_cast hn
                                              linarith
  have hs : (max - min) / ((nKnots : ℝ) - 1) ≠ 0 := (div_pos (by linarith) hn').ne'
  unfold spline Spline.eval
  simp only
  obtain ⟨s, hs'⟩ : ∃ s, (max - min) / ((nKnots : ℝ) - 1) = s := ⟨_, rfl⟩
  rw [hs'] at hs ⊢
  have hd := sub_lane ha (splat_lane (i := i) min)
  have hdx := fmod_lane hd (splat_lane s) hs
  have hbin := div_lane hd (splat_lane s) hs
  have hb1 := add_lane hbin (splat_lane 1)
  have hbn := add_lane hbin (splat_lane (nKnots : ℝ))
  have hb1n := add_lane hb1 (splat_lane (nKnots : ℝ))
  have e0 := element_lane mem address (2 * nKnots) hbin
  have e1 := element_lane mem address (2 * nKnots) hb1
  have en := element_lane mem address (2 * nKnots) hbn
  have e1n := element_lane mem address (2 * nKnots) hb1n
  have hc := and_lane (gt_lane ha (splat_lane min)) (lt_lane ha (splat_lane max))
  have h6 : (6 : ℝ) ≠ 0 := by norm_num
  have h2 : (2 : ℝ) ≠ 0 := by norm_num
  have hfm : x - min - trunc ((x - min) / s) * s = Spline.fmod (x - min) s := by
    unfold Spline.fmod trunc
    split <;> ring
  have hel : ∀ y, elementAt mem address (2 * nKnots) y = Spline.element mem address (2 * nKnots) y := fun y => rfl
  rw [select_lane hc]
  by_cases h : x > min ∧ x < max
  · rw [if_pos h, if_pos (by simp [h.1, h.2])]
    have := add_lane (add_lane (add_lane e0
      (mul_lane (sub_lane (div_lane (sub_lane e1 e0) (splat_lane s) hs)
        (div_lane (mul_lane (add_lane e1n (mul_lane (splat_lane 2) en)) (splat_lane s)) (splat_lane 6) h6)) hdx))
      (div_lane (mul_lane (mul_lane en hdx) hdx) (splat_lane 2) h2))
      (div_lane (mul_lane (mul_lane (mul_lane hdx hdx) hdx) (sub_lane e1n en)) (mul_lane (splat_lane 6) (splat_lane s)) (mul_ne_zero h6 hs))
    rw [hfm] at this
    simp only [hel] at this
    exact this
  · rw [if_neg h, if_neg (by intro h'; apply h; simpa using h')]
    exact element_lane mem address (2 * nKnots) (splat_lane _)

/-- A vector with a number in every lane. -/
def full (w : Fin isa.size → ℝ) : RealV isa := fun i => some (w i)

/-- Complex numbers in all lanes. -/
def cfull (z : Fin isa.size → ℂ) : ComplexV isa := ⟨fun i => some (z i).re, fun i => some (z i).im⟩

theorem sumElements_full (w : Fin isa.size → ℝ) : sumElements (full w) = some (∑ i, w i) := by
  have h : ∀ (l : List (Fin isa.size)) (s : ℝ),
      l.foldl (fun acc i => acc.bind fun s => (full w i).bind fun x => some (s + x)) (some s) = some (s + (l.map w).sum) := by
    intro l
    induction l with
    | nil => intro s; simp
    | cons j l ih =>
      intro s
      simp only [List.foldl_cons, full, Option.bind_some] at ih ⊢
      rw [ih, List.map_cons, List.sum_cons, add_assoc]
  unfold sumElements
  rw [h, zero_add, ← List.sum_ofFn, List.ofFn_eq_map]

theorem fmadd_lane (hi : isa ≠ .arm128d) {a b c : RealV isa} {x y z : ℝ} (ha : a i = some x) (hb : b i = some y) (hc : c i = some z) :
    fmadd a b c i = some (x * y + z) := by
  unfold fmadd
  rw [if_neg hi]
  exact add_lane (mul_lane ha hb) hc

theorem integrateLoop_full (hi : isa ≠ .arm128d) :
    ∀ (blocks : List ((Fin isa.size → ℝ) × (Fin isa.size → ℂ) × (Fin isa.size → ℂ))) (s : Fin isa.size → ℂ),
      integrateLoop (blocks.map fun b => (full b.1, cfull b.2.1, cfull b.2.2)) (full fun i => (s i).re, full fun i => (s i).im)
        = (full fun i => (s i + (blocks.map fun b => (b.1 i : ℂ) * b.2.1 i * starRingEnd ℂ (b.2.2 i)).sum).re,
           full fun i => (s i + (blocks.map fun b => (b.1 i : ℂ) * b.2.1 i * starRingEnd ℂ (b.2.2 i)).sum).im) := by
  intro blocks
  induction blocks with
  | nil => intro s; simp [integrateLoop]
  | cons b blocks ih =>
    intro s
    obtain ⟨w, z, u⟩ := b
    simp only [List.map_cons, integrateLoop, List.sum_cons]
    have hre : fmadd (full w) (cmul (cfull z) (conj (cfull u))).re (full fun i => (s i).re)
        = full fun i => (s i + (w i : ℂ) * z i * starRingEnd ℂ (u i)).re := by
      funext i
      have hc : At i (cmul (cfull z) (conj (cfull u))) (z i * starRingEnd ℂ (u i)) := cmul_at ⟨rfl, rfl⟩ (conj_at ⟨rfl, rfl⟩)
      rw [fmadd_lane hi rfl hc.1 rfl]
      simp only [full]
      rw [mul_assoc, Complex.add_re, Complex.re_ofReal_mul, add_comm]
    have him : fmadd (full w) (cmul (cfull z) (conj (cfull u))).im (full fun i => (s i).im)
        = full fun i => (s i + (w i : ℂ) * z i * starRingEnd ℂ (u i)).im := by
      funext i
      have hc : At i (cmul (cfull z) (conj (cfull u))) (z i * starRingEnd ℂ (u i)) := cmul_at ⟨rfl, rfl⟩ (conj_at ⟨rfl, rfl⟩)
      rw [fmadd_lane hi rfl hc.2 rfl]
      simp only [full]
      rw [mul_assoc, Complex.add_im, Complex.im_ofReal_mul, add_comm]
    rw [hre, him, ih]
    simp only [add_assoc]

theorem sum_list_comm (blocks : List ((Fin isa.size → ℝ) × (Fin isa.size → ℂ) × (Fin isa.size → ℂ))) :
    ∑ i, (blocks.map fun b => (b.1 i : ℂ) * b.2.1 i * starRingEnd ℂ (b.2.2 i)).sum
      = (blocks.map fun b => ∑ i, (b.1 i : ℂ) * b.2.1 i * starRingEnd ℂ (b.2.2 i)).sum := by
  induction blocks with
  | nil => simp
  | cons b l ih => simp only [List.map_cons, List.sum_cons, Finset.sum_add_distrib, ih]

theorem integral_full (hi : isa ≠ .arm128d) (blocks : List ((Fin isa.size → ℝ) × (Fin isa.size → ℂ) × (Fin isa.size → ℂ))) {norm : ℝ} (hn : norm ≠ 0) :
    Simd.integral (blocks.map fun b => (full b.1, cfull b.2.1, cfull b.2.2)) norm = some (Spec.integral blocks norm) := by
  unfold Simd.integral
  have h0 : ((splat 0 : RealV isa), (splat 0 : RealV isa)) = (full fun i => ((fun _ => 0 : Fin isa.size → ℂ) i).re, full fun i => ((fun _ => 0 : Fin isa.size → ℂ) i).im) := by
    simp [full, splat, funext_iff]
  simp only
  rw [h0, integrateLoop_full hi]
  simp only [sumElements_full, Option.bind_some, hn, if_false, zero_add, Spec.integral, Option.some.injEq]
  congr 1
  rw [← sum_list_comm, ← Complex.re_sum, ← Complex.im_sum]

end AmpGen.Simd
