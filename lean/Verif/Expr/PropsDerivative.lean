import Verif.Expr.Derivative
import Verif.Expr.Props
import Mathlib.Analysis.SpecialFunctions.Trigonometric.ArctanDeriv
import Mathlib.Analysis.SpecialFunctions.Trigonometric.InverseDeriv
import Mathlib.Analysis.SpecialFunctions.Gamma.Deriv
import Mathlib.Analysis.Calculus.MeanValue
import Mathlib.Analysis.Calculus.Deriv.Abs
/-
C146: derivatives of the unary functions.
-/
namespace AmpGen.Expr

/-- The functions of a real number. -/
noncomputable def fnReal : Un → ℝ → ℝ
  | .log, x => Real.log x
  | .sqrt, x => Real.sqrt x
  | .exp, x => Real.exp x
  | .sin, x => Real.sin x
  | .cos, x => Real.cos x
  | .tan, x => Real.tan x
  | .asin, x => Real.arcsin x
  | .acos, x => Real.arccos x
  | .atan, x => Real.arctan x
  | .norm, x => x ^ 2
  | .real, x => x
  | .imag, _ => 0
  | .isqrt, x => 1 / Real.sqrt x
  | .conj, x => x
  | .abs, x => |x|
  | .lgamma, x => Real.log (Real.Gamma |x|)

/-- Where the functions are differentiable. -/
def Smooth : Un → ℝ → Prop
  | .log, x => 0 < x
  | .sqrt, x => 0 < x
  | .isqrt, x => 0 < x
  | .tan, x => Real.cos x ≠ 0
  | .asin, x => -1 < x ∧ x < 1
  | .acos, x => -1 < x ∧ x < 1
  | .abs, x => x ≠ 0
  | .lgamma, x => x ≠ 0
  | _, _ => True

variable {T : Tests ℝ}

theorem constsIn_all : ∀ e : Ex ℝ, ConstsIn (fun _ => True) True e
  | .const _ | .param _ | .cparam _ _ | .lambda _ | .func _ => trivial
  | .un _ e => constsIn_all e
  | .bin _ l r => ⟨fun _ => trivial, constsIn_all l, constsIn_all r⟩
  | .ternary c a b => ⟨constsIn_all c, constsIn_all a, constsIn_all b⟩
  | .subtree _ e => constsIn_all e

/-- The derivative returned for `f` of `e` exists and has the value `v`. -/
def DerivativeIs (S : Sem ℝ) (T : Tests ℝ) (f : Un) (e : Ex ℝ) (v : ℝ) : Prop :=
  ∃ e' N, (∀ fuel, N ≤ fuel → derivative S T fuel f e = some e') ∧ eval S e' = some v

section
variable (hT : ExactOn T (fun _ => True) True) (S : Sem ℝ) (hS : ∀ f x, S.un f x = fnReal f x)
  (hp : ∀ x y : ℝ, S.bin .pow x y = x ^ y)
include hT

theorem add_v {A B : Ex ℝ} {a b : ℝ} (ha : eval S A = some a) (hb : eval S B = some b) :
    ∃ e N, (∀ fuel, N ≤ fuel → addF T fuel A B = some e) ∧ eval S e = some (a + b) := by
  obtain ⟨⟨e, N, h, hv⟩, _⟩ := operators_value_partial hT A B (constsIn_all A) (constsIn_all B)
  exact ⟨e, N, h, hv S a b ha hb⟩

theorem sub_v {A B : Ex ℝ} {a b : ℝ} (ha : eval S A = some a) (hb : eval S B = some b) :
    ∃ e N, (∀ fuel, N ≤ fuel → subF T fuel A B = some e) ∧ eval S e = some (a - b) := by
  obtain ⟨_, ⟨e, N, h, hv⟩, _⟩ := operators_value_partial hT A B (constsIn_all A) (constsIn_all B)
  exact ⟨e, N, h, hv S a b ha hb⟩

theorem mul_v {A B : Ex ℝ} {a b : ℝ} (ha : eval S A = some a) (hb : eval S B = some b) :
    ∃ e N, (∀ fuel, N ≤ fuel → mulF T fuel A B = some e) ∧ eval S e = some (a * b) := by
  obtain ⟨_, _, ⟨e, N, h, hv⟩, _⟩ := operators_value_partial hT A B (constsIn_all A) (constsIn_all B)
  exact ⟨e, N, h, hv S a b ha hb⟩

theorem div_v {A B : Ex ℝ} {a b : ℝ} (ha : eval S A = some a) (hb : eval S B = some b) (h0 : b ≠ 0) :
    ∃ e N, (∀ fuel, N ≤ fuel → divF T fuel A B = some e) ∧ eval S e = some (a / b) := by
  obtain ⟨_, _, _, h, _⟩ := operators_value_partial hT A B (constsIn_all A) (constsIn_all B)
  obtain ⟨e, N, h, hv⟩ := h trivial
  exact ⟨e, N, h, hv S a b ha hb h0⟩

theorem neg_v {A : Ex ℝ} {a : ℝ} (ha : eval S A = some a) :
    ∃ e N, (∀ fuel, N ≤ fuel → negF T fuel A = some e) ∧ eval S e = some (-a) := by
  obtain ⟨_, _, _, _, e, N, h, hv⟩ := operators_value_partial hT A A (constsIn_all A) (constsIn_all A)
  exact ⟨e, N, h, hv S a ha⟩

include hS

/-- The square of an expression subtracted from one, under a square root. -/
theorem inverse_root {f : Un} {c : ℝ} {e : Ex ℝ} {x : ℝ}
    (hf : ∀ n, derivative S T n f e = (do divF T n (.const c) (fcn1 S .sqrt (← subF T n (.const 1) (← mulF T n e e)))))
    (hx : eval S e = some x) (h1 : -1 < x ∧ x < 1) : DerivativeIs S T f e (c / Real.sqrt (1 - x ^ 2)) := by
  have h0 : Real.sqrt (1 - x * x) ≠ 0 := (Real.sqrt_pos.mpr (by nlinarith [h1.1, h1.2])).ne'
  obtain ⟨e1, N1, g1, v1⟩ := mul_v hT S hx hx
  obtain ⟨e2, N2, g2, v2⟩ := sub_v hT S (A := .const 1) (a := 1) rfl v1
  have v3 := fcn1_value S .sqrt (by decide) e2 _ v2
  rw [hS] at v3
  obtain ⟨e4, N4, g4, v4⟩ := div_v hT S (A := .const c) (a := c) rfl v3 h0
  refine ⟨e4, max N1 (max N2 N4), ?_, ?_⟩
  · intro fuel hfuel
    rw [hf, g1 fuel (by omega)]
    simp only [Option.bind_eq_bind, Option.bind_some]
    rw [g2 fuel (by omega)]
    simp only [Option.bind_some]
    exact g4 fuel (by omega)
  · rw [v4, pow_two]; rfl

include hp in
/-- C146.  The derivative of a function is its derivative at the value of its argument, for real
arguments at which it is differentiable.

Missing: the inverse sine and cosine, where the sign is wrong, and absolute value, norm, real part,
conjugate and the logarithm of the gamma function, which return zero. -/
theorem derivative_partial (f : Un)
    (hf : f = .log ∨ f = .sqrt ∨ f = .exp ∨ f = .sin ∨ f = .cos ∨ f = .tan ∨ f = .atan ∨ f = .isqrt ∨ f = .imag)
    (e : Ex ℝ) (x : ℝ) (hx : eval S e = some x) (hs : Smooth f x) :
    ∃ v, DerivativeIs S T f e v ∧ HasDerivAt (fnReal f) v x := by
  rcases hf with rfl | rfl | rfl | rfl | rfl | rfl | rfl | rfl | rfl
  · have hs : 0 < x := hs
    obtain ⟨e1, N, g, v⟩ := div_v hT S (A := .const 1) (a := 1) rfl hx hs.ne'
    refine ⟨_, ⟨e1, N, g, v⟩, ?_⟩
    rw [one_div]
    exact Real.hasDerivAt_log hs.ne'
  · have hs : 0 < x := hs
    have v0 := fcn1_value S .sqrt (by decide) e _ hx
    rw [hS] at v0
    obtain ⟨e1, N1, g1, v1⟩ := mul_v hT S (A := .const 2) (a := 2) rfl v0
    have h0 : (2 : ℝ) * fnReal .sqrt x ≠ 0 := mul_ne_zero two_ne_zero (Real.sqrt_pos.mpr hs).ne'
    obtain ⟨e2, N2, g2, v2⟩ := div_v hT S (A := .const 1) (a := 1) rfl v1 h0
    refine ⟨_, ⟨e2, max N1 N2, ?_, v2⟩, Real.hasDerivAt_sqrt hs.ne'⟩
    intro fuel hfuel
    show (do divF T fuel (.const 1) (← mulF T fuel (.const 2) (fcn1 S .sqrt e))) = some e2
    rw [g1 fuel (by omega)]
    exact g2 fuel (by omega)
  · have v0 := fcn1_value S .exp (by decide) e _ hx
    rw [hS] at v0
    exact ⟨_, ⟨_, 0, fun _ _ => rfl, v0⟩, Real.hasDerivAt_exp x⟩
  · have v0 := fcn1_value S .cos (by decide) e _ hx
    rw [hS] at v0
    exact ⟨_, ⟨_, 0, fun _ _ => rfl, v0⟩, Real.hasDerivAt_sin x⟩
  · have v0 := fcn1_value S .sin (by decide) e _ hx
    rw [hS] at v0
    obtain ⟨e1, N, g, v⟩ := neg_v hT S v0
    exact ⟨_, ⟨e1, N, g, v⟩, Real.hasDerivAt_cos x⟩
  · have hs : Real.cos x ≠ 0 := hs
    have v0 := fcn1_value S .cos (by decide) e _ hx
    rw [hS] at v0
    obtain ⟨e1, N1, g1, v1⟩ := mul_v hT S v0 v0
    obtain ⟨e2, N2, g2, v2⟩ := div_v hT S (A := .const 1) (a := 1) rfl v1 (mul_ne_zero hs hs)
    refine ⟨_, ⟨e2, max N1 N2, ?_, v2⟩, ?_⟩
    · intro fuel hfuel
      show (do divF T fuel (.const 1) (← mulF T fuel (fcn1 S .cos e) (fcn1 S .cos e))) = some e2
      rw [g1 fuel (by omega)]
      exact g2 fuel (by omega)
    · have := Real.hasDerivAt_tan hs
      rw [pow_two] at this
      exact this
  · obtain ⟨e1, N1, g1, v1⟩ := mul_v hT S hx hx
    obtain ⟨e2, N2, g2, v2⟩ := add_v hT S (A := .const 1) (a := 1) rfl v1
    have h0 : 1 + x * x ≠ 0 := (by nlinarith [mul_self_nonneg x] : (0 : ℝ) < 1 + x * x).ne'
    obtain ⟨e3, N3, g3, v3⟩ := div_v hT S (A := .const 1) (a := 1) rfl v2 h0
    refine ⟨_, ⟨e3, max N1 (max N2 N3), ?_, v3⟩, ?_⟩
    · intro fuel hfuel
      show (do divF T fuel (.const 1) (← addF T fuel (.const 1) (← mulF T fuel e e))) = some e3
      rw [g1 fuel (by omega)]
      simp only [Option.bind_eq_bind, Option.bind_some]
      rw [g2 fuel (by omega)]
      exact g3 fuel (by omega)
    · have := Real.hasDerivAt_arctan x
      rw [pow_two] at this
      exact this
  · have hs : 0 < x := hs
    have h3 : x ^ (3 / 2 : ℝ) = x * Real.sqrt x := by
      rw [Real.sqrt_eq_rpow, show (3 / 2 : ℝ) = 1 + 1 / 2 by norm_num, Real.rpow_add hs, Real.rpow_one]
    have hr : 0 < Real.sqrt x := Real.sqrt_pos.mpr hs
    have v0 : eval S (.bin .pow e (.const (3 / 2))) = some (x * Real.sqrt x) := by
      rw [← h3, ← hp]
      simp [eval, hx]
    obtain ⟨e1, N1, g1, v1⟩ := mul_v hT S (A := .const 2) (a := 2) rfl v0
    obtain ⟨e2, N2, g2, v2⟩ := div_v hT S (A := .const (-1)) (a := -1) rfl v1 (by positivity)
    refine ⟨_, ⟨e2, max N1 N2, ?_, v2⟩, ?_⟩
    · intro fuel hfuel
      show (do divF T fuel (.const (-1)) (← mulF T fuel (.const 2) (.bin .pow e (.const (3 / 2))))) = some e2
      rw [g1 fuel (by omega)]
      exact g2 fuel (by omega)
    · have h := (Real.hasDerivAt_sqrt hs.ne').inv hr.ne'
      have hf : fnReal .isqrt = (fun t => Real.sqrt t)⁻¹ := by
        funext t
        show 1 / Real.sqrt t = _
        rw [one_div]; rfl
      rw [hf]
      have e : -1 / (2 * (x * Real.sqrt x)) = -(1 / (2 * Real.sqrt x)) / Real.sqrt x ^ 2 := by
        rw [Real.sq_sqrt hs.le]
        field_simp
      rw [e]
      exact h
  · exact ⟨0, ⟨_, 0, fun _ _ => rfl, rfl⟩, hasDerivAt_const x 0⟩

/-- C146.  The derivatives of the inverse sine and cosine have the wrong sign: inside the interval they
are minus the derivative, which is not zero. -/
theorem inverse_derivative_counterexample (e : Ex ℝ) (x : ℝ) (hx : eval S e = some x) (h1 : -1 < x ∧ x < 1) :
    (∃ v, DerivativeIs S T .asin e v ∧ HasDerivAt Real.arcsin (-v) x ∧ v < 0) ∧
    (∃ v, DerivativeIs S T .acos e v ∧ HasDerivAt Real.arccos (-v) x ∧ 0 < v) := by
  have hp : 0 < Real.sqrt (1 - x ^ 2) := Real.sqrt_pos.mpr (by nlinarith [h1.1, h1.2])
  refine ⟨⟨_, inverse_root hT S hS (c := -1) (fun _ => rfl) hx h1, ?_, ?_⟩,
    ⟨_, inverse_root hT S hS (c := 1) (fun _ => rfl) hx h1, ?_, ?_⟩⟩
  · have := Real.hasDerivAt_arcsin h1.1.ne' h1.2.ne
    rw [show -(-1 / Real.sqrt (1 - x ^ 2)) = 1 / Real.sqrt (1 - x ^ 2) by ring]
    exact this
  · exact div_neg_of_neg_of_pos (by norm_num) hp
  · exact Real.hasDerivAt_arccos h1.1.ne' h1.2.ne
  · positivity

omit hT hS in
/-- C146.  The derivatives of absolute value, norm, real part, conjugate and logarithm of the gamma
function are zero, also where the functions have other derivatives. -/
theorem zero_derivative_counterexample (e : Ex ℝ) :
    DerivativeIs S T .abs e 0 ∧ DerivativeIs S T .norm e 0 ∧ DerivativeIs S T .real e 0 ∧ DerivativeIs S T .conj e 0 ∧
    DerivativeIs S T .lgamma e 0 ∧
    (∀ x, 0 < x → HasDerivAt (fnReal .abs) 1 x) ∧ (∀ x, HasDerivAt (fnReal .norm) (2 * x) x) ∧
    (∀ x, HasDerivAt (fnReal .real) 1 x) ∧ (∀ x, HasDerivAt (fnReal .conj) 1 x) ∧
    ∃ x, 0 < x ∧ ¬ HasDerivAt (fnReal .lgamma) 0 x := by
  refine ⟨⟨_, 0, fun _ _ => rfl, rfl⟩, ⟨_, 0, fun _ _ => rfl, rfl⟩, ⟨_, 0, fun _ _ => rfl, rfl⟩,
    ⟨_, 0, fun _ _ => rfl, rfl⟩, ⟨_, 0, fun _ _ => rfl, rfl⟩, ?_, ?_, ?_, ?_, ?_⟩
  · intro x hx
    exact hasDerivAt_abs_pos hx
  · intro x
    have := hasDerivAt_pow 2 x
    rw [show (2 : ℝ) * x = ((2 : ℕ) : ℝ) * x ^ (2 - 1) by norm_num]
    exact this
  · exact fun x => hasDerivAt_id x
  · exact fun x => hasDerivAt_id x
  · by_contra h
    push Not at h
    obtain ⟨c, _, hc⟩ := exists_hasDerivAt_eq_slope (fnReal .lgamma) (fun _ => 0) (a := 2) (b := 3) (by norm_num)
      (fun y hy => (h y (by linarith [hy.1])).continuousAt.continuousWithinAt)
      (fun y hy => h y (by linarith [hy.1]))
    have h3 : fnReal .lgamma 3 = Real.log 2 := by
      show Real.log (Real.Gamma |3|) = _
      rw [abs_of_pos (by norm_num), show (3 : ℝ) = (2 : ℕ) + 1 by norm_num, Real.Gamma_nat_eq_factorial]
      norm_num
    have h2 : fnReal .lgamma 2 = 0 := by
      show Real.log (Real.Gamma |2|) = _
      rw [abs_of_pos (by norm_num), show (2 : ℝ) = (1 : ℕ) + 1 by norm_num, Real.Gamma_nat_eq_factorial]
      norm_num
    rw [h3, h2] at hc
    have := Real.log_pos (by norm_num : (1 : ℝ) < 2)
    norm_num at hc
    linarith
end

/-- Exact tests and the functions of real numbers. -/
noncomputable def realTests : Tests ℝ where
  isZero a := decide (a = 0)
  isOne a := decide (a = 1)
  isZeroAbs a := decide (a = 0)
  isNeg a := decide (a < 0)

noncomputable def realSem : Sem ℝ where
  param _ := 1 / 2
  lambda _ := 0
  I := 0
  un := fnReal
  bin _ x y := x ^ y
  truth x := decide (x ≠ 0)

example : ExactOn realTests (fun _ => True) True ∧ (∀ f x, realSem.un f x = fnReal f x) ∧
    (∀ x y : ℝ, realSem.bin .pow x y = x ^ y) ∧ eval realSem (.param "x") = some (1 / 2) ∧
    Smooth .isqrt (1 / 2) ∧ Smooth .log (1 / 2) ∧ Smooth .asin (1 / 2) := by
  refine ⟨⟨trivial, trivial, fun _ _ => trivial, fun _ => trivial, fun _ _ => trivial, fun _ _ _ => trivial,
    fun _ h => by simpa [realTests] using h, fun _ h => by simpa [realTests] using h,
    fun _ h => by simpa [realTests] using h⟩, fun _ _ => rfl, fun _ _ => rfl, rfl, ?_, ?_, ?_⟩
  · show (0 : ℝ) < 1 / 2
    norm_num
  · show (0 : ℝ) < 1 / 2
    norm_num
  · show (-1 : ℝ) < 1 / 2 ∧ (1 / 2 : ℝ) < 1
    norm_num

end AmpGen.Expr
