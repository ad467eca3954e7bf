import Verif.Simd.Spec
import Mathlib.Tactic.LinearCombination
import Mathlib.Tactic.FieldSimp
import Mathlib.Tactic.Linarith
namespace AmpGen.Simd
open AmpGen.Expr Spec

variable {isa : Isa} {i : Fin isa.size}

section lanes
variable {a b c : RealV isa} {x y z : ℝ}

theorem add_lane (ha : a i = some x) (hb : b i = some y) : add a b i = some (x + y) := by simp [add, lift2, ha, hb]
theorem sub_lane (ha : a i = some x) (hb : b i = some y) : sub a b i = some (x - y) := by simp [sub, lift2, ha, hb]
theorem mul_lane (ha : a i = some x) (hb : b i = some y) : mul a b i = some (x * y) := by simp [mul, lift2, ha, hb]
theorem div_lane (ha : a i = some x) (hb : b i = some y) (h : y ≠ 0) : div a b i = some (x / y) := by simp [div, lift2, ha, hb, h]
theorem neg_lane (ha : a i = some x) : neg a i = some (-x) := by simp [neg, mul, lift2, splat, ha]
theorem splat_lane (x : ℝ) : (splat x : RealV isa) i = some x := rfl
theorem lt_lane (ha : a i = some x) (hb : b i = some y) : lt a b i = some (decide (x < y)) := by simp [lt, lift2, ha, hb]
theorem gt_lane (ha : a i = some x) (hb : b i = some y) : gt a b i = some (decide (x > y)) := by simp [gt, lift2, ha, hb]
theorem le_lane (ha : a i = some x) (hb : b i = some y) : le a b i = some (decide (x ≤ y)) := by simp [le, lift2, ha, hb]
theorem ge_lane (hi : isa ≠ .arm128d) (ha : a i = some x) (hb : b i = some y) : ge a b i = some (decide (x ≥ y)) := by
  simp [ge, hi, lift2, ha, hb]
theorem eq_lane (ha : a i = some x) (hb : b i = some y) : eq a b i = some (decide (x = y)) := by simp [eq, lift2, ha, hb]
theorem sqrt_lane (ha : a i = some x) (h : 0 ≤ x) : sqrt a i = some √x := by simp [sqrt, lift1, ha, not_lt.mpr h]
theorem abs_lane (ha : a i = some x) : abs a i = some |x| := by simp [abs, lift1, ha]
theorem sin_lane (ha : a i = some x) : sin a i = some (Real.sin x) := by simp [sin, lift1, ha]
theorem cos_lane (ha : a i = some x) : cos a i = some (Real.cos x) := by simp [cos, lift1, ha]
theorem exp_lane (ha : a i = some x) : exp a i = some (Real.exp x) := by simp [exp, lift1, ha]
theorem log_lane (ha : a i = some x) (h : 0 < x) : log a i = some (Real.log x) := by simp [log, lift1, ha, not_le.mpr h]
theorem atan2_lane (ha : a i = some y) (hb : b i = some x) : atan2 a b i = some (Complex.arg ⟨x, y⟩) := by simp [atan2, lift2, ha, hb]
theorem select_lane {m : Mask isa} {t : Bool} (hm : m i = some t) : select m a b i = if t then a i else b i := by simp [select, hm]
theorem sign_lane (ha : a i = some x) : sign a i = some (if 0 < x then 1 else -1) := by
  unfold sign
  rw [select_lane (gt_lane ha (splat_lane 0)), splat_lane, splat_lane]
  by_cases h : 0 < x <;> simp [h]
theorem tan_lane (ha : a i = some x) (h : Real.cos x ≠ 0) : tan a i = some (Real.tan x) := by
  unfold tan
  rw [div_lane (sin_lane ha) (cos_lane ha) h, Real.tan_eq_sin_div_cos]

theorem remainder_lane (ha : a i = some x) (hb : b i = some y) (h : y ≠ 0) (hx : 0 ≤ x / y) : remainder a b i = some (x - ⌊x / y⌋ * y) := by
  unfold remainder
  split
  · have h1 : lift1 (fun q => some ((⌊q⌋₊ : ℕ) : ℝ)) (div a b) i = some ((⌊x / y⌋ : ℤ) : ℝ) := by
      simp only [lift1, div_lane ha hb h, Option.bind_some]
      rw [← Int.floor_toNat]
      congr 1
      have := Int.toNat_of_nonneg (Int.floor_nonneg.mpr hx)
      exact_mod_cast this
    rw [sub_lane ha (mul_lane hb h1), mul_comm]
  · have h1 : lift1 (fun q => some ((⌊q⌋ : ℤ) : ℝ)) (div a b) i = some ((⌊x / y⌋ : ℤ) : ℝ) := by
      simp only [lift1, div_lane ha hb h, Option.bind_some]
    rw [sub_lane ha (mul_lane h1 hb)]

theorem fmod_real (h : y ≠ 0) (hx : 0 < x) : |x| - ⌊|x| / |y|⌋ * |y| = x - trunc (x / y) * y := by
  rw [abs_of_pos hx]
  rcases lt_or_gt_of_ne h with hy | hy
  · rw [abs_of_neg hy]
    have h1 : x / y < 0 := div_neg_of_pos_of_neg hx hy
    rw [trunc, if_neg (not_le.mpr h1), div_neg, Int.floor_neg]
    push_cast; ring
  · rw [abs_of_pos hy, trunc, if_pos (div_pos hx hy).le]

theorem fmod_real_neg (h : y ≠ 0) (hx : x ≤ 0) : -(|x| - ⌊|x| / |y|⌋ * |y|) = x - trunc (x / y) * y := by
  rcases hx.lt_or_eq with hx | rfl
  · have h1 := fmod_real (x := -x) h (by linarith)
    rw [abs_neg] at h1
    rw [h1]
    have h2 : trunc (-x / y) = - trunc (x / y) := by
      have h3 : x / y ≠ 0 := div_ne_zero hx.ne h
      unfold trunc
      rw [neg_div]
      rcases lt_or_gt_of_ne h3 with h4 | h4
      · rw [if_pos (by linarith), if_neg (by linarith), Int.floor_neg]
      · rw [if_neg (by linarith), if_pos h4.le, Int.ceil_neg]
    rw [h2]
    push_cast; ring
  · simp [trunc]

theorem fmod_lane (ha : a i = some x) (hb : b i = some y) (h : y ≠ 0) : fmod a b i = some (x - trunc (x / y) * y) := by
  have hr := remainder_lane (abs_lane ha) (abs_lane hb) (abs_ne_zero.mpr h) (by positivity)
  unfold fmod
  split
  · rw [mul_lane hr (sign_lane ha)]
    by_cases hx : 0 < x
    · rw [if_pos hx, mul_one, fmod_real h hx]
    · rw [if_neg hx, ← fmod_real_neg h (not_lt.mp hx)]; congr 1; ring
  · rw [select_lane (gt_lane ha (splat_lane 0))]
    by_cases hx : 0 < x
    · simp only [gt_iff_lt, hx, decide_true, if_true]; rw [hr, fmod_real h hx]
    · simp only [gt_iff_lt, hx, decide_false]
      rw [if_neg (by simp), neg_lane hr, fmod_real_neg h (not_lt.mp hx)]

end lanes

section complexLanes

/-- The complex number in a lane. -/
def At (i : Fin isa.size) (a : ComplexV isa) (z : ℂ) : Prop := a.re i = some z.re ∧ a.im i = some z.im

variable {a b : ComplexV isa} {r : RealV isa} {z w : ℂ} {x : ℝ}

theorem at_iff : At i a z ↔ lane i (.cplx a) = some (.cplx z) := by
  unfold At lane
  constructor
  · rintro ⟨h1, h2⟩; simp [h1, h2]
  · intro h
    cases h1 : a.re i <;> cases h2 : a.im i <;> simp_all
    subst h; simp

theorem at_real (h : r i = some x) : At i (⟨r, splat 0⟩ : ComplexV isa) (x : ℂ) := ⟨h, rfl⟩

theorem conj_at (h : At i a z) : At i (conj a) (starRingEnd ℂ z) := ⟨by simpa [conj] using h.1, by simpa [conj] using neg_lane h.2⟩
theorem norm_at (h : At i a z) : norm a i = some (‖z‖ ^ 2) := by
  unfold norm
  rw [add_lane (mul_lane h.1 h.1) (mul_lane h.2 h.2), ← Complex.normSq_eq_norm_sq, Complex.normSq_apply]
theorem cabs_at (h : At i a z) : cabs a i = some ‖z‖ := by
  unfold cabs
  rw [sqrt_lane (norm_at h) (by positivity), Real.sqrt_sq (norm_nonneg z)]
theorem addR_at (h : At i a z) (hr : r i = some x) : At i (addR a r) (z + x) := ⟨by simpa [addR] using add_lane h.1 hr, by simpa [addR] using h.2⟩
theorem subR_at (h : At i a z) (hr : r i = some x) : At i (subR a r) (z - x) := ⟨by simpa [subR] using sub_lane h.1 hr, by simpa [subR] using h.2⟩
theorem mulR_at (h : At i a z) (hr : r i = some x) : At i (mulR a r) (z * x) :=
  ⟨by simpa [mulR] using mul_lane h.1 hr, by simpa [mulR] using mul_lane h.2 hr⟩
theorem divR_at (h : At i a z) (hr : r i = some x) (hx : x ≠ 0) : At i (divR a r) (z / x) := by
  refine ⟨?_, ?_⟩
  · have := div_lane h.1 hr hx; simpa [divR, Complex.div_ofReal_re] using this
  · have := div_lane h.2 hr hx; simpa [divR, Complex.div_ofReal_im] using this
theorem Radd_at (hr : r i = some x) (h : At i b w) : At i (Radd r b) (x + w) := ⟨by simpa [Radd] using add_lane hr h.1, by simpa [Radd] using h.2⟩
theorem Rsub_at (hr : r i = some x) (h : At i b w) : At i (Rsub r b) (x - w) :=
  ⟨by simpa [Rsub] using sub_lane hr h.1, by simpa [Rsub] using neg_lane h.2⟩
theorem Rmul_at (hr : r i = some x) (h : At i b w) : At i (Rmul r b) (x * w) :=
  ⟨by simpa [Rmul] using mul_lane hr h.1, by simpa [Rmul] using mul_lane hr h.2⟩
theorem cadd_at (ha : At i a z) (h : At i b w) : At i (cadd a b) (z + w) :=
  ⟨by simpa [cadd] using add_lane ha.1 h.1, by simpa [cadd] using add_lane ha.2 h.2⟩
theorem csub_at (ha : At i a z) (h : At i b w) : At i (csub a b) (z - w) :=
  ⟨by simpa [csub] using sub_lane ha.1 h.1, by simpa [csub] using sub_lane ha.2 h.2⟩
theorem cmul_at (ha : At i a z) (h : At i b w) : At i (cmul a b) (z * w) :=
  ⟨by simpa [cmul] using sub_lane (mul_lane ha.1 h.1) (mul_lane ha.2 h.2), by simpa [cmul] using add_lane (mul_lane ha.1 h.2) (mul_lane ha.2 h.1)⟩

theorem normSq_ne (hw : w ≠ 0) : w.re * w.re + w.im * w.im ≠ 0 := by
  rw [← Complex.normSq_apply]; exact fun h => hw (Complex.normSq_eq_zero.mp h)

theorem div_formula (hw : w ≠ 0) :
    (⟨z.re * w.re + z.im * w.im, -z.re * w.im + z.im * w.re⟩ : ℂ) / ((w.re * w.re + w.im * w.im : ℝ) : ℂ) = z / w := by
  have h1 : ((w.re * w.re + w.im * w.im : ℝ) : ℂ) ≠ 0 := by exact_mod_cast normSq_ne hw
  rw [div_eq_div_iff h1 hw]
  apply Complex.ext
  · simp; ring
  · simp; ring

theorem cdiv_at (ha : At i a z) (h : At i b w) (hw : w ≠ 0) : At i (cdiv a b) (z / w) := by
  rw [← div_formula hw]
  unfold cdiv
  exact divR_at ⟨add_lane (mul_lane ha.1 h.1) (mul_lane ha.2 h.2), add_lane (mul_lane (neg_lane ha.1) h.2) (mul_lane ha.2 h.1)⟩
    (add_lane (mul_lane h.1 h.1) (mul_lane h.2 h.2)) (normSq_ne hw)

theorem Rdiv_at (hr : r i = some x) (h : At i b w) (hw : w ≠ 0) : At i (Rdiv r b) (x / w) := by
  have h1 := div_formula (z := (x : ℂ)) hw
  rw [← h1]
  unfold Rdiv
  refine divR_at ⟨?_, ?_⟩ (add_lane (mul_lane h.1 h.1) (mul_lane h.2 h.2)) (normSq_ne hw)
  · simpa using mul_lane hr h.1
  · simpa using mul_lane (neg_lane hr) h.2

theorem cexp_at (h : At i a z) : At i (cexp a) (Complex.exp z) := by
  unfold cexp
  refine ⟨?_, ?_⟩
  · rw [Complex.exp_re]; exact mul_lane (exp_lane h.1) (cos_lane h.2)
  · rw [Complex.exp_im]; exact mul_lane (exp_lane h.1) (sin_lane h.2)

theorem clog_at (h : At i a z) (hz : z ≠ 0) : At i (clog a) (Complex.log z) := by
  unfold clog
  have hp : 0 < ‖z‖ := norm_pos_iff.mpr hz
  refine ⟨?_, ?_⟩
  · have h1 := mul_lane (splat_lane (i := i) (1 / 2)) (log_lane (norm_at h) (by positivity))
    refine h1.trans ?_
    rw [Complex.log_re, Real.log_pow]
    congr 1; push_cast; ring
  · rw [Complex.log_im]; exact atan2_lane h.2 h.1

/-- The components of the principal root. -/
theorem root_formula (hz : ¬ (z.im = 0 ∧ z.re < 0)) :
    (⟨√(1 / 2 * (‖z‖ + z.re)), (if 0 < z.im then 1 else -1) * √(1 / 2 * (‖z‖ - z.re))⟩ : ℂ) = z ^ (1 / 2 : ℂ) := by
  obtain ⟨u, hu⟩ : ∃ u : ℂ, (⟨√(1 / 2 * (‖z‖ + z.re)), (if 0 < z.im then 1 else -1) * √(1 / 2 * (‖z‖ - z.re))⟩ : ℂ) = u := ⟨_, rfl⟩
  rw [hu]
  have hn : ‖z‖ ^ 2 = z.re ^ 2 + z.im ^ 2 := by rw [← Complex.normSq_eq_norm_sq, Complex.normSq_apply]; ring
  have hre : |z.re| ≤ ‖z‖ := Complex.abs_re_le_norm z
  have h1 : 0 ≤ 1 / 2 * (‖z‖ + z.re) := by have := neg_abs_le z.re; linarith
  have h2 : 0 ≤ 1 / 2 * (‖z‖ - z.re) := by have := le_abs_self z.re; linarith
  have hur : u.re = √(1 / 2 * (‖z‖ + z.re)) := by rw [← hu]
  have hui : u.im = (if 0 < z.im then 1 else -1) * √(1 / 2 * (‖z‖ - z.re)) := by rw [← hu]
  have hprod : √(1 / 2 * (‖z‖ + z.re)) * √(1 / 2 * (‖z‖ - z.re)) = |z.im| / 2 := by
    rw [← Real.sqrt_mul h1]
    have : 1 / 2 * (‖z‖ + z.re) * (1 / 2 * (‖z‖ - z.re)) = (z.im / 2) ^ 2 := by linear_combination (1 / 4) * hn
    rw [this, Real.sqrt_sq_eq_abs, abs_div]; norm_num
  have hsq : u ^ 2 = z := by
    apply Complex.ext
    · rw [sq, Complex.mul_re, hur, hui]
      have e1 := Real.mul_self_sqrt h1
      have e2 := Real.mul_self_sqrt h2
      split
      · linear_combination e1 - e2
      · linear_combination e1 - e2
    · rw [sq, Complex.mul_im, hur, hui]
      split
      · rename_i h
        rw [abs_of_pos h] at hprod
        linear_combination 2 * hprod
      · rename_i h
        rw [abs_of_nonpos (not_lt.mp h)] at hprod
        linear_combination -2 * hprod
  have hpos : 0 < u.re ∨ u = 0 := by
    by_cases h0 : 0 < 1 / 2 * (‖z‖ + z.re)
    · left; rw [hur]; exact Real.sqrt_pos.mpr h0
    · right
      have h3 : ‖z‖ = -z.re := by linarith
      have him : z.im = 0 := by
        rw [h3] at hn
        have : z.im ^ 2 = 0 := by linear_combination -hn
        exact pow_eq_zero_iff (two_ne_zero) |>.mp this
      have hr0 : z.re = 0 := by
        have h4 : 0 ≤ -z.re := h3 ▸ norm_nonneg z
        by_contra hne
        exact hz ⟨him, lt_of_le_of_ne (by linarith) hne⟩
      have hz0 : z = 0 := Complex.ext hr0 him
      rw [hz0] at hsq
      exact pow_eq_zero_iff (two_ne_zero) |>.mp hsq
  have harg := abs_lt.mp (Complex.abs_arg_lt_pi_div_two_iff.mpr hpos)
  have := Complex.pow_cpow_nat_inv (x := u) (n := 2) two_ne_zero (by push_cast; exact harg.1) (by push_cast; exact harg.2.le)
  rw [hsq] at this
  rw [one_div]
  exact_mod_cast this.symm

theorem csqrt_at (h : At i a z) (hz : ¬ (z.im = 0 ∧ z.re < 0)) : At i (csqrt a) (z ^ (1 / 2 : ℂ)) := by
  rw [← root_formula hz]
  have hre : |z.re| ≤ ‖z‖ := Complex.abs_re_le_norm z
  have h1 : 0 ≤ 1 / 2 * (‖z‖ + z.re) := by have := neg_abs_le z.re; linarith
  have h2 : 0 ≤ 1 / 2 * (‖z‖ - z.re) := by have := le_abs_self z.re; linarith
  unfold csqrt
  exact ⟨sqrt_lane (mul_lane (splat_lane _) (add_lane (cabs_at h) h.1)) h1,
    mul_lane (sign_lane h.2) (sqrt_lane (mul_lane (splat_lane _) (sub_lane (cabs_at h) h.1)) h2)⟩

end complexLanes

end AmpGen.Simd
