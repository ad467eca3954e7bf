import Verif.Simd.LemmasE
import Verif.Simd.LemmasI
import Verif.Simd.LemmasL
/-
Properties of the vector types: generated code, arrays and splines, integrals, and the logarithm of AVX512.
-/
namespace AmpGen.Simd
open AmpGen.Expr Spec

/-- **C131**.  Code generated for vectors gives in each lane the number that the code for ordinary numbers gives for the event of that lane, for every expression
that can be compiled and every event for which the code for ordinary numbers has a value, if no root of a complex number is taken at a negative real number, and on
ARM if nothing is compared with `>=`. -/
theorem vector_code_matches_scalar_code_partial (isa : Isa) (env : String → Fin isa.size → ℝ) (e : Ex ℂ) (v : VVal isa) (i : Fin isa.size) (x : Val)
    (hv : veval env e = some v) (hcut : OffCut (fun n => env n i) e) (hge : isa = .arm128d → ¬ UsesGe e)
    (hx : value (fun n => env n i) e = some x) : lane i v = some x :=
  veval_lane hv hcut hge hx

/-- A function with a complex result, of an expression of the complex type, stores that number. -/
theorem vector_complex_result_partial (isa : Isa) (env : String → Fin isa.size → ℝ) (e : Ex ℂ) (v : VVal isa) (i : Fin isa.size) (z : ℂ)
    (hv : veval env e = some v) (hcut : OffCut (fun n => env n i) e) (hge : isa = .arm128d → ¬ UsesGe e)
    (hx : value (fun n => env n i) e = some (.cplx z)) : ∃ c, result v = some c ∧ c.re i = some z.re ∧ c.im i = some z.im := by
  have h := veval_lane hv hcut hge hx
  cases v with
  | real a => obtain ⟨_, _, h⟩ := lane_real h; cases h
  | mask a => obtain ⟨_, _, h⟩ := lane_mask h; cases h
  | cplx a =>
    obtain ⟨w, hw, h⟩ := lane_cplx h
    cases h
    exact ⟨a, rfl, hw.1, hw.2⟩

/-- An expression with a choice between a real and a complex number, a root and a quotient. -/
def sample : Ex ℂ :=
  .bin .div (.ternary (.bin .gt (.param "x") (.const 0)) (.un .sqrt (.cparam "re" "im")) (.param "x")) (.un .exp (.param "x"))

open Classical in
/-- It compiles, has a value in every event with a positive imaginary part, and meets the conditions. -/
example (isa : Isa) (env : String → Fin isa.size → ℝ) (i : Fin isa.size) (h : 0 < env "im" i) :
    (∃ v, veval env sample = some v) ∧ OffCut (fun n => env n i) sample ∧ ¬ UsesGe sample ∧ ∃ x, value (fun n => env n i) sample = some x := by
  refine ⟨Option.isSome_iff_exists.mp (by simp only [sample, veval, vbin, vun, vselect, Option.bind_some, Complex.zero_im, if_true, Option.isSome_some]), ?_, ?_, ?_⟩
  · intro f a z hf hw hz
    unfold sample at hw
    cases hw with
    | left hw =>
      cases hw with
      | cond hw =>
        cases hw with
        | left hw => cases hw
        | right hw => cases hw
      | yes hw =>
        cases hw with
        | refl =>
          simp only [value, Option.some.injEq, Val.cplx.injEq] at hz
          subst hz
          intro hc
          exact h.ne' hc.1
        | un hw => cases hw
      | no hw => cases hw
    | right hw =>
      cases hw with
      | refl => simp at hf
      | un hw => cases hw
  · rintro ⟨a, b, hw⟩
    unfold sample at hw
    cases hw with
    | left hw =>
      cases hw with
      | cond hw =>
        cases hw with
        | left hw => cases hw
        | right hw => cases hw
      | yes hw =>
        cases hw with
        | un hw => cases hw
      | no hw => cases hw
    | right hw =>
      cases hw with
      | un hw => cases hw
  · have he : ((Real.exp (env "x" i) : ℝ) : ℂ) ≠ 0 := by exact_mod_cast (Real.exp_pos _).ne'
    by_cases hp : env "x" i > 0
    · exact ⟨.cplx ((⟨env "re" i, env "im" i⟩ : ℂ) ^ (1 / 2 : ℂ) / (Real.exp (env "x" i) : ℝ)), by
        simp [sample, value, binary, Spec.compare, unary, arith, Val.number, isComplex, hp]⟩
    · exact ⟨.cplx ((env "x" i : ℝ) / (Real.exp (env "x" i) : ℝ)), by
        simp [sample, value, binary, Spec.compare, unary, arith, Val.number, isComplex, hp]⟩

/-- The property fails at negative real numbers: the vector root of `-4` is `-2i`, the one of the standard library `2i`. -/
theorem vector_root_counterexample (isa : Isa) (i : Fin isa.size) :
    ∃ (env : String → Fin isa.size → ℝ) (e : Ex ℂ) (v : VVal isa), veval env e = some v ∧ lane i v = some (.cplx (-2 * Complex.I))
      ∧ value (fun n => env n i) e = some (.cplx (2 * Complex.I)) := by
  refine ⟨fun n _ => if n = "re" then -4 else 0, .un .sqrt (.cparam "re" "im"), _, rfl, ?_, ?_⟩
  · have h : At i (⟨fun _ => some (-4), fun _ => some 0⟩ : ComplexV isa) (-4 : ℂ) := ⟨by simp, by simp⟩
    have hn : ‖(-4 : ℂ)‖ = 4 := by norm_num
    have h1 := sqrt_lane (mul_lane (splat_lane (i := i) (1 / 2)) (add_lane (cabs_at h) h.1)) (by rw [hn]; norm_num)
    have h2 := mul_lane (sign_lane h.2) (sqrt_lane (mul_lane (splat_lane (i := i) (1 / 2)) (sub_lane (cabs_at h) h.1)) (by rw [hn]; norm_num))
    have hs : √(4 : ℝ) = 2 := by rw [show (4 : ℝ) = 2 ^ 2 by norm_num, Real.sqrt_sq (by norm_num)]
    have hat : At i (csqrt (⟨fun _ => some (-4), fun _ => some 0⟩ : ComplexV isa)) (-2 * Complex.I) := by
      refine ⟨h1.trans ?_, h2.trans ?_⟩
      · rw [hn]; norm_num
      · rw [hn]; norm_num; exact hs
    simpa using of_cplx hat
  · simp only [value, unary, Option.bind_some, Option.some.injEq, Val.cplx.injEq, if_true]
    have h4 : (⟨-4, 0⟩ : ℂ) = (2 * Complex.I) ^ 2 := by
      rw [mul_pow, Complex.I_sq]; apply Complex.ext <;> norm_num
    have harg : (2 * Complex.I).arg = Real.pi / 2 := by
      have := Complex.arg_real_mul Complex.I (r := 2) (by norm_num)
      rw [Complex.arg_I] at this
      exact_mod_cast this
    have := Complex.pow_cpow_nat_inv (x := 2 * Complex.I) (n := 2) two_ne_zero
      (by rw [harg]; push_cast; linarith [Real.pi_pos]) (by rw [harg]; push_cast; exact le_rfl)
    rw [← h4] at this
    rw [one_div]
    have he : (if "im" = "re" then (-4 : ℝ) else 0) = 0 := by simp
    rw [he]
    exact_mod_cast this

/-- The property fails on ARM for `>=`, which is `<=` there. -/
theorem vector_greater_or_equal_counterexample (i : Fin Isa.arm128d.size) :
    ∃ (env : String → Fin Isa.arm128d.size → ℝ) (e : Ex ℂ) (v : VVal .arm128d), veval env e = some v ∧ lane i v = some (.bool false)
      ∧ value (fun n => env n i) e = some (.bool true) := by
  refine ⟨fun _ _ => 1, .bin .ge (.param "x") (.const 0), .mask (ge (fun _ => some 1) (splat 0)), by simp [veval, vbin], ?_, ?_⟩
  · simp only [lane, ge, lift2, splat, if_true, Option.bind_some, Option.map_some]
    norm_num
  · simp [value, binary, Spec.compare]

/-- A function with a complex result stores no imaginary part if its expression is of the real type. -/
theorem vector_real_result_counterexample (isa : Isa) (i : Fin isa.size) :
    ∃ (env : String → Fin isa.size → ℝ) (e : Ex ℂ) (v : VVal isa) (c : ComplexV isa), veval env e = some v ∧ result v = some c
      ∧ value (fun n => env n i) e = some (.real 1) ∧ c.re i = some 1 ∧ c.im i = none :=
  ⟨fun _ _ => 1, .param "x", _, _, rfl, rfl, rfl, rfl, rfl⟩

/-- **C132**.  In code for four doubles, an element of an array and the value of a spline are in each lane those of the code for ordinary numbers: the element
whose number is the offset without its fraction, the first one for an offset outside the array. -/
theorem vector_array_partial (mem : Nat → ℝ) (address size : Nat) (x : Fin Isa.avx2d.size → ℝ) (i : Fin Isa.avx2d.size) :
    element (isa := .avx2d) mem address size (full x) i = some (elementAt mem address size (x i)) :=
  element_lane mem address size rfl

/-- See `vector_array_partial`. -/
theorem vector_spline_partial (mem : Nat → ℝ) (address nKnots : Nat) (min max : ℝ) (hn : 2 ≤ nKnots) (hm : min < max) (x : Fin Isa.avx2d.size → ℝ)
    (i : Fin Isa.avx2d.size) : spline (isa := .avx2d) mem address nKnots min max (full x) i = some (Spline.eval mem address nKnots min max (x i)) :=
  spline_lane mem address nKnots hn hm rfl

example : (2 : ℕ) ≤ 5 ∧ (0 : ℝ) < 3 := by norm_num

/-- In code for eight floats the offset is rounded to the nearest integer: offset 0.6 gives the second element and not the first. -/
theorem vector_array_float_counterexample (i : Fin Isa.avx2f.size) :
    ∃ (mem : Nat → ℝ) (size : Nat) (x : Fin Isa.avx2f.size → ℝ),
      element (isa := .avx2f) mem 0 size (full x) i = some 7 ∧ elementAt mem 0 size (x i) = 5 := by
  refine ⟨fun k => if k = 1 then 7 else 5, 2, fun _ => 3 / 5, ?_, ?_⟩
  · have ha : (full (fun _ => 3 / 5) : RealV .avx2f) i = some (3 / 5) := rfl
    have hm := and_lane (ge_lane (by decide) ha (splat_lane 0)) (lt_lane ha (splat_lane ((2 : ℕ) : ℝ)))
    unfold element gather toInt lift1
    simp only
    rw [select_lane hm, ha, splat_lane]
    have hfl : ⌊(3 / 5 : ℝ)⌋ = 0 := by rw [Int.floor_eq_zero_iff]; constructor <;> norm_num
    have hne : ¬ Isa.avx2f = .avx2d := by decide
    norm_num [roundEven, hfl, hne]
  · have hfl : ⌊(3 / 5 : ℝ)⌋₊ = 0 := by rw [Nat.floor_eq_zero]; norm_num
    unfold elementAt
    norm_num [hfl]

/-- On ARM an element after the first is never found, because of `>=`. -/
theorem vector_array_arm_counterexample (mem : Nat → ℝ) (address size : Nat) (x : Fin Isa.arm128d.size → ℝ) (i : Fin Isa.arm128d.size) (h : 1 ≤ x i) :
    element (isa := .arm128d) mem address size (full x) i = some (mem address) := by
  have hg : ge (full x) (splat 0) i = some false := by
    simp only [ge, if_true, lift2, full, splat, Option.bind_some, Option.some.injEq, decide_eq_false_iff_not]
    linarith
  have hm := and_lane hg (lt_lane (a := full x) rfl (splat_lane (size : ℝ)))
  unfold element gather toInt lift1
  simp only
  rw [select_lane hm, splat_lane]
  simp [truncate]

example : ∃ x : Fin Isa.arm128d.size → ℝ, ∀ i, 1 ≤ x i := ⟨fun _ => 2, fun _ => by norm_num⟩

/-- **C133**.  With AVX, an integral accumulated in the lanes of vectors is the sum over all events of the weight, the first amplitude and the conjugate of the
second one, divided by the norm. -/
theorem vector_integral_partial (isa : Isa) (hi : isa ≠ .arm128d) (blocks : List ((Fin isa.size → ℝ) × (Fin isa.size → ℂ) × (Fin isa.size → ℂ)))
    (norm : ℝ) (hn : norm ≠ 0) :
    Simd.integral (blocks.map fun b => (full b.1, cfull b.2.1, cfull b.2.2)) norm = some (Spec.integral blocks norm) :=
  integral_full hi blocks hn

example : Isa.avx2d ≠ .arm128d ∧ Isa.avx2f ≠ .arm128d ∧ (3 : ℝ) ≠ 0 := ⟨by decide, by decide, by norm_num⟩

/-- On ARM the product of the accumulated number is added to the weight: two events with amplitudes 2 and 1 have the integral 2 + 2i in place of 4. -/
theorem vector_integral_arm_counterexample :
    ∃ blocks : List ((Fin Isa.arm128d.size → ℝ) × (Fin Isa.arm128d.size → ℂ) × (Fin Isa.arm128d.size → ℂ)),
      Simd.integral (isa := .arm128d) (blocks.map fun b => (full b.1, cfull b.2.1, cfull b.2.2)) 1 = some (2 + 2 * Complex.I)
        ∧ Spec.integral blocks 1 = 4 := by
  refine ⟨[(fun _ => 1, fun _ => 2, fun _ => 1)], ?_, ?_⟩
  · have hre : fmadd (full fun _ => 1) (cmul (cfull fun _ => 2) (conj (cfull fun _ => 1))).re (splat 0) = (full fun _ => 1 : RealV .arm128d) := by
      funext i
      have hc : At i (cmul (cfull fun _ => 2) (conj (cfull fun _ => 1))) (2 * starRingEnd ℂ 1) := cmul_at ⟨rfl, rfl⟩ (conj_at ⟨rfl, rfl⟩)
      unfold fmadd
      rw [if_pos rfl, add_lane (a := full fun _ => 1) rfl (mul_lane hc.1 (splat_lane 0))]
      simp [full]
    have him : fmadd (full fun _ => 1) (cmul (cfull fun _ => 2) (conj (cfull fun _ => 1))).im (splat 0) = (full fun _ => 1 : RealV .arm128d) := by
      funext i
      have hc : At i (cmul (cfull fun _ => 2) (conj (cfull fun _ => 1))) (2 * starRingEnd ℂ 1) := cmul_at ⟨rfl, rfl⟩ (conj_at ⟨rfl, rfl⟩)
      unfold fmadd
      rw [if_pos rfl, add_lane (a := full fun _ => 1) rfl (mul_lane hc.2 (splat_lane 0))]
      simp [full]
    have hcard : (Finset.univ : Finset (Fin Isa.arm128d.size)).card = 2 := by decide
    have hsum : ∑ _i : Fin Isa.arm128d.size, (1 : ℝ) = 2 := by simp [hcard]
    simp only [Simd.integral, List.map_cons, List.map_nil, integrateLoop]
    rw [hre, him, sumElements_full, hsum]
    simp only [Option.bind_some, one_ne_zero, if_false, Complex.ofReal_one, div_one, Option.some.injEq]
    apply Complex.ext <;> simp
  · have hcard : (Finset.univ : Finset (Fin Isa.arm128d.size)).card = 2 := by decide
    simp [Spec.integral, hcard]
    norm_num

/-- **C134**.  With AVX512 the logarithm of every positive double that is not denormal is right to within `3 · 10⁻⁹`. -/
theorem avx512_log_partial (bits : Nat) (hb : bits < 2 ^ 64) (x : ℝ) (hx : Avx512.decode bits = some x) (hn : (2 : ℝ) ^ (-1022 : ℤ) ≤ x) :
    ∃ y, Avx512.log bits = some y ∧ |y - Real.log x| ≤ 3 / 10 ^ 9 :=
  Avx512.log_near hb hx hn

/-- The number 1. -/
theorem decode_one : Avx512.decode 0x3FF0000000000000 = some 1 := by
  unfold Avx512.decode
  norm_num

example : (0x3FF0000000000000 : Nat) < 2 ^ 64 ∧ Avx512.decode 0x3FF0000000000000 = some 1 ∧ (2 : ℝ) ^ (-1022 : ℤ) ≤ 1 :=
  ⟨by norm_num, decode_one, zpow_le_one_of_nonpos₀ (by norm_num) (by norm_num)⟩

/-- The logarithm is not right to the precision of a double: the one of 1 is larger than `3 · 10⁻¹⁰`. -/
theorem avx512_log_of_one_counterexample : Avx512.decode 0x3FF0000000000000 = some 1 ∧
    ∃ y, Avx512.log 0x3FF0000000000000 = some y ∧ y > 3 / 10 ^ 10 := by
  refine ⟨decode_one, _, Avx512.log_frexp (Avx512.frexp_parts (e := 1023) (f := 0) (by norm_num) (by norm_num)), ?_⟩
  unfold Avx512.poly
  norm_num

/-- A negative number, and zero, have a logarithm: the one of -1 is larger than 1419, the one of 0 larger than -710. -/
theorem avx512_log_not_positive_counterexample : (Avx512.decode 0xBFF0000000000000 = some (-1) ∧ Avx512.decode 0 = some 0) ∧
    (∃ y, Avx512.log 0xBFF0000000000000 = some y ∧ y > 1419) ∧ ∃ y, Avx512.log 0 = some y ∧ y > -710 := by
  refine ⟨⟨by unfold Avx512.decode; norm_num, by unfold Avx512.decode; norm_num⟩,
    ⟨_, Avx512.log_frexp (Avx512.frexp_parts (e := 3071) (f := 0) (by norm_num) (by norm_num)), ?_⟩,
    ⟨_, Avx512.log_frexp (Avx512.frexp_parts (e := 0) (f := 0) (by norm_num) (by norm_num)), ?_⟩⟩
  · unfold Avx512.poly
    norm_num
  · unfold Avx512.poly
    norm_num

end AmpGen.Simd
