import Verif.Expr.Lemmas
import Verif.Expr.LemmasTerm
import Verif.Expr.LemmasMono
import Mathlib.Algebra.Order.Field.Rat
import Mathlib.Tactic.NormNum
import Mathlib.Tactic.Linarith
/-
Property theorems about building expressions (C01).
-/
namespace AmpGen.Expr

variable {K : Type} [Field K] [DecidableEq K]

/-- C01 (partial: the numerical tests made on constants are exact on the set `P`
the constants are taken from; see `epsilon_counterexample`).  The operators
`+ - * /` always return, the result does not depend on the budget once it is
large enough, and its value is the operation applied to the values of the
operands, for every value of the parameters and every meaning of the elementary
functions.  The division law is for a non-zero divisor. -/
theorem operators_value_partial {T : Tests K} {P : K → Prop} {D : Prop} (hT : ExactOn T P D)
    (A B : Ex K) (hA : ConstsIn P D A) (hB : ConstsIn P D B) :
    (∃ e N, (∀ fuel, N ≤ fuel → addF T fuel A B = some e) ∧
      ∀ S a b, eval S A = some a → eval S B = some b → eval S e = some (a + b)) ∧
    (∃ e N, (∀ fuel, N ≤ fuel → subF T fuel A B = some e) ∧
      ∀ S a b, eval S A = some a → eval S B = some b → eval S e = some (a - b)) ∧
    (∃ e N, (∀ fuel, N ≤ fuel → mulF T fuel A B = some e) ∧
      ∀ S a b, eval S A = some a → eval S B = some b → eval S e = some (a * b)) ∧
    (D → ∃ e N, (∀ fuel, N ≤ fuel → divF T fuel A B = some e) ∧
      ∀ S a b, eval S A = some a → eval S B = some b → b ≠ 0 → eval S e = some (a / b)) ∧
    (∃ e N, (∀ fuel, N ≤ fuel → negF T fuel A = some e) ∧
      ∀ S a, eval S A = some a → eval S e = some (-a)) := by
  refine ⟨?_, ?_, ?_, ?_, ?_⟩
  · obtain ⟨e, he⟩ := addF_some T A B (Nat.lt_succ_self _)
    exact ⟨e, _, fun fuel hf => mono_le (f := fun n => addF T n A B) (fun n e => addF_mono n) hf he,
      ((add_group_correct hT _).2 A B e hA hB he).2⟩
  · obtain ⟨e, he⟩ := subF_some T A B (Nat.lt_succ_self _)
    exact ⟨e, _, fun fuel hf => mono_le (f := fun n => subF T n A B) (fun n e => subF_mono n) hf he,
      (sub_correct hT hA hB he).2⟩
  · obtain ⟨e, he⟩ := mulF_some T A B (Nat.lt_succ_self _)
    exact ⟨e, _, fun fuel hf => mono_le (f := fun n => mulF T n A B) (fun n e => mulF_mono n) hf he,
      ((mul_group_correct hT _).2.1 A B e hA hB he).2⟩
  · intro hD
    obtain ⟨e, he⟩ := divF_some T A B (Nat.lt_succ_self _)
    exact ⟨e, _, fun fuel hf => mono_le (f := fun n => divF T n A B) (fun n e => divF_mono n) hf he,
      ((mul_group_correct hT _).2.2 A B e hD hA hB he).2⟩
  · obtain ⟨e, he⟩ := mulF_some T (.const (-1)) A (Nat.lt_succ_self _)
    exact ⟨e, _, fun fuel hf => mono_le (f := fun n => negF T n A) (fun n e => mulF_mono n) hf he,
      (neg_correct hT hA he).2⟩

/-- C01 (partial, same restriction).  Any formula typed with the overloaded
operators: building it terminates, and the tree obtained evaluates to the number
the formula stands for. -/
theorem formula_value_partial {T : Tests K} {P : K → Prop} {D : Prop} (hT : ExactOn T P D) :
    ∀ f : Formula K, f.ConstsIn P D →
      ∃ e N, (∀ fuel, N ≤ fuel → f.build T fuel = some e) ∧ ConstsIn P D e ∧
        ∀ S v, f.value S = some v → eval S e = some v := by
  intro f
  induction f with
  | leaf e =>
    intro h
    exact ⟨e, 0, fun _ _ => rfl, h, fun _ _ hv => hv⟩
  | add f g ihf ihg =>
    intro h
    obtain ⟨a, N1, ha, hca, hva⟩ := ihf h.1
    obtain ⟨b, N2, hb, hcb, hvb⟩ := ihg h.2
    obtain ⟨e, he⟩ := addF_some T a b (Nat.lt_succ_self _)
    have hc := (add_group_correct hT _).2 a b e hca hcb he
    refine ⟨e, max (max N1 N2) (4 * (asize a + asize b) + 2 + (4 * max (pmax a) (pmax b) + 10) + 1),
      ?_, hc.1, ?_⟩
    · intro fuel hf
      simp only [Formula.build, ha fuel (by omega), hb fuel (by omega)]
      exact mono_le (f := fun n => addF T n a b) (fun n e => addF_mono n) (by omega) he
    · intro S v hv
      simp only [Formula.value] at hv
      obtain ⟨x, hx, hv⟩ := Option.bind_eq_some_iff.mp hv
      obtain ⟨y, hy, hv⟩ := Option.bind_eq_some_iff.mp hv
      cases hv
      exact hc.2 S x y (hva S x hx) (hvb S y hy)
  | sub f g ihf ihg =>
    intro h
    obtain ⟨a, N1, ha, hca, hva⟩ := ihf h.1
    obtain ⟨b, N2, hb, hcb, hvb⟩ := ihg h.2
    obtain ⟨e, he⟩ := subF_some T a b (Nat.lt_succ_self _)
    have hc := sub_correct hT hca hcb he
    refine ⟨e, max (max N1 N2) (4 * msize b + 2 + 1), ?_, hc.1, ?_⟩
    · intro fuel hf
      simp only [Formula.build, ha fuel (by omega), hb fuel (by omega)]
      exact mono_le (f := fun n => subF T n a b) (fun n e => subF_mono n) (by omega) he
    · intro S v hv
      simp only [Formula.value] at hv
      obtain ⟨x, hx, hv⟩ := Option.bind_eq_some_iff.mp hv
      obtain ⟨y, hy, hv⟩ := Option.bind_eq_some_iff.mp hv
      cases hv
      exact hc.2 S x y (hva S x hx) (hvb S y hy)
  | mul f g ihf ihg =>
    intro h
    obtain ⟨a, N1, ha, hca, hva⟩ := ihf h.1
    obtain ⟨b, N2, hb, hcb, hvb⟩ := ihg h.2
    obtain ⟨e, he⟩ := mulF_some T a b (Nat.lt_succ_self _)
    have hc := (mul_group_correct hT _).2.1 a b e hca hcb he
    refine ⟨e, max (max N1 N2) (4 * (msize a + msize b) + 2 + 1), ?_, hc.1, ?_⟩
    · intro fuel hf
      simp only [Formula.build, ha fuel (by omega), hb fuel (by omega)]
      exact mono_le (f := fun n => mulF T n a b) (fun n e => mulF_mono n) (by omega) he
    · intro S v hv
      simp only [Formula.value] at hv
      obtain ⟨x, hx, hv⟩ := Option.bind_eq_some_iff.mp hv
      obtain ⟨y, hy, hv⟩ := Option.bind_eq_some_iff.mp hv
      cases hv
      exact hc.2 S x y (hva S x hx) (hvb S y hy)
  | div f g ihf ihg =>
    intro h
    obtain ⟨a, N1, ha, hca, hva⟩ := ihf h.2.1
    obtain ⟨b, N2, hb, hcb, hvb⟩ := ihg h.2.2
    obtain ⟨e, he⟩ := divF_some T a b (Nat.lt_succ_self _)
    have hc := (mul_group_correct hT _).2.2 a b e h.1 hca hcb he
    refine ⟨e, max (max N1 N2) (4 * (msize a + 2 * msize b) + 3 + 1), ?_, hc.1, ?_⟩
    · intro fuel hf
      simp only [Formula.build, ha fuel (by omega), hb fuel (by omega)]
      exact mono_le (f := fun n => divF T n a b) (fun n e => divF_mono n) (by omega) he
    · intro S v hv
      simp only [Formula.value] at hv
      obtain ⟨x, hx, hv⟩ := Option.bind_eq_some_iff.mp hv
      obtain ⟨y, hy, hv⟩ := Option.bind_eq_some_iff.mp hv
      split at hv
      · cases hv
      · rename_i hy0
        cases hv
        exact hc.2 S x y (hva S x hx) (hvb S y hy) hy0
  | neg f ihf =>
    intro h
    obtain ⟨a, N1, ha, hca, hva⟩ := ihf h
    obtain ⟨e, he⟩ := mulF_some T (.const (-1)) a (Nat.lt_succ_self _)
    have hc := neg_correct hT hca he
    refine ⟨e, max N1 (4 * (msize (Ex.const (-1) : Ex K) + msize a) + 2 + 1), ?_, hc.1, ?_⟩
    · intro fuel hf
      simp only [Formula.build, ha fuel (by omega)]
      exact mono_le (f := fun n => negF T n a) (fun n e => mulF_mono n) (by omega) he
    · intro S v hv
      simp only [Formula.value] at hv
      obtain ⟨x, hx, hv⟩ := Option.bind_eq_some_iff.mp hv
      cases hv
      exact hc.2 S x (hva S x hx)

/-! ### The hypotheses are satisfiable -/

/-- Exact comparisons over the rationals. -/
def exactTests : Tests ℚ where
  isZero a := decide (a = 0)
  isOne a := decide (a = 1)
  isZeroAbs a := decide (a = 0)
  isNeg a := decide (a < 0)

/-- The comparisons of the code (src/Expression.cpp:46-54,82) for real
constants, with the tolerance `eps`. -/
def epsTests (eps : ℚ) : Tests ℚ where
  isZero a := decide (|a| < eps)
  isOne a := decide (|a - 1| < eps)
  isZeroAbs a := decide (|a - 0| < eps)
  isNeg a := decide (a < 0)

/-- `std::numeric_limits<double>::epsilon()`. -/
def machineEps : ℚ := 1 / 2 ^ 52

/-- Exact tests are exact on all rationals, with division. -/
theorem exactTests_exactOn : ExactOn exactTests (fun _ => True) True :=
  ⟨trivial, trivial, fun _ _ => trivial, fun _ => trivial, fun _ _ => trivial, fun _ _ _ => trivial,
    fun _ h => by simpa [exactTests] using h, fun _ h => by simpa [exactTests] using h,
    fun _ h => by simpa [exactTests] using h⟩

/-- The tests of the code are exact on the integers (without division), so the
theorems apply to the code's own tolerance whenever all constants are integers. -/
theorem epsTests_exactOn : ExactOn (epsTests machineEps) (fun q => ∃ z : ℤ, q = z) False where
  zero := ⟨0, by simp⟩
  one := ⟨1, by simp⟩
  add := by rintro a b ⟨x, rfl⟩ ⟨y, rfl⟩; exact ⟨x + y, by push_cast; ring⟩
  neg := by rintro a ⟨x, rfl⟩; exact ⟨-x, by push_cast; ring⟩
  mul := by rintro a b ⟨x, rfl⟩ ⟨y, rfl⟩; exact ⟨x * y, by push_cast; ring⟩
  inv h := h.elim
  isZero := by
    rintro a ⟨x, rfl⟩ h
    have h := of_decide_eq_true h
    simp only [machineEps] at h
    have h1 : |(x : ℚ)| < 1 := lt_trans h (by norm_num)
    have h2 : |x| < 1 := by exact_mod_cast h1
    have : x = 0 := Int.abs_lt_one_iff.mp h2
    simp [this]
  isOne := by
    rintro a ⟨x, rfl⟩ h
    have h := of_decide_eq_true h
    simp only [machineEps] at h
    have h1 : |((x - 1 : ℤ) : ℚ)| < 1 := lt_trans (by push_cast; exact h) (by norm_num)
    have h2 : |x - 1| < 1 := by exact_mod_cast h1
    have : x - 1 = 0 := Int.abs_lt_one_iff.mp h2
    have : x = 1 := by omega
    simp [this]
  isZeroAbs := by
    rintro a ⟨x, rfl⟩ h
    have h := of_decide_eq_true h
    simp only [machineEps, sub_zero] at h
    have h1 : |(x : ℚ)| < 1 := lt_trans h (by norm_num)
    have h2 : |x| < 1 := by exact_mod_cast h1
    have : x = 0 := Int.abs_lt_one_iff.mp h2
    simp [this]

/-- A concrete formula meeting the hypotheses: `(3 + (x + -2 * y)) / (y / 4)`. -/
example : (Formula.div
      (.add (.leaf (.const 3)) (.add (.leaf (.param "x")) (.mul (.leaf (.const (-2))) (.leaf (.param "y")))))
      (.div (.leaf (.param "y")) (.leaf (.const 4))) : Formula ℚ).ConstsIn (fun _ => True) True := by
  simp [Formula.ConstsIn, ConstsIn]

/-- C01 fails as stated for the code's tolerance: multiplying by a constant
smaller than the machine epsilon gives the constant zero, although the product
is not zero. -/
theorem epsilon_counterexample (S : Sem ℚ) (hx : S.param "x" = 1) :
    mulF (epsTests machineEps) 3 (.const (1 / 2 ^ 60)) (.param "x") = some (.const 0) ∧
    eval S (.const 0) = some 0 ∧
    (Formula.mul (.leaf (.const (1 / 2 ^ 60))) (.leaf (.param "x"))).value S = some (1 / 2 ^ 60) ∧
    (1 / 2 ^ 60 : ℚ) ≠ 0 := by
  refine ⟨?_, rfl, ?_, by norm_num⟩
  · have h1 : (epsTests machineEps).isOne (1 / 2 ^ 60) = false := by
      apply decide_eq_false
      simp only [machineEps, not_lt]
      rw [abs_of_neg (by norm_num)]; norm_num
    have h2 : (epsTests machineEps).isZero (1 / 2 ^ 60) = true := by
      apply decide_eq_true
      simp only [machineEps]
      rw [abs_of_pos (by norm_num)]; norm_num
    unfold mulF; simp only
    unfold simplifyMul; simp only [h1, h2, Bool.false_eq_true, if_false, if_true]
  · simp [Formula.value, eval, hx]

/-! ### Function wrappers -/

/-- C01 (functions).  The `fcn::` wrappers evaluate to the function applied to
the value of the argument, whether or not the argument is a constant. -/
theorem fcn1_value (S : Sem K) (f : Un) (hf : f ≠ .isqrt) (e : Ex K) (a : K)
    (h : eval S e = some a) : eval S (fcn1 S f e) = some (S.un f a) := by
  unfold fcn1
  split
  · simp only [eval, Option.some.injEq] at h; subst h; rfl
  · cases f <;> simp_all [eval]

/-- `fcn::isqrt` is the reciprocal square root, when the root is not zero. -/
theorem fcnIsqrt_value (S : Sem K) (e : Ex K) (a : K) (h : eval S e = some a)
    (h0 : S.un .sqrt a ≠ 0) :
    ∃ e', fcnIsqrt S e = some e' ∧ eval S e' = some (1 / S.un .sqrt a) := by
  unfold fcnIsqrt
  split
  · simp only [eval, Option.some.injEq] at h; subst h
    exact ⟨_, by rw [if_neg h0], rfl⟩
  · exact ⟨_, rfl, by simp [eval, h, h0]⟩

/-- `fcn::conj` conjugates, provided parameters are real. -/
theorem fcnConj_value (S : Sem K) (e : Ex K) (a : K) (hreal : ∀ n, S.un .conj (S.param n) = S.param n)
    (h : eval S e = some a) : eval S (fcnConj S e) = some (S.un .conj a) := by
  unfold fcnConj
  split
  · simp only [eval, Option.some.injEq] at h ⊢; subst h; exact (hreal _).symm
  · exact fcn1_value S .conj (by decide) e a h

/-- `fcn::pow` is the power function: the shortcuts for exponents 0 and 1 agree
with it.  (Partial: tests exact on the constants used.) -/
theorem fcnPow_value_partial {T : Tests K} {P : K → Prop} {D : Prop} (hT : ExactOn T P D) (S : Sem K)
    (hp0 : ∀ x, S.bin .pow x 0 = 1) (hp1 : ∀ x, S.bin .pow x 1 = x)
    (e co : Ex K) (hco : ConstsIn P D co) (a b : K) (ha : eval S e = some a) (hb : eval S co = some b) :
    eval S (fcnPow T e co) = some (S.bin .pow a b) := by
  unfold fcnPow
  split
  · simp only [eval, Option.some.injEq] at hb; subst hb
    split
    · rename_i h; rw [hT.isZeroAbs hco h, hp0]; rfl
    · split
      · rename_i h; rw [hT.isOne hco h, hp1]; exact ha
      · simp [eval, ha]
  · simp [eval, ha, hb]

/-- `fcn::safe_sqrt` is the square root of positive numbers and zero otherwise. -/
theorem fcnSafeSqrt_value (S : Sem K) (e : Ex K) (a : K) (ha : eval S e = some a) :
    eval S (fcnSafeSqrt S e) =
      some (if S.truth (S.bin .gt a 0) then S.un .sqrt a else 0) := by
  unfold fcnSafeSqrt
  simp only [eval, ha, Option.bind_eq_bind, Option.bind_some, Option.pure_def]
  split
  · exact fcn1_value S .sqrt (by decide) e a ha
  · rfl

/-- Making a common sub-expression does not change the value. -/
theorem makeCse_value (S : Sem K) (key : Ex K → Nat) (e : Ex K) :
    eval S (makeCse key e) = eval S e := by
  unfold makeCse
  split <;> rfl

/-- `fcn::complex_sqrt` (partial: exact tests): the real square root of positive
numbers, the imaginary unit times the square root of the negated value
otherwise; constants go to the complex square root directly. -/
theorem fcnComplexSqrt_value_partial {T : Tests K} {P : K → Prop} {D : Prop} (hT : ExactOn T P D)
    (S : Sem K) (hI : P S.I) (key : Ex K → Nat) (e : Ex K) (he : ConstsIn P D e)
    (hne : ∀ v, e ≠ .const v) :
    ∃ e' N, (∀ fuel, N ≤ fuel → fcnComplexSqrt S T fuel key e = some e') ∧
      ∀ a, eval S e = some a → eval S e' =
        some (if S.truth (S.bin .gt a 0) then S.un .sqrt a else S.I * S.un .sqrt (-a)) := by
  have hcse : ConstsIn P D (makeCse key e) := by
    unfold makeCse; split <;> exact he
  obtain ⟨m, N1, hm⟩ : ∃ m N, ∀ fuel, N ≤ fuel → negF T fuel (makeCse key e) = some m := by
    obtain ⟨m, hm⟩ := mulF_some T (.const (-1)) (makeCse key e) (Nat.lt_succ_self _)
    exact ⟨m, _, fun fuel hf =>
      mono_le (f := fun n => negF T n (makeCse key e)) (fun n e => mulF_mono n) hf hm⟩
  have hmc := neg_correct hT hcse (hm N1 (Nat.le_refl _))
  obtain ⟨r, hr⟩ := mulF_some T (.const S.I) (.un .sqrt m) (Nat.lt_succ_self _)
  have hrc := (mul_group_correct hT _).2.1 _ _ _ (by exact hI) (by exact hmc.1) hr
  refine ⟨.ternary (.bin .gt (makeCse key e) (.const 0)) (.un .sqrt (makeCse key e)) r,
    max N1 (4 * (msize (Ex.const S.I) + msize (Ex.un Un.sqrt m)) + 2 + 1), ?_, ?_⟩
  · intro fuel hf
    unfold fcnComplexSqrt
    split
    · exact absurd rfl (hne _)
    · have h2 := mono_le (f := fun n => mulF T n (.const S.I) (.un .sqrt m))
        (fun n e => mulF_mono n) (m := fuel) (by omega) hr
      simp only [hm fuel (by omega), h2, Option.bind_eq_bind, Option.bind_some]
  · intro a ha
    have hst : eval S (makeCse key e) = some a := by
      rw [← ha]; unfold makeCse; split <;> rfl
    have hma := hmc.2 S a hst
    have hra : eval S r = some (S.I * S.un .sqrt (-a)) := hrc.2 S _ _ rfl (by simp [eval, hma])
    simp only [eval, hst, hra, Option.bind_eq_bind, Option.bind_some, Option.pure_def, Option.map_some]
    split <;> rfl

/-- `x * x * ... * x` as the user would write it. -/
def powFormula (x : Ex K) : Nat → Formula K
  | 0 => .leaf (.const 1)
  | k + 1 => .mul (powFormula x k) (.leaf x)

/-- `fcn::fpow` (partial: exact tests).  For every integer power the function
returns, and the tree evaluates to the power of the argument's value; negative
powers need a non-zero argument. -/
theorem fpow_value_partial {T : Tests K} {P : K → Prop} (hT : ExactOn T P True) (x : Ex K)
    (hx : ConstsIn P True x) (n : ℤ) :
    ∃ e N, (∀ fuel, N ≤ fuel → fpow T fuel x n = some e) ∧
      ∀ (S : Sem K) (a : K), eval S x = some a → (n < 0 → a ≠ 0) → eval S e = some (a ^ n) := by
  have hb : ∀ fuel k, fpowLoop T fuel x k = (powFormula x k).build T fuel := by
    intro fuel k
    induction k with
    | zero => rfl
    | succ k ih => simp only [fpowLoop, powFormula, Formula.build, ih]; rfl
  have hc : ∀ k, (powFormula x k).ConstsIn P True := by
    intro k
    induction k with
    | zero => exact hT.one
    | succ k ih => exact ⟨ih, hx⟩
  have hv : ∀ (S : Sem K) a, eval S x = some a → ∀ k, (powFormula x k).value S = some (a ^ k) := by
    intro S a ha k
    induction k with
    | zero => simp [powFormula, Formula.value, eval]
    | succ k ih => simp [powFormula, Formula.value, ih, ha, pow_succ]
  by_cases hn : n < 0
  · obtain ⟨e, N, h1, -, h3⟩ := formula_value_partial hT
      (.div (.leaf (.const 1)) (powFormula x n.natAbs)) ⟨trivial, hT.one, hc _⟩
    refine ⟨e, N, fun fuel hf => ?_, fun S a ha ha0 => ?_⟩
    · have := h1 fuel hf
      unfold fpow
      rw [if_pos hn, hb]
      exact this
    · apply h3
      have hne : a ^ n.natAbs ≠ 0 := pow_ne_zero _ (ha0 hn)
      have hnn : n = -(n.natAbs : ℤ) := by omega
      simp only [Formula.value, eval, hv S a ha, Option.bind_eq_bind, Option.bind_some, hne, if_false]
      have hz : a ^ n = (a ^ n.natAbs)⁻¹ := by
        conv => lhs; rw [hnn, zpow_neg, zpow_natCast]
      rw [hz, one_div]
  · obtain ⟨e, N, h1, -, h3⟩ := formula_value_partial hT (powFormula x n.natAbs) (hc _)
    refine ⟨e, N, fun fuel hf => ?_, fun S a ha _ => ?_⟩
    · unfold fpow
      rw [if_neg hn, hb]
      exact h1 fuel hf
    · have hnn : n = (n.natAbs : ℤ) := by omega
      rw [h3 S _ (hv S a ha _)]
      conv => rhs; rw [hnn, zpow_natCast]

example : fpow exactTests 5 (.param "x") (-2) =
    some (.bin .div (.const 1) (.bin .prod (.param "x") (.param "x"))) := by
  decide +kernel

end AmpGen.Expr
