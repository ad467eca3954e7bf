import Verif.Expr.Spec
import Mathlib.Tactic.FieldSimp
import Mathlib.Tactic.Ring
/-
Helper lemmas for the expression operators: correctness of every result within
the budget, and termination by a size measure.
-/
namespace AmpGen.Expr

variable {K : Type} [Field K] [DecidableEq K]

/-! ### Evaluation of the arithmetic nodes -/

theorem eval_sum {S : Sem K} {l r : Ex K} {v : K} :
    eval S (.bin .sum l r) = some v ↔ ∃ a b, eval S l = some a ∧ eval S r = some b ∧ v = a + b := by
  simp only [eval]
  cases eval S l <;> cases eval S r <;> simp [eq_comm]

theorem eval_sub {S : Sem K} {l r : Ex K} {v : K} :
    eval S (.bin .sub l r) = some v ↔ ∃ a b, eval S l = some a ∧ eval S r = some b ∧ v = a - b := by
  simp only [eval]
  cases eval S l <;> cases eval S r <;> simp [eq_comm]

theorem eval_prod {S : Sem K} {l r : Ex K} {v : K} :
    eval S (.bin .prod l r) = some v ↔ ∃ a b, eval S l = some a ∧ eval S r = some b ∧ v = a * b := by
  simp only [eval]
  cases eval S l <;> cases eval S r <;> simp [eq_comm]

theorem eval_div {S : Sem K} {l r : Ex K} {v : K} :
    eval S (.bin .div l r) = some v ↔
      ∃ a b, eval S l = some a ∧ eval S r = some b ∧ b ≠ 0 ∧ v = a / b := by
  simp only [eval]
  cases eval S l with
  | none => simp
  | some a =>
    cases eval S r with
    | none => simp
    | some b =>
      by_cases hb : b = 0
      · simp [hb]
      · simp [hb, eq_comm]

/-! ### Partial correctness -/

/-- `e` has only constants of `P` and evaluates to the product of `A` and `B`. -/
def MulOK (P : K → Prop) (D : Prop) (A B e : Ex K) : Prop :=
  ConstsIn P D e ∧ ∀ (S : Sem K) (a b : K), eval S A = some a → eval S B = some b →
    eval S e = some (a * b)

/-- `e` has only constants of `P` and evaluates to the quotient of `A` and `B`. -/
def DivOK (P : K → Prop) (D : Prop) (A B e : Ex K) : Prop :=
  ConstsIn P D e ∧ ∀ (S : Sem K) (a b : K), eval S A = some a → eval S B = some b → b ≠ 0 →
    eval S e = some (a / b)

omit [Field K] [DecidableEq K] in
theorem isZeroConst_eq {T : Tests K} {A : Ex K} (h : isZeroConst T A = true) :
    ∃ a, A = .const a ∧ T.isZeroAbs a = true := by
  unfold isZeroConst at h
  split at h
  · exact ⟨_, rfl, h⟩
  · exact absurd h (by simp)

theorem mul_group_correct {T : Tests K} {P : K → Prop} {D : Prop} (hT : ExactOn T P D) : ∀ n : Nat,
    (∀ c e e', P c → ConstsIn P D e → simplifyMul T n c e = some e' →
      MulOK P D (.const c) e e') ∧
    (∀ A B e', ConstsIn P D A → ConstsIn P D B → mulF T n A B = some e' →
      MulOK P D A B e') ∧
    (∀ A B e', D → ConstsIn P D A → ConstsIn P D B → divF T n A B = some e' →
      DivOK P D A B e')
  | 0 => by
    refine ⟨?_, ?_, ?_⟩
    · intro c e e' _ _ h; simp [simplifyMul] at h
    · intro A B e' _ _ h; simp [mulF] at h
    · intro A B e' _ _ _ h; simp [divF] at h
  | n + 1 => by
    obtain ⟨ihs, ihm, ihd⟩ := mul_group_correct hT n
    refine ⟨?_, ?_, ?_⟩
    · intro c e e' hc he h
      unfold simplifyMul at h
      split at h
      · simp only [Option.some.injEq] at h; subst h
        refine ⟨hT.mul hc he, ?_⟩
        intro S a b ha hb
        simp only [eval, Option.some.injEq] at ha hb
        subst ha; subst hb; rfl
      · split at h
        · rename_i h1
          simp only [Option.some.injEq] at h; subst h
          refine ⟨he, ?_⟩
          intro S a b ha hb
          simp only [eval, Option.some.injEq] at ha; subst ha
          rw [hb, hT.isOne hc h1, one_mul]
        · split at h
          · rename_i h1
            simp only [Option.some.injEq] at h; subst h
            refine ⟨hT.zero, ?_⟩
            intro S a b ha hb
            simp only [eval, Option.some.injEq] at ha; subst ha
            simp only [eval]
            rw [hT.isZero hc h1, zero_mul]
          · split at h
            · obtain ⟨X, hX, hY⟩ := Option.bind_eq_some_iff.mp h
              have h1 := ihs _ _ X hc he.2.1 hX
              have h2 := ihm X _ e' h1.1 he.2.2 hY
              refine ⟨h2.1, ?_⟩
              intro S a b ha hb
              obtain ⟨x, y, hx, hy, rfl⟩ := eval_prod.mp hb
              rw [h2.2 S (a * x) y (h1.2 S a x ha hx) hy, mul_assoc]
            · simp only [Option.some.injEq] at h; subst h
              refine ⟨⟨by simp, hc, he⟩, ?_⟩
              intro S a b ha hb
              exact eval_prod.mpr ⟨a, b, ha, hb, rfl⟩
    · intro A B e' hA hB h
      unfold mulF at h
      split at h
      · exact ihs _ _ _ hA hB h
      · have := ihs _ _ _ hB hA h
        refine ⟨this.1, ?_⟩
        intro S a b ha hb
        rw [this.2 S b a hb ha, mul_comm]
      · obtain ⟨X, hX, hY⟩ := Option.bind_eq_some_iff.mp h
        have h1 := ihm _ _ X hA.2.1 hB hX
        have h2 := ihd X _ e' (hA.1 rfl) h1.1 hA.2.2 hY
        refine ⟨h2.1, ?_⟩
        intro S a b ha hb
        obtain ⟨x, y, hx, hy, hy0, rfl⟩ := eval_div.mp ha
        rw [h2.2 S (x * b) y (h1.2 S x b hx hb) hy hy0]
        congr 1; field_simp
      · obtain ⟨X, hX, hY⟩ := Option.bind_eq_some_iff.mp h
        have h1 := ihm _ _ X hA hB.2.1 hX
        have h2 := ihd X _ e' (hB.1 rfl) h1.1 hB.2.2 hY
        refine ⟨h2.1, ?_⟩
        intro S a b ha hb
        obtain ⟨x, y, hx, hy, hy0, rfl⟩ := eval_div.mp hb
        rw [h2.2 S (a * x) y (h1.2 S a x ha hx) hy hy0]
        congr 1; field_simp
      · split at h
        · simp only [Option.some.injEq] at h; subst h
          refine ⟨⟨by simp, hB, hA⟩, ?_⟩
          intro S a b ha hb
          exact eval_prod.mpr ⟨b, a, hb, ha, by rw [mul_comm]⟩
        · simp only [Option.some.injEq] at h; subst h
          refine ⟨⟨by simp, hA, hB⟩, ?_⟩
          intro S a b ha hb
          exact eval_prod.mpr ⟨a, b, ha, hb, rfl⟩
    · intro A B e' hD hA hB h
      unfold divF at h
      split at h
      · rename_i hz
        simp only [Option.some.injEq] at h; subst h
        obtain ⟨a', rfl, hz⟩ := isZeroConst_eq hz
        refine ⟨hT.zero, ?_⟩
        intro S a b ha hb _
        simp only [eval, Option.some.injEq] at ha; subst ha
        simp only [eval]
        rw [hT.isZeroAbs hA hz, zero_div]
      · split at h
        · split at h
          · rename_i h1
            simp only [Option.some.injEq] at h; subst h
            refine ⟨hA, ?_⟩
            intro S a b ha hb _
            simp only [eval, Option.some.injEq] at hb; subst hb
            rw [ha, hT.isOne hB h1, div_one]
          · have h1 := ihm A _ e' hA
              (by simp only [ConstsIn, one_div]; exact hT.inv hD hB) h
            refine ⟨h1.1, ?_⟩
            intro S a b ha hb _
            simp only [eval, Option.some.injEq] at hb; subst hb
            rw [h1.2 S a _ ha rfl]
            congr 1; ring
        · obtain ⟨X, hX, hY⟩ := Option.bind_eq_some_iff.mp h
          have h1 := ihm _ _ X (by simp only [ConstsIn, one_div]; exact hT.inv hD hB.2.1) hA hX
          have h2 := ihd X _ e' hD h1.1 hB.2.2 hY
          refine ⟨h2.1, ?_⟩
          intro S a b ha hb hb0
          obtain ⟨x, y, hx, hy, rfl⟩ := eval_prod.mp hb
          simp only [eval, Option.some.injEq] at hx; subst hx
          have hc0 := left_ne_zero_of_mul hb0
          have hy0 : y ≠ 0 := right_ne_zero_of_mul hb0
          rw [h2.2 S _ y (h1.2 S _ a rfl ha) hy hy0]
          congr 1; field_simp
        · obtain ⟨X, hX, hY⟩ := Option.bind_eq_some_iff.mp h
          have h1 := ihm _ _ X (by simp only [ConstsIn, one_div]; exact hT.inv hD hB.2.2) hA hX
          have h2 := ihd X _ e' hD h1.1 hB.2.1 hY
          refine ⟨h2.1, ?_⟩
          intro S a b ha hb hb0
          obtain ⟨x, y, hx, hy, rfl⟩ := eval_prod.mp hb
          simp only [eval, Option.some.injEq] at hy; subst hy
          have hx0 : x ≠ 0 := left_ne_zero_of_mul hb0
          have hc0 := right_ne_zero_of_mul hb0
          rw [h2.2 S _ x (h1.2 S _ a rfl ha) hx hx0]
          congr 1; field_simp
        · obtain ⟨X, hX, hY⟩ := Option.bind_eq_some_iff.mp h
          have h1 := ihm _ _ X hA hB.2.2 hX
          have h2 := ihd X _ e' hD h1.1 hB.2.1 hY
          refine ⟨h2.1, ?_⟩
          intro S a b ha hb hb0
          obtain ⟨x, y, hx, hy, hy0, rfl⟩ := eval_div.mp hb
          have hx0 : x ≠ 0 := by
            intro h0; exact hb0 (by rw [h0, zero_div])
          rw [h2.2 S _ x (h1.2 S a y ha hy) hx hx0]
          congr 1; field_simp
        · simp only [Option.some.injEq] at h; subst h
          refine ⟨⟨fun _ => hD, hA, hB⟩, ?_⟩
          intro S a b ha hb hb0
          exact eval_div.mpr ⟨a, b, ha, hb, hb0, rfl⟩

theorem neg_correct {T : Tests K} {P : K → Prop} {D : Prop} (hT : ExactOn T P D) {n : Nat} {A e : Ex K}
    (hA : ConstsIn P D A) (h : negF T n A = some e) :
    ConstsIn P D e ∧ ∀ (S : Sem K) a, eval S A = some a → eval S e = some (-a) := by
  have := (mul_group_correct hT n).2.1 _ _ _ (by exact hT.neg hT.one) hA h
  refine ⟨this.1, fun S a ha => ?_⟩
  rw [this.2 S (-1) a rfl ha, neg_one_mul]

theorem sub_correct {T : Tests K} {P : K → Prop} {D : Prop} (hT : ExactOn T P D) {n : Nat} {A B e : Ex K}
    (hA : ConstsIn P D A) (hB : ConstsIn P D B) (h : subF T n A B = some e) :
    ConstsIn P D e ∧ ∀ (S : Sem K) a b, eval S A = some a → eval S B = some b →
      eval S e = some (a - b) := by
  unfold subF at h
  split at h
  · split at h
    · rename_i hz
      have h0 := hT.isZero hA hz
      obtain ⟨h1, h2⟩ := neg_correct hT hB h
      refine ⟨h1, fun S a b ha hb => ?_⟩
      simp only [eval, Option.some.injEq] at ha; subst ha
      rw [h2 S b hb, h0, zero_sub]
    · split at h
      · rename_i hz
        have h0 := hT.isZero hB hz
        simp only [Option.some.injEq] at h; subst h
        refine ⟨hA, fun S a b ha hb => ?_⟩
        simp only [eval, Option.some.injEq] at hb; subst hb
        rw [ha, h0, sub_zero]
      · simp only [Option.some.injEq] at h; subst h
        refine ⟨by simp only [ConstsIn, sub_eq_add_neg]; exact hT.add hA (hT.neg hB), ?_⟩
        intro S a b ha hb
        simp only [eval, Option.some.injEq] at ha hb; subst ha; subst hb; rfl
  · split at h
    · rename_i hz
      have h0 := hT.isZero hA hz
      obtain ⟨h1, h2⟩ := neg_correct hT hB h
      refine ⟨h1, fun S a b ha hb => ?_⟩
      simp only [eval, Option.some.injEq] at ha; subst ha
      rw [h2 S b hb, h0, zero_sub]
    · simp only [Option.some.injEq] at h; subst h
      exact ⟨⟨by simp, hA, hB⟩, fun S a b ha hb => eval_sub.mpr ⟨a, b, ha, hb, rfl⟩⟩
  · split at h
    · rename_i hz
      have h0 := hT.isZero hB hz
      simp only [Option.some.injEq] at h; subst h
      refine ⟨hA, fun S a b ha hb => ?_⟩
      simp only [eval, Option.some.injEq] at hb; subst hb
      rw [ha, h0, sub_zero]
    · simp only [Option.some.injEq] at h; subst h
      exact ⟨⟨by simp, hA, hB⟩, fun S a b ha hb => eval_sub.mpr ⟨a, b, ha, hb, rfl⟩⟩
  · simp only [Option.some.injEq] at h; subst h
    exact ⟨⟨by simp, hA, hB⟩, fun S a b ha hb => eval_sub.mpr ⟨a, b, ha, hb, rfl⟩⟩

theorem prodAdd_correct {T : Tests K} {P : K → Prop} {D : Prop} (hT : ExactOn T P D) {n : Nat} {l r B e : Ex K}
    (hl : ConstsIn P D l) (hr : ConstsIn P D r) (hB : ConstsIn P D B)
    (h : simplifyProdAdd T n l r B = some e) :
    ConstsIn P D e ∧ ∀ (S : Sem K) a b, eval S (.bin .prod l r) = some a → eval S B = some b →
      eval S e = some (a + b) := by
  unfold simplifyProdAdd at h
  split at h
  · split at h
    · obtain ⟨X, hX, hY⟩ := Option.bind_eq_some_iff.mp h
      have h1 := (mul_group_correct hT n).2.1 _ _ _
        (by simp only [ConstsIn, neg_one_mul]; exact hT.neg hl) hr hX
      obtain ⟨h2, h3⟩ := sub_correct hT hB h1.1 hY
      refine ⟨h2, fun S a b ha hb => ?_⟩
      obtain ⟨x, y, hx, hy, rfl⟩ := eval_prod.mp ha
      simp only [eval, Option.some.injEq] at hx; subst hx
      rw [h3 S b _ hb (h1.2 S _ y rfl hy)]
      congr 1; ring
    · simp only [Option.some.injEq] at h; subst h
      exact ⟨⟨by simp, hB, by simp, hl, hr⟩, fun S a b ha hb => eval_sum.mpr ⟨b, a, hb, ha, by ring⟩⟩
  · simp only [Option.some.injEq] at h; subst h
    exact ⟨⟨by simp, hB, by simp, hl, hr⟩, fun S a b ha hb => eval_sum.mpr ⟨b, a, hb, ha, by ring⟩⟩

theorem add_group_correct {T : Tests K} {P : K → Prop} {D : Prop} (hT : ExactOn T P D) : ∀ n : Nat,
    (∀ c e e', P c → ConstsIn P D e → simplifyAdd T n c e = some e' →
      ConstsIn P D e' ∧ ∀ (S : Sem K) b, eval S e = some b → eval S e' = some (c + b)) ∧
    (∀ A B e', ConstsIn P D A → ConstsIn P D B → addF T n A B = some e' →
      ConstsIn P D e' ∧ ∀ (S : Sem K) a b, eval S A = some a → eval S B = some b →
        eval S e' = some (a + b))
  | 0 => by
    refine ⟨?_, ?_⟩
    · intro c e e' _ _ h; simp [simplifyAdd] at h
    · intro A B e' _ _ h; simp [addF] at h
  | n + 1 => by
    obtain ⟨ihs, iha⟩ := add_group_correct hT n
    refine ⟨?_, ?_⟩
    · intro c e e' hc he h
      unfold simplifyAdd at h
      split at h
      · rename_i hz
        simp only [Option.some.injEq] at h; subst h
        exact ⟨he, fun S b hb => by rw [hb, hT.isZero hc hz, zero_add]⟩
      · split at h
        · simp only [Option.some.injEq] at h; subst h
          refine ⟨hT.add hc he, fun S b hb => ?_⟩
          simp only [eval, Option.some.injEq] at hb; subst hb; rfl
        · obtain ⟨X, hX, hY⟩ := Option.bind_eq_some_iff.mp h
          obtain ⟨h1, h2⟩ := ihs _ _ X hc he.2.1 hX
          obtain ⟨h3, h4⟩ := iha X _ e' h1 he.2.2 hY
          refine ⟨h3, fun S b hb => ?_⟩
          obtain ⟨x, y, hx, hy, rfl⟩ := eval_sum.mp hb
          rw [h4 S _ y (h2 S x hx) hy, add_assoc]
        · simp only [Option.some.injEq] at h; subst h
          exact ⟨⟨by simp, hc, he⟩, fun S b hb => eval_sum.mpr ⟨c, b, rfl, hb, rfl⟩⟩
    · intro A B e' hA hB h
      unfold addF at h
      split at h
      · obtain ⟨h1, h2⟩ := ihs _ _ _ hA hB h
        refine ⟨h1, fun S a b ha hb => ?_⟩
        simp only [eval, Option.some.injEq] at ha; subst ha
        exact h2 S b hb
      · obtain ⟨h1, h2⟩ := ihs _ _ _ hB hA h
        refine ⟨h1, fun S a b ha hb => ?_⟩
        simp only [eval, Option.some.injEq] at hb; subst hb
        rw [h2 S a ha, add_comm]
      · obtain ⟨h1, h2⟩ := prodAdd_correct hT hA.2.1 hA.2.2 hB h
        exact ⟨h1, fun S a b ha hb => h2 S a b ha hb⟩
      · obtain ⟨h1, h2⟩ := prodAdd_correct hT hB.2.1 hB.2.2 hA h
        exact ⟨h1, fun S a b ha hb => by rw [h2 S b a hb ha, add_comm]⟩
      · simp only [Option.some.injEq] at h; subst h
        exact ⟨⟨by simp, hA, hB⟩, fun S a b ha hb => eval_sum.mpr ⟨a, b, ha, hb, rfl⟩⟩

end AmpGen.Expr
