import Verif.Expr.Spec
/-
Termination of the operator rewriting, by a size measure that no rewriting step
increases.
-/
namespace AmpGen.Expr

variable {K : Type}

def isC : Ex K → Bool
  | .const _ => true
  | _ => false

/-- Size measure for products and quotients. -/
def msize : Ex K → Nat
  | .const _ => 0
  | .bin .prod l r => msize l + msize r + 1 + (if isC r then 1 else 0)
  | .bin .div l r => msize l + 2 * msize r + 2
  | _ => 1

theorem msize_pos {e : Ex K} (h : isC e = false) : 1 ≤ msize e := by
  unfold msize
  split <;> simp_all [isC]; omega

theorem msize_const {e : Ex K} (h : isC e = true) : msize e = 0 := by
  cases e <;> simp_all [isC, msize]

variable [Field K]

theorem mul_group_term (T : Tests K) : ∀ n : Nat,
    (∀ c e, 4 * msize e + 1 < n → ∃ e', simplifyMul T n c e = some e' ∧ msize e' ≤ msize e + 1) ∧
    (∀ A B, 4 * (msize A + msize B) + (if isC A || isC B then 2 else 0) < n →
      ∃ e', mulF T n A B = some e' ∧ msize e' ≤ msize A + msize B + 1) ∧
    (∀ A B, 4 * (msize A + 2 * msize B) + 3 < n →
      ∃ e', divF T n A B = some e' ∧ msize e' ≤ msize A + 2 * msize B + 2)
  | 0 => by
    refine ⟨?_, ?_, ?_⟩ <;> intros <;> omega
  | n + 1 => by
    obtain ⟨ihs, ihm, ihd⟩ := mul_group_term T n
    refine ⟨?_, ?_, ?_⟩
    · intro c e hn
      unfold simplifyMul
      split
      · exact ⟨_, rfl, by simp [msize]⟩
      · rename_i hne
        have hCe : isC e = false := by
          cases e <;> simp_all [isC]
        split
        · exact ⟨_, rfl, by omega⟩
        · split
          · exact ⟨_, rfl, by simp [msize]⟩
          · split
            · rename_i l r
              simp only [msize] at hn
              obtain ⟨X, hX, hXs⟩ := ihs c l (by omega)
              have hmul : 4 * (msize X + msize r) + (if isC X || isC r then 2 else 0) < n := by
                cases hr : isC r with
                | true =>
                  have := msize_const hr
                  simp only [hr, if_true] at hn
                  simp; omega
                | false =>
                  simp only [hr, Bool.false_eq_true, if_false] at hn
                  cases hx : isC X with
                  | true =>
                    have := msize_const hx
                    simp; omega
                  | false => simp; omega
              obtain ⟨Y, hY, hYs⟩ := ihm X r hmul
              refine ⟨Y, ?_, ?_⟩
              · simp only [hX]; exact hY
              · simp only [msize]; omega
            · refine ⟨_, rfl, ?_⟩
              simp only [msize, hCe, Bool.false_eq_true, if_false]; omega
    · intro A B hn
      unfold mulF
      split
      · rename_i a
        simp only [msize, isC, Bool.true_or, if_true] at hn
        obtain ⟨Y, hY, hYs⟩ := ihs a B (by omega)
        exact ⟨Y, hY, by simp only [msize]; omega⟩
      · rename_i b _
        simp only [msize, isC, Bool.or_true, if_true] at hn
        obtain ⟨Y, hY, hYs⟩ := ihs b A (by omega)
        exact ⟨Y, hY, by simp only [msize]; omega⟩
      · rename_i l d _
        simp only [msize] at hn
        obtain ⟨X, hX, hXs⟩ := ihm l B (by split <;> omega)
        obtain ⟨Y, hY, hYs⟩ := ihd X d (by omega)
        refine ⟨Y, ?_, by simp only [msize]; omega⟩
        simp only [hX]; exact hY
      · rename_i l d _ _
        simp only [msize] at hn
        obtain ⟨X, hX, hXs⟩ := ihm A l (by split <;> omega)
        obtain ⟨Y, hY, hYs⟩ := ihd X d (by omega)
        refine ⟨Y, ?_, by simp only [msize]; omega⟩
        simp only [hX]; exact hY
      · rename_i hA hB _ _
        have hCA : isC A = false := by
          cases A <;> simp_all [isC]
        have hCB : isC B = false := by
          cases B <;> simp_all [isC]
        split
        · exact ⟨_, rfl, by simp [msize, hCA]; omega⟩
        · exact ⟨_, rfl, by simp [msize, hCB]⟩
    · intro A B hn
      unfold divF
      split
      · exact ⟨_, rfl, by simp [msize]⟩
      · split
        · rename_i b
          split
          · exact ⟨_, rfl, by omega⟩
          · simp only [msize] at hn
            obtain ⟨Y, hY, hYs⟩ := ihm A (.const (1 / b)) (by simp only [msize, isC]; simp; omega)
            exact ⟨Y, hY, by simp only [msize] at hYs; omega⟩
        · rename_i c r
          simp only [msize] at hn
          obtain ⟨X, hX, hXs⟩ := ihm (.const (1 / c)) A (by simp only [msize, isC]; simp; omega)
          simp only [msize] at hXs
          obtain ⟨Y, hY, hYs⟩ := ihd X r (by omega)
          refine ⟨Y, ?_, by simp only [msize]; omega⟩
          simp only [hX]; exact hY
        · rename_i l c _
          simp only [msize, isC, if_true] at hn
          obtain ⟨X, hX, hXs⟩ := ihm (.const (1 / c)) A (by simp only [msize, isC]; simp; omega)
          simp only [msize] at hXs
          obtain ⟨Y, hY, hYs⟩ := ihd X l (by omega)
          refine ⟨Y, ?_, by simp only [msize, isC, if_true]; omega⟩
          simp only [hX]; exact hY
        · rename_i p q
          simp only [msize] at hn
          obtain ⟨X, hX, hXs⟩ := ihm A q (by split <;> omega)
          obtain ⟨Y, hY, hYs⟩ := ihd X p (by omega)
          refine ⟨Y, ?_, by simp only [msize]; omega⟩
          simp only [hX]; exact hY
        · exact ⟨_, rfl, by simp only [msize]; omega⟩

theorem mulF_some (T : Tests K) (A B : Ex K) {n : Nat} (hn : 4 * (msize A + msize B) + 2 < n) :
    ∃ e, mulF T n A B = some e := by
  obtain ⟨e, he, -⟩ := (mul_group_term T n).2.1 A B (by split <;> omega)
  exact ⟨e, he⟩

theorem divF_some (T : Tests K) (A B : Ex K) {n : Nat} (hn : 4 * (msize A + 2 * msize B) + 3 < n) :
    ∃ e, divF T n A B = some e := by
  obtain ⟨e, he, -⟩ := (mul_group_term T n).2.2 A B hn
  exact ⟨e, he⟩

theorem subF_some (T : Tests K) (A B : Ex K) {n : Nat} (hn : 4 * msize B + 2 < n) :
    ∃ e, subF T n A B = some e := by
  have hneg : ∃ e, negF T n B = some e := mulF_some T _ B (by simp only [msize]; omega)
  obtain ⟨e, he⟩ := hneg
  unfold subF
  split
  · split
    · exact ⟨e, he⟩
    · split <;> exact ⟨_, rfl⟩
  · split
    · exact ⟨e, he⟩
    · exact ⟨_, rfl⟩
  · split <;> exact ⟨_, rfl⟩
  · exact ⟨_, rfl⟩

/-- Largest multiplicative size of a factor met while adding: used to bound the
budget the products need. -/
def pmax : Ex K → Nat
  | .bin .sum l r => max (pmax l) (pmax r)
  | .bin .prod l r => msize (.bin .prod l r)
  | _ => 0

/-- Size measure for sums. -/
def asize : Ex K → Nat
  | .const _ => 0
  | .bin .sum l r => asize l + asize r + 1 + (if isC r then 1 else 0)
  | _ => 1

omit [Field K] in
theorem asize_pos {e : Ex K} (h : isC e = false) : 1 ≤ asize e := by
  unfold asize
  split <;> simp_all [isC]; omega

omit [Field K] in
theorem asize_const {e : Ex K} (h : isC e = true) : asize e = 0 := by
  cases e <;> simp_all [isC, asize]

theorem subF_nonconst (T : Tests K) (n : Nat) {A B e : Ex K} (hA : isC A = false)
    (h : subF T n A B = some e) : e = A ∨ e = .bin .sub A B := by
  unfold subF at h
  split at h
  · simp [isC] at hA
  · simp [isC] at hA
  · split at h <;> simp only [Option.some.injEq] at h
    · exact Or.inl h.symm
    · exact Or.inr h.symm
  · simp only [Option.some.injEq] at h
    exact Or.inr h.symm

theorem prodAdd_some (T : Tests K) (l r B : Ex K) {n : Nat} (hB : isC B = false)
    (hn : 4 * msize (.bin .prod l r) + 7 < n) :
    ∃ e, simplifyProdAdd T n l r B = some e ∧ asize e ≤ asize B + 2 ∧
      pmax e ≤ max (pmax B) (msize (.bin .prod l r)) := by
  unfold simplifyProdAdd
  split
  · rename_i c
    split
    · simp only [msize] at hn
      obtain ⟨X, hX, hXs⟩ := (mul_group_term T n).2.1 (.const (-1 * c)) r
        (by simp only [msize]; split <;> omega)
      simp only [msize] at hXs
      obtain ⟨Y, hY⟩ := subF_some T B X (n := n) (by omega)
      refine ⟨Y, by simp only [hX]; exact hY, ?_, ?_⟩
      · rcases subF_nonconst T n hB hY with rfl | rfl
        · omega
        · simp only [asize]; omega
      · rcases subF_nonconst T n hB hY with rfl | rfl
        · omega
        · simp [pmax]
    · refine ⟨_, rfl, ?_, ?_⟩
      · simp only [asize, isC]; simp
      · simp only [pmax]; omega
  · refine ⟨_, rfl, ?_, ?_⟩
    · simp only [asize, isC]; simp
    · simp only [pmax]; omega

theorem add_group_term (T : Tests K) (M : Nat) : ∀ n : Nat,
    (∀ c e, pmax e ≤ M → 4 * asize e + 1 + (4 * M + 10) < n →
      ∃ e', simplifyAdd T n c e = some e' ∧ asize e' ≤ asize e + 1 ∧ pmax e' ≤ M) ∧
    (∀ A B, pmax A ≤ M → pmax B ≤ M →
      4 * (asize A + asize B) + (if isC A || isC B then 2 else 0) + (4 * M + 10) < n →
      ∃ e', addF T n A B = some e' ∧ asize e' ≤ asize A + asize B + 1 ∧ pmax e' ≤ M)
  | 0 => by
    refine ⟨?_, ?_⟩ <;> intros <;> omega
  | n + 1 => by
    obtain ⟨ihs, iha⟩ := add_group_term T M n
    refine ⟨?_, ?_⟩
    · intro c e hM hn
      unfold simplifyAdd
      split
      · exact ⟨_, rfl, by omega, hM⟩
      · split
        · exact ⟨_, rfl, by simp [asize], by simp [pmax]⟩
        · rename_i l r
          simp only [asize] at hn
          simp only [pmax] at hM
          obtain ⟨X, hX, hXs, hXm⟩ := ihs c l (by omega) (by omega)
          have hadd : 4 * (asize X + asize r) + (if isC X || isC r then 2 else 0) + (4 * M + 10) < n := by
            cases hr : isC r with
            | true =>
              have := asize_const hr
              simp only [hr, if_true] at hn
              simp; omega
            | false =>
              simp only [hr, Bool.false_eq_true, if_false] at hn
              cases hx : isC X with
              | true =>
                have := asize_const hx
                simp; omega
              | false => simp; omega
          obtain ⟨Y, hY, hYs, hYm⟩ := iha X r hXm (by omega) hadd
          refine ⟨Y, ?_, ?_, hYm⟩
          · simp only [hX]; exact hY
          · simp only [asize]; omega
        · rename_i hne _
          have hCe : isC e = false := by
            cases e <;> simp_all [isC]
          refine ⟨_, rfl, ?_, ?_⟩
          · simp only [asize, hCe, Bool.false_eq_true, if_false]; omega
          · simp only [pmax]; omega
    · intro A B hMA hMB hn
      unfold addF
      split
      · rename_i a
        simp only [asize, isC, Bool.true_or, if_true] at hn
        obtain ⟨Y, hY, hYs, hYm⟩ := ihs a B hMB (by omega)
        exact ⟨Y, hY, by simp only [asize]; omega, hYm⟩
      · rename_i b _
        simp only [asize, isC, Bool.or_true, if_true] at hn
        obtain ⟨Y, hY, hYs, hYm⟩ := ihs b A hMA (by omega)
        exact ⟨Y, hY, by simp only [asize]; omega, hYm⟩
      · rename_i l r hB
        have hCB : isC B = false := by
          cases B <;> simp_all [isC]
        simp only [pmax] at hMA
        obtain ⟨Y, hY, hYs, hYm⟩ := prodAdd_some T l r B hCB (n := n) (by omega)
        exact ⟨Y, hY, by simp only [asize]; omega, by omega⟩
      · rename_i l r hA hA'
        have hCA : isC A = false := by
          cases A <;> simp_all [isC]
        simp only [pmax] at hMB
        obtain ⟨Y, hY, hYs, hYm⟩ := prodAdd_some T l r A hCA (n := n) (by omega)
        exact ⟨Y, hY, by simp only [asize]; omega, by omega⟩
      · rename_i hA hB _ _
        have hCB : isC B = false := by
          cases B <;> simp_all [isC]
        refine ⟨_, rfl, by simp [asize, hCB], ?_⟩
        simp only [pmax]; omega

theorem addF_some (T : Tests K) (A B : Ex K) {n : Nat}
    (hn : 4 * (asize A + asize B) + 2 + (4 * max (pmax A) (pmax B) + 10) < n) :
    ∃ e, addF T n A B = some e := by
  obtain ⟨e, he, -⟩ := (add_group_term T (max (pmax A) (pmax B)) n).2 A B (by omega) (by omega)
    (by split <;> omega)
  exact ⟨e, he⟩

end AmpGen.Expr
