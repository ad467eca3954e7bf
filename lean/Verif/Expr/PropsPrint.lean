import Verif.Expr.LemmasPrint
import Mathlib.Algebra.Order.Field.Rat
import Mathlib.Data.Rat.Floor
import Mathlib.Tactic.NormNum
/-
Property theorems about the generated source (C02).
-/
namespace AmpGen.Expr

variable {K : Type} [Field K] [DecidableEq K]

/-- The grammar used to state C02 is unambiguous: a token sequence has at most
one reading. -/
theorem cxx_grammar_unambiguous {K : Type} [DecidableEq K] (i : Nat) (ts : List (Tok K)) (a b : CAst K)
    (ha : Derives i ts a) (hb : Derives i ts b) : a = b :=
  derives_unique ha hb

/-- C02 (partial).  The text printed for any expression tree, in scalar or in
vector mode, is a C++ expression with exactly one reading, and that reading has
the value of the tree, whenever the tree has a value and the identifiers and
literals mean what they stand for (`Agrees`).  Missing: literals that `"%g"`
does not reproduce, `fmod`, `lgamma` and `Function` nodes (see the
counterexamples). -/
theorem print_value_partial (L : Lit K) (avx : Bool) (e : Ex K) :
    ∃ a, Derives 7 (print L avx e) a ∧ (∀ b, Derives 7 (print L avx e) b → b = a) ∧
      ∀ (C : Cxx K) (S : Sem K), Agrees C S L avx e →
        ∀ v, eval S e = some v → ceval C a = some v := by
  obtain ⟨a, h, hv⟩ := print_prints L avx e
  have h7 : Derives 7 (print L avx e) a := h.up' (by split <;> omega) (by omega)
  exact ⟨a, h7, fun b hb => derives_unique hb h7, hv⟩

/-! ### Instances and counterexamples over the rationals -/

/-- Real constants, printed exactly. -/
def exactLit : Lit ℚ := ⟨fun _ => true, id, fun _ => 0, id⟩

/-- Printing integers the way `"%g"` does. -/
def gLit : Lit ℚ := ⟨fun _ => true, id, fun _ => 0, fun q => roundG q.num.toNat⟩

/-- Variables `x = 3`, `y = 5`, and the function `fmod`. -/
def demoCxx : Cxx ℚ where
  var s := if s = "x" then some 3 else if s = "y" then some 5 else none
  call0 _ := none
  call1 _ _ := none
  call2 f a b := if f = "fmod" then some (a - b * ⌊a / b⌋) else none
  rel op a b := if op = .lt then (if a < b then 1 else 0) else 0
  truth a := decide (a ≠ 0)

/-- The tree side of `demoCxx`. -/
def demoSem : Sem ℚ where
  param s := if s = "x" then 3 else 5
  lambda _ := 0
  I := 0
  un _ a := a
  bin op a b := if op = .lt then (if a < b then 1 else 0) else 0
  truth a := decide (a ≠ 0)

/-- `x - (y - 2 * (x + y)) < y ? x : x / (x - x)`. -/
def demoEx : Ex ℚ :=
  .ternary (.bin .lt (.bin .sub (.param "y") (.bin .sub (.param "y")
      (.bin .prod (.const 2) (.bin .sum (.param "x") (.param "y"))))) (.const 20))
    (.param "x") (.bin .div (.param "x") (.bin .sub (.param "x") (.param "x")))

/-- The hypotheses of `print_value_partial` are met by a tree using brackets,
subtraction of a difference, a product with a sum, a comparison and a conditional
with an undefined unselected branch. -/
example : Agrees demoCxx demoSem exactLit false demoEx ∧ eval demoSem demoEx = some 3 := by
  constructor
  · simp [demoEx, Agrees, demoCxx, demoSem, exactLit, relOf]
  · simp [demoEx, eval, demoSem]; norm_num

/-- Integers below one million are printed exactly. -/
theorem roundG_small (n : Nat) (h : n < 10 ^ 6) : roundG n = n := by
  simp only [roundG, h, if_true]

/-- C02 fails as stated: the constant 1234567 is printed as 1.23457e+06, so the
generated source computes a different number. -/
theorem print_digits_counterexample :
    ∃ a, Derives 7 (print gLit false (.const 1234567)) a ∧
      (∀ C : Cxx ℚ, ceval C a = some 1234570) ∧
      (∀ S : Sem ℚ, eval S (.const 1234567) = some 1234567) ∧ (1234570 : ℚ) ≠ 1234567 := by
  refine ⟨.num 1234570, ?_, fun _ => rfl, fun _ => rfl, by norm_num⟩
  have h : roundG 1234567 = 1234570 := by decide +kernel
  have hp : print gLit false (.const 1234567) = [.lpar, .num 1234570, .rpar] := by
    simp [print, printConst, gLit, h]
  rw [hp]
  exact (Derives.paren ((Derives.num (1234570 : ℚ)).up' (by omega) (by omega))).up' (by omega) (by omega)

/-- C02 fails for `fmod`: with `x = 3` and `y = 2` the tree evaluates to 0, the
printed source to 1. -/
theorem print_fmod_counterexample (S : Sem ℚ) :
    ∃ a, Derives 7 (print exactLit false (.bin .fmod (.param "x") (.const 2))) a ∧
      ceval demoCxx a = some 1 ∧ eval S (.bin .fmod (.param "x") (.const 2)) = some 0 := by
  refine ⟨.call2 "fmod" (.var "x") (.num 2), ?_, ?_, rfl⟩
  · exact (Derives.call2 "fmod" ((Derives.var "x").up' (by omega) (by omega))
      ((Derives.paren ((Derives.num (2 : ℚ)).up' (by omega) (by omega))).up' (by omega) (by omega))).up'
        (by omega) (by omega)
  · have : ⌊(3 / 2 : ℚ)⌋ = 1 := by norm_num
    simp [ceval, demoCxx, this]; norm_num

end AmpGen.Expr
