import Verif.Simplify.LemmasTerms
import Verif.Expr.PropsPrint
import Mathlib.Data.List.Sort
import Mathlib.Order.WithBot
/-
Property theorems about the algebraic simplification (C45).
-/
namespace AmpGen.Simplify

open AmpGen.Expr

variable {K : Type} {τ : Type} [Field K] [DecidableEq K]

/-- What is assumed about the library: `std::sort` only reorders, and puts the
terms in descending order of their texts. -/
structure Sorts [LinearOrder τ] (L : Lib K τ) : Prop where
  factors : ∀ l, (L.sortFactors l).Perm l
  terms : ∀ l, (L.sortTerms l).Perm l
  sorted : ∀ l, (L.sortTerms l).Pairwise fun a b => ¬ a.text < b.text

/-- C45 (partial).  Simplifying an arithmetic expression ends and keeps its
value: for every expression built with `+ - * /` from constants, variables,
function calls, conditionals and common sub-expressions in which no divisor
contains a quotient, whenever equal texts are printed only for expressions of
equal value and the constants are such that the tests of the operators are
exact.  Conjugation is additive and parameters are real.  Missing: powers,
comparisons and the other binary operations, divisors with quotients and
constants that agree in the printed digits (see the counterexamples). -/
theorem simplify_value_partial [LinearOrder τ] {T : Tests K} {P : K → Prop} (hT : ExactOn T P True)
    (S : Sem K) (hadd : ∀ a b, S.un .conj (a + b) = S.un .conj a + S.un .conj b)
    (hPc : ∀ a, P a → P (S.un .conj a)) (hreal : ∀ s, S.un .conj (S.param s) = S.param s)
    (L : Lib K τ) (hL : Sorts L) (htext : ∀ x y, L.text x = L.text y → eval S x = eval S y)
    (subs : Bool) (e : Ex K) (hP : ConstsIn P True e) (ha : Spec.Arithmetic subs e)
    (v : K) (hv : eval S e = some v) :
    ∃ e' N, (∀ n, N ≤ n → simplify L S T n subs e = some e') ∧ eval S e' = some v := by
  obtain ⟨hH, hve⟩ := has_of hv
  have key : Ev (fun n => simplify L S T n subs e) fun e' => eval S e' = some v := by
    refine Ev.congr (f := fun n => (expand S T n subs e).bind fun expanded =>
      (expanded.mapM fun x => mkTerm L T n x).bind fun ts =>
        ((group (L.sortTerms ts)).mapM fun (t : Term K τ) => t.toEx T n).bind fun es => plusAll T n es) ?_
      (fun n => by simp [simplify, normalOrder, Option.bind_assoc])
    refine Ev.bind (expand_spec hT S hadd hPc hreal subs e hP hH) fun es hes => ?_
    refine Ev.bind (Ev.mapM (f := fun n x => mkTerm L T n x) es fun x hx =>
      mkTerm_spec hT S hL.factors x (hes.consts x hx) (hes.has x hx) (hes.mono ha x hx)) fun ts hts => ?_
    have hperm := hL.terms ts
    have hok : ∀ t ∈ L.sortTerms ts, TermOK L S P t := by
      intro t ht
      obtain ⟨x, hx, hq⟩ := Forall₂.exists_left hts t (hperm.mem_iff.mp ht)
      exact hq.1
    have hok' : ∀ t ∈ group (L.sortTerms ts), TermOK L S P t := by
      intro t ht
      obtain ⟨t', ht', p, hp, rfl⟩ := group_mem hT.add (L.sortTerms ts)
        (fun t ht => (hok t ht).parts.pf) t ht
      have h := hok t' ht'
      exact ⟨⟨hp, h.parts.consts, h.parts.has, h.parts.dconsts, h.parts.dhas, h.parts.dne⟩, h.text⟩
    refine Ev.bind (Ev.mapM (f := fun n (t : Term K τ) => t.toEx T n) _ fun t ht =>
      toEx_spec hT S t (hok' t ht)) fun xs hxs => ?_
    have hc : ∀ x ∈ xs, ConstsIn P True x := by
      intro x hx
      obtain ⟨t, ht, hq⟩ := Forall₂.exists_left hxs x hx
      exact hq.1
    have hh : ∀ x ∈ xs, Has S x := by
      intro x hx
      obtain ⟨t, ht, hq⟩ := Forall₂.exists_left hxs x hx
      exact hq.2.1
    refine (ev_plusAll hT S xs hc hh).mono fun e' he' => ?_
    rw [he'.2.1, he'.2.2.1]
    congr 1
    rw [Forall₂.sum_eq (f := tval S) hxs fun t y _ hq => hq.2.2]
    -- the value of a term is determined by its text
    classical
    let u : τ → K := fun s => if h : ∃ q, s = L.text q then val S h.choose else 0
    have hu : ∀ t ∈ L.sortTerms ts, unit S t.terms t.divisor = u t.text := by
      intro t ht
      obtain ⟨q, hq, hval⟩ := (hok t ht).text
      have hex : ∃ q, t.text = L.text q := ⟨q, hq⟩
      have h1 : eval S hex.choose = eval S q := htext _ _ (by rw [← hex.choose_spec, hq])
      simp only [u, dif_pos hex, val, h1, hval, Option.getD_some]
    rw [group_sum S u _ hu, (hperm.map _).sum_eq, Forall₂.sum_eq (f := val S) hts fun x y _ hq => hq.2,
      hes.sum, hve]
  obtain ⟨e', he', N, hN⟩ := key
  exact ⟨e', N, hN, he'⟩

/-- C45 (like terms).  Whatever the expression, the terms that are left have
different texts: like terms have been collected. -/
theorem simplify_collects [LinearOrder τ] (T : Tests K) (S : Sem K) (L : Lib K τ) (hL : Sorts L)
    (n : Nat) (subs : Bool) (e : Ex K) (ts : List (Term K τ)) (h : normalOrder L S T n subs e = some ts) :
    ts.Pairwise fun a b => b.text < a.text := by
  simp only [normalOrder, Option.bind_eq_bind, Option.bind_eq_some_iff, Option.some.injEq] at h
  obtain ⟨es, _, us, _, rfl⟩ := h
  exact group_distinct _ (hL.sorted us)

/-- There always is at least one term, so that the bound `m_terms.size() - 1` of
the loop that collects like terms does not wrap around. -/
theorem expand_ne_nil (S : Sem K) (T : Tests K) (n : Nat) (subs : Bool) : ∀ (e : Ex K) (es : List (Ex K)),
    expand S T n subs e = some es → es ≠ [] := by
  have hlen : ∀ {α β : Type} (f : α → Option β) (l : List α) (m : List β), l.mapM f = some m →
      m.length = l.length := by
    intro α β f l
    induction l with
    | nil => intro m h; simp at h; subst h; rfl
    | cons x l ih =>
      intro m h
      simp only [List.mapM_cons, Option.bind_eq_bind, Option.bind_eq_some_iff, Option.pure_def,
        Option.some.injEq] at h
      obtain ⟨y, _, ys, hys, rfl⟩ := h
      simp [ih ys hys]
  intro e
  induction e with
  | bin op l r ihl ihr =>
    intro es h
    cases op <;>
      simp only [expand, Option.bind_eq_bind, Option.bind_eq_some_iff, Option.some.injEq] at h
    case sum => obtain ⟨a, ha, b, _, rfl⟩ := h; simp [ihl a ha]
    case sub => obtain ⟨a, ha, b, _, c, _, rfl⟩ := h; simp [ihl a ha]
    case prod =>
      obtain ⟨a, ha, b, hb, hm⟩ := h
      have := hlen _ _ _ hm
      rintro rfl
      cases a with
      | nil => exact ihl _ ha rfl
      | cons x a =>
        cases b with
        | nil => exact ihr _ hb rfl
        | cons y b => simp at this
    case div =>
      obtain ⟨a, ha, b, _, c, _, hm⟩ := h
      have := hlen _ _ _ hm
      rintro rfl
      cases a with
      | nil => exact ihl _ ha rfl
      | cons x a => simp at this
    all_goals (subst h; simp)
  | un f e ih =>
    intro es h
    by_cases hf : f = .conj
    · subst hf
      simp only [expand, Option.bind_eq_bind, Option.bind_eq_some_iff, Option.some.injEq] at h
      obtain ⟨a, ha, rfl⟩ := h
      simpa using ih a ha
    · have : expand S T n subs (.un f e) = some [.un f e] := by
        cases f <;> first | exact absurd rfl hf | simp only [expand]
      rw [this] at h
      cases h; simp
  | subtree k e ih =>
    intro es h
    simp only [expand] at h
    split at h
    · exact ih es h
    · cases h; simp
  | _ => intro es h; simp only [expand, Option.some.injEq] at h; subst h; simp

/-! ### Instances and counterexamples over the rationals -/

/-- `x = 3`, `y = 5`; conjugation does nothing; powers with natural exponents. -/
def demoSem : Sem ℚ where
  param s := if s = "x" then 3 else 5
  lambda _ := 0
  I := 0
  un _ a := a
  bin op a b := if op = .pow then a ^ b.num.toNat else 0
  truth a := decide (a ≠ 0)

/-- Insertion sorts. -/
def sorting (text : Ex ℚ → τ) [LinearOrder τ] : Lib ℚ τ where
  text := text
  sortFactors l := l.insertionSort fun a b => b.2 ≤ a.2
  sortTerms l := l.insertionSort fun a b => b.text ≤ a.text

theorem sorting_sorts (text : Ex ℚ → τ) [LinearOrder τ] : Sorts (sorting text) where
  factors l := List.perm_insertionSort _ l
  terms l := List.perm_insertionSort _ l
  sorted l := by
    have : (l.insertionSort fun (a b : Term ℚ τ) => b.text ≤ a.text).Pairwise fun a b => b.text ≤ a.text := by
      haveI : Std.Total (fun (a b : Term ℚ τ) => b.text ≤ a.text) := ⟨fun a b => le_total b.text a.text⟩
      haveI : IsTrans (Term ℚ τ) (fun a b => b.text ≤ a.text) := ⟨fun a b c h1 h2 => le_trans h2 h1⟩
      exact List.pairwise_insertionSort _ l
    exact this.imp fun h => not_lt.mpr h

/-- `(x + y) * (x - y) + 2 * y * x / (x + 1)`. -/
def demoEx : Ex ℚ :=
  .bin .sum
    (.bin .prod (.bin .sum (.param "x") (.param "y")) (.bin .sub (.param "x") (.param "y")))
    (.bin .div (.bin .prod (.bin .prod (.const 2) (.param "y")) (.param "x"))
      (.bin .sum (.param "x") (.const 1)))

/-- The value of an expression as its text. -/
def valueText (e : Ex ℚ) : WithBot ℚ := eval demoSem e

/-- The hypotheses of `simplify_value_partial` are met, with the value itself as
the text. -/
example : ∃ e' N, (∀ n, N ≤ n →
      simplify (sorting valueText) demoSem exactTests n false demoEx = some e') ∧
    eval demoSem e' = some (-(17 / 2)) :=
  simplify_value_partial (τ := WithBot ℚ) (P := fun _ => True) exactTests_exactOn demoSem (fun _ _ => rfl)
    (fun _ _ => trivial) (fun _ => rfl) (sorting valueText) (sorting_sorts valueText)
    (fun _ _ h => h) false demoEx
    (by simp [demoEx, ConstsIn]) (by simp [demoEx, Spec.Arithmetic, Spec.NoQuotient])
    _ (by simp [demoEx, eval, demoSem]; norm_num)

theorem simplify_single [LinearOrder τ] {L : Lib ℚ τ} (hL : Sorts L) (t : Term ℚ τ) :
    group (L.sortTerms [t]) = [t] := by
  have : L.sortTerms [t] = [t] := List.perm_singleton.mp (hL.terms [t])
  rw [this, group]
  simp [group]

theorem sort_factors_nil [LinearOrder τ] {L : Lib ℚ τ} (hL : Sorts L) : L.sortFactors [] = [] :=
  List.perm_nil.mp (hL.factors [])

theorem sort_factors_one [LinearOrder τ] {L : Lib ℚ τ} (hL : Sorts L) (f : Ex ℚ × τ) :
    L.sortFactors [f] = [f] := List.perm_singleton.mp (hL.factors [f])

theorem simplify_power [LinearOrder τ] (L : Lib ℚ τ) (hL : Sorts L) (S : Sem ℚ) (a b : Ex ℚ) :
    simplify L S exactTests 20 false (.bin .pow a b) = some (.const 1) := by
  have h1 : divF exactTests 20 (.const 1) (.const 1) = some (.const 1) := by decide +kernel
  have h2 : addF exactTests 20 (.const 0) (.const 1) = some (.const 1) := by decide +kernel
  have hm : mkTerm L exactTests 20 (.bin .pow a b) = some ⟨1, [], .const 1, L.text (.const 1)⟩ := by
    simp [mkTerm, addExpression, sort_factors_nil hL, timesAll, h1]
  have hn : normalOrder L S exactTests 20 false (.bin .pow a b) =
      some [⟨1, [], .const 1, L.text (.const 1)⟩] := by
    simp [normalOrder, expand, hm, simplify_single hL]
  have ht : (⟨1, [], .const 1, L.text (.const 1)⟩ : Term ℚ τ).toEx exactTests 20 = some (.const 1) := by
    simp [Term.toEx, timesAll, h1]
  simp [simplify, hn, ht, plusAll, h2]

/-- C45 fails for powers: they are dropped from the terms, so that `x^2` is
simplified to the constant 1, although its value is 9. -/
theorem simplify_power_counterexample [LinearOrder τ] (L : Lib ℚ τ) (hL : Sorts L) :
    simplify L demoSem exactTests 20 false (.bin .pow (.param "x") (.const 2)) = some (.const 1) ∧
    eval demoSem (.bin .pow (.param "x") (.const 2)) = some 9 ∧
    eval demoSem (.const 1) = some 1 := by
  refine ⟨simplify_power L hL _ _ _, ?_, rfl⟩
  simp [eval, demoSem]; norm_num

/-- A consequence for `make_cse( . , true )`: common sub-expressions of different
values get the same key, whatever the texts and the hash are. -/
theorem cse_key_counterexample [LinearOrder τ] (L : Lib ℚ τ) (hL : Sorts L) (hash : τ → Nat) :
    ∃ k, makeCseSimplified L demoSem exactTests 20 hash (.bin .pow (.param "x") (.const 2)) =
        some (.subtree k (.bin .pow (.param "x") (.const 2))) ∧
      makeCseSimplified L demoSem exactTests 20 hash (.bin .pow (.param "y") (.const 3)) =
        some (.subtree k (.bin .pow (.param "y") (.const 3))) ∧
      eval demoSem (.bin .pow (.param "x") (.const 2)) = some 9 ∧
      eval demoSem (.bin .pow (.param "y") (.const 3)) = some 125 := by
  refine ⟨hash (L.text (.const 1)), ?_, ?_, ?_, ?_⟩
  · simp [makeCseSimplified, simplify_power L hL]
  · simp [makeCseSimplified, simplify_power L hL]
  · simp [eval, demoSem]; norm_num
  · simp [eval, demoSem]; norm_num

/-- `x / (y / (x + 1))`. -/
def nestedEx : Ex ℚ :=
  .bin .div (.param "x") (.bin .div (.param "y") (.bin .sum (.param "x") (.const 1)))

/-- C45 fails for a quotient in a divisor: the sum `x + 1` ends up in the
numerator after the brackets were expanded and is dropped, so that
`x / (y / (x + 1))` is simplified to `x / y`. -/
theorem simplify_quotient_counterexample [LinearOrder τ] (L : Lib ℚ τ) (hL : Sorts L) :
    simplify L demoSem exactTests 20 false nestedEx = some (.bin .div (.param "x") (.param "y")) ∧
    eval demoSem nestedEx = some (12 / 5) ∧
    eval demoSem (.bin .div (.param "x") (.param "y")) = some (3 / 5) := by
  refine ⟨?_, ?_, ?_⟩
  · have he : expand demoSem exactTests 20 false nestedEx =
        some [.bin .div (.bin .prod (.param "x") (.bin .sum (.const 1) (.param "x"))) (.param "y")] := by
      decide +kernel
    have h1 : mulF exactTests 20 (.const 1) (.param "y") = some (.param "y") := by decide +kernel
    have h2 : mulF exactTests 20 (.const 1) (.param "x") = some (.param "x") := by decide +kernel
    have h3 : divF exactTests 20 (.param "x") (.param "y") = some (.bin .div (.param "x") (.param "y")) := by
      decide +kernel
    have h4 : addF exactTests 20 (.const 0) (.bin .div (.param "x") (.param "y")) =
        some (.bin .div (.param "x") (.param "y")) := by decide +kernel
    have hm : mkTerm L exactTests 20
        (.bin .div (.bin .prod (.param "x") (.bin .sum (.const 1) (.param "x"))) (.param "y")) =
        some ⟨1, [(.param "x", L.text (.param "x"))], .param "y",
          L.text (.bin .div (.param "x") (.param "y"))⟩ := by
      simp [mkTerm, addExpression, sort_factors_one hL, timesAll, h1, h2, h3]
    have hn : normalOrder L demoSem exactTests 20 false nestedEx =
        some [⟨1, [(.param "x", L.text (.param "x"))], .param "y",
          L.text (.bin .div (.param "x") (.param "y"))⟩] := by
      simp [normalOrder, he, hm, simplify_single hL]
    simp [simplify, hn, Term.toEx, timesAll, h2, h3, plusAll, h4]
  · simp [nestedEx, eval, demoSem]; norm_num
  · simp [eval, demoSem]

/-- `x / (c + y)`. -/
def overSum (c : ℚ) : Ex ℚ := .bin .div (.param "x") (.bin .sum (.const c) (.param "y"))

/-- C45 fails for constants that differ beyond the six printed digits:
`x / (1234567 + y) + x / (1234568 + y)` is simplified to
`2 * x / (1234567 + y)`, because the two quotients have the same text. -/
theorem simplify_digits_counterexample [LinearOrder τ] (text : Ex ℚ → τ)
    (htext : ∀ a b, print gLit false a = print gLit false b → text a = text b) :
    simplify (sorting text) demoSem exactTests 20 false (.bin .sum (overSum 1234567) (overSum 1234568)) =
      some (.bin .div (.bin .prod (.const 2) (.param "x")) (.bin .sum (.const 1234567) (.param "y"))) ∧
    eval demoSem (.bin .sum (overSum 1234567) (overSum 1234568)) ≠
      eval demoSem (.bin .div (.bin .prod (.const 2) (.param "x")) (.bin .sum (.const 1234567) (.param "y"))) := by
  constructor
  · have h12 : text (overSum 1234567) = text (overSum 1234568) := htext _ _ (by decide +kernel)
    have he : expand demoSem exactTests 20 false (.bin .sum (overSum 1234567) (overSum 1234568)) =
        some [overSum 1234567, overSum 1234568] := by decide +kernel
    have hx : mulF exactTests 20 (.const 1) (.param "x") = some (.param "x") := by decide +kernel
    have hm : ∀ c : ℚ, (∃ d : ℚ, c = d ∧ (d = 1234567 ∨ d = 1234568)) →
        mkTerm (sorting text) exactTests 20 (overSum c) =
          some ⟨1, [(.param "x", text (.param "x"))], .bin .sum (.const c) (.param "y"), text (overSum c)⟩ := by
      rintro c ⟨d, rfl, rfl | rfl⟩
      · have h1 : mulF exactTests 20 (.const 1) (.bin .sum (.const 1234567) (.param "y")) =
          some (.bin .sum (.const 1234567) (.param "y")) := by decide +kernel
        have h2 : divF exactTests 20 (.param "x") (.bin .sum (.const 1234567) (.param "y")) =
          some (overSum 1234567) := by decide +kernel
        simp [mkTerm, overSum, addExpression, sorting, timesAll, h1, hx] at h2 ⊢
        simp [h2]
      · have h1 : mulF exactTests 20 (.const 1) (.bin .sum (.const 1234568) (.param "y")) =
          some (.bin .sum (.const 1234568) (.param "y")) := by decide +kernel
        have h2 : divF exactTests 20 (.param "x") (.bin .sum (.const 1234568) (.param "y")) =
          some (overSum 1234568) := by decide +kernel
        simp [mkTerm, overSum, addExpression, sorting, timesAll, h1, hx] at h2 ⊢
        simp [h2]
    have hn : normalOrder (sorting text) demoSem exactTests 20 false
        (.bin .sum (overSum 1234567) (overSum 1234568)) =
        some [⟨1 + 1, [(.param "x", text (.param "x"))], .bin .sum (.const 1234567) (.param "y"),
          text (overSum 1234567)⟩] := by
      simp only [normalOrder, he, hm 1234567 ⟨_, rfl, .inl rfl⟩, hm 1234568 ⟨_, rfl, .inr rfl⟩,
        Option.bind_eq_bind, Option.bind_some, List.mapM_cons, List.mapM_nil, Option.pure_def]
      simp [sorting, h12, group]
    have h3 : mulF exactTests 20 (.const (1 + 1)) (.param "x") =
        some (.bin .prod (.const 2) (.param "x")) := by decide +kernel
    have h4 : divF exactTests 20 (.bin .prod (.const 2) (.param "x"))
        (.bin .sum (.const 1234567) (.param "y")) =
        some (.bin .div (.bin .prod (.const 2) (.param "x")) (.bin .sum (.const 1234567) (.param "y"))) := by
      decide +kernel
    have h5 : addF exactTests 20 (.const 0)
        (.bin .div (.bin .prod (.const 2) (.param "x")) (.bin .sum (.const 1234567) (.param "y"))) =
        some (.bin .div (.bin .prod (.const 2) (.param "x")) (.bin .sum (.const 1234567) (.param "y"))) := by
      decide +kernel
    simp only [simplify, hn, Option.bind_eq_bind, Option.bind_some, List.mapM_cons, List.mapM_nil,
      Option.pure_def, Term.toEx, timesAll, List.foldlM_cons, List.foldlM_nil, h3, h4, plusAll, h5]
  · simp [overSum, eval, demoSem]; norm_num

end AmpGen.Simplify
