import Verif.Simplify.Lemmas
import Mathlib.Data.List.TakeWhile
/-
Helper lemmas for the collection of like terms.
-/
namespace AmpGen.Simplify

open AmpGen.Expr

variable {K : Type} {τ : Type} [Field K] [DecidableEq K]

/-- The members of a term have values, constants of `P` and a non-zero divisor. -/
structure PartsOK (S : Sem K) (P : K → Prop) (pf : K) (fs : List (Ex K × τ)) (d : Ex K) : Prop where
  pf : P pf
  consts : ∀ x ∈ fs, ConstsIn P True x.1
  has : ∀ x ∈ fs, Has S x.1
  dconsts : ConstsIn P True d
  dhas : Has S d
  dne : val S d ≠ 0

/-- The product of the factors over the divisor. -/
def unit (S : Sem K) (fs : List (Ex K × τ)) (d : Ex K) : K :=
  (fs.map fun x => val S x.1).prod / val S d

theorem addExpression_push {L : Lib K τ} {T : Tests K} {P : K → Prop} (S : Sem K) {e : Ex K}
    (hP : ConstsIn P True e) (hH : Has S e) {p : Parts K τ} (hp : PartsOK S P p.prefactor p.terms p.divisor)
    (h : ∀ n, addExpression L T n e p = some { p with terms := p.terms ++ [(e, L.text e)] }) :
    Ev (fun n => addExpression L T n e p) fun q => PartsOK S P q.prefactor q.terms q.divisor ∧
      q.prefactor * unit S q.terms q.divisor = p.prefactor * unit S p.terms p.divisor * val S e := by
  refine Ev.congr (f := fun _ => some { p with terms := p.terms ++ [(e, L.text e)] }) (Ev.pure ?_) h
  refine ⟨⟨hp.pf, ?_, ?_, hp.dconsts, hp.dhas, hp.dne⟩, ?_⟩
  · intro x hx
    rcases List.mem_append.mp hx with h | h
    · exact hp.consts x h
    · simp only [List.mem_singleton] at h; subst h; exact hP
  · intro x hx
    rcases List.mem_append.mp hx with h | h
    · exact hp.has x h
    · simp only [List.mem_singleton] at h; subst h; exact hH
  · simp only [unit, List.map_append, List.prod_append, List.map_cons, List.map_nil, List.prod_singleton]
    field_simp [hp.dne]

theorem addExpression_spec {L : Lib K τ} {T : Tests K} {P : K → Prop} (hT : ExactOn T P True) (S : Sem K) :
    ∀ (e : Ex K), ConstsIn P True e → Has S e → Mono e → ∀ p : Parts K τ,
      PartsOK S P p.prefactor p.terms p.divisor →
      Ev (fun n => addExpression L T n e p) fun q => PartsOK S P q.prefactor q.terms q.divisor ∧
        q.prefactor * unit S q.terms q.divisor = p.prefactor * unit S p.terms p.divisor * val S e
  | .bin .prod l r, hP, hH, hm, p, hp => by
    obtain ⟨a, b, ha, hb, hv⟩ := eval_prod.mp hH
    obtain ⟨hHa, hva⟩ := has_of ha
    obtain ⟨hHb, hvb⟩ := has_of hb
    refine Ev.congr (f := fun n => (addExpression L T n l p).bind fun q => addExpression L T n r q) ?_
      (fun n => by simp only [addExpression, Option.bind_eq_bind])
    refine Ev.bind (addExpression_spec hT S l hP.2.1 hHa hm.1 p hp) fun q hq => ?_
    refine (addExpression_spec hT S r hP.2.2 hHb hm.2 q hq.1).mono fun t ht => ⟨ht.1, ?_⟩
    rw [ht.2, hq.2, hva, hvb, hv, mul_assoc]
  | .bin .div l r, hP, hH, hm, p, hp => by
    obtain ⟨a, b, ha, hb, hb0, hv⟩ := eval_div.mp hH
    obtain ⟨hHa, hva⟩ := has_of ha
    obtain ⟨hHb, hvb⟩ := has_of hb
    refine Ev.congr (f := fun n => (addExpression L T n l p).bind fun q =>
      (mulF T n q.divisor r).bind fun d => some { q with divisor := d }) ?_
      (fun n => by simp only [addExpression, Option.bind_eq_bind])
    refine Ev.bind (addExpression_spec hT S l hP.2.1 hHa hm.1 p hp) fun q hq => ?_
    refine Ev.bind (ev_mul hT S q.divisor r hq.1.dconsts hP.2.2) fun d hd => ?_
    obtain ⟨h1, h2⟩ := hd.2.1 hq.1.dhas hHb
    have hne : val S d ≠ 0 := by rw [h2, hvb]; exact mul_ne_zero hq.1.dne hb0
    refine Ev.pure ⟨⟨hq.1.pf, hq.1.consts, hq.1.has, hd.1, h1, hne⟩, ?_⟩
    have : q.prefactor * unit S q.terms d = q.prefactor * unit S q.terms q.divisor / b := by
      unfold unit
      rw [h2, hvb, ← div_div, mul_div_assoc']
    rw [this, hq.2, hva, hv]
    ring
  | .const v, hP, hH, hm, p, hp => by
    refine Ev.congr (f := fun _ => some { p with prefactor := p.prefactor * v }) (Ev.pure ?_)
      (fun n => by simp only [addExpression])
    refine ⟨⟨hT.mul hp.pf hP, hp.consts, hp.has, hp.dconsts, hp.dhas, hp.dne⟩, ?_⟩
    have : val S (.const v : Ex K) = v := by simp [val, eval]
    rw [this]
    simp only; ring
  | .param v, hP, hH, _, p, hp => addExpression_push S hP hH hp fun n => by simp only [addExpression]
  | .cparam v w, hP, hH, _, p, hp => addExpression_push S hP hH hp fun n => by simp only [addExpression]
  | .lambda v, hP, hH, _, p, hp => addExpression_push S hP hH hp fun n => by simp only [addExpression]
  | .func v, hP, hH, _, p, hp => addExpression_push S hP hH hp fun n => by simp only [addExpression]
  | .un f e, hP, hH, _, p, hp => addExpression_push S hP hH hp fun n => by simp only [addExpression]
  | .ternary c a b, hP, hH, _, p, hp => addExpression_push S hP hH hp fun n => by simp only [addExpression]
  | .subtree k e, hP, hH, _, p, hp => addExpression_push S hP hH hp fun n => by simp only [addExpression]
  | .bin .sum l r, _, _, hm, _, _ => hm.elim
  | .bin .sub l r, _, _, hm, _, _ => hm.elim
  | .bin .and l r, _, _, hm, _, _ => hm.elim
  | .bin .or l r, _, _, hm, _, _ => hm.elim
  | .bin .gt l r, _, _, hm, _, _ => hm.elim
  | .bin .lt l r, _, _, hm, _, _ => hm.elim
  | .bin .ge l r, _, _, hm, _, _ => hm.elim
  | .bin .le l r, _, _, hm, _, _ => hm.elim
  | .bin .eq l r, _, _, hm, _, _ => hm.elim
  | .bin .pow l r, _, _, hm, _, _ => hm.elim
  | .bin .fmod l r, _, _, hm, _, _ => hm.elim
  | .bin .atan2 l r, _, _, hm, _, _ => hm.elim

/-- The value of a term. -/
def tval (S : Sem K) (t : Term K τ) : K := t.prefactor * unit S t.terms t.divisor

/-- A term with the text of an expression that has the value of its factors. -/
structure TermOK (L : Lib K τ) (S : Sem K) (P : K → Prop) (t : Term K τ) : Prop where
  parts : PartsOK S P t.prefactor t.terms t.divisor
  text : ∃ q, t.text = L.text q ∧ eval S q = some (unit S t.terms t.divisor)

theorem mkTerm_spec {L : Lib K τ} {T : Tests K} {P : K → Prop} (hT : ExactOn T P True) (S : Sem K)
    (hsort : ∀ l, (L.sortFactors l).Perm l) (e : Ex K) (hP : ConstsIn P True e) (hH : Has S e)
    (hm : Mono e) :
    Ev (fun n => mkTerm L T n e) fun t => TermOK L S P t ∧ tval S t = val S e := by
  refine Ev.congr (f := fun n => (addExpression L T n e ⟨1, [], .const 1⟩).bind fun p =>
    (timesAll T n (.const 1) (L.sortFactors p.terms)).bind fun t => (divF T n t p.divisor).bind fun q =>
      some ⟨p.prefactor, L.sortFactors p.terms, p.divisor, L.text q⟩) ?_
    (fun n => by simp only [mkTerm, Option.bind_eq_bind])
  have h0 : PartsOK (τ := τ) S P 1 [] (.const 1) := by
    refine ⟨hT.one, by simp, by simp, hT.one, ?_, ?_⟩
    · simp [Has, val, eval]
    · simp [val, eval]
  refine Ev.bind (addExpression_spec hT S e hP hH hm ⟨1, [], .const 1⟩ h0) fun p hp => ?_
  have hperm := hsort p.terms
  have hc : ∀ x ∈ L.sortFactors p.terms, ConstsIn P True x.1 := fun x hx =>
    hp.1.consts x (hperm.mem_iff.mp hx)
  have hh : ∀ x ∈ L.sortFactors p.terms, Has S x.1 := fun x hx => hp.1.has x (hperm.mem_iff.mp hx)
  have hprod : ((L.sortFactors p.terms).map fun x => val S x.1).prod =
      (p.terms.map fun x => val S x.1).prod := (hperm.map _).prod_eq
  refine Ev.bind (ev_timesAll hT S 1 hT.one (L.sortFactors p.terms) hc hh) fun t ht => ?_
  refine Ev.bind (ev_div hT S t p.divisor ht.1 hp.1.dconsts) fun q hq => ?_
  obtain ⟨h1, h2⟩ := hq.2.1 ht.2.1 hp.1.dhas hp.1.dne
  refine Ev.pure ⟨⟨⟨hp.1.pf, hc, hh, hp.1.dconsts, hp.1.dhas, hp.1.dne⟩, q, rfl, ?_⟩, ?_⟩
  · rw [h1, h2, ht.2.2, one_mul]; rfl
  · have := hp.2
    simp only [unit, List.map_nil, List.prod_nil, one_mul] at this
    have hv : val S (.const 1 : Ex K) = 1 := by simp [val, eval]
    rw [hv] at this
    simp only [tval, unit, hprod]
    rw [this]; ring

theorem toEx_spec {L : Lib K τ} {T : Tests K} {P : K → Prop} (hT : ExactOn T P True) (S : Sem K)
    (t : Term K τ) (ht : TermOK L S P t) :
    Ev (fun n => t.toEx T n) fun e => ConstsIn P True e ∧ Has S e ∧ val S e = tval S t := by
  refine Ev.congr (f := fun n => (timesAll T n (.const t.prefactor) t.terms).bind fun pf =>
    divF T n pf t.divisor) ?_ (fun n => by simp only [Term.toEx, Option.bind_eq_bind])
  refine Ev.bind (ev_timesAll hT S t.prefactor ht.parts.pf t.terms ht.parts.consts ht.parts.has)
    fun pf hpf => ?_
  refine (ev_div hT S pf t.divisor hpf.1 ht.parts.dconsts).mono fun e he => ?_
  obtain ⟨h1, h2⟩ := he.2.1 hpf.2.1 ht.parts.dhas ht.parts.dne
  refine ⟨he.1, h1, ?_⟩
  rw [h2, hpf.2.2, tval, unit, mul_div_assoc]

/-! ### Grouping -/

theorem foldl_prefactor (same : List (Term K τ)) (p : K) :
    same.foldl (fun (s : K) u => s + u.prefactor) p = p + (same.map fun u => u.prefactor).sum := by
  induction same generalizing p with
  | nil => simp
  | cons u same ih => simp only [List.foldl_cons, ih, List.map_cons, List.sum_cons]; ring

theorem takeWhile_drop {α : Type} (l : List α) (p : α → Bool) :
    l.takeWhile p ++ l.drop (l.takeWhile p).length = l := by
  induction l with
  | nil => rfl
  | cons a l ih =>
    by_cases h : p a
    · simp [List.takeWhile_cons, h, ih]
    · simp [List.takeWhile_cons, h]

/-- Collecting terms with equal texts keeps the sum of the values. -/
theorem group_sum [DecidableEq τ] (S : Sem K) (u : τ → K) : ∀ ts : List (Term K τ),
    (∀ t ∈ ts, unit S t.terms t.divisor = u t.text) →
      ((group ts).map (tval S)).sum = (ts.map (tval S)).sum := by
  intro ts
  induction ts using group.induct (K := K) (τ := τ) with
  | case1 => intro _; simp [group]
  | case2 t rest same ih =>
    intro h
    rw [group]
    simp only [List.map_cons, List.sum_cons]
    have hsplit : same ++ rest.drop same.length = rest := takeWhile_drop rest _
    have hrest : (rest.map (tval S)).sum =
        (same.map (tval S)).sum + ((rest.drop same.length).map (tval S)).sum := by
      conv => lhs; rw [← hsplit]
      rw [List.map_append, List.sum_append]
    have hsame : (same.map (tval S)).sum =
        (same.map fun v => v.prefactor).sum * unit S t.terms t.divisor := by
      rw [← List.sum_map_mul_right]
      congr 1
      apply List.map_congr_left
      intro v hv
      have h1 : v ∈ rest := (List.takeWhile_subset _) hv
      have h2 : v.text = t.text := by
        have := List.mem_takeWhile_imp hv
        simpa using this
      unfold tval
      rw [h v (by simp [h1]), h t (by simp), h2]
    have ih' := ih fun v hv => h v (by
      have : v ∈ rest := List.mem_of_mem_drop hv
      simp [this])
    rw [hrest, hsame]
    change tval S { t with prefactor := same.foldl (fun (s : K) u => s + u.prefactor) t.prefactor } +
      ((group (rest.drop same.length)).map (tval S)).sum = _
    rw [ih', foldl_prefactor]
    simp only [tval]
    ring

/-- Every collected term comes from a term, with another prefactor in `P`. -/
theorem group_mem [DecidableEq τ] {P : K → Prop} (hadd : ∀ {a b}, P a → P b → P (a + b)) :
    ∀ ts : List (Term K τ), (∀ t ∈ ts, P t.prefactor) →
      ∀ t ∈ group ts, ∃ t' ∈ ts, ∃ p, P p ∧ t = { t' with prefactor := p } := by
  intro ts
  induction ts using group.induct (K := K) (τ := τ) with
  | case1 => intro _ t ht; simp [group] at ht
  | case2 t rest same ih =>
    intro h x hx
    rw [group] at hx
    rcases List.mem_cons.mp hx with rfl | hx
    · refine ⟨t, by simp, _, ?_, rfl⟩
      have : ∀ (l : List (Term K τ)) (p : K), P p → (∀ v ∈ l, P v.prefactor) →
          P (l.foldl (fun (s : K) u => s + u.prefactor) p) := by
        intro l
        induction l with
        | nil => intro p hp _; exact hp
        | cons v l ihl =>
          intro p hp hl
          exact ihl _ (hadd hp (hl v (by simp))) fun w hw => hl w (by simp [hw])
      refine this _ _ (h t (by simp)) fun v hv => h v ?_
      have : v ∈ rest := (List.takeWhile_subset _) hv
      simp [this]
    · obtain ⟨t', ht', p, hp, rfl⟩ := ih (fun v hv => h v (by
        have : v ∈ rest := List.mem_of_mem_drop hv
        simp [this])) x hx
      have : t' ∈ rest := List.mem_of_mem_drop ht'
      exact ⟨t', by simp [this], p, hp, rfl⟩

theorem group_texts [DecidableEq τ] : ∀ ts : List (Term K τ), ∀ t ∈ group ts, ∃ t' ∈ ts, t'.text = t.text := by
  intro ts t ht
  obtain ⟨t', h, p, _, rfl⟩ := group_mem (P := fun _ => True) (fun _ _ => trivial) ts (fun _ _ => trivial) t ht
  exact ⟨t', h, rfl⟩

/-- If entries with equal texts are neighbours, the collected terms have
different texts. -/
theorem group_distinct [LinearOrder τ] : ∀ ts : List (Term K τ),
    ts.Pairwise (fun a b => ¬ a.text < b.text) → (group ts).Pairwise fun a b => b.text < a.text := by
  intro ts
  induction ts using group.induct (K := K) (τ := τ) with
  | case1 => intro _; simp [group]
  | case2 t rest same ih =>
    intro h
    rw [group]
    have hr := List.pairwise_cons.mp h
    refine List.pairwise_cons.mpr ⟨?_, ih (hr.2.sublist (List.drop_sublist _ _))⟩
    intro x hx
    obtain ⟨x', hx', hxt⟩ := group_texts _ x hx
    -- the first entry behind the absorbed ones has another text
    have hdrop : rest.drop same.length = rest.dropWhile fun u => decide (u.text = t.text) := by
      have h1 := List.takeWhile_append_dropWhile (p := fun u : Term K τ => decide (u.text = t.text)) (l := rest)
      have h2 : (same ++ rest.dropWhile fun u => decide (u.text = t.text)).drop same.length =
          rest.dropWhile fun u => decide (u.text = t.text) := List.drop_left
      rw [show same ++ rest.dropWhile (fun u => decide (u.text = t.text)) = rest from h1] at h2
      exact h2
    have hle : x'.text ≤ t.text := not_lt.mp (hr.1 x' (List.mem_of_mem_drop hx'))
    have hne : x'.text ≠ t.text := by
      rw [show (List.takeWhile (fun u => decide (u.text = t.text)) rest) = same from rfl, hdrop] at hx'
      have hsorted : (rest.dropWhile fun u => decide (u.text = t.text)).Pairwise
          (fun a b => ¬ a.text < b.text) := hr.2.sublist (List.dropWhile_sublist _)
      obtain ⟨y, l, hyl⟩ : ∃ y l, rest.dropWhile (fun u => decide (u.text = t.text)) = y :: l := by
        cases hd : rest.dropWhile (fun u => decide (u.text = t.text)) with
        | nil => rw [hd] at hx'; simp at hx'
        | cons y l => exact ⟨y, l, rfl⟩
      have hy : y.text ≠ t.text := by
        have := List.head_dropWhile_not (p := fun u : Term K τ => decide (u.text = t.text)) (l := rest)
          (by rw [hyl]; simp)
        simp only [hyl, List.head_cons, decide_eq_false_iff_not] at this
        exact this
      have hyle : y.text ≤ t.text := not_lt.mp (hr.1 y ((List.dropWhile_subset _) (by rw [hyl]; simp)))
      rw [hyl] at hx' hsorted
      rcases List.mem_cons.mp hx' with rfl | hx'
      · exact hy
      · have := not_lt.mp ((List.pairwise_cons.mp hsorted).1 x' hx')
        exact ne_of_lt (lt_of_le_of_lt this (lt_of_le_of_ne hyle hy))
    rw [← hxt]
    exact lt_of_le_of_ne hle hne

end AmpGen.Simplify
