import Verif.Parser.LemmasTokens
import Mathlib.Algebra.Field.Basic
import Mathlib.Data.Rat.Defs
import Mathlib.Tactic.Ring
import Mathlib.Tactic.FieldSimp
/-
Properties of the parser of expressions.
-/
namespace AmpGen.Parser
open AmpGen.Strings AmpGen.Parser.Spec

variable {E : Type}

/-! ### C03 -/

/-- **C03**: every formula is parsed to its value, without a message. The value is that of the documented order of the operators, for every length, every pattern of operators and every nesting of brackets and braces. -/
theorem formula_value (o : Ops E) (ts : List Str) (v : E) (h : Formula o ts v) : o.parseTokens ts = some (v, false) := (formula_spec o h).2.2.1 _ (Nat.lt_succ_self _)

/-- **C03**: operands with operators between them have exactly one value. -/
theorem formula_unique (o : Ops E) (ts : List Str) (x : E) (l : List (Str × E)) (h : Terms o ts x l) : ∃ v, Value o.bin x l v ∧ (∀ w, Value o.bin x l w → w = v) ∧ o.parseTokens ts = some (v, false) := by
  obtain ⟨v, _, hv⟩ := passes_value o x l (terms_spec o h).2.2.2.1
  exact ⟨v, hv, fun w hw => value_unique hw hv, formula_value o ts v (Formula.intro ts x l v h hv)⟩

/-- The usual value of operands with the four operators between them: terms are added and subtracted from left to right, factors are multiplied and divided from left to right. `s` is the sum of the terms before the
current term `t`. -/
def usual {F : Type} [Field F] : F → F → List (Str × F) → F
  | s, t, [] => s + t
  | s, t, (op, y) :: l =>
    if op = ['+'] then usual (s + t) y l
    else if op = ['-'] then usual (s + t) (-y) l
    else if op = ['*'] then usual s (t * y) l
    else usual s (t / y) l

variable {F : Type} [Field F]

theorem usual_sum : ∀ (l : List (Str × F)) (s t : F), usual s t l = s + usual 0 t l
  | [], s, t => by simp [usual]
  | (op, y) :: l, s, t => by
    rw [usual, usual]
    split_ifs
    · rw [usual_sum l (s + t), usual_sum l (0 + t)]; ring
    · rw [usual_sum l (s + t), usual_sum l (0 + t)]; ring
    · exact usual_sum l s _
    · exact usual_sum l s _

theorem usual_append_add : ∀ (l r : List (Str × F)) (s t y : F), usual s t (l ++ (['+'], y) :: r) = usual (usual s t l) y r
  | [], r, s, t, y => by simp [usual]
  | (op, z) :: l, r, s, t, y => by
    rw [List.cons_append, usual, usual]
    split_ifs <;> exact usual_append_add l r _ _ y

theorem usual_append_sub : ∀ (l r : List (Str × F)) (s t y : F), usual s t (l ++ (['-'], y) :: r) = usual (usual s t l) (-y) r
  | [], r, s, t, y => by simp [usual]
  | (op, z) :: l, r, s, t, y => by
    rw [List.cons_append, usual, usual]
    split_ifs <;> exact usual_append_sub l r _ _ y

theorem usual_factors : ∀ (l m : List (Str × F)) (s t : F), (∀ p ∈ l, p.1 = ['*'] ∨ p.1 = ['/']) → usual s t (l ++ m) = usual s (usual 0 t l) m
  | [], m, s, t, _ => by simp [usual]
  | (op, z) :: l, m, s, t, h => by
    rw [List.cons_append, usual, usual]
    have ho := h (op, z) List.mem_cons_self
    have h1 : ¬ op = ['+'] := by rcases ho with h | h <;> simp only at h <;> rw [h] <;> decide
    have h2 : ¬ op = ['-'] := by rcases ho with h | h <;> simp only at h <;> rw [h] <;> decide
    rw [if_neg h1, if_neg h2, if_neg h1, if_neg h2]
    split_ifs <;> exact usual_factors l m _ _ fun p hp => h p (List.mem_cons_of_mem _ hp)

theorem usual_scale (c : F) : ∀ (l : List (Str × F)) (t : F), (∀ p ∈ l, p.1 = ['*'] ∨ p.1 = ['/']) → usual 0 (c * t) l = c * usual 0 t l
  | [], t, _ => by simp [usual]
  | (op, z) :: l, t, h => by
    rw [usual, usual]
    have ho := h (op, z) List.mem_cons_self
    have h1 : ¬ op = ['+'] := by rcases ho with h | h <;> simp only at h <;> rw [h] <;> decide
    have h2 : ¬ op = ['-'] := by rcases ho with h | h <;> simp only at h <;> rw [h] <;> decide
    rw [if_neg h1, if_neg h2, if_neg h1, if_neg h2]
    have hl := fun p hp => h p (List.mem_cons_of_mem (op, z) hp)
    split_ifs
    · rw [mul_assoc]; exact usual_scale c l _ hl
    · rw [mul_div_assoc]; exact usual_scale c l _ hl

/-- **C03**: with numbers and the four operators of arithmetic the value is the usual one, although division is applied before multiplication and subtraction before addition. -/
theorem usual_value (bin : Str → F → F → F) (hadd : ∀ a b, bin ['+'] a b = a + b) (hsub : ∀ a b, bin ['-'] a b = a - b) (hmul : ∀ a b, bin ['*'] a b = a * b) (hdiv : ∀ a b, bin ['/'] a b = a / b)
    (x : F) (l : List (Str × F)) (v : F) (hl : ∀ p ∈ l, p.1 = ['+'] ∨ p.1 = ['-'] ∨ p.1 = ['*'] ∨ p.1 = ['/']) (h : Value bin x l v) : v = usual 0 x l := by
  induction h with
  | operand x => simp [usual]
  | operator x l op y r a b h1 h2 _ _ ih1 ih2 =>
    have e1 := ih1 fun p hp => hl p (by simp [hp])
    have e2 := ih2 fun p hp => hl p (by simp [hp])
    have g : ∀ op : Str, (op = ['+'] → precedence.idxOf op = 4) ∧ (op = ['-'] → precedence.idxOf op = 3) ∧ (op = ['*'] → precedence.idxOf op = 2) ∧ (op = ['/'] → precedence.idxOf op = 1) := by
      intro op
      refine ⟨?_, ?_, ?_, ?_⟩ <;> (rintro rfl; decide)
    have hlo : ∀ p ∈ l, precedence.idxOf p.1 ≤ precedence.idxOf op := fun p hp => by have := h1 p hp; unfold Tighter at this; omega
    have hro : ∀ p ∈ r, precedence.idxOf p.1 < precedence.idxOf op := fun p hp => h2 p hp
    have hl1 : ∀ p ∈ l, p.1 = ['+'] ∨ p.1 = ['-'] ∨ p.1 = ['*'] ∨ p.1 = ['/'] := fun p hp => hl p (by simp [hp])
    have hr1 : ∀ p ∈ r, p.1 = ['+'] ∨ p.1 = ['-'] ∨ p.1 = ['*'] ∨ p.1 = ['/'] := fun p hp => hl p (by simp [hp])
    have low : ∀ (m : List (Str × F)), (∀ p ∈ m, p.1 = ['+'] ∨ p.1 = ['-'] ∨ p.1 = ['*'] ∨ p.1 = ['/']) → (∀ p ∈ m, precedence.idxOf p.1 ≤ 2) → ∀ p ∈ m, p.1 = ['*'] ∨ p.1 = ['/'] := by
      intro m hm1 hm2 p hp
      rcases hm1 p hp with h | h | h
      · have := (g p.1).1 h; have := hm2 p hp; omega
      · have := (g p.1).2.1 h; have := hm2 p hp; omega
      · exact h
    rcases hl (op, y) (by simp) with ho | ho | ho | ho <;> simp only at ho <;> subst ho
    · rw [hadd, usual_append_add, usual_sum r, ← e1, ← e2]
    · have hk := (g ['-']).2.1 rfl
      have hr' := low r hr1 fun p hp => by have := hro p hp; omega
      rw [hsub, usual_append_sub, usual_sum r, ← e1, show -y = (-1) * y by ring, usual_scale _ r y hr', ← e2]
      ring
    · have hk := (g ['*']).2.2.1 rfl
      have hl' := low l hl1 fun p hp => by have := hlo p hp; omega
      have hr' := low r hr1 fun p hp => by have := hro p hp; omega
      rw [hmul, usual_factors l _ 0 x hl', usual, if_neg (by decide), if_neg (by decide), if_pos rfl, usual_scale _ r y hr', ← e1, ← e2]
    · have hk := (g ['/']).2.2.2 rfl
      have hl' := low l hl1 fun p hp => by have := hlo p hp; omega
      have hr0 : r = [] := by
        rcases r with _ | ⟨p, r⟩
        · rfl
        · exfalso
          have := hro p List.mem_cons_self
          rcases hr1 p List.mem_cons_self with h | h | h | h
          · have := (g p.1).1 h; omega
          · have := (g p.1).2.1 h; omega
          · have := (g p.1).2.2.1 h; omega
          · have := (g p.1).2.2.2 h; omega
      subst hr0
      have hb : b = y := by rw [e2]; simp [usual]
      rw [hdiv, usual_factors l _ 0 x hl', usual, if_neg (by decide), if_neg (by decide), if_neg (by decide), ← e1, hb]
      simp [usual]

/-- The formulas of an example: texts. -/
def texts : Ops Str where
  un f a := some (f ++ ['('] ++ a ++ [')'])
  bin op a b := ['('] ++ a ++ op ++ b ++ [')']
  endPoint t := t
  tensor l := ['{'] ++ [','].intercalate l ++ ['}']

/-- A formula with brackets, a function with two arguments, and operators of every kind. -/
example : texts.parse "a - b * c / d ^ e ^ f + sin ( x + y ) > atan2 ( y , x )".toList = some ("(((a-(b*(c/((d^e)^f))))+sin((x+y)))>atan2((y,x)))".toList, false) := by decide +kernel

/-- Such formulas exist: `a - b * ( c + d )`. -/
example : ∃ v, Formula texts (["a", "-", "b", "*", "(", "c", "+", "d", ")"].map String.toList) v := by
  have name : ∀ t : Str, Ordinary t → Operand texts [t] t := fun t h => Operand.plain _ _ (Atom.name t h)
  have ord : ∀ c : Char, c ∈ ['a', 'b', 'c', 'd'] → Ordinary [c] := by
    intro c hc
    refine ⟨⟨c, [], rfl, ?_⟩, ?_, ?_⟩ <;>
    · simp only [List.mem_cons, List.not_mem_nil, or_false] at hc
      rcases hc with rfl | rfl | rfl | rfl <;> decide
  have inner : Terms texts (["c", "+", "d"].map String.toList) ['c'] [(['+'], ['d'])] := Terms.more [['c']] _ ['+'] [['d']] _ [] (name _ (ord 'c' (by simp))) (by decide) (Terms.last _ _ (name _ (ord 'd' (by simp))))
  obtain ⟨v, hv, _⟩ := formula_unique texts _ _ _ inner
  have outer : Terms texts (["a", "-", "b", "*", "(", "c", "+", "d", ")"].map String.toList) ['a'] [(['-'], ['b']), (['*'], v)] :=
    Terms.more [['a']] _ ['-'] _ _ _ (name _ (ord 'a' (by simp))) (by decide) (Terms.more [['b']] _ ['*'] _ _ _ (name _ (ord 'b' (by simp))) (by decide)
      (Terms.last _ _ (Operand.plain _ _ (Atom.group _ _ (Formula.intro _ _ _ _ inner hv)))))
  obtain ⟨w, hw, _⟩ := formula_unique texts _ _ _ outer
  exact ⟨w, Formula.intro _ _ _ _ outer hw⟩

/-- The usual value of `8 - 3 + 12 * 4 / 6 / 2`. -/
example : usual (0 : ℚ) 8 [(['-'], 3), (['+'], 12), (['*'], 4), (['/'], 6), (['/'], 2)] = 9 := by decide +kernel

/-! ### C75 -/

/-- A token without brackets. -/
def Flat (t : Str) : Prop := ∃ c s, t = c :: s ∧ c ≠ '(' ∧ c ≠ '{'

/-- The tokens that are operands. -/
def operands (ts : List Str) : List Str := ts.filter fun t => decide (t ∉ unaryNames ∧ t ∉ precedence)

/-- The tokens that are operators. -/
def operators (ts : List Str) : List Str := ts.filter fun t => decide (t ∈ precedence)

theorem loop_flat (o : Ops E) : ∀ (ts : List Str) (fuel : Nat) (ops : List Str) (ex : List E) (bad : Bool), ts.length < fuel → (∀ t ∈ ts, Flat t) →
    o.loop fuel ts ops ex bad = some (ops ++ ts.filter (fun t => decide (t ∈ binaryNames ∨ t ∈ unaryNames)), ex ++ (operands ts).map o.endPoint, bad)
  | [], fuel, ops, ex, bad, hf, _ => by
    rcases fuel with _ | fuel
    · simp at hf
    · simp [Ops.loop, operands]
  | t :: ts, fuel, ops, ex, bad, hf, h => by
    rcases fuel with _ | fuel
    · simp at hf
    · obtain ⟨c, s, rfl, h1, h2⟩ := h t List.mem_cons_self
      rw [Ops.loop]
      simp only [if_neg h1, if_neg h2]
      have hl := fun p hp => h p (List.mem_cons_of_mem (c :: s) hp)
      by_cases hm : (c :: s) ∈ binaryNames ∨ (c :: s) ∈ unaryNames
      · have hn : ¬ ((c :: s) ∉ unaryNames ∧ (c :: s) ∉ precedence) := by
          rintro ⟨a, b⟩
          exact hm.elim b a
        rw [if_pos hm, loop_flat o ts fuel _ _ _ (by simp at hf; omega) hl, operands, operands, List.filter_cons_of_pos (by simpa using hm), List.filter_cons_of_neg (by simpa using hn)]
        simp
      · have hn : (c :: s) ∉ unaryNames ∧ (c :: s) ∉ precedence := ⟨fun a => hm (Or.inr a), fun a => hm (Or.inl a)⟩
        rw [if_neg hm, loop_flat o ts fuel _ _ _ (by simp at hf; omega) hl, operands, operands, List.filter_cons_of_neg (by simpa using hm), List.filter_cons_of_pos (by simpa using hn)]
        simp

theorem unaryPass_ok (o : Ops E) (hu : ∀ f a, (o.un f a).isSome = true) : ∀ (ops done : List Str) (ex : List E), done.length + (ops.filter fun t => decide (t ∉ unaryNames)).length < ex.length →
    ∃ ex', o.unaryPass done ops ex = some (done ++ ops.filter (fun t => decide (t ∉ unaryNames)), ex') ∧ ex'.length = ex.length
  | [], done, ex, _ => ⟨ex, by simp [Ops.unaryPass], rfl⟩
  | op :: ops, done, ex, h => by
    rw [Ops.unaryPass]
    by_cases hm : op ∈ unaryNames
    · rw [List.filter_cons_of_neg (by simpa using hm)] at h ⊢
      rw [if_pos hm]
      have hlt : done.length < ex.length := by omega
      obtain ⟨v, hv⟩ := Option.isSome_iff_exists.1 (hu op (ex[done.length]))
      simp only [List.getElem?_eq_getElem hlt, Option.bind_eq_bind, Option.bind_some, hv]
      obtain ⟨ex', h1, h2⟩ := unaryPass_ok o hu ops done (ex.set done.length v) (by simpa using h)
      exact ⟨ex', h1, by simpa using h2⟩
    · rw [List.filter_cons_of_pos (by simpa using hm)] at h ⊢
      rw [if_neg hm]
      obtain ⟨ex', h1, h2⟩ := unaryPass_ok o hu ops (done ++ [op]) ex (by simp at h ⊢; omega)
      exact ⟨ex', by rw [h1]; simp, h2⟩

theorem unaryPass_length (o : Ops E) : ∀ (ops done : List Str) (ex : List E) (r : List Str × List E), o.unaryPass done ops ex = some r →
    r.1 = done ++ ops.filter (fun t => decide (t ∉ unaryNames)) ∧ r.2.length = ex.length
  | [], done, ex, r, h => by
    simp only [Ops.unaryPass, Option.some.injEq] at h
    rw [← h]; simp
  | op :: ops, done, ex, r, h => by
    rw [Ops.unaryPass] at h
    by_cases hm : op ∈ unaryNames
    · rw [if_pos hm] at h
      simp only [Option.bind_eq_bind, Option.bind_eq_some_iff] at h
      obtain ⟨e, _, v, _, h⟩ := h
      have := unaryPass_length o ops done _ r h
      rw [List.filter_cons_of_neg (by simpa using hm)]
      simpa using this
    · rw [if_neg hm] at h
      have := unaryPass_length o ops (done ++ [op]) _ r h
      rw [List.filter_cons_of_pos (by simpa using hm)]
      simpa using this

theorem binaryPass_ok (o : Ops E) (fcn : Str) : ∀ (ops done : List Str) (ex : List E), done.length + ops.length < ex.length →
    ∃ ex', o.binaryPass fcn done ops ex = some (done ++ ops.filter (fun t => decide (t ≠ fcn)), ex')
  | [], done, ex, _ => ⟨ex, by simp [Ops.binaryPass]⟩
  | op :: ops, done, ex, h => by
    rw [Ops.binaryPass]
    simp only [List.length_cons] at h
    by_cases hm : op ≠ fcn
    · rw [if_pos hm, List.filter_cons_of_pos (by simpa using hm)]
      obtain ⟨ex', h1⟩ := binaryPass_ok o fcn ops (done ++ [op]) ex (by simp; omega)
      exact ⟨ex', by rw [h1]; simp⟩
    · rw [if_neg hm, List.filter_cons_of_neg (by simpa using hm)]
      have h0 : done.length < ex.length := by omega
      have h1 : done.length + 1 < ex.length := by omega
      simp only [List.getElem?_eq_getElem h0, List.getElem?_eq_getElem h1, Option.bind_eq_bind, Option.bind_some]
      exact binaryPass_ok o fcn ops done _ (by rw [List.length_eraseIdx_of_lt (by simpa using h1)]; simp; omega)

theorem binaryPass_length (o : Ops E) (fcn : Str) : ∀ (ops done : List Str) (ex : List E) (r : List Str × List E), o.binaryPass fcn done ops ex = some r →
    r.1 = done ++ ops.filter (fun t => decide (t ≠ fcn)) ∧ r.2.length + ops.length = ex.length + (ops.filter fun t => decide (t ≠ fcn)).length
  | [], done, ex, r, h => by
    simp only [Ops.binaryPass, Option.some.injEq] at h
    rw [← h]; simp
  | op :: ops, done, ex, r, h => by
    rw [Ops.binaryPass] at h
    by_cases hm : op ≠ fcn
    · rw [if_pos hm] at h
      have := binaryPass_length o fcn ops (done ++ [op]) _ r h
      rw [List.filter_cons_of_pos (by simpa using hm)]
      simp only [List.length_cons]
      refine ⟨by simpa using this.1, by omega⟩
    · rw [if_neg hm] at h
      simp only [Option.bind_eq_bind, Option.bind_eq_some_iff] at h
      obtain ⟨a, _, b, hb, h⟩ := h
      have := binaryPass_length o fcn ops done _ r h
      have h1 : done.length + 1 < ex.length := by
        rcases Nat.lt_or_ge (done.length + 1) ex.length with g | g
        · exact g
        · rw [List.getElem?_eq_none g] at hb; simp at hb
      rw [List.filter_cons_of_neg (by simpa using hm)]
      rw [List.length_eraseIdx_of_lt (by simpa using h1), List.length_set] at this
      simp only [List.length_cons]
      exact ⟨this.1, by omega⟩

theorem binaryPasses_ok (o : Ops E) : ∀ (fcns ops : List Str) (ex : List E), ops.length < ex.length → ∃ r, o.binaryPasses fcns ops ex = some r
  | [], ops, ex, _ => ⟨_, rfl⟩
  | fcn :: fcns, ops, ex, h => by
    obtain ⟨ex', h1⟩ := binaryPass_ok o fcn ops [] ex (by simpa using h)
    have h2 := (binaryPass_length o fcn ops [] ex _ h1).2
    rw [Ops.binaryPasses, h1, Option.bind_some]
    have := List.length_filter_le (fun t => decide (t ≠ fcn)) ops
    exact binaryPasses_ok o fcns _ ex' (by simp only [List.nil_append]; simp only at h2; omega)

theorem binaryPasses_length (o : Ops E) : ∀ (fcns ops : List Str) (ex : List E) (r : List Str × List E), o.binaryPasses fcns ops ex = some r →
    r.1 = ops.filter (fun t => decide (t ∉ fcns)) ∧ r.2.length + ops.length = ex.length + r.1.length
  | [], ops, ex, r, h => by
    simp only [Ops.binaryPasses, Option.some.injEq] at h
    rw [← h]; simp
  | fcn :: fcns, ops, ex, r, h => by
    rw [Ops.binaryPasses, Option.bind_eq_some_iff] at h
    obtain ⟨s, h1, h2⟩ := h
    obtain ⟨a1, a2⟩ := binaryPass_length o fcn ops [] ex s h1
    obtain ⟨b1, b2⟩ := binaryPasses_length o fcns s.1 s.2 r h2
    rw [List.nil_append] at a1
    rw [a1] at b1 b2
    refine ⟨?_, by omega⟩
    rw [b1, List.filter_filter]
    congr 1
    funext t
    by_cases h1 : t = fcn <;> by_cases h2 : t ∈ fcns <;> simp [h1, h2]

/-- **C75 (partial)**: what happens for tokens without brackets, whatever their order: with one operand more than operators they are accepted; with more operands an error is reported; with fewer the behaviour is
undefined. The places of the operands and operators do not matter. -/
theorem flat_formula_partial (o : Ops E) (hu : ∀ f a, (o.un f a).isSome = true) (ts : List Str) (h : ∀ t ∈ ts, Flat t) :
    ((operands ts).length = (operators ts).length + 1 → ∃ v, o.parseTokens ts = some (v, false)) ∧
    ((operators ts).length + 1 < (operands ts).length → ∃ v, o.parseTokens ts = some (v, true)) ∧
    ((operands ts).length ≤ (operators ts).length → o.parseTokens ts = none) := by
  unfold Ops.parseTokens
  rw [loop_flat o ts _ [] [] false (Nat.lt_succ_self _) h, Option.bind_some]
  simp only [List.nil_append]
  have hops : (ts.filter fun t => decide (t ∈ binaryNames ∨ t ∈ unaryNames)).filter (fun t => decide (t ∉ unaryNames)) = operators ts := by
    rw [List.filter_filter, operators]
    congr 1
    funext t
    by_cases h1 : t ∈ precedence
    · have := binary_not_unary h1
      have h1' : t ∈ binaryNames := h1
      simp [h1, h1', this]
    · have h1' : t ∉ binaryNames := h1
      by_cases h2 : t ∈ unaryNames <;> simp [h1, h1', h2]
  have hrest : (operators ts).filter (fun t => decide (t ∉ binaryNames)) = [] := by
    rw [List.filter_eq_nil_iff]
    intro t ht
    have : t ∈ precedence := by simpa using (List.mem_filter.1 ht).2
    have : t ∈ binaryNames := this
    simpa using this
  have good : (operators ts).length < (operands ts).length → ∃ v, o.finish (ts.filter fun t => decide (t ∈ binaryNames ∨ t ∈ unaryNames)) ((operands ts).map o.endPoint) false =
      some (v, decide ((operands ts).length - (operators ts).length ≠ 1)) := by
    intro hlt
    obtain ⟨ex, h1, h2⟩ := unaryPass_ok o hu (ts.filter fun t => decide (t ∈ binaryNames ∨ t ∈ unaryNames)) [] ((operands ts).map o.endPoint) (by rw [hops]; simpa using hlt)
    rw [hops, List.nil_append] at h1
    rw [List.length_map] at h2
    obtain ⟨r, h3⟩ := binaryPasses_ok o binaryNames (operators ts) ex (by omega)
    obtain ⟨h4, h5⟩ := binaryPasses_length o _ _ _ _ h3
    rw [hrest] at h4
    rw [h4] at h5
    simp only [List.length_nil] at h5
    have h6 : r.2.length = (operands ts).length - (operators ts).length := by omega
    have h7 : 0 < r.2.length := by omega
    refine ⟨r.2[0], ?_⟩
    unfold Ops.finish
    rw [h1]
    simp only [Option.bind_eq_bind, Option.bind_some, h3, List.getElem?_eq_getElem h7, h6, Bool.false_or]
    rfl
  refine ⟨fun he => ?_, fun he => ?_, fun he => ?_⟩
  · obtain ⟨v, hv⟩ := good (by omega)
    rw [hv]
    have : (operands ts).length - (operators ts).length = 1 := by omega
    exact ⟨v, by simp [this]⟩
  · obtain ⟨v, hv⟩ := good (by omega)
    rw [hv]
    have : (operands ts).length - (operators ts).length ≠ 1 := by omega
    exact ⟨v, by simp [this]⟩
  · unfold Ops.finish
    cases h1 : o.unaryPass [] (ts.filter fun t => decide (t ∈ binaryNames ∨ t ∈ unaryNames)) ((operands ts).map o.endPoint) with
    | none => rfl
    | some u =>
      obtain ⟨a1, a2⟩ := unaryPass_length o _ _ _ _ h1
      rw [hops, List.nil_append] at a1
      rw [List.length_map] at a2
      simp only [Option.bind_eq_bind, Option.bind_some]
      cases h3 : o.binaryPasses binaryNames u.1 u.2 with
      | none => rfl
      | some r =>
        obtain ⟨h4, h5⟩ := binaryPasses_length o _ _ _ _ h3
        rw [a1] at h4 h5
        rw [hrest] at h4
        rw [h4] at h5
        simp only [List.length_nil] at h5
        have : r.2 = [] := List.length_eq_zero_iff.1 (by omega)
        simp [this]

/-- Tokens without brackets. -/
example : (∀ t ∈ ["x", "+", "sin", "y"].map String.toList, Flat t) ∧ (operands (["x", "+", "sin", "y"].map String.toList)).length = (operators (["x", "+", "sin", "y"].map String.toList)).length + 1 := by
  constructor
  · intro t ht
    simp only [List.map_cons, List.map_nil, List.mem_cons, List.not_mem_nil, or_false] at ht
    rcases ht with rfl | rfl | rfl | rfl <;> exact ⟨_, _, rfl, by decide, by decide⟩
  · decide

/-- **C75**, counterexample: operators in wrong places are accepted without a message. -/
theorem misplaced_operator_counterexample : texts.parse "x y +".toList = some ("(x+y)".toList, false) ∧ texts.parse "x sin".toList = some ("sin(x)".toList, false) := by decide +kernel

/-- **C75**, counterexample: a sign in front of an operand, an empty pair of brackets and an empty text lead to undefined behaviour. -/
theorem missing_operand_counterexample (o : Ops E) : o.parse "- x".toList = none ∧ o.parse "( )".toList = none ∧ o.parse "{ }".toList = none ∧ o.parse [] = none := by
  refine ⟨?_, ?_, ?_, ?_⟩
  · have e : split "- x".toList ' ' true = [['-'], ['x']] := by decide +kernel
    rw [Ops.parse, e]
    simp only [Ops.parseTokens, List.length_cons, List.length_nil]
    rfl
  · have e : split "( )".toList ' ' true = [['('], [')']] := by decide +kernel
    rw [Ops.parse, e]
    rfl
  · have e : split "{ }".toList ' ' true = [['{'], ['}']] := by decide +kernel
    rw [Ops.parse, e]
    rfl
  · have e : split [] ' ' true = [] := by decide +kernel
    rw [Ops.parse, e]
    rfl

/-! ### C76 -/

/-- **C76 (partial)**: a function in front of an atom is applied to this atom only: `f x op …` is `(f x) op …`. -/
theorem function_argument_partial (o : Ops E) (f : Str) (hf : f ∈ unaryNames) (ts : List Str) (a v : E) (ha : Atom o ts a) (hv : o.un f a = some v) (op : Str) (hop : op ∈ precedence) (us : List Str) (w : E) (hw : Operand o us w) :
    o.parseTokens (f :: ts) = some (v, false) ∧ o.parseTokens (f :: ts ++ op :: us) = some (o.bin op v w, false) := by
  constructor
  · exact formula_value o _ _ (Formula.intro _ v [] v (Terms.last _ _ (Operand.call f ts a v hf ha hv)) (Value.operand v))
  · refine formula_value o _ _ (Formula.intro _ v [(op, w)] _ (Terms.more (f :: ts) v op us w [] (Operand.call f ts a v hf ha hv) hop (Terms.last _ _ hw)) ?_)
    exact Value.operator v [] op w [] v w (by simp) (by simp) (Value.operand v) (Value.operand w)

example : ["sqrt"].map String.toList ⊆ unaryNames ∧ Atom texts [['x']] ['x'] := by
  refine ⟨by decide, Atom.name _ ⟨⟨'x', [], rfl, by decide⟩, by decide, by decide⟩⟩

/-- **C76**: functions in front of each other are applied in the order in which they are written, the first one first. -/
theorem function_order (o : Ops E) (fs : List Str) (hf : ∀ f ∈ fs, f ∈ unaryNames) (ts : List Str) (a : E) (ha : Atom o ts a) (v : E) (hv : fs.foldlM (fun x f => o.un f x) a = some v) :
    o.parseTokens (fs ++ ts) = some (v, false) := by
  have hr : ∀ fs : List Str, (∀ f ∈ fs, f ∈ unaryNames) → Runs o fs fs ([] : List E) := by
    intro fs
    induction fs with
    | nil =>
      intro _ fuel rest os ex bad hf
      exact ⟨fuel, by simpa using hf, by simp⟩
    | cons f fs ih =>
      intro h
      have := (runs_operator o f (Or.inr (h f List.mem_cons_self))).append o (ih fun g hg => h g (List.mem_cons_of_mem _ hg))
      simpa using this
  have happ : ∀ (fs : List Str) (a : E), applyAll o fs a = fs.foldlM (fun x f => o.un f x) a := by
    intro fs
    induction fs with
    | nil => intro a; rfl
    | cons f fs ih =>
      intro a
      rw [applyAll, List.foldlM_cons]
      show _ = (o.un f a).bind _
      congr 1
      funext x
      exact ih x
  have hrun := (hr fs hf).append o (atom_spec o ha).2.2.1
  rw [List.append_nil, List.nil_append] at hrun
  exact parses_of o (fs ++ ts) fs [a] v [] v hrun (leaves_last o fs a v hf (by rw [happ]; exact hv)) (by simp) (Value.operand v) _ (Nat.lt_succ_self _)

/-- **C76**, counterexample: without brackets the sine of the cosine is the cosine of the sine. -/
theorem function_order_counterexample : texts.parse "sin cos x".toList = some ("cos(sin(x))".toList, false) ∧ texts.parse "sin ( cos ( x ) )".toList = some ("sin(cos(x))".toList, false) := by decide +kernel

end AmpGen.Parser
