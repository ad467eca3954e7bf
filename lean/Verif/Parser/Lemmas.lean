import Verif.Parser.Spec
import Mathlib.Data.List.Basic
/-
Lemmas on the passes over the operators.
-/
namespace AmpGen.Parser
open AmpGen.Strings AmpGen.Parser.Spec

variable {E : Type} (o : Ops E)

/-! ### Operators -/

/-- One pass on operands and operators in pairs. -/
def reduce (fcn : Str) : E → List (Str × E) → E × List (Str × E)
  | x, [] => (x, [])
  | x, (op, y) :: l => if op ≠ fcn then (x, (op, (reduce fcn y l).1) :: (reduce fcn y l).2) else reduce fcn (o.bin fcn x y) l

theorem binaryPass_reduce (fcn : Str) : ∀ (l : List (Str × E)) (done : List Str) (pre : List E) (x : E), pre.length = done.length →
    o.binaryPass fcn done (l.map Prod.fst) (pre ++ x :: l.map Prod.snd) = some (done ++ (reduce o fcn x l).2.map Prod.fst, pre ++ (reduce o fcn x l).1 :: (reduce o fcn x l).2.map Prod.snd)
  | [], done, pre, x, h => by simp [Ops.binaryPass, reduce]
  | (op, y) :: l, done, pre, x, h => by
    rw [List.map_cons, Ops.binaryPass]
    by_cases ho : op ≠ fcn
    · rw [if_pos ho, reduce, if_pos ho]
      have := binaryPass_reduce fcn l (done ++ [op]) (pre ++ [x]) y (by simp [h])
      simpa using this
    · rw [if_neg ho, reduce, if_neg ho]
      have h0 : (pre ++ x :: y :: l.map Prod.snd)[done.length]? = some x := by rw [← h]; simp
      have h1 : (pre ++ x :: y :: l.map Prod.snd)[done.length + 1]? = some y := by rw [← h]; simp
      have h2 : ((pre ++ x :: y :: l.map Prod.snd).set done.length (o.bin fcn x y)).eraseIdx (done.length + 1) = pre ++ o.bin fcn x y :: l.map Prod.snd := by
        rw [← h]; simp [List.eraseIdx_append_of_length_le]
      simp only [List.map_cons, h0, h1, Option.bind_eq_bind, Option.bind_some, h2]
      exact binaryPass_reduce fcn l done pre _ h

/-- Operands that stand for the values of consecutive parts of a formula: the operators inside of the parts are among the first `k`, of the first part among the first `j`, those between the parts are not among the first `k`. -/
inductive Parts (bin : Str → E → E → E) (k : Nat) : Nat → E → List (Str × E) → E → List (Str × E) → Prop
  | last (j : Nat) (x : E) (l : List (Str × E)) (a : E) : Value bin x l a → (∀ p ∈ l, precedence.idxOf p.1 < j) → Parts bin k j x l a []
  | more (j : Nat) (x : E) (l : List (Str × E)) (a : E) (op : Str) (y : E) (r : List (Str × E)) (b : E) (rest : List (Str × E)) : Value bin x l a → (∀ p ∈ l, precedence.idxOf p.1 < j) →
      k ≤ precedence.idxOf op → Parts bin k k y r b rest → Parts bin k j x (l ++ (op, y) :: r) a ((op, b) :: rest)

theorem Value.append {bin : Str → E → E → E} {x y a b : E} {l r : List (Str × E)} (k : Nat) (op : Str) (ho : precedence.idxOf op = k) (hl : ∀ p ∈ l, precedence.idxOf p.1 < k + 1) (hr : ∀ p ∈ r, precedence.idxOf p.1 < k)
    (h1 : Value bin x l a) (h2 : Value bin y r b) : Value bin x (l ++ (op, y) :: r) (bin op a b) :=
  Value.operator x l op y r a b (fun p hp => by have := hl p hp; unfold Tighter; omega) (fun p hp => by have := hr p hp; unfold Tighter; omega) h1 h2

/-- A pass joins the parts at its operator. -/
theorem reduce_parts (k : Nat) (fcn : Str) (hk : precedence[k]? = some fcn) (hn : ∀ op, precedence.idxOf op = k → op = fcn) (hf : precedence.idxOf fcn = k) : ∀ (rest : List (Str × E)) (j : Nat) (x : E) (l : List (Str × E)) (a : E),
    j ≤ k + 1 → Parts o.bin k j x l a rest → Parts o.bin (k + 1) (k + 1) x l (reduce o fcn a rest).1 (reduce o fcn a rest).2
  | [], j, x, l, a, hj, h => by
    cases h with
    | last _ _ _ _ h1 h2 => exact Parts.last _ _ _ _ h1 fun p hp => by have := h2 p hp; omega
  | (op, b) :: rest, j, x, l, a, hj, h => by
    cases h with
    | more _ _ l _ _ y r _ _ h1 h2 h3 h4 =>
      rw [reduce]
      by_cases ho : op ≠ fcn
      · rw [if_pos ho]
        have hi : precedence.idxOf op ≠ k := fun e => ho (hn op e)
        exact Parts.more _ _ _ _ _ _ _ _ _ h1 (fun p hp => by have := h2 p hp; omega) (by omega) (reduce_parts k fcn hk hn hf rest k y r b (by omega) h4)
      · rw [if_neg ho]
        have ho : op = fcn := by simpa using ho
        have key : ∀ (r : List (Str × E)), (∀ p ∈ r, precedence.idxOf p.1 < k) → ∀ p ∈ l ++ (op, y) :: r, precedence.idxOf p.1 < k + 1 := by
          intro r hr p hp
          rcases List.mem_append.1 hp with hp | hp
          · have := h2 p hp; omega
          · rcases List.mem_cons.1 hp with rfl | hp
            · show precedence.idxOf op < k + 1
              rw [ho]; omega
            · have := hr p hp; omega
        have hl : ∀ p ∈ l, precedence.idxOf p.1 < k + 1 := fun p hp => by have := h2 p hp; omega
        have hok : precedence.idxOf op = k := by rw [ho]; exact hf
        refine reduce_parts k fcn hk hn hf rest (k + 1) x _ (o.bin fcn a b) (Nat.le_refl _) ?_
        cases h4 with
        | last _ _ _ _ h5 h6 =>
          rw [← ho]
          exact Parts.last _ _ _ _ (Value.append k op hok hl h6 h1 h5) (key r h6)
        | more _ _ r _ op' y' r' b' rest' h5 h6 h7 h8 =>
          rw [← ho]
          have e : l ++ (op, y) :: (r ++ (op', y') :: r') = (l ++ (op, y) :: r) ++ (op', y') :: r' := by simp
          rw [e]
          exact Parts.more _ _ _ _ _ _ _ _ _ (Value.append k op hok hl h6 h1 h5) (key r h6) h7 h8

theorem parts_start : ∀ (l : List (Str × E)) (x : E), Parts o.bin 0 0 x l x l
  | [], x => Parts.last _ _ _ _ (Value.operand x) (by simp)
  | (op, y) :: l, x => Parts.more 0 x [] x op y l y l (Value.operand x) (by simp) (Nat.zero_le _) (parts_start l y)

theorem parts_ops {bin : Str → E → E → E} {k j : Nat} {x a : E} {l rest : List (Str × E)} (h : Parts bin k j x l a rest) : ∀ p ∈ rest, k ≤ precedence.idxOf p.1 ∧ ∃ q ∈ l, q.1 = p.1 := by
  induction h with
  | last => simp
  | more j x l a op y r b rest _ _ h3 _ ih =>
    intro p hp
    rcases List.mem_cons.1 hp with rfl | hp
    · exact ⟨h3, (op, y), by simp, rfl⟩
    · obtain ⟨h, q, hq, e⟩ := ih p hp
      exact ⟨h, q, by simp [hq], e⟩

theorem passes_parts (x : E) (l : List (Str × E)) : ∀ (fcns : List Str) (k : Nat) (a : E) (rest : List (Str × E)), precedence.drop k = fcns → Parts o.bin k k x l a rest →
    ∃ a' rest', o.binaryPasses fcns (rest.map Prod.fst) (a :: rest.map Prod.snd) = some (rest'.map Prod.fst, a' :: rest'.map Prod.snd) ∧ Parts o.bin (k + fcns.length) (k + fcns.length) x l a' rest'
  | [], k, a, rest, _, h => ⟨a, rest, rfl, h⟩
  | fcn :: fcns, k, a, rest, hf, h => by
    have hk : precedence[k]? = some fcn := by
      have : (precedence.drop k)[0]? = some fcn := by rw [hf]; rfl
      rwa [List.getElem?_drop] at this
    have hlt : k < precedence.length := by
      rcases Nat.lt_or_ge k precedence.length with h | h
      · exact h
      · rw [List.getElem?_eq_none h] at hk; simp at hk
    have hnd : precedence.Nodup := by decide
    have hidx : precedence.idxOf fcn = k := by
      rw [List.getElem?_eq_getElem hlt] at hk
      rw [← Option.some.inj hk]
      exact hnd.idxOf_getElem k hlt
    have hn : ∀ op, precedence.idxOf op = k → op = fcn := by
      intro op ho
      have h1 : precedence.idxOf op < precedence.length := by omega
      have := List.idxOf_get h1
      rw [List.getElem?_eq_getElem hlt] at hk
      rw [← Option.some.inj hk, ← this]
      simp [ho]
    have hr := reduce_parts o k fcn hk hn hidx rest k x l a (by omega) h
    have hp := binaryPass_reduce o fcn rest [] [] a rfl
    simp only [List.nil_append] at hp
    obtain ⟨a', rest', h1, h2⟩ := passes_parts x l fcns (k + 1) _ _ (by rw [← List.tail_drop, hf]; rfl) hr
    refine ⟨a', rest', ?_, ?_⟩
    · rw [Ops.binaryPasses, hp, Option.bind_some]
      exact h1
    · have e : k + (fcn :: fcns).length = k + 1 + fcns.length := by simp; omega
      rw [e]; exact h2

/-- All passes give the value. -/
theorem passes_value (x : E) (l : List (Str × E)) (hl : ∀ p ∈ l, p.1 ∈ precedence) : ∃ v, o.binaryPasses binaryNames (l.map Prod.fst) (x :: l.map Prod.snd) = some ([], [v]) ∧ Value o.bin x l v := by
  obtain ⟨v, rest, h1, h2⟩ := passes_parts o x l binaryNames 0 x l rfl (parts_start o l x)
  have hr : rest = [] := by
    rcases rest with _ | ⟨p, rest⟩
    · rfl
    · obtain ⟨h, q, hq, e⟩ := parts_ops h2 p List.mem_cons_self
      have := List.idxOf_lt_length_iff.2 (hl q hq)
      rw [e] at this
      have e2 : binaryNames.length = precedence.length := rfl
      omega
  subst hr
  refine ⟨v, h1, ?_⟩
  cases h2 with
  | last _ _ _ _ h _ => exact h

/-- The value is unique. -/
theorem value_unique {bin : Str → E → E → E} {x v w : E} {l : List (Str × E)} (h : Value bin x l v) (h' : Value bin x l w) : v = w := by
  induction h generalizing w with
  | operand x =>
    generalize hl : ([] : List (Str × E)) = l at h'
    cases h' with
    | operand => rfl
    | operator => simp at hl
  | operator x l op y r a b h1 h2 _ _ ih1 ih2 =>
    generalize hm : l ++ (op, y) :: r = m at h'
    cases h' with
    | operand => simp at hm
    | operator _ l' op' y' r' a' b' h1' h2' h3' h4' =>
      rw [List.append_eq_append_iff] at hm
      rcases hm with ⟨as, e1, e2⟩ | ⟨cs, e1, e2⟩
      · rcases as with _ | ⟨s, as⟩
        · simp only [List.append_nil] at e1
          simp only [List.nil_append, List.cons.injEq, Prod.mk.injEq] at e2
          obtain ⟨⟨rfl, rfl⟩, rfl⟩ := e2
          subst e1
          rw [ih1 h3', ih2 h4']
        · simp only [List.cons_append, List.cons.injEq] at e2
          obtain ⟨rfl, e2⟩ := e2
          exact absurd (h2 (op', y') (by rw [e2]; simp)) (h1' (op, y) (by rw [e1]; simp))
      · rcases cs with _ | ⟨s, cs⟩
        · simp only [List.append_nil] at e1
          simp only [List.nil_append, List.cons.injEq, Prod.mk.injEq] at e2
          obtain ⟨⟨rfl, rfl⟩, rfl⟩ := e2
          subst e1
          rw [ih1 h3', ih2 h4']
        · simp only [List.cons_append, List.cons.injEq] at e2
          obtain ⟨rfl, e2⟩ := e2
          exact absurd (h2' (op, y) (by rw [e2]; simp)) (h1 (op', y') (by rw [e1]; simp))

end AmpGen.Parser
