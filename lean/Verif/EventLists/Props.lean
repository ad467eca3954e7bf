import Verif.EventLists.Spec
import Mathlib.Tactic.Linarith
import Mathlib.Tactic.NormNum
import Mathlib.Tactic.Ring
import Mathlib.Algebra.BigOperators.Group.List.Basic
/-
C151: lists of events.
-/
namespace AmpGen.EventLists

open Spec

variable {D : Type}

/-! ### Each operation -/

theorem pushBack_eq (l : List (Event D)) (e : Event D) : pushBack l e = l ++ [e.setIndex l.length] := by
  unfold pushBack
  simp only [List.length_append, List.length_singleton, Nat.add_sub_cancel]
  apply List.ext_getElem?
  intro i
  rw [List.getElem?_modify]
  rcases Nat.lt_trichotomy i l.length with h | h | h
  · rw [List.getElem?_append_left h, List.getElem?_append_left h]
    simp [Nat.ne_of_gt h]
  · subst h
    simp
  · simp [List.getElem?_eq_none, Nat.ne_of_lt h, h, Nat.succ_le_of_lt h]

theorem addLoop_eq (s0 : Nat) (evts : List (Event D)) : ∀ (i : Nat) (l tail : List (Event D)), l.length = s0 + i → tail.length = evts.length →
    addLoop s0 evts i (l ++ tail) = l ++ evts.mapIdx fun j e => e.setIndex (s0 + i + j) := by
  induction evts with
  | nil =>
    intro i l tail _ ht
    rw [List.length_eq_zero_iff.mp ht]
    rfl
  | cons e evts ih =>
    intro i l tail hl ht
    match tail, ht with
    | t :: tail, ht =>
      show addLoop s0 evts (i + 1) ((l ++ t :: tail).set (s0 + i) (e.setIndex (s0 + i))) = _
      rw [← hl, List.set_append_right _ _ le_rfl, Nat.sub_self, List.set_cons_zero,
        show l ++ e.setIndex l.length :: tail = (l ++ [e.setIndex l.length]) ++ tail by simp,
        ih (i + 1) _ tail (by simp [hl]; omega) (by simpa using ht), List.mapIdx_cons]
      simp only [List.append_assoc, List.singleton_append, hl, Nat.add_zero]
      congr 3
      funext j e
      congr 1
      omega

theorem add_eq (none0 : D) (l evts : List (Event D)) : add none0 l evts = l ++ evts.mapIdx fun j e => e.setIndex (l.length + j) := by
  unfold add
  simp only
  rw [addLoop_eq l.length evts 0 l _ rfl (by simp)]
  simp

/-- C151.  Appending an event, or all events of another list, keeps the events that are there, and the new ones follow in their order with data, weight and density as
given.  `add` needs as many events as the other list has. -/
theorem append_contents (none0 : D) (l evts : List (Event D)) (e : Event D) :
    (pushBack l e).map content = l.map content ++ [content e] ∧
    (add none0 l evts).map content = l.map content ++ evts.map content ∧
    l <+: pushBack l e ∧ l <+: add none0 l evts ∧ addSelf ([] : List (Event D)) = some [] := by
  rw [pushBack_eq, add_eq]
  refine ⟨by simp [content, Event.setIndex], ?_, List.prefix_append _ _, List.prefix_append _ _, rfl⟩
  rw [List.map_append]
  congr 1
  apply List.ext_getElem?
  intro i
  simp only [List.getElem?_mapIdx, List.getElem?_map, Option.map_map]
  rfl

/-- C151.  A list that is not empty cannot be added to itself: the loop writes behind the end. -/
theorem add_itself_counterexample (l : List (Event D)) (h : l ≠ []) : addSelf l = none := by
  have : 0 < l.length := List.length_pos_iff.mpr h
  unfold addSelf
  exact if_neg (by omega)

theorem removeIf_eq (f : Event D → Bool) (l : List (Event D)) : removeIf f l = l.filter fun e => !f e := by
  induction l with
  | nil => rfl
  | cons e l ih =>
    unfold removeIf
    cases h : f e
    · rw [List.filter_cons_of_pos (p := fun e => !f e) (by simp [h]), ih]
      rfl
    · rw [List.filter_cons_of_neg (p := fun e => !f e) (by simp [h]), ih]
      rfl

theorem count_eq (f : Event D → Bool) (l : List (Event D)) : ∀ n, l.foldl (fun n e => if f e then n + 1 else n) n = n + l.countP f := by
  induction l with
  | nil => intro n; rfl
  | cons e l ih =>
    intro n
    rw [List.foldl_cons, ih, List.countP_cons]
    cases f e <;> simp <;> omega

/-- C151.  `filter` removes the events for which the function is true: what remains are the others, unchanged and in their order, and `count` is the number of events
that were removed. -/
theorem filter_removes (l : List (Event D)) (f : Event D → Bool) :
    (filter l f).Sublist l ∧ (∀ e, e ∈ filter l f ↔ e ∈ l ∧ f e = false) ∧ (filter l f).length + count l f = l.length ∧ count (filter l f) f = 0 ∧
    count (filter l f) (fun e => !f e) = count l (fun e => !f e) := by
  unfold filter count
  rw [removeIf_eq, count_eq, count_eq, count_eq, count_eq]
  refine ⟨List.filter_sublist, fun e => by simp [List.mem_filter], ?_, ?_, ?_⟩
  · rw [Nat.zero_add, ← List.countP_eq_length_filter]
    have := List.length_eq_countP_add_countP f (l := l)
    have e : (fun e => !f e) = fun a => decide ¬f a = true := by funext a; simp
    rw [e]
    omega
  · rw [Nat.zero_add, List.countP_eq_zero]
    intro a ha
    simpa using (List.mem_filter.mp ha).2
  · rw [List.countP_filter]
    simp

/-- C151.  `resize` gives a list of new events, whatever was in the list, with weight and density one. -/
theorem resize_contents (none0 zero : D) (l : List (Event D)) (n : Nat) :
    ∃ l', step none0 zero l (.resize n) = some l' ∧ l'.length = n ∧ ∀ e ∈ l', content e = (zero, 1, 1) := by
  refine ⟨_, rfl, by simp [resize], ?_⟩
  intro e he
  simp only [resize, List.mem_map] at he
  obtain ⟨i, _, rfl⟩ := he
  rfl

/-- C151.  Growing a list by `resize` loses the events that are in it. -/
theorem resize_counterexample : ∃ (l : List (Event ℕ)) (n : Nat), l.length < n ∧
    ∃ l', step 0 0 l (.resize n) = some l' ∧ ¬ l <+: l' := by
  refine ⟨[⟨7, 1, 3, 0⟩], 2, by decide, _, rfl, ?_⟩
  intro h
  obtain ⟨t, ht⟩ := h
  have h7 : some 7 = some 0 := congrArg (fun l : List (Event ℕ) => l.head?.map Event.data) ht
  exact absurd h7 (by decide)

/-- C151.  `setWeight` changes one event: its weight, and its density, which becomes one if none is given; `setGenPDF` only the density.  A position behind the end is
undefined. -/
theorem set_weight (l : List (Event D)) (pos : Nat) (w : ℝ) (g : Option ℝ) (d : ℝ) :
    (pos < l.length → ∃ l1 l2, setWeight l pos w g = some l1 ∧ setGenPDF l pos d = some l2 ∧ l1.length = l.length ∧ l2.length = l.length ∧
      (∀ i, i ≠ pos → l1[i]? = l[i]? ∧ l2[i]? = l[i]?) ∧
      ∀ e, l[pos]? = some e → l1[pos]? = some ⟨e.data, g.getD 1, w, e.index⟩ ∧ l2[pos]? = some ⟨e.data, d, e.weight, e.index⟩) ∧
    (¬ pos < l.length → setWeight l pos w g = none ∧ setGenPDF l pos d = none) := by
  constructor
  · intro h
    refine ⟨_, _, if_pos h, if_pos h, by simp, by simp, fun i hi => ?_, fun e he => ?_⟩
    · constructor <;> rw [List.getElem?_modify] <;> simp [Ne.symm hi]
    · constructor <;> rw [List.getElem?_modify, he] <;> simp
  · intro h
    exact ⟨if_neg h, if_neg h⟩

/-! ### Numbers of events -/

theorem numbered_append {l : List (Event D)} (hl : Numbered l) (l' : List (Event D)) (h : ∀ (i : Nat) (e : Event D), l'[i]? = some e → e.index = l.length + i) : Numbered (l ++ l') := by
  intro i e he
  rcases Nat.lt_or_ge i l.length with hi | hi
  · rw [List.getElem?_append_left hi] at he
    exact hl i e he
  · rw [List.getElem?_append_right hi] at he
    have := h _ _ he
    omega

theorem numbered_modify {l : List (Event D)} (hl : Numbered l) (pos : Nat) (f : Event D → Event D) (hf : ∀ e, (f e).index = e.index) : Numbered (l.modify pos f) := by
  intro i e he
  rw [List.getElem?_modify] at he
  cases h : l[i]? with
  | none => rw [h] at he; simp at he
  | some a =>
    rw [h] at he
    have ha := hl i a h
    have he : (if pos = i then f a else a) = e := by simpa using he
    rw [← he]
    split
    · rw [hf, ha]
    · exact ha

theorem numbered_step (none0 zero : D) {l l' : List (Event D)} (hl : Numbered l) {op : Op D} (hop : Op.KeepsNumbers op) (h : step none0 zero l op = some l') :
    Numbered l' := by
  cases op with
  | pushBack e =>
    rw [← Option.some.inj h, pushBack_eq]
    refine numbered_append hl _ fun i e' he => ?_
    rcases i with _ | i
    · rw [← Option.some.inj he]
      rfl
    · simp at he
  | add l2 =>
    rw [← Option.some.inj h, add_eq]
    refine numbered_append hl _ fun i e' he => ?_
    rw [List.getElem?_mapIdx] at he
    cases h2 : l2[i]? with
    | none => rw [h2] at he; simp at he
    | some a =>
      rw [h2] at he
      rw [← Option.some.inj he]
      rfl
  | clear =>
    rw [← Option.some.inj h]
    intro i e he
    simp at he
  | resize n =>
    rw [← Option.some.inj h]
    intro i e he
    unfold resize at he
    rw [List.getElem?_map] at he
    rcases Nat.lt_or_ge i n with hi | hi
    · rw [List.getElem?_range hi] at he
      rw [← Option.some.inj he]
      rfl
    · rw [List.getElem?_eq_none (by simpa using hi)] at he
      simp at he
  | transform f =>
    rw [← Option.some.inj h]
    intro i e he
    unfold transform at he
    rw [List.getElem?_map] at he
    cases h2 : l[i]? with
    | none => rw [h2] at he; simp at he
    | some a =>
      rw [h2] at he
      rw [← Option.some.inj he, hop a]
      exact hl i a h2
  | setWeight pos w g =>
    have h : setWeight l pos w g = some l' := h
    unfold setWeight at h
    split at h
    · rw [← Option.some.inj h]
      exact numbered_modify hl _ _ fun _ => rfl
    · simp at h
  | setGenPDF pos g =>
    have h : setGenPDF l pos g = some l' := h
    unfold setGenPDF at h
    split at h
    · rw [← Option.some.inj h]
      exact numbered_modify hl _ _ fun _ => rfl
    · simp at h
  | erase a b => exact hop.elim
  | filter f => exact hop.elim

/-- C151.  After every history of calls that remove no events, every event has its position as index, and so finds its own value in a table with one value per event. -/
theorem index_is_position_partial (none0 zero : D) (ops : List (Op D)) (hops : ∀ op ∈ ops, Op.KeepsNumbers op) (l : List (Event D))
    (h : run none0 zero ops = some l) :
    Numbered l ∧ ∀ (V : Type) (g : Event D → V), ∀ e ∈ l, lookUp (l.map g) e = some (g e) := by
  have key : ∀ (ops : List (Op D)), (∀ op ∈ ops, Op.KeepsNumbers op) → ∀ l0 : List (Event D), Numbered l0 → ops.foldlM (step none0 zero) l0 = some l → Numbered l := by
    intro ops
    induction ops with
    | nil =>
      intro _ l0 h0 h
      rw [← Option.some.inj h]
      exact h0
    | cons op ops ih =>
      intro hops l0 h0 h
      rw [List.foldlM_cons] at h
      cases hs : step none0 zero l0 op with
      | none => rw [hs] at h; simp at h
      | some l1 =>
        rw [hs] at h
        exact ih (fun o ho => hops o (List.mem_cons_of_mem _ ho)) l1 (numbered_step none0 zero h0 (hops op List.mem_cons_self) hs) h
  have hN := key ops hops [] (fun i e he => by simp at he) h
  refine ⟨hN, fun V g e he => ?_⟩
  obtain ⟨i, hi, rfl⟩ := List.getElem_of_mem he
  unfold lookUp
  rw [hN i l[i] (List.getElem?_eq_getElem hi), List.getElem?_map, List.getElem?_eq_getElem hi]
  rfl

/-- C151.  After `filter` or `erase` the events keep their old indices: with two events, of which the first is removed, the other has index one in a list with one event,
and its value is read behind the end of a table; with three events the wrong value is read. -/
theorem stale_index_counterexample :
    (∃ l, run 0 0 [.pushBack ⟨5, 1, 1, 0⟩, .pushBack ⟨6, 1, 1, 0⟩, .filter fun e => e.data == 5] = some l ∧ ¬ Numbered l ∧
      ∃ e ∈ l, lookUp (l.map Event.data) e = none) ∧
    (∃ l, run 0 0 [.pushBack ⟨5, 1, 1, 0⟩, .pushBack ⟨6, 1, 1, 0⟩, .pushBack ⟨7, 1, 1, 0⟩, .erase 0 1] = some l ∧ ¬ Numbered l ∧
      ∃ e ∈ l, e.data = 6 ∧ lookUp (l.map Event.data) e = some 7) := by
  constructor
  · refine ⟨[⟨6, 1, 1, 1⟩], rfl, fun h => absurd (h 0 _ rfl) (by decide), _, List.mem_singleton_self _, rfl⟩
  · refine ⟨[⟨6, 1, 1, 1⟩, ⟨7, 1, 1, 2⟩], rfl, fun h => absurd (h 0 _ rfl) (by decide), _, List.mem_cons_self, rfl, rfl⟩

/-! ### The sum of weights -/

theorem toInt_int (n : ℤ) (h1 : -(2 ^ 31) ≤ n) (h2 : n < 2 ^ 31) : toInt (n : ℝ) = some n := by
  unfold toInt
  simp only [Int.floor_intCast, Int.ceil_intCast, ite_self]
  exact if_pos ⟨h1, h2⟩

/-- C151.  If all weights are integers and no partial sum leaves the range of an `int`, the integral of a list is the sum of the weights. -/
theorem integral_partial (l : List (Event D)) (w : List ℤ) (hw : l.map Event.weight = w.map fun n : ℤ => (n : ℝ))
    (hr : ∀ k, -(2 ^ 31) ≤ (w.take k).sum ∧ (w.take k).sum < 2 ^ 31) : integral l = some (l.map Event.weight).sum := by
  have key : ∀ (l : List (Event D)) (w : List ℤ) (rv : ℤ), l.map Event.weight = w.map (fun n : ℤ => (n : ℝ)) →
      (∀ k, -(2 ^ 31) ≤ rv + (w.take k).sum ∧ rv + (w.take k).sum < 2 ^ 31) → integralFrom rv l = some (rv + w.sum) := by
    intro l
    induction l with
    | nil =>
      intro w rv hw _
      have : w = [] := by simpa using hw.symm
      subst this
      simp [integralFrom]
    | cons e l ih =>
      intro w rv hw hr
      match w, hw with
      | n :: w, hw =>
        rw [List.map_cons, List.map_cons] at hw
        obtain ⟨h1, h2⟩ := List.cons.inj hw
        unfold integralFrom
        have hn := hr 1
        simp only [List.take_succ_cons, List.take_zero, List.sum_cons, List.sum_nil, add_zero] at hn
        rw [h1, show (rv : ℝ) + (n : ℝ) = ((rv + n : ℤ) : ℝ) by push_cast; rfl, toInt_int _ hn.1 hn.2, Option.bind_some, ih w (rv + n) h2, List.sum_cons, add_assoc]
        intro k
        have := hr (k + 1)
        simp only [List.take_succ_cons, List.sum_cons] at this
        rw [add_assoc]
        exact this
  unfold integral
  rw [key l w 0 hw (fun k => by rw [zero_add]; exact hr k), hw]
  simp only [zero_add, Option.map_some, Option.some.injEq]
  clear key hr hw
  induction w with
  | nil => simp
  | cons n w ih => rw [List.sum_cons, List.map_cons, List.sum_cons, ← ih]; push_cast; rfl

theorem toInt_bounds {x : ℝ} (hx : 0 ≤ x) {n : ℤ} (h : toInt x = some n) : 0 ≤ n ∧ x - 1 < n ∧ (n : ℝ) ≤ x := by
  unfold toInt at h
  simp only [if_pos hx] at h
  split at h
  · rw [← Option.some.inj h]
    exact ⟨Int.floor_nonneg.mpr hx, Int.sub_one_lt_floor x, Int.floor_le x⟩
  · simp at h

/-- C151.  With weights that are not negative the integral is at most the sum of the weights, and less than it by at most the number of events. -/
theorem integral_bounds (l : List (Event D)) (hw : ∀ e ∈ l, 0 ≤ e.weight) (v : ℝ) (h : integral l = some v) :
    v ≤ (l.map Event.weight).sum ∧ (l.map Event.weight).sum ≤ v + l.length := by
  have key : ∀ (l : List (Event D)) (rv out : ℤ), 0 ≤ rv → (∀ e ∈ l, 0 ≤ e.weight) → integralFrom rv l = some out →
      (out : ℝ) ≤ rv + (l.map Event.weight).sum ∧ rv + (l.map Event.weight).sum ≤ out + l.length := by
    intro l
    induction l with
    | nil =>
      intro rv out _ _ h
      rw [← Option.some.inj h]
      simp
    | cons e l ih =>
      intro rv out h0 hw h
      unfold integralFrom at h
      have hrv : (0 : ℝ) ≤ rv := by exact_mod_cast h0
      have he := hw e List.mem_cons_self
      cases ht : toInt ((rv : ℝ) + e.weight) with
      | none => rw [ht] at h; simp at h
      | some n =>
        rw [ht, Option.bind_some] at h
        obtain ⟨b1, b2, b3⟩ := toInt_bounds (by linarith) ht
        obtain ⟨i1, i2⟩ := ih n out b1 (fun a ha => hw a (List.mem_cons_of_mem _ ha)) h
        simp only [List.map_cons, List.sum_cons, List.length_cons]
        push_cast
        constructor <;> linarith
  unfold integral at h
  cases hi : integralFrom 0 l with
  | none => rw [hi] at h; simp at h
  | some out =>
    rw [hi] at h
    have hv : (out : ℝ) = v := by simpa using h
    have := key l 0 out le_rfl hw hi
    rw [hv] at this
    simpa using this

/-- C151.  Any number of events of weight one half has the integral zero. -/
theorem integral_counterexample (n : Nat) :
    integral (List.replicate n (⟨(), 1, 1 / 2, 0⟩ : Event Unit)) = some 0 ∧ ((List.replicate n (⟨(), 1, 1 / 2, 0⟩ : Event Unit)).map Event.weight).sum = n / 2 := by
  constructor
  · have key : integralFrom 0 (List.replicate n (⟨(), 1, 1 / 2, 0⟩ : Event Unit)) = some 0 := by
      induction n with
      | zero => rfl
      | succ n ih =>
        rw [List.replicate_succ]
        unfold integralFrom
        have : toInt (((0 : ℤ) : ℝ) + 1 / 2) = some 0 := by
          unfold toInt
          have hf : ⌊((0 : ℤ) : ℝ) + 1 / 2⌋ = 0 := by
            rw [Int.floor_eq_iff]
            norm_num
          have h0 : (0 : ℝ) ≤ ((0 : ℤ) : ℝ) + 1 / 2 := by norm_num
          simp only [if_pos h0, hf]
          exact if_pos ⟨by norm_num, by norm_num⟩
        simp only [this, Option.bind_some]
        exact ih
    unfold integral
    rw [key]
    simp
  · simp
    ring

/-! ### Cases -/

example : ∃ l, run 0 0 [.pushBack ⟨5, 1, 1, 9⟩, .add [⟨6, 1, 2, 9⟩, ⟨7, 1, 2, 9⟩], .setWeight 1 4 none] = some l ∧ Numbered l ∧ l.length = 3 := by
  have hr : run 0 0 [.pushBack ⟨5, 1, 1, 9⟩, .add [⟨6, 1, 2, 9⟩, ⟨7, 1, 2, 9⟩], .setWeight 1 4 none] = some [⟨5, 1, 1, 0⟩, ⟨6, 1, 4, 1⟩, ⟨7, 1, 2, 2⟩] := rfl
  refine ⟨_, hr, (index_is_position_partial 0 0 _ ?_ _ hr).1, rfl⟩
  intro op hop
  simp only [List.mem_cons, List.not_mem_nil, or_false] at hop
  rcases hop with rfl | rfl | rfl <;> trivial

example : integral [(⟨(), 1, 2, 0⟩ : Event Unit), ⟨(), 1, -5, 1⟩] = some (-3) := by
  have h := integral_partial [(⟨(), 1, 2, 0⟩ : Event Unit), ⟨(), 1, -5, 1⟩] [2, -5] (by simp) ?_
  · rw [h]
    norm_num
  · intro k
    match k with
    | 0 => decide
    | 1 => decide
    | k + 2 => simp

end AmpGen.EventLists
