import Verif.EventType.Spec
import Verif.Kinematics.Props
import Mathlib.Data.List.Nodup
import Mathlib.Tactic.Linarith
import Mathlib.Tactic.Positivity
import Mathlib.Tactic.Ring
/-
Property C69: the range of an invariant mass and the numbers of identical particles.
-/
namespace AmpGen.EventType
open AmpGen.Strings AmpGen.PDG AmpGen.Kinematics Spec

/-- The product of two momenta is at least the product of their masses. -/
theorem dot_ge (p q : P4) (a b : ℝ) (ha : 0 ≤ a) (hb : 0 ≤ b) (hp : p.Dot p = a * a) (hq : q.Dot q = b * b) (hpE : 0 ≤ p.E) (hqE : 0 ≤ q.E) : a * b ≤ p.Dot q := by
  obtain ⟨p1, p2, p3, pE⟩ := p
  obtain ⟨q1, q2, q3, qE⟩ := q
  simp only [P4.Dot] at *
  have h1 : pE * pE = a * a + (p1 * p1 + p2 * p2 + p3 * p3) := by linarith
  have h2 : qE * qE = b * b + (q1 * q1 + q2 * q2 + q3 * q3) := by linarith
  have key : (a * b + (p1 * q1 + p2 * q2 + p3 * q3)) ^ 2 ≤ (pE * qE) ^ 2 := by
    have e : (pE * qE) ^ 2 = (a * a + (p1 * p1 + p2 * p2 + p3 * p3)) * (b * b + (q1 * q1 + q2 * q2 + q3 * q3)) := by
      rw [← h1, ← h2]; ring
    rw [e]
    nlinarith [sq_nonneg (p1 * q2 - p2 * q1), sq_nonneg (p1 * q3 - p3 * q1), sq_nonneg (p2 * q3 - p3 * q2), sq_nonneg (a * q1 - b * p1), sq_nonneg (a * q2 - b * p2), sq_nonneg (a * q3 - b * p3)]
  have h3 := abs_le_of_sq_le_sq key (mul_nonneg hpE hqE)
  linarith [le_abs_self (a * b + (p1 * q1 + p2 * q2 + p3 * q3)), h3]

theorem sqrt_add_ge (p q : P4) (hp : 0 ≤ p.Dot p) (hq : 0 ≤ q.Dot q) (hpE : 0 ≤ p.E) (hqE : 0 ≤ q.E) :
    0 ≤ (p.add q).Dot (p.add q) ∧ √(p.Dot p) + √(q.Dot q) ≤ √((p.add q).Dot (p.add q)) := by
  have h := dot_ge p q (√(p.Dot p)) (√(q.Dot q)) (Real.sqrt_nonneg _) (Real.sqrt_nonneg _) (Real.mul_self_sqrt hp).symm (Real.mul_self_sqrt hq).symm hpE hqE
  have e : (p.add q).Dot (p.add q) = p.Dot p + q.Dot q + 2 * p.Dot q := by simp only [P4.add, P4.Dot]; ring
  have h1 := Real.mul_self_sqrt hp
  have h2 := Real.mul_self_sqrt hq
  have h3 : (√(p.Dot p) + √(q.Dot q)) ^ 2 ≤ (p.add q).Dot (p.add q) := by rw [e]; nlinarith
  exact ⟨le_trans (sq_nonneg _) h3, Real.le_sqrt_of_sq_le h3⟩

theorem mass_ge (e : Event) (m : Nat → ℝ) : ∀ l : List Nat, (∀ i ∈ l, OnShell (momentum e i) (m i)) →
    0 ≤ (total e l).Dot (total e l) ∧ 0 ≤ (total e l).E ∧ (l.map m).sum ≤ √((total e l).Dot (total e l))
  | [], _ => by simp [total, P4.Dot]
  | i :: l, h => by
    obtain ⟨h1, h2, h3⟩ := h i (by simp)
    obtain ⟨h4, h5, h6⟩ := mass_ge e m l fun j hj => h j (List.mem_cons_of_mem _ hj)
    have hi : 0 ≤ (momentum e i).Dot (momentum e i) := by rw [h1]; positivity
    obtain ⟨h7, h8⟩ := sqrt_add_ge (momentum e i) (total e l) hi h4 h3.le h5
    refine ⟨h7, add_nonneg h3.le h5, ?_⟩
    rw [List.map_cons, List.sum_cons]
    have : √((momentum e i).Dot (momentum e i)) = m i := by rw [h1, Real.sqrt_mul_self h2]
    change _ ≤ √(((momentum e i).add (total e l)).Dot ((momentum e i).add (total e l)))
    linarith

theorem total_append (e : Event) : ∀ l l' : List Nat, total e (l ++ l') = (total e l).add (total e l')
  | [], l' => by simp [total, P4.add]
  | i :: l, l' => by
    rw [List.cons_append, total, total, total_append e l l']
    simp only [P4.add, P4.mk.injEq]
    refine ⟨?_, ?_, ?_, ?_⟩ <;> ring

theorem total_perm (e : Event) (l l' : List Nat) (h : l.Perm l') : total e l = total e l' := by
  apply P4.ext'
  · rw [total_x, total_x]; exact (h.map _).sum_eq
  · rw [total_y, total_y]; exact (h.map _).sum_eq
  · rw [total_z, total_z]; exact (h.map _).sum_eq
  · rw [total_E, total_E]; exact (h.map _).sum_eq

theorem fold_min (f : Nat → ℝ) : ∀ (l : List Nat) (a : ℝ), l.foldl (fun (a : ℝ) (i : Nat) => a + f i) a = a + (l.map f).sum
  | [], a => by simp
  | i :: l, a => by rw [List.foldl_cons, fold_min f l]; simp; ring

theorem fold_max (f : Nat → ℝ) (I : List Nat) : ∀ (l : List Nat) (a : ℝ), l.foldl (fun (a : ℝ) (x : Nat) => if x ∉ I then a - f x else a) a = a - ((l.filter fun x => decide (x ∉ I)).map f).sum
  | [], a => by simp
  | i :: l, a => by
    rw [List.foldl_cons, fold_max f I l, List.filter_cons]
    by_cases h : i ∉ I
    · simp [h]; ring
    · simp [h]

theorem split_perm (n : Nat) (I : List Nat) (hI : I.Nodup) (hb : ∀ i ∈ I, i < n) : (I ++ (List.range n).filter fun x => decide (x ∉ I)).Perm (List.range n) := by
  rw [List.perm_ext_iff_of_nodup]
  · intro a
    simp only [List.mem_append, List.mem_filter, List.mem_range, decide_eq_true_eq]
    constructor
    · rintro (h | h)
      · exact hb a h
      · exact h.1
    · intro h
      by_cases ha : a ∈ I
      · exact Or.inl ha
      · exact Or.inr ⟨h, ha⟩
  · rw [List.nodup_append]
    refine ⟨hI, List.nodup_range.filter _, ?_⟩
    intro a ha b hb' hab
    subst hab
    simp only [List.mem_filter, decide_eq_true_eq] at hb'
    exact hb'.2 ha
  · exact List.nodup_range

/-- **C69**: in every event in which the particles have their masses and together the momentum of a mother at rest (or of its mass in any frame), the invariant mass of any selection of different particles lies in the range
that the event type gives for it. -/
theorem mass_range (t : EventType ℝ) (e : Event) (indices : List Nat) (hI : indices.Nodup) (hb : ∀ i ∈ indices, i < t.size) (hon : ∀ i < t.size, OnShell (momentum e i) (t.masses.getD i 0))
    (hM : 0 ≤ t.motherMass) (htot : (total e (List.range t.size)).Dot (total e (List.range t.size)) = t.motherMass * t.motherMass) :
    (minmax t indices).1 ≤ √(e.s indices) ∧ √(e.s indices) ≤ (minmax t indices).2 ∧ 0 ≤ e.s indices := by
  obtain ⟨h1, h2, h3⟩ := mass_ge e (fun i => t.masses.getD i 0) indices fun i hi => hon i (hb i hi)
  obtain ⟨h4, h5, h6⟩ := mass_ge e (fun i => t.masses.getD i 0) ((List.range t.size).filter fun x => decide (x ∉ indices)) fun i hi => hon i (List.mem_range.1 (List.mem_filter.1 hi).1)
  have hp := total_perm e _ _ (split_perm t.size indices hI hb)
  rw [total_append] at hp
  obtain ⟨_, h8⟩ := sqrt_add_ge _ _ h1 h4 h2 h5
  rw [hp, htot, Real.sqrt_mul_self hM] at h8
  rw [s_eq]
  unfold minmax
  simp only [fold_min, fold_max]
  refine ⟨by linarith, by linarith, h1⟩

/-- Two particles of mass 1 from a mother of mass 4. -/
example : ∃ (t : EventType ℝ) (e : Event), (∀ i < t.size, OnShell (momentum e i) (t.masses.getD i 0)) ∧ 0 < t.motherMass ∧
    (total e (List.range t.size)).Dot (total e (List.range t.size)) = t.motherMass * t.motherMass := by
  refine ⟨⟨[], 4, [[], []], [], [1, 1], false, [], false⟩, ⟨8, fun i => if i = 0 then √3 else if i = 4 then -√3 else if i = 3 ∨ i = 7 then 2 else 0⟩, ?_, by norm_num, ?_⟩
  · intro i hi
    have h3 : √3 * √3 = (3 : ℝ) := Real.mul_self_sqrt (by norm_num)
    have : i = 0 ∨ i = 1 := by simp [EventType.size] at hi; omega
    rcases this with rfl | rfl
    · refine ⟨?_, ?_, ?_⟩ <;> simp [momentum, P4.Dot] <;> linarith
    · refine ⟨?_, ?_, ?_⟩ <;> simp [momentum, P4.Dot] <;> linarith
  · simp [EventType.size, List.range_succ, total, momentum, P4.add, P4.Dot]
    norm_num

/-- **C69**: with a particle twice in the selection the range of the event type does not contain the mass: three particles of mass 1 at rest, the first one selected with itself. -/
theorem mass_range_counterexample : ∃ (t : EventType ℝ) (e : Event) (indices : List Nat), (∀ i ∈ indices, i < t.size) ∧ (∀ i < t.size, OnShell (momentum e i) (t.masses.getD i 0)) ∧ 0 ≤ t.motherMass ∧
    (total e (List.range t.size)).Dot (total e (List.range t.size)) = t.motherMass * t.motherMass ∧ ¬ √(e.s indices) ≤ (minmax t indices).2 := by
  refine ⟨⟨[], 3, [[], [], []], [], [1, 1, 1], false, [], false⟩, ⟨12, fun i => if i % 4 = 3 then 1 else 0⟩, [0, 0], by simp [EventType.size], ?_, by norm_num, ?_, ?_⟩
  · intro i hi
    have : i = 0 ∨ i = 1 ∨ i = 2 := by simp [EventType.size] at hi; omega
    rcases this with rfl | rfl | rfl <;> refine ⟨?_, ?_, ?_⟩ <;> simp [momentum, P4.Dot]
  · simp [EventType.size, List.range_succ, total, momentum, P4.add, P4.Dot]
    norm_num
  · have h1 : Event.s ⟨12, fun i => if i % 4 = 3 then 1 else 0⟩ [0, 0] = 2 * 2 := by simp [Event.s, Event.s2]; norm_num
    have h2 : (minmax (⟨[], 3, [[], [], []], [], [1, 1, 1], false, [], false⟩ : EventType ℝ) [0, 0]).2 = 1 := by
      simp [minmax, EventType.size, List.range_succ]; norm_num
    rw [h1, h2, Real.sqrt_mul_self (by norm_num)]
    norm_num

theorem count_fold (names : List Str) (index : Nat) : ∀ n : Nat, (List.range n).foldl (fun (rt : Nat × Nat) (j : Nat) =>
    if names[j]? = names[index]? then (if j < index then rt.1 + 1 else rt.1, rt.2 + 1) else rt) (0, 0) =
    (((List.range n).filter fun j => decide (names[j]? = names[index]? ∧ j < index)).length, ((List.range n).filter fun j => decide (names[j]? = names[index]?)).length)
  | 0 => rfl
  | n + 1 => by
    rw [List.range_succ, List.foldl_append, count_fold names index n, List.filter_append, List.filter_append]
    simp only [List.foldl_cons, List.foldl_nil]
    by_cases h : names[n]? = names[index]?
    · by_cases h' : n < index <;> simp [h, h']
    · simp [h]

theorem filter_count (names : List Str) (a : Str) : ∀ n : Nat, ((List.range n).filter fun j => decide (names[j]? = some a)).length = (names.take n).count a
  | 0 => by simp
  | n + 1 => by
    rw [List.range_succ, List.filter_append, List.length_append, filter_count names a n, List.take_add_one, List.count_append]
    congr 1
    cases h : names[n]? with
    | none => simp [h]
    | some b =>
      by_cases hb : b = a
      · simp [h, hb]
      · simp [h, hb]

theorem filter_lt (names : List Str) (a : Str) (index : Nat) : ∀ n : Nat, index ≤ n → ((List.range n).filter fun j => decide (names[j]? = some a ∧ j < index)).length = (names.take index).count a
  | 0, h => by
    obtain rfl : index = 0 := by omega
    simp
  | n + 1, h => by
    by_cases he : index = n + 1
    · subst he
      rw [← filter_count]
      congr 1
      apply List.filter_congr
      intro x hx
      have := List.mem_range.1 hx
      simp [this]
    · rw [List.range_succ, List.filter_append, List.length_append, filter_lt names a index n (by omega)]
      have : ¬ n < index := by omega
      simp [this]

/-- **C69**: the counts of an index are the number of earlier particles of the same name, and the number of all particles of this name. -/
theorem identical_particles (t : EventType ℝ) (index : Nat) (hi : index < t.names.length) :
    (count t index).2 = t.names.count t.names[index] ∧ (count t index).1 = (t.names.take index).count t.names[index] ∧ (count t index).1 < (count t index).2 := by
  have hn : ¬ index ≥ t.size := by unfold EventType.size; omega
  have e : count t index = ((t.names.take index).count t.names[index], t.names.count t.names[index]) := by
    unfold count
    rw [if_neg hn, count_fold]
    rw [List.getElem?_eq_getElem hi, filter_count, filter_lt _ _ _ _ (by unfold EventType.size; omega)]
    unfold EventType.size
    rw [List.take_length]
  rw [e]
  refine ⟨rfl, rfl, ?_⟩
  have h1 : (t.names.take (index + 1)).count t.names[index] = (t.names.take index).count t.names[index] + 1 := by
    rw [List.take_add_one, List.getElem?_eq_getElem hi, List.count_append]
    show _ + List.count _ [_] = _
    rw [List.count_singleton_self]
  have h2 : (t.names.take (index + 1)).count t.names[index] ≤ t.names.count t.names[index] := List.Sublist.count_le _ (List.take_sublist _ _)
  show (t.names.take index).count t.names[index] < _
  omega

example : count (⟨[], 0, [['a'], ['b'], ['a']], [], [], false, [], false⟩ : EventType ℝ) 2 = (1, 2) := by
  simp [count, EventType.size, List.range_succ]

end AmpGen.EventType
