import Verif.KMatrix.Model
import Mathlib.Data.List.Nodup
import Mathlib.Data.List.Range
import Mathlib.Algebra.BigOperators.Intervals
import Mathlib.Algebra.BigOperators.Ring.Finset
import Mathlib.Tactic.Ring
namespace AmpGen.KMatrix

variable {K : Type}

/-- Elements written one after the other: the value of each is computed from the state at that time. -/
def run (f : Nat × Nat → Data K → K) (l : List (Nat × Nat)) (d : Data K) : Data K :=
  l.foldl (fun (d : Data K) (p : Nat × Nat) => put apart d p (f p d)) d

theorem run_append (f : Nat × Nat → Data K → K) (l m : List (Nat × Nat)) (d : Data K) : run f (l ++ m) d = run f m (run f l d) := by
  simp [run, List.foldl_append]

theorem run_not_mem (f : Nat × Nat → Data K → K) (l : List (Nat × Nat)) (d : Data K) (q : Nat × Nat) (h : q ∉ l) : run f l d q = d q := by
  induction l generalizing d with
  | nil => rfl
  | cons p l ih =>
    have h1 : q ≠ p := fun e => h (by simp [e])
    have h2 : q ∉ l := fun e => h (by simp [e])
    change run f l (put apart d p (f p d)) q = d q
    rw [ih _ h2]
    simp [put, apart, h1]

/-- In a list in strict order, the value written at `p` is computed from the final values of what comes earlier and the initial
values of the rest. -/
theorem run_mem (f : Nat × Nat → Data K → K) (l : List (Nat × Nat)) (d : Data K) (R : Nat × Nat → Nat × Nat → Prop)
    [DecidableRel R] (hR : l.Pairwise R) (hasym : ∀ a b, R a b → ¬ R b a) (p : Nat × Nat) (hp : p ∈ l) :
    run f l d p = f p (fun q => if q ∈ l ∧ R q p then run f l d q else d q) := by
  obtain ⟨l1, l2, rfl⟩ := List.append_of_mem hp
  have hirr : ∀ a, ¬ R a a := fun a h => hasym a a h h
  rw [List.pairwise_append] at hR
  obtain ⟨h1, h2, h3⟩ := hR
  rw [List.pairwise_cons] at h2
  have hp2 : p ∉ l2 := fun h => hirr p (h2.1 p h)
  have e1 : run f (l1 ++ p :: l2) d p = f p (run f l1 d) := by
    rw [run_append]
    change run f l2 (put apart (run f l1 d) p (f p (run f l1 d))) p = _
    rw [run_not_mem f l2 _ p hp2]
    simp [put, apart]
  rw [e1]
  congr 1
  funext q
  by_cases hq : q ∈ l1
  · have hqp : R q p := h3 q hq p (by simp)
    rw [if_pos ⟨by simp [hq], hqp⟩, run_append, run_not_mem f (p :: l2)]
    intro hm
    exact hirr q (h3 q hq q hm)
  · rw [run_not_mem f l1 d q hq]
    rw [if_neg]
    rintro ⟨hm, hqp⟩
    rcases List.mem_append.1 hm with h | h
    · exact hq h
    · rcases List.mem_cons.1 h with rfl | h
      · exact hirr _ hqp
      · exact hasym _ _ (h2.1 q h) hqp

/-- The same, for positions which are never written as well. -/
theorem run_eq (f : Nat × Nat → Data K → K) (l : List (Nat × Nat)) (d : Data K) (R : Nat × Nat → Nat × Nat → Prop)
    [DecidableRel R] (hR : l.Pairwise R) (hasym : ∀ a b, R a b → ¬ R b a) (p : Nat × Nat) (hp : p ∈ l) :
    run f l d p = f p (fun q => if R q p then run f l d q else d q) := by
  rw [run_mem f l d R hR hasym p hp]
  congr 1
  funext q
  by_cases hq : q ∈ l
  · simp [hq]
  · simp [hq, run_not_mem f l d q hq]

/-- A loop is a fold. -/
theorem loop_run (f : Nat × Nat → Data K → K) (pos : Nat → Nat × Nat) (lo hi : Nat) (d : Data K) :
    loop lo hi (fun i (d : Data K) => put apart d (pos i) (f (pos i) d)) d = run f ((List.range' lo (hi - lo)).map pos) d := by
  simp [loop, run, List.foldl_map]

/-- A loop of runs is a run. -/
theorem loop_flat (f : Nat × Nat → Data K → K) (ls : Nat → List (Nat × Nat)) (lo hi : Nat) (d : Data K) :
    loop lo hi (fun i (d : Data K) => run f (ls i) d) d = run f ((List.range' lo (hi - lo)).flatMap ls) d := by
  simp [loop, run, List.foldl_flatMap]

theorem mem_range'' {i lo hi : Nat} : i ∈ List.range' lo (hi - lo) ↔ lo ≤ i ∧ i < hi := by
  rw [List.mem_range'_1]; omega

/-- Lists of positions built by a loop are in order if each part is, and the parts follow one another. -/
theorem pairwise_flat (R : Nat × Nat → Nat × Nat → Prop) (ls : Nat → List (Nat × Nat)) (lo hi : Nat)
    (h1 : ∀ i, lo ≤ i → i < hi → (ls i).Pairwise R)
    (h2 : ∀ i j, lo ≤ i → i < j → j < hi → ∀ p ∈ ls i, ∀ q ∈ ls j, R p q) :
    ((List.range' lo (hi - lo)).flatMap ls).Pairwise R := by
  rw [List.pairwise_flatMap]
  refine ⟨fun i hi' => ?_, ?_⟩
  · rw [mem_range''] at hi'
    exact h1 i hi'.1 hi'.2
  · have := List.pairwise_lt_range' (s := lo) (n := hi - lo) (step := 1)
    refine this.imp_of_mem ?_
    intro i j hi' hj' hij p hp q hq
    rw [mem_range''] at hi' hj'
    exact h2 i j hi'.1 hij hj'.2 p hp q hq

theorem pairwise_map (R : Nat × Nat → Nat × Nat → Prop) (pos : Nat → Nat × Nat) (lo hi : Nat)
    (h : ∀ i j, lo ≤ i → i < j → j < hi → R (pos i) (pos j)) : ((List.range' lo (hi - lo)).map pos).Pairwise R := by
  rw [List.pairwise_map]
  have := List.pairwise_lt_range' (s := lo) (n := hi - lo) (step := 1)
  refine this.imp_of_mem ?_
  intro i j hi' hj' hij
  rw [mem_range''] at hi' hj'
  exact h i j hi'.1 hij hj'.2

theorem loop_congr {σ : Type} (lo hi : Nat) (f g : Nat → σ → σ) (s : σ) (h : ∀ i, lo ≤ i → i < hi → ∀ s, f i s = g i s) :
    loop lo hi f s = loop lo hi g s := by
  unfold loop
  apply List.foldl_ext
  intro s i hi'
  rw [mem_range''] at hi'
  exact h i hi'.1 hi'.2 s

variable [Field K]

theorem loop_sum (lo hi : Nat) (g : Nat → K) : loop lo hi (fun k (sum : K) => sum + g k) 0 = ∑ k ∈ Finset.Ico lo hi, g k := by
  rcases Nat.le_total lo hi with h | h
  · obtain ⟨m, rfl⟩ := Nat.exists_eq_add_of_le h
    clear h
    induction m with
    | zero => simp [loop]
    | succ m ih =>
      have e : lo + (m + 1) - lo = (lo + m - lo) + 1 := by omega
      rw [← Nat.add_assoc, Finset.sum_Ico_succ_top (by omega), ← ih]
      unfold loop
      rw [show lo + m + 1 - lo = (lo + m - lo) + 1 by omega, List.range'_1_concat]
      simp
  · have : hi - lo = 0 := by omega
    simp [loop, this, Finset.Ico_eq_empty (by omega : ¬ lo < hi)]

theorem loop_sub (lo hi : Nat) (g : Nat → K) : loop lo hi (fun k (sum : K) => sum - g k) 0 = - ∑ k ∈ Finset.Ico lo hi, g k := by
  have := loop_sum lo hi (fun k => - g k)
  simpa [sub_eq_add_neg] using this

end AmpGen.KMatrix
