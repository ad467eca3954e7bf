import Verif.Comb.Model
import Verif.Comb.Spec
import Mathlib.Algebra.BigOperators.Group.List.Basic
import Mathlib.Data.List.Sort
/-
Sorting and accumulating in parallel.
-/
namespace AmpGen.Comb

variable {α : Type}

theorem merge_sorted {lt : α → α → Bool} (h : StrictWeak lt) (a b : List α)
    (ha : a.Pairwise fun x y => lt y x = false) (hb : b.Pairwise fun x y => lt y x = false) :
    (List.merge a b fun x y => !lt y x).Pairwise fun x y => lt y x = false := by
  have := List.pairwise_merge (le := fun x y => !lt y x)
    (fun x y z h1 h2 => by
      simp only [Bool.not_eq_true'] at *
      exact h.negTrans x y z h1 h2)
    (fun x y => by
      cases hxy : lt y x
      · simp
      · simp [h.asymm y x hxy]) a b (ha.imp (by intro x y h; simp [h])) (hb.imp (by intro x y h; simp [h]))
  exact this.imp (by intro x y h; simpa using h)

theorem parallelSort_correct {sort : List α → List α} {lt : α → α → Bool} (hs : SortsBy sort lt)
    (h : StrictWeak lt) (g : Nat) (hg : 2 ≤ g) :
    ∀ (fuel : Nat) (l : List α), l.length < fuel → ∃ r, parallelSort sort lt g fuel l = some r ∧
      r.Perm l ∧ r.Pairwise fun a b => lt b a = false := by
  intro fuel
  induction fuel with
  | zero => intro l hl; omega
  | succ n ih =>
    intro l hl
    unfold parallelSort
    by_cases hlen : l.length < g
    · rw [if_pos hlen]
      exact ⟨_, rfl, (hs l).1, (hs l).2⟩
    · rw [if_neg hlen]
      obtain ⟨lo, h1, h2, h3⟩ := ih (l.take (l.length / 2)) (by rw [List.length_take]; omega)
      obtain ⟨hi, h4, h5, h6⟩ := ih (l.drop (l.length / 2)) (by rw [List.length_drop]; omega)
      rw [h1, h4]
      refine ⟨_, rfl, ?_, merge_sorted h lo hi h3 h6⟩
      refine (List.merge_perm_append _).trans ?_
      have := h2.append h5
      rwa [List.take_append_drop] at this

theorem parallelSort_diverges (sort : List α → List α) (lt : α → α → Bool) (x : α) :
    ∀ fuel, parallelSort sort lt 1 fuel [x] = none := by
  intro fuel
  induction fuel with
  | zero => rfl
  | succ n ih =>
    unfold parallelSort
    simp only [List.length_singleton, Nat.lt_irrefl, if_false]
    have : [x].drop (1 / 2) = [x] := rfl
    rw [this, ih]
    cases parallelSort sort lt 1 n (List.take (1 / 2) [x]) <;> rfl

variable {A : Type} [AddCommMonoid A]

theorem foldl_add_sum {β : Type} (f : β → A) (l : List β) (z : A) :
    l.foldl (fun t b => t + f b) z = z + (l.map f).sum := by
  induction l generalizing z with
  | nil => simp
  | cons b l ih => simp only [List.foldl_cons, ih, List.map_cons, List.sum_cons, add_assoc]

theorem accumulate_flatten (f : α → A) (init : A) (data : Nat → α) (threads : List (List Nat)) :
    parallelAccumulate f init data threads = init + (threads.flatten.map fun i => f (data i)).sum := by
  unfold parallelAccumulate
  induction threads generalizing init with
  | nil => simp
  | cons t ts ih =>
    rw [List.foldl_cons, ih]
    simp only [List.flatten_cons, List.map_append, List.sum_append]
    rw [foldl_add_sum (fun i => f (data i)), zero_add, add_assoc]

end AmpGen.Comb
