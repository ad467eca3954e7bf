import Verif.Strings.Model
import Verif.Strings.Spec
import Mathlib.Data.List.Basic
/-
Helper lemmas for `editDistance`.
-/
namespace AmpGen.Strings

open Spec

theorem edits_insert_all (t : Str) : Edits [] t t.length := by
  induction t with
  | nil => exact .nil
  | cons c t ih => exact .insert ih

theorem edits_delete_all (s : Str) : Edits s [] s.length := by
  induction s with
  | nil => exact .nil
  | cons c t ih => exact .delete ih

theorem edits_snoc_keep {s t : Str} {n : Nat} (h : Edits s t n) (c : Char) :
    Edits (s ++ [c]) (t ++ [c]) n := by
  induction h with
  | nil => exact .keep .nil
  | keep _ ih => exact .keep ih
  | insert _ ih => exact .insert ih
  | delete _ ih => exact .delete ih
  | subst _ ih => exact .subst ih

theorem edits_snoc_subst {s t : Str} {n : Nat} (h : Edits s t n) (c d : Char) :
    Edits (s ++ [c]) (t ++ [d]) (n + 1) := by
  induction h with
  | nil => exact .subst .nil
  | keep _ ih => exact .keep ih
  | insert _ ih => exact .insert ih
  | delete _ ih => exact .delete ih
  | subst _ ih => exact .subst ih

theorem edits_snoc_insert {s t : Str} {n : Nat} (h : Edits s t n) (c : Char) :
    Edits s (t ++ [c]) (n + 1) := by
  induction h with
  | nil => exact .insert .nil
  | keep _ ih => exact .keep ih
  | insert _ ih => exact .insert ih
  | delete _ ih => exact .delete ih
  | subst _ ih => exact .subst ih

theorem edits_snoc_delete {s t : Str} {n : Nat} (h : Edits s t n) (c : Char) :
    Edits (s ++ [c]) t (n + 1) := by
  induction h with
  | nil => exact .delete .nil
  | keep _ ih => exact .keep ih
  | insert _ ih => exact .insert ih
  | delete _ ih => exact .delete ih
  | subst _ ih => exact .subst ih

theorem edits_reverse {s t : Str} {n : Nat} (h : Edits s t n) : Edits s.reverse t.reverse n := by
  induction h with
  | nil => exact .nil
  | keep _ ih => simpa using edits_snoc_keep ih _
  | insert _ ih => simpa using edits_snoc_insert ih _
  | delete _ ih => simpa using edits_snoc_delete ih _
  | subst _ ih => simpa using edits_snoc_subst ih _ _

theorem edits_symm {s t : Str} {n : Nat} (h : Edits s t n) : Edits t s n := by
  induction h with
  | nil => exact .nil
  | keep _ ih => exact .keep ih
  | insert _ ih => exact .delete ih
  | delete _ ih => exact .insert ih
  | subst _ ih => exact .subst ih

theorem edits_length {s t : Str} {n : Nat} (h : Edits s t n) :
    s.length ≤ t.length + n ∧ t.length ≤ s.length + n := by
  induction h with
  | nil => simp
  | keep _ ih => simp only [List.length_cons]; omega
  | insert _ ih => simp only [List.length_cons]; omega
  | delete _ ih => simp only [List.length_cons]; omega
  | subst _ ih => simp only [List.length_cons]; omega

theorem edits_refl (s : Str) : Edits s s 0 := by
  induction s with
  | nil => exact .nil
  | cons c s ih => exact .keep ih

theorem edits_zero {s t : Str} {n : Nat} (h : Edits s t n) : n = 0 → s = t := by
  induction h with
  | nil => intro _; rfl
  | keep _ ih => intro h; rw [ih h]
  | insert _ _ => intro h; omega
  | delete _ _ => intro h; omega
  | subst _ _ => intro h; omega

theorem edits_trans {s t : Str} {n : Nat} (h1 : Edits s t n) :
    ∀ {u : Str} {m : Nat}, Edits t u m → ∃ k, k ≤ n + m ∧ Edits s u k := by
  induction h1 with
  | nil => intro u m h; exact ⟨m, by omega, h⟩
  | @keep c s t n h1 ih =>
    intro u m h2
    generalize hx : c :: t = x at h2
    induction h2 with
    | nil => cases hx
    | keep h2 _ =>
      cases hx
      obtain ⟨k, hk, h⟩ := ih h2
      exact ⟨k, hk, .keep h⟩
    | insert h2 ih2 =>
      obtain ⟨k, hk, h⟩ := ih2 hx
      exact ⟨k + 1, by omega, .insert h⟩
    | delete h2 _ =>
      cases hx
      obtain ⟨k, hk, h⟩ := ih h2
      exact ⟨k + 1, by omega, .delete h⟩
    | subst h2 _ =>
      cases hx
      obtain ⟨k, hk, h⟩ := ih h2
      exact ⟨k + 1, by omega, .subst h⟩
  | @insert c s t n h1 ih =>
    intro u m h2
    generalize hx : c :: t = x at h2
    induction h2 with
    | nil => cases hx
    | keep h2 _ =>
      cases hx
      obtain ⟨k, hk, h⟩ := ih h2
      exact ⟨k + 1, by omega, .insert h⟩
    | insert h2 ih2 =>
      obtain ⟨k, hk, h⟩ := ih2 hx
      exact ⟨k + 1, by omega, .insert h⟩
    | delete h2 _ =>
      cases hx
      obtain ⟨k, hk, h⟩ := ih h2
      exact ⟨k, by omega, h⟩
    | subst h2 _ =>
      cases hx
      obtain ⟨k, hk, h⟩ := ih h2
      exact ⟨k + 1, by omega, .insert h⟩
  | delete h1 ih =>
    intro u m h2
    obtain ⟨k, hk, h⟩ := ih h2
    exact ⟨k + 1, by omega, .delete h⟩
  | @subst c d s t n h1 ih =>
    intro u m h2
    generalize hx : d :: t = x at h2
    induction h2 with
    | nil => cases hx
    | keep h2 _ =>
      cases hx
      obtain ⟨k, hk, h⟩ := ih h2
      exact ⟨k + 1, by omega, .subst h⟩
    | insert h2 ih2 =>
      obtain ⟨k, hk, h⟩ := ih2 hx
      exact ⟨k + 1, by omega, .insert h⟩
    | delete h2 _ =>
      cases hx
      obtain ⟨k, hk, h⟩ := ih h2
      exact ⟨k + 1, by omega, .delete h⟩
    | subst h2 _ =>
      cases hx
      obtain ⟨k, hk, h⟩ := ih h2
      exact ⟨k + 1, by omega, .subst h⟩

/-! ### Scripts as sequences of single operations -/

theorem editStep_edits {s t : Str} (h : EditStep s t) : Edits s t 1 := by
  cases h with
  | insert pre post c =>
    induction pre with
    | nil => exact .insert (edits_refl _)
    | cons p pre ih => exact .keep ih
  | delete pre post c =>
    induction pre with
    | nil => exact .delete (edits_refl _)
    | cons p pre ih => exact .keep ih
  | subst pre post c d =>
    induction pre with
    | nil => exact .subst (edits_refl _)
    | cons p pre ih => exact .keep ih

theorem editSteps_edits {s t : Str} {n : Nat} (h : EditSteps s t n) :
    ∃ k, k ≤ n ∧ Edits s t k := by
  induction h with
  | refl s => exact ⟨0, Nat.le_refl _, edits_refl s⟩
  | step h1 _ ih =>
    obtain ⟨k, hk, h⟩ := ih
    obtain ⟨k', hk', h'⟩ := edits_trans (editStep_edits h1) h
    exact ⟨k', by omega, h'⟩

theorem editSteps_cons {s t : Str} {n : Nat} (h : EditSteps s t n) (c : Char) :
    EditSteps (c :: s) (c :: t) n := by
  induction h with
  | refl s => exact .refl _
  | step h1 _ ih =>
    refine .step ?_ ih
    cases h1 with
    | insert pre post d => exact .insert (c :: pre) post d
    | delete pre post d => exact .delete (c :: pre) post d
    | subst pre post d e => exact .subst (c :: pre) post d e

theorem editSteps_trans {s t u : Str} {n m : Nat} (h1 : EditSteps s t n) (h2 : EditSteps t u m) :
    EditSteps s u (n + m) := by
  induction h1 with
  | refl s => simpa using h2
  | @step s t u n h _ ih =>
    have := EditSteps.step h (ih h2)
    rwa [show n + m + 1 = n + 1 + m by omega] at this

theorem edits_editSteps {s t : Str} {n : Nat} (h : Edits s t n) : EditSteps s t n := by
  induction h with
  | nil => exact .refl _
  | keep _ ih => exact editSteps_cons ih _
  | @insert c s t n _ ih => exact editSteps_trans ih (.step (.insert [] t c) (.refl _))
  | @delete c s t n _ ih =>
    exact .step (.delete [] s c) ih
  | @subst c d s t n _ ih =>
    exact .step (.subst [] s c d) (editSteps_cons ih d)

/-! ### The dynamic programme -/

/-- `n` is the least number of edits from `a` to `b`. -/
def MinEdits (a b : Str) (n : Nat) : Prop := Edits a b n ∧ ∀ m, Edits a b m → n ≤ m

theorem minEdits_cell {a b : Str} {c d : Char} {x y z : Nat}
    (hx : MinEdits a (d :: b) x) (hy : MinEdits (c :: a) b y) (hz : MinEdits a b z) :
    MinEdits (c :: a) (d :: b)
      (min (min (x + 1) (y + 1)) (z + (if c = d then 0 else 1))) := by
  constructor
  · rcases Nat.le_total (min (x + 1) (y + 1)) (z + (if c = d then 0 else 1)) with h | h
    · rw [Nat.min_eq_left h]
      rcases Nat.le_total (x + 1) (y + 1) with h' | h'
      · rw [Nat.min_eq_left h']; exact .delete hx.1
      · rw [Nat.min_eq_right h']; exact .insert hy.1
    · rw [Nat.min_eq_right h]
      by_cases hcd : c = d
      · subst hcd; simpa using Edits.keep hz.1
      · simpa [hcd] using Edits.subst hz.1
  · intro m hm
    cases hm with
    | keep h =>
      have := hz.2 _ h
      simp only [if_true]
      omega
    | insert h =>
      have := hy.2 _ h
      omega
    | delete h =>
      have := hx.2 _ h
      omega
    | subst h =>
      have := hz.2 _ h
      split <;> omega

/-- The cells of a row to the right of the (reversed) prefix `b`, for the
reversed prefix `a` of the first string. -/
def RowOK (a : Str) : (b s2 : Str) → List Nat → Prop
  | _, [], [] => True
  | b, c :: s2, v :: l => MinEdits a (c :: b) v ∧ RowOK a (c :: b) s2 l
  | _, _, _ => False

theorem editRow_ok {a : Str} {c : Char} : ∀ (s2 : Str) {b : Str} {left diag : Nat} {above : List Nat},
    MinEdits (c :: a) b left → MinEdits a b diag → RowOK a b s2 above →
    RowOK (c :: a) b s2 (editRow c s2 left diag above)
  | [], b, left, diag, above => by
    intro _ _ h
    simp [editRow, RowOK]
  | c2 :: s2, b, left, diag, above => by
    intro hl hd h
    cases above with
    | nil => exact absurd h (by simp [RowOK])
    | cons up above =>
      simp only [RowOK] at h
      simp only [editRow, RowOK]
      have hcell := minEdits_cell h.1 hl hd
      exact ⟨hcell, editRow_ok s2 hcell h.1 h.2⟩

theorem minEdits_nil_left (b : Str) : MinEdits [] b b.length := by
  refine ⟨edits_insert_all b, fun m hm => ?_⟩
  have := (edits_length hm).2
  simpa using this

theorem minEdits_nil_right (a : Str) : MinEdits a [] a.length := by
  refine ⟨edits_delete_all a, fun m hm => ?_⟩
  have := (edits_length hm).1
  simpa using this

theorem rowOK_init : ∀ (s2 b : Str),
    RowOK [] b s2 ((List.range s2.length).map (fun j => j + b.length + 1))
  | [], b => by simp [RowOK]
  | c :: s2, b => by
    rw [List.length_cons, List.range_succ_eq_map]
    simp only [List.map_cons, List.map_map, RowOK]
    refine ⟨by simpa using minEdits_nil_left (c :: b), ?_⟩
    have := rowOK_init s2 (c :: b)
    convert this using 2
    funext j
    simp only [Function.comp, List.length_cons]
    omega

theorem rowOK_last : ∀ (s2 : Str) {a b : Str} {x : Nat} {l : List Nat},
    MinEdits a b x → RowOK a b s2 l →
    ∃ v, (x :: l)[s2.length]? = some v ∧ MinEdits a (s2.reverse ++ b) v
  | [], a, b, x, l => by
    intro hx h
    exact ⟨x, by simp, by simpa using hx⟩
  | c :: s2, a, b, x, l => by
    intro hx h
    cases l with
    | nil => exact absurd h (by simp [RowOK])
    | cons v l =>
      simp only [RowOK] at h
      obtain ⟨w, hw1, hw2⟩ := rowOK_last s2 h.1 h.2
      exact ⟨w, by simpa using hw1, by simpa using hw2⟩

theorem editRows_ok (s2 : Str) : ∀ (s1 : Str) {a : Str} {x : Nat} {l : List Nat},
    MinEdits a [] x → RowOK a [] s2 l →
    ∃ x' l', editRows s2 a.length s1 (x :: l) = x' :: l' ∧
      MinEdits (s1.reverse ++ a) [] x' ∧ RowOK (s1.reverse ++ a) [] s2 l'
  | [], a, x, l => by
    intro hx h
    exact ⟨x, l, rfl, by simpa using hx, by simpa using h⟩
  | c :: s1, a, x, l => by
    intro hx h
    simp only [editRows, editNextRow]
    have h0 : MinEdits (c :: a) [] (a.length + 1) := by
      simpa using minEdits_nil_right (c :: a)
    have h1 := editRow_ok (c := c) s2 h0 hx h
    obtain ⟨x', l', e1, e2, e3⟩ := editRows_ok s2 s1 (a := c :: a) h0 h1
    refine ⟨x', l', ?_, ?_, ?_⟩
    · simpa using e1
    · simpa using e2
    · simpa using e3

theorem editDistance_min (s t : Str) : ∃ n, editDistance s t = some n ∧ MinEdits s t n := by
  have hr : List.range (t.length + 1) = 0 :: (List.range t.length).map (fun j => j + 0 + 1) := by
    rw [List.range_succ_eq_map]
  have h0 : MinEdits ([] : Str) [] 0 := minEdits_nil_left []
  have hrow : RowOK [] [] t ((List.range t.length).map (fun j => j + 0 + 1)) := rowOK_init t []
  obtain ⟨x', l', e1, e2, e3⟩ := editRows_ok t s (a := []) h0 hrow
  obtain ⟨v, hv1, hv2⟩ := rowOK_last t e2 e3
  refine ⟨v, ?_, ?_⟩
  · unfold editDistance
    rw [hr]
    simp only [List.length_nil] at e1
    rw [e1]; exact hv1
  · simp only [List.append_nil] at hv2
    constructor
    · simpa using edits_reverse hv2.1
    · intro m hm
      exact hv2.2 m (edits_reverse hm)

end AmpGen.Strings
