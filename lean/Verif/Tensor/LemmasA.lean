import Verif.Tensor.Spec
import Mathlib.Tactic.Ring
import Mathlib.Tactic.Linarith
import Mathlib.Data.List.GetD
import Mathlib.Algebra.BigOperators.Ring.Finset
/-
Indexing.
-/
namespace AmpGen.Tensor

theorem foldr_prod (l : List Nat) : l.foldr (fun d acc => acc * d) 1 = l.prod := by
  induction l with
  | nil => rfl
  | cons d l ih => rw [List.foldr_cons, ih, List.prod_cons, mul_comm]

theorem foldl_prod (l : List Nat) : l.foldl (· * ·) 1 = l.prod := by
  rw [List.prod_eq_foldl]

theorem nElements_eq {l : List Nat} (h : ∀ d ∈ l, 0 < d) : nElements l = l.prod := by
  unfold nElements
  rw [List.prod_eq_foldl]
  have : ∀ (l : List Nat) (a : Nat), (∀ d ∈ l, 0 < d) → l.foldl (fun acc d => acc * (if d = 0 then 1 else d)) a = l.foldl (· * ·) a := by
    intro l
    induction l with
    | nil => intros; rfl
    | cons d l ih =>
      intro a h
      have hd : d ≠ 0 := by have := h d (by simp); omega
      rw [List.foldl_cons, List.foldl_cons, if_neg hd, ih _ (fun x hx => h x (by simp [hx]))]
  exact this l 1 h

theorem toCoords_cons (i d : Nat) (ds : List Nat) :
    indexToCoordinates i (d :: ds) = i / ds.prod :: indexToCoordinates (i % ds.prod) ds := by
  rw [indexToCoordinates]
  simp only [foldr_prod]
  rcases Nat.eq_zero_or_pos ds.prod with h0 | h0
  · simp [h0]
  · have h1 : i - i % ds.prod = ds.prod * (i / ds.prod) := by
      have := Nat.div_add_mod i ds.prod; omega
    have h2 : (i - i % ds.prod) / ds.prod = i / ds.prod := by
      rw [h1, Nat.mul_div_cancel_left _ h0]
    rw [h2]
    have h3 : i - ds.prod * (i / ds.prod) = i % ds.prod := by
      have := Nat.div_add_mod i ds.prod; omega
    rw [h3]

theorem toIndex_snd : ∀ (co dim : List Nat), co.length = dim.length →
    ((co.zip dim).foldr (fun cd (s : Nat × Nat) => (s.1 + cd.1 * s.2, s.2 * cd.2)) (0, 1)).2 = dim.prod := by
  intro co
  induction co with
  | nil => intro dim h; cases dim with
    | nil => rfl
    | cons => simp at h
  | cons c co ih =>
    intro dim h
    cases dim with
    | nil => simp at h
    | cons d dim =>
      simp only [List.length_cons, Nat.add_right_cancel_iff] at h
      rw [List.zip_cons_cons, List.foldr_cons, ih dim h, List.prod_cons]
      simp only [mul_comm]

theorem toIndex_cons (c d : Nat) {co dim : List Nat} (h : co.length = dim.length) :
    coordinatesToIndex (c :: co) (d :: dim) = c * dim.prod + coordinatesToIndex co dim := by
  unfold coordinatesToIndex
  rw [List.zip_cons_cons, List.foldr_cons, toIndex_snd co dim h]
  ring

theorem Valid.length {co dim : List Nat} (h : Valid co dim) : co.length = dim.length := h.length_eq

theorem toIndex_lt : ∀ {co dim : List Nat}, Valid co dim → coordinatesToIndex co dim < dim.prod := by
  intro co dim h
  induction h with
  | nil => decide
  | @cons c d co dim hcd h ih =>
    rw [toIndex_cons c d h.length_eq, List.prod_cons]
    calc c * dim.prod + coordinatesToIndex co dim < c * dim.prod + dim.prod := by omega
      _ = (c + 1) * dim.prod := by ring
      _ ≤ d * dim.prod := Nat.mul_le_mul_right _ hcd

theorem mul_add_mod_of_lt' {a b c : Nat} (h : c < b) : (a * b + c) % b = c := by
  rw [mul_comm, Nat.mul_add_mod, Nat.mod_eq_of_lt h]

theorem toCoords_toIndex : ∀ {co dim : List Nat}, Valid co dim → indexToCoordinates (coordinatesToIndex co dim) dim = co := by
  intro co dim h
  induction h with
  | nil => rfl
  | @cons c d co dim hcd h ih =>
    rw [toCoords_cons, toIndex_cons c d h.length_eq]
    have hlt := toIndex_lt h
    have hpos : 0 < dim.prod := by omega
    rw [mul_add_mod_of_lt' hlt, ih]
    congr 1
    rw [mul_comm, Nat.mul_add_div hpos, Nat.div_eq_of_lt hlt, add_zero]

theorem toCoords_valid : ∀ {dim : List Nat} {i : Nat}, i < dim.prod → Valid (indexToCoordinates i dim) dim := by
  intro dim
  induction dim with
  | nil => intro i _; exact List.Forall₂.nil
  | cons d dim ih =>
    intro i h
    rw [List.prod_cons] at h
    have hpos : 0 < dim.prod := Nat.pos_of_ne_zero (by rintro h0; rw [h0] at h; omega)
    rw [toCoords_cons]
    refine List.Forall₂.cons ?_ (ih (Nat.mod_lt _ hpos))
    rw [Nat.div_lt_iff_lt_mul hpos]
    exact h

theorem toIndex_toCoords : ∀ {dim : List Nat} {i : Nat}, i < dim.prod →
    coordinatesToIndex (indexToCoordinates i dim) dim = i := by
  intro dim
  induction dim with
  | nil => intro i h; simp at h; rw [h]; rfl
  | cons d dim ih =>
    intro i h
    rw [List.prod_cons] at h
    have hpos : 0 < dim.prod := Nat.pos_of_ne_zero (by rintro h0; rw [h0] at h; omega)
    have hm : i % dim.prod < dim.prod := Nat.mod_lt _ hpos
    rw [toCoords_cons, toIndex_cons _ _ (toCoords_valid hm).length, ih hm, mul_comm]
    exact Nat.div_add_mod i dim.prod

theorem toCoords_length : ∀ (dim : List Nat) (i : Nat), (indexToCoordinates i dim).length = dim.length := by
  intro dim
  induction dim with
  | nil => intro i; rfl
  | cons d dim ih => intro i; rw [toCoords_cons, List.length_cons, ih, List.length_cons]

/-- A sum over flat positions is a nested sum over coordinates. -/
theorem sum_coords {K : Type} [CommRing K] (d : Nat) (ds : List Nat) (F : List Nat → K) :
    ∑ m ∈ Finset.range (d :: ds).prod, F (indexToCoordinates m (d :: ds)) =
      ∑ v ∈ Finset.range d, ∑ m ∈ Finset.range ds.prod, F (v :: indexToCoordinates m ds) := by
  rw [List.prod_cons]
  induction d with
  | zero => simp
  | succ d ih =>
    rw [Finset.sum_range_succ, Nat.succ_mul, Finset.sum_range_add]
    refine congrArg₂ (· + ·) ?_ ?_
    · rw [← ih]
      apply Finset.sum_congr rfl
      intro m _
      rw [toCoords_cons, toCoords_cons]
    · apply Finset.sum_congr rfl
      intro m hm
      have hm' := Finset.mem_range.mp hm
      have hpos : 0 < ds.prod := by omega
      rw [toCoords_cons]
      congr 2
      · rw [mul_comm, Nat.mul_add_div hpos, Nat.div_eq_of_lt hm', add_zero]
      · rw [mul_comm, Nat.mul_add_mod, Nat.mod_eq_of_lt hm']

end AmpGen.Tensor
