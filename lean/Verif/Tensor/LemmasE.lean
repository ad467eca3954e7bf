import Verif.Tensor.LemmasD
import Mathlib.Data.List.Dedup
/-
Imposed symmetry.
-/
namespace AmpGen.Tensor

/-- Order two coordinates, the larger first. -/
def order (A B : Nat) (co : List Nat) : List Nat :=
  if co.getD B 0 > co.getD A 0 then (co.set A (co.getD B 0)).set B (co.getD A 0) else co

/-- The position whose place a position takes. -/
def target (dim : List Nat) (A B i : Nat) : Nat := coordinatesToIndex (order A B (indexToCoordinates i dim)) dim

theorem order_length (A B : Nat) (co : List Nat) : (order A B co).length = co.length := by
  unfold order; split <;> simp

theorem getD_set_self {l : List Nat} {i v : Nat} (h : i < l.length) : (l.set i v).getD i 0 = v := by
  rw [List.getD_eq_getElem?_getD, List.getElem?_set_self h]; rfl

theorem getD_set_ne {l : List Nat} {i j v : Nat} (h : i ≠ j) : (l.set i v).getD j 0 = l.getD j 0 := by
  rw [List.getD_eq_getElem?_getD, List.getElem?_set_ne h, ← List.getD_eq_getElem?_getD]

theorem order_sorted {A B : Nat} {co : List Nat} (hAB : A < B) (hB : B < co.length) :
    (order A B co).getD B 0 ≤ (order A B co).getD A 0 := by
  unfold order
  split
  · rename_i h
    rw [getD_set_self (by simpa using hB), getD_set_ne (by omega), getD_set_self (by omega)]
    omega
  · rename_i h; omega

theorem order_of_sorted {A B : Nat} {co : List Nat} (h : co.getD B 0 ≤ co.getD A 0) : order A B co = co := by
  unfold order; rw [if_neg (by omega)]

theorem order_swap {A B : Nat} {co : List Nat} (hAB : A < B) (hB : B < co.length) :
    order A B ((co.set A (co.getD B 0)).set B (co.getD A 0)) = order A B co := by
  have g1 : ((co.set A (co.getD B 0)).set B (co.getD A 0)).getD B 0 = co.getD A 0 := getD_set_self (by simpa using hB)
  have g2 : ((co.set A (co.getD B 0)).set B (co.getD A 0)).getD A 0 = co.getD B 0 := by
    rw [getD_set_ne (by omega), getD_set_self (by omega)]
  have hback : ((((co.set A (co.getD B 0)).set B (co.getD A 0)).set A (co.getD A 0)).set B (co.getD B 0)) = co := by
    apply List.ext_getElem (by simp)
    intro n h1 h2
    simp only [List.getElem_set]
    by_cases hn : B = n
    · subst hn; simp [h2]
    · by_cases hm : A = n
      · subst hm; simp [hn, h2]
      · simp [hn, hm]
  unfold order
  rw [g1, g2]
  by_cases h : co.getD B 0 > co.getD A 0
  · rw [if_neg (by omega), if_pos h]
  · rw [if_neg h]
    by_cases h' : co.getD A 0 > co.getD B 0
    · rw [if_pos h', hback]
    · rw [if_neg h']
      have he : co.getD A 0 = co.getD B 0 := by omega
      apply List.ext_getElem (by simp)
      intro n h1 h2
      simp only [List.getElem_set]
      by_cases hn : B = n
      · subst hn; rw [if_pos rfl, he, List.getD_eq_getElem _ _ h2]
      · by_cases hm : A = n
        · subst hm; rw [if_neg hn, if_pos rfl, ← he, List.getD_eq_getElem _ _ h2]
        · simp [hn, hm]

theorem order_valid {A B : Nat} {co dim : List Nat} (h : Valid co dim) (hAB : A < B) (hB : B < dim.length)
    (hd : dim.getD A 0 = dim.getD B 0) : Valid (order A B co) dim := by
  have hl := h.length
  have hg := (List.forall₂_iff_get.mp h).2
  unfold order
  split
  · refine List.forall₂_iff_get.mpr ⟨by simpa using hl, ?_⟩
    intro n h1 h2
    have hn : n < co.length := by simpa using h1
    have hA : co.getD A 0 < dim.getD A 0 := by
      rw [List.getD_eq_getElem _ _ (by omega), List.getD_eq_getElem _ _ (by omega)]
      exact hg A (by omega) (by omega)
    have hB' : co.getD B 0 < dim.getD B 0 := by
      rw [List.getD_eq_getElem _ _ (by omega), List.getD_eq_getElem _ _ (by omega)]
      exact hg B (by omega) (by omega)
    rw [List.get_eq_getElem, List.get_eq_getElem]
    simp only [List.getElem_set]
    by_cases hn : B = n
    · subst hn
      rw [if_pos rfl, ← List.getD_eq_getElem dim 0 h2, ← hd]; exact hA
    · rw [if_neg hn]
      by_cases hm : A = n
      · subst hm
        rw [if_pos rfl, ← List.getD_eq_getElem dim 0 h2, hd]; exact hB'
      · rw [if_neg hm]
        exact hg n (by omega) h2
  · exact h

theorem target_lt {dim : List Nat} {A B i : Nat} (hAB : A < B) (hB : B < dim.length) (hd : dim.getD A 0 = dim.getD B 0) (hi : i < dim.prod) :
    target dim A B i < dim.prod := toIndex_lt (order_valid (toCoords_valid hi) hAB hB hd)

theorem target_target {dim : List Nat} {A B i : Nat} (hAB : A < B) (hB : B < dim.length) (hd : dim.getD A 0 = dim.getD B 0)
    (hi : i < dim.prod) : target dim A B (target dim A B i) = target dim A B i := by
  unfold target
  rw [toCoords_toIndex (order_valid (toCoords_valid hi) hAB hB hd)]
  rw [order_of_sorted (co := order A B (indexToCoordinates i dim)) (order_sorted hAB (by rw [toCoords_length]; exact hB))]

theorem imposeSymmetry_eq {K : Type} {t : Tensor K} {A B : Nat} (hAB : A < B) (hB : B < t.dim.length)
    (hd : t.dim.getD A 0 = t.dim.getD B 0) (hsz : t.sym.length = t.dim.prod) :
    imposeSymmetry t A B = { t with
      sym := (List.range t.dim.prod).map fun i => t.sym.getD (target t.dim A B i) 0
      unique := ((List.range t.dim.prod).map fun i => t.sym.getD (target t.dim A B i) 0).dedup.insertionSort (· ≤ ·) } := by
  have key : ∀ n, n ≤ t.dim.prod →
      (List.range n).foldl (fun (s : List Nat × List Nat) i =>
        (s.1.set i (s.1.getD (target t.dim A B i) 0), s.2 ++ [s.1.getD (target t.dim A B i) 0])) (t.sym, []) =
      ((List.range n).map (fun i => t.sym.getD (target t.dim A B i) 0) ++ t.sym.drop n,
        (List.range n).map fun i => t.sym.getD (target t.dim A B i) 0) := by
    intro n
    induction n with
    | zero => intro _; rfl
    | succ n ih =>
      intro hn
      rw [List.range_succ, List.foldl_append, List.foldl_cons, List.foldl_nil, ih (by omega)]
      have hread : ((List.range n).map (fun i => t.sym.getD (target t.dim A B i) 0) ++ t.sym.drop n).getD (target t.dim A B n) 0 =
          t.sym.getD (target t.dim A B n) 0 := by
        by_cases hlt : target t.dim A B n < n
        · rw [List.getD_eq_getElem?_getD, List.getElem?_append_left (by simpa using hlt), List.getElem?_map,
            List.getElem?_range hlt, Option.map_some, Option.getD_some, target_target hAB hB hd (by omega)]
        · rw [List.getD_eq_getElem?_getD, List.getElem?_append_right (by simpa using hlt), List.length_map, List.length_range,
            List.getElem?_drop, Nat.add_sub_cancel' (by omega), ← List.getD_eq_getElem?_getD]
      simp only [hread]
      rw [List.map_append, List.map_cons, List.map_nil]
      refine Prod.ext ?_ rfl
      have hdrop : t.sym.drop n = t.sym[n] :: t.sym.drop (n + 1) := List.drop_eq_getElem_cons (by omega)
      rw [hdrop, List.set_append_right _ _ (by simp)]
      simp only [List.length_map, List.length_range, Nat.sub_self, List.set_cons_zero, List.append_assoc, List.cons_append,
        List.nil_append]
  unfold imposeSymmetry
  have hlo : min A B = A := by omega
  have hhi : max A B = B := by omega
  rw [hlo, hhi, hsz]
  have := key t.dim.prod le_rfl
  rw [List.drop_eq_nil_of_le (by omega), List.append_nil] at this
  simp only [target, order] at this
  simp only [target, order]
  rw [this]

theorem imposeSymmetry_sound {K : Type} {t : Tensor K} {A B : Nat} (hAB : A < B) (hB : B < t.dim.length)
    (hd : t.dim.getD A 0 = t.dim.getD B 0) (hf : t.sym = List.range t.dim.prod) (he : t.elements.length = t.dim.prod) :
    Sound (imposeSymmetry t A B) := by
  have hsz : t.sym.length = t.dim.prod := by rw [hf, List.length_range]
  have hval : ∀ i, i < t.dim.prod → t.sym.getD (target t.dim A B i) 0 = target t.dim A B i := by
    intro i hi
    have := target_lt hAB hB hd hi
    rw [hf, List.getD_eq_getElem _ _ (by rw [List.length_range]; exact this), List.getElem_range]
  rw [imposeSymmetry_eq hAB hB hd hsz]
  have hmem : ∀ i, i ∈ ((List.range t.dim.prod).map fun i => t.sym.getD (target t.dim A B i) 0).dedup.insertionSort (· ≤ ·) ↔
      ∃ k, k < t.dim.prod ∧ target t.dim A B k = i := by
    intro i
    rw [List.mem_insertionSort, List.mem_dedup, List.mem_map]
    constructor
    · rintro ⟨k, hk, e⟩
      rw [List.mem_range] at hk
      exact ⟨k, hk, by rw [← e, hval k hk]⟩
    · rintro ⟨k, hk, e⟩
      exact ⟨k, List.mem_range.mpr hk, by rw [hval k hk]; exact e⟩
  refine ⟨by simp, ?_, ?_, ?_, ?_⟩
  · intro i hi
    rw [List.mem_insertionSort, List.mem_dedup]; exact hi
  · exact (List.perm_insertionSort _ _).nodup_iff.mpr (List.nodup_dedup _)
  · intro i hi
    obtain ⟨k, hk, rfl⟩ := (hmem i).mp hi
    have hlt := target_lt hAB hB hd hk
    show (List.map _ _)[_]? = _
    rw [List.getElem?_map, List.getElem?_range hlt, Option.map_some, hval _ hlt, target_target hAB hB hd hk]
  · intro i hi
    obtain ⟨k, hk, rfl⟩ := (hmem i).mp hi
    show _ < t.elements.length
    rw [he]; exact target_lt hAB hB hd hk

theorem imposeSymmetry_samePlace {K : Type} {t : Tensor K} {A B : Nat} (hAB : A < B) (hB : B < t.dim.length)
    (hd : t.dim.getD A 0 = t.dim.getD B 0) (hf : t.sym = List.range t.dim.prod) {co co' : List Nat} (h : Valid co t.dim)
    (h' : Valid co' t.dim) : SamePlace (imposeSymmetry t A B) co co' ↔
      co' = co ∨ co' = (co.set A (co.getD B 0)).set B (co.getD A 0) := by
  have hsz : t.sym.length = t.dim.prod := by rw [hf, List.length_range]
  have hl : ∀ {c}, Valid c t.dim → (imposeSymmetry t A B).sym[coordinatesToIndex c t.dim]? = some (coordinatesToIndex (order A B c) t.dim) := by
    intro c hc
    rw [imposeSymmetry_eq hAB hB hd hsz]
    have hlt := toIndex_lt hc
    have ht := target_lt hAB hB hd hlt
    show (List.map _ _)[_]? = _
    rw [List.getElem?_map, List.getElem?_range hlt, Option.map_some, hf, List.getD_eq_getElem _ _ (by rw [List.length_range]; exact ht),
      List.getElem_range]
    unfold target
    rw [toCoords_toIndex hc]
  have hdim : (imposeSymmetry t A B).dim = t.dim := rfl
  unfold SamePlace
  rw [hdim, hl h, hl h', Option.some.injEq]
  have hBc : B < co.length := by rw [h.length]; exact hB
  have hBc' : B < co'.length := by rw [h'.length]; exact hB
  constructor
  · intro e
    have e2 : order A B co = order A B co' := by
      rw [← toCoords_toIndex (order_valid h hAB hB hd), e, toCoords_toIndex (order_valid h' hAB hB hd)]
    unfold order at e2
    split at e2 <;> split at e2
    · left
      rename_i g g'
      have := congrArg (fun l => (l.set A (l.getD B 0)).set B (l.getD A 0)) e2
      have back : ∀ c : List Nat, B < c.length → (fun l : List Nat => (l.set A (l.getD B 0)).set B (l.getD A 0))
          ((c.set A (c.getD B 0)).set B (c.getD A 0)) = c := by
        intro c hc
        have g1 : ((c.set A (c.getD B 0)).set B (c.getD A 0)).getD B 0 = c.getD A 0 := getD_set_self (by simpa using hc)
        have g2 : ((c.set A (c.getD B 0)).set B (c.getD A 0)).getD A 0 = c.getD B 0 := by
          rw [getD_set_ne (by omega), getD_set_self (by omega)]
        simp only [g1, g2]
        apply List.ext_getElem (by simp)
        intro n h1 h2
        simp only [List.getElem_set]
        by_cases hn : B = n
        · subst hn; simp [h2]
        · by_cases hm : A = n
          · subst hm; simp [hn, h2]
          · simp [hn, hm]
      exact ((back co hBc).symm.trans (this.trans (back co' hBc'))).symm
    · right; exact e2.symm
    · right
      rw [e2]
      have g1 : ((co'.set A (co'.getD B 0)).set B (co'.getD A 0)).getD B 0 = co'.getD A 0 := getD_set_self (by simpa using hBc')
      have g2 : ((co'.set A (co'.getD B 0)).set B (co'.getD A 0)).getD A 0 = co'.getD B 0 := by
        rw [getD_set_ne (by omega), getD_set_self (by omega)]
      rw [g1, g2]
      apply List.ext_getElem (by simp)
      intro n h1 h2
      simp only [List.getElem_set]
      by_cases hn : B = n
      · subst hn; simp [h1]
      · by_cases hm : A = n
        · subst hm; simp [hn, h1]
        · simp [hn, hm]
    · left; exact e2.symm
  · rintro (rfl | rfl)
    · rfl
    · rw [order_swap hAB hBc]

end AmpGen.Tensor
