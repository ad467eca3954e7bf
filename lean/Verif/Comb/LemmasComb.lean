import Verif.Comb.LemmasPerm
import Verif.Comb.Spec
import Mathlib.Data.List.Sublists
import Mathlib.Data.List.Range
import Mathlib.Tactic.Ring
import Mathlib.Algebra.BigOperators.Group.List.Basic
/-
Combinations of `r` out of `n` and Cartesian products.
-/
namespace AmpGen.Comb

theorem unmasked_ge : ∀ (mask : List Bool) (i : Nat), ∀ x ∈ unmasked i mask, i ≤ x ∧ x < i + mask.length
  | [], _ => by simp [unmasked]
  | b :: mask, i => by
    intro x hx
    have ih := unmasked_ge mask (i + 1) x
    cases b
    · simp only [unmasked, Bool.not_false, if_true, List.mem_cons] at hx
      rcases hx with rfl | hx
      · simp
      · have := ih hx; simp; omega
    · simp only [unmasked, Bool.not_true] at hx
      have := ih hx; simp; omega

theorem unmasked_pairwise : ∀ (mask : List Bool) (i : Nat), (unmasked i mask).Pairwise (· < ·)
  | [], _ => by simp [unmasked]
  | b :: mask, i => by
    have ih := unmasked_pairwise mask (i + 1)
    cases b
    · simp only [unmasked, Bool.not_false, if_true]
      refine List.pairwise_cons.mpr ⟨fun x hx => ?_, ih⟩
      have := (unmasked_ge mask (i + 1) x hx).1
      omega
    · simpa [unmasked] using ih

theorem unmasked_length : ∀ (mask : List Bool) (i : Nat), (unmasked i mask).length = mask.count false
  | [], _ => by simp [unmasked]
  | b :: mask, i => by
    have ih := unmasked_length mask (i + 1)
    cases b <;> simp [unmasked, ih]

theorem unmasked_lt : ∀ (m m' : List Bool) (i : Nat), m.count false = m'.count false → m < m' →
    m.length = m'.length → unmasked i m < unmasked i m'
  | [], m', i, _, h, hl => by
    cases m' with
    | nil => exact absurd h (lt_irrefl _)
    | cons => simp at hl
  | b :: m, [], i, _, h, hl => by simp at hl
  | b :: m, b' :: m', i, hc, h, hl => by
    rcases cons_lt.mp h with h1 | ⟨rfl, h1⟩
    · have hb : b = false := (Bool.lt_iff.mp h1).1
      have hb' : b' = true := (Bool.lt_iff.mp h1).2
      subst hb; subst hb'
      simp only [unmasked, Bool.not_false, Bool.not_true, if_true]
      have hlen := unmasked_length m' (i + 1)
      cases hu : unmasked (i + 1) m' with
      | nil => rw [hu] at hlen; simp at hc hlen; omega
      | cons x u =>
        have := (unmasked_ge m' (i + 1) x (by rw [hu]; simp)).1
        exact cons_lt.mpr (Or.inl (by omega))
    · have hl' : m.length = m'.length := by simpa using hl
      cases b
      · have hc' : m.count false = m'.count false := by simpa using hc
        simp only [unmasked, Bool.not_false, if_true]
        exact cons_lt.mpr (Or.inr ⟨rfl, unmasked_lt m m' (i + 1) hc' h1 hl'⟩)
      · have hc' : m.count false = m'.count false := by simpa using hc
        simpa [unmasked] using unmasked_lt m m' (i + 1) hc' h1 hl'

theorem unmasked_of (c : List Nat) : ∀ (n i : Nat),
    unmasked i ((List.range' i n).map fun k => decide (k ∉ c)) = (List.range' i n).filter (· ∈ c)
  | 0, _ => by simp [unmasked]
  | n + 1, i => by
    have ih := unmasked_of c n (i + 1)
    rw [List.range'_succ, List.map_cons, List.filter_cons]
    by_cases h : i ∈ c
    · rw [unmasked, ih]; simp [h]
    · rw [unmasked, ih]; simp [h]

/-- Strictly increasing lists with the same elements are equal. -/
theorem strict_ext {l m : List Nat} (hl : l.Pairwise (· < ·)) (hm : m.Pairwise (· < ·))
    (h : ∀ x, x ∈ l ↔ x ∈ m) : l = m := by
  have hp : l.Perm m := (List.perm_ext_iff_of_nodup (hl.imp fun h => ne_of_lt h)
    (hm.imp fun h => ne_of_lt h)).mpr h
  exact List.Perm.eq_of_pairwise (fun a b _ _ h1 h2 => absurd h1 (lt_asymm h2)) hl hm hp

theorem count_false_map (c : List Nat) (n : Nat) (h1 : c.Pairwise (· < ·)) (h2 : ∀ i ∈ c, i < n) :
    ((List.range n).map fun k => decide (k ∉ c)).count false = c.length := by
  have h := unmasked_length ((List.range' 0 n).map fun k => decide (k ∉ c)) 0
  rw [unmasked_of] at h
  rw [List.range_eq_range', ← h]
  congr 1
  apply strict_ext
  · rw [← List.range_eq_range']
    exact (List.pairwise_lt_range).filter _
  · exact h1
  · intro x
    simp only [List.mem_filter, decide_eq_true_eq, List.mem_range'_1]
    exact ⟨fun h => h.2, fun h => ⟨⟨by omega, by have := h2 x h; omega⟩, h⟩⟩

theorem bool_perm (m : List Bool) (n r : Nat) (hr : r ≤ n) :
    m.Perm (List.replicate r false ++ List.replicate (n - r) true) ↔
      m.length = n ∧ m.count false = r := by
  constructor
  · intro h
    refine ⟨?_, ?_⟩
    · rw [h.length_eq]; simp; omega
    · rw [h.count_eq]; simp [List.count_replicate]
  · rintro ⟨h1, h2⟩
    rw [List.perm_iff_count]
    have hb : m.count true + m.count false = m.length := by
      rw [Nat.add_comm]
      clear h1 h2
      induction m with
      | nil => simp
      | cons b m ih => cases b <;> simp <;> omega
    intro b
    cases b
    · simp [List.count_replicate, h2]
    · simp [List.count_replicate]; omega

theorem nCr_correct (n r : Nat) (hr : r ≤ n) :
    ∃ N R, (∀ fuel, N ≤ fuel → nCr fuel n r = some R) ∧ R.Pairwise (· < ·) ∧
      ∀ c, c ∈ R ↔ c.Pairwise (· < ·) ∧ c.length = r ∧ ∀ i ∈ c, i < n := by
  have hasc : (List.replicate r false ++ List.replicate (n - r) true).Pairwise (· ≤ ·) := by
    rw [List.pairwise_append]
    refine ⟨?_, ?_, ?_⟩
    · rw [List.pairwise_replicate]; simp
    · rw [List.pairwise_replicate]; simp
    · intro a ha b hb
      rw [List.mem_replicate] at ha hb
      rw [ha.2, hb.2]; simp
  obtain ⟨N, M, h1, h2, h3⟩ := permLoop_all _ hasc
  refine ⟨N, M.map (unmasked 0), ?_, ?_, ?_⟩
  · intro fuel hf
    unfold nCr
    rw [if_pos hr, h1 fuel hf]
    rfl
  · rw [List.pairwise_map]
    refine h2.imp_of_mem ?_
    intro a b ha hb hab
    have ha' := (bool_perm a n r hr).mp ((h3 a).mp ha)
    have hb' := (bool_perm b n r hr).mp ((h3 b).mp hb)
    exact unmasked_lt a b 0 (by rw [ha'.2, hb'.2]) hab (by rw [ha'.1, hb'.1])
  · intro c
    rw [List.mem_map]
    constructor
    · rintro ⟨m, hm, rfl⟩
      have hm' := (bool_perm m n r hr).mp ((h3 m).mp hm)
      refine ⟨unmasked_pairwise m 0, by rw [unmasked_length, hm'.2], ?_⟩
      intro i hi
      have := (unmasked_ge m 0 i hi).2
      omega
    · rintro ⟨c1, c2, c3⟩
      refine ⟨(List.range n).map fun k => decide (k ∉ c), ?_, ?_⟩
      · rw [h3, bool_perm _ n r hr]
        exact ⟨by simp, by rw [count_false_map c n c1 c3, c2]⟩
      · rw [List.range_eq_range', unmasked_of]
        apply strict_ext
        · rw [← List.range_eq_range']
          exact (List.pairwise_lt_range).filter _
        · exact c1
        · intro x
          simp only [List.mem_filter, decide_eq_true_eq, List.mem_range'_1]
          exact ⟨fun h => h.2, fun h => ⟨⟨by omega, by have := c3 x h; omega⟩, h⟩⟩

theorem choose_count (n r : Nat) (R : List (List Nat)) (h1 : R.Pairwise (· < ·))
    (h2 : ∀ c, c ∈ R ↔ c.Pairwise (· < ·) ∧ c.length = r ∧ ∀ i ∈ c, i < n) :
    R.length = n.choose r := by
  have hp : R.Perm (List.sublistsLen r (List.range n)) := by
    apply (List.perm_ext_iff_of_nodup (h1.imp fun h => ne_of_lt h)
      (List.nodup_sublistsLen r List.nodup_range)).mpr
    intro c
    rw [h2, List.mem_sublistsLen]
    constructor
    · rintro ⟨a, b, d⟩
      refine ⟨?_, b⟩
      have hsub : c.Subperm (List.range n) :=
        List.subperm_of_subset (a.imp fun h => ne_of_lt h) (fun i hi => List.mem_range.mpr (d i hi))
      exact List.sublist_of_subperm_of_pairwise hsub (a.imp le_of_lt) List.pairwise_le_range
    · rintro ⟨a, b⟩
      exact ⟨List.pairwise_lt_range.sublist a, b, fun i hi => List.mem_range.mp (a.subset hi)⟩
  rw [hp.length_eq, List.length_sublistsLen, List.length_range]

/-! ### Cartesian products -/

variable {α : Type}

theorem product_append (es : List (List α)) (e : List α) :
    product (es ++ [e]) = (product es).flatMap fun c => e.map fun x => c ++ [x] := by
  induction es with
  | nil =>
    simp only [List.nil_append, product, List.map_cons, List.map_nil, List.flatMap_cons, List.flatMap_nil,
      List.append_nil]
    rw [← List.map_eq_flatMap]
  | cons f es ih =>
    simp only [List.cons_append, product, ih]
    rw [List.flatMap_assoc]
    congr 1
    funext x
    rw [List.map_flatMap, List.flatMap_map]
    simp [Function.comp_def]

theorem foldl_mul (es : List (List α)) (k : Nat) :
    es.foldl (fun nc s => nc * s.length) k = k * (es.map List.length).prod := by
  induction es generalizing k with
  | nil => simp
  | cons e es ih => simp only [List.foldl_cons, ih, List.map_cons, List.prod_cons]; ring

theorem range_mul_flatMap {β : Type} (f : Nat → β) (a b : Nat) :
    (List.range (a * b)).map f =
      (List.range a).flatMap fun i => (List.range b).map fun j => f (i * b + j) := by
  induction a with
  | zero => simp
  | succ a ih =>
    rw [Nat.succ_mul, List.range_add, List.map_append, ih, List.range_succ, List.flatMap_append]
    simp

theorem map_range_getElem (e : List α) {β : Type} (f : Option α → β) :
    (List.range e.length).map (fun j => f e[j]?) = e.map fun x => f (some x) := by
  apply List.ext_getElem
  · simp
  · intro i h1 h2
    simp at h1
    simp [h1]

theorem allCombinations_eq (elements : List (List α)) : allCombinations elements = product elements := by
  unfold allCombinations
  induction elements using List.reverseRecOn with
  | nil => simp [product, decodeRev]
  | append_singleton es e ih =>
    rw [product_append, ← ih, foldl_mul, foldl_mul, List.map_append, List.prod_append]
    simp only [List.map_cons, List.map_nil, List.prod_cons, List.prod_nil, Nat.mul_one, Nat.one_mul,
      List.reverse_append, List.reverse_cons, List.reverse_nil, List.nil_append, List.cons_append]
    rw [range_mul_flatMap, List.flatMap_map]
    congr 1
    funext i
    have : ∀ j ∈ List.range e.length,
        (decodeRev (e :: es.reverse) (i * e.length + j)).reverse =
          (fun o : Option α => match o with
            | some x => (decodeRev es.reverse i).reverse ++ [x]
            | none => []) e[j]? := by
      intro j hj
      rw [List.mem_range] at hj
      have h1 : (i * e.length + j) % e.length = j := by
        rw [Nat.add_comm, Nat.add_mul_mod_self_right, Nat.mod_eq_of_lt hj]
      simp only [decodeRev, h1]
      have h2 : (i * e.length + j - j) / e.length = i := by
        rw [Nat.add_sub_cancel, Nat.mul_div_cancel i (by omega)]
      rw [h2]
      cases e[j]? <;> simp
    rw [List.map_congr_left this]
    exact map_range_getElem e (fun o : Option α => match o with
            | some x => (decodeRev es.reverse i).reverse ++ [x]
            | none => [])

theorem mem_product (elements : List (List α)) (c : List α) : c ∈ product elements ↔ Chooses c elements := by
  induction elements generalizing c with
  | nil => simp [product, Chooses]
  | cons e es ih =>
    simp only [product, List.mem_flatMap, List.mem_map, Chooses, List.forall₂_cons_right_iff]
    constructor
    · rintro ⟨x, hx, d, hd, rfl⟩
      exact ⟨x, d, hx, (ih d).mp hd, rfl⟩
    · rintro ⟨x, d, hx, hd, rfl⟩
      exact ⟨x, hx, d, (ih d).mpr hd, rfl⟩

theorem length_product (elements : List (List α)) :
    (product elements).length = (elements.map List.length).prod := by
  induction elements with
  | nil => simp [product]
  | cons e es ih => simp [product, List.length_flatMap, ih]

theorem nodup_product (elements : List (List α)) (h : ∀ e ∈ elements, e.Nodup) :
    (product elements).Nodup := by
  induction elements with
  | nil => simp [product]
  | cons e es ih =>
    have ih' := ih fun f hf => h f (by simp [hf])
    simp only [product]
    rw [List.nodup_flatMap]
    refine ⟨?_, ?_⟩
    · intro x _
      exact ih'.map (fun a b hab => (List.cons.inj hab).2)
    · refine (h e (by simp)).imp ?_
      intro a b hab
      simp only [Function.onFun]
      intro x h1 h2
      rw [List.mem_map] at h1 h2
      obtain ⟨_, _, rfl⟩ := h1
      obtain ⟨_, _, h3⟩ := h2
      exact hab (List.cons.inj h3).1.symm

/-! ### Orderings of identical particles -/

theorem orderings_correct (names : List String) :
    ∃ N R, (∀ fuel, N ≤ fuel → identicalDaughterOrderings fuel names = some R) ∧
      R.Pairwise (· < ·) ∧
      ∀ p, p ∈ R ↔ p.Perm (List.range names.length) ∧
        ∀ i : Nat, i < names.length → names[i]? = (p[i]?.bind fun j => names[j]?) := by
  have hasc : (List.range names.length).Pairwise (· ≤ ·) := List.pairwise_le_range
  obtain ⟨N, M, h1, h2, h3⟩ := permLoop_all _ hasc
  refine ⟨N, M.filter (fun indices =>
      (List.range names.length).all fun i => names[i]? == (indices[i]?.bind fun j => names[j]?)), ?_, ?_, ?_⟩
  · intro fuel hf
    unfold identicalDaughterOrderings
    rw [h1 fuel hf]
    rfl
  · exact h2.filter _
  · intro p
    rw [List.mem_filter, h3, List.all_eq_true]
    simp only [List.mem_range, beq_iff_eq]

end AmpGen.Comb
