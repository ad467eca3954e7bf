import Verif.Comb.Model
import Mathlib.Data.List.Lex
import Mathlib.Data.List.Sort
import Mathlib.Data.List.Permutation
import Mathlib.Data.Finset.Card
/-
`nextPerm` is the successor in lexicographic order.
-/
namespace AmpGen.Comb

variable {α : Type} [LinearOrder α]

theorem cons_lt {a b : α} {l m : List α} : a :: l < b :: m ↔ a < b ∨ (a = b ∧ l < m) := by
  exact List.cons_lt_cons_iff

theorem cons_le {a b : α} {l m : List α} : a :: l ≤ b :: m ↔ a < b ∨ (a = b ∧ l ≤ m) := by
  rw [le_iff_lt_or_eq, cons_lt, le_iff_lt_or_eq]
  constructor
  · rintro ((h | ⟨h1, h2⟩) | h)
    · exact Or.inl h
    · exact Or.inr ⟨h1, Or.inl h2⟩
    · cases h; exact Or.inr ⟨rfl, Or.inr rfl⟩
  · rintro (h | ⟨rfl, h | rfl⟩)
    · exact Or.inl (Or.inl h)
    · exact Or.inl (Or.inr ⟨rfl, h⟩)
    · exact Or.inr rfl

theorem nil_le (l : List α) : ([] : List α) ≤ l := by
  exact not_lt.mp (List.not_lt_nil l)

/-- A descending list is the greatest of its rearrangements. -/
theorem desc_max {l : List α} (h : l.Pairwise (· ≥ ·)) : ∀ {m : List α}, m.Perm l → m ≤ l := by
  induction l with
  | nil => intro m hm; rw [hm.eq_nil]
  | cons a l ih =>
    intro m hm
    cases m with
    | nil => exact nil_le _
    | cons b m =>
      have hp := List.pairwise_cons.mp h
      have hb : b ∈ a :: l := hm.mem_iff.mp (by simp)
      have hba : b ≤ a := by
        rcases List.mem_cons.mp hb with rfl | hb
        · exact le_refl _
        · exact hp.1 b hb
      rw [cons_le]
      rcases lt_or_eq_of_le hba with h1 | rfl
      · exact Or.inl h1
      · exact Or.inr ⟨rfl, ih hp.2 (List.perm_cons _ |>.mp hm)⟩

/-- An ascending list is the least of its rearrangements. -/
theorem asc_min {l : List α} (h : l.Pairwise (· ≤ ·)) : ∀ {m : List α}, m.Perm l → l ≤ m := by
  induction l with
  | nil => intro m hm; exact nil_le _
  | cons a l ih =>
    intro m hm
    cases m with
    | nil => exact absurd hm.length_eq (by simp)
    | cons b m =>
      have hp := List.pairwise_cons.mp h
      have hb : b ∈ a :: l := hm.mem_iff.mp (by simp)
      have hba : a ≤ b := by
        rcases List.mem_cons.mp hb with rfl | hb
        · exact le_refl _
        · exact hp.1 b hb
      rw [cons_le]
      rcases lt_or_eq_of_le hba with h1 | rfl
      · exact Or.inl h1
      · exact Or.inr ⟨rfl, ih hp.2 (List.perm_cons _ |>.mp hm)⟩

theorem replaceLast_none {a : α} {l : List α} (h : replaceLast a l = none) : ∀ b ∈ l, b ≤ a := by
  induction l with
  | nil => simp
  | cons b l ih =>
    unfold replaceLast at h
    split at h
    · cases h
    · rename_i h2
      split at h
      · cases h
      · rename_i h3
        intro c hc
        rcases List.mem_cons.mp hc with rfl | hc
        · exact not_lt.mp h3
        · exact ih h2 c hc

/-- In a descending list, `replaceLast` takes out the least element greater than `a`. -/
theorem replaceLast_some {a : α} : ∀ {l : List α} {c : α} {l' : List α},
    l.Pairwise (· ≥ ·) → replaceLast a l = some (c, l') →
    a < c ∧ (c :: l').Perm (a :: l) ∧ l'.Pairwise (· ≥ ·) ∧ (∀ b ∈ l, a < b → c ≤ b) ∧
    (∀ u, (∀ b ∈ l, b ≤ u) → a ≤ u → ∀ b ∈ l', b ≤ u) := by
  intro l
  induction l with
  | nil => intro c l' _ h; simp [replaceLast] at h
  | cons b l ih =>
    intro c l' hd h
    have hp := List.pairwise_cons.mp hd
    unfold replaceLast at h
    split at h
    · rename_i c' l'' h2
      cases h
      obtain ⟨h3, h4, h5, h6, h7⟩ := ih hp.2 h2
      have hcl : c ∈ l := by
        have : c ∈ a :: l := h4.mem_iff.mp (by simp)
        rcases List.mem_cons.mp this with rfl | h
        · exact absurd h3 (lt_irrefl _)
        · exact h
      have hab : a ≤ b := le_trans (le_of_lt h3) (hp.1 c hcl)
      refine ⟨h3, ?_, ?_, ?_, ?_⟩
      · exact (List.Perm.swap b c l'').trans ((h4.cons b).trans (List.Perm.swap a b l))
      · exact List.pairwise_cons.mpr ⟨h7 b (fun x hx => hp.1 x hx) hab, h5⟩
      · intro x hx hax
        rcases List.mem_cons.mp hx with rfl | hx
        · exact hp.1 c hcl
        · exact h6 x hx hax
      · intro u hu hau x hx
        rcases List.mem_cons.mp hx with rfl | hx
        · exact hu x (by simp)
        · exact h7 u (fun y hy => hu y (by simp [hy])) hau x hx
    · rename_i h2
      split at h
      · rename_i h3
        cases h
        have hle := replaceLast_none h2
        refine ⟨h3, List.Perm.swap _ _ _, ?_, ?_, ?_⟩
        · exact List.pairwise_cons.mpr ⟨hle, hp.2⟩
        · intro x hx hax
          rcases List.mem_cons.mp hx with rfl | hx
          · exact le_refl _
          · exact absurd (hle x hx) (not_le.mpr hax)
        · intro u hu hau x hx
          rcases List.mem_cons.mp hx with rfl | hx
          · exact hau
          · exact hu x (by simp [hx])
      · cases h

theorem nextPerm_none {l : List α} (h : nextPerm l = none) : l.Pairwise (· ≥ ·) := by
  induction l with
  | nil => simp
  | cons a l ih =>
    unfold nextPerm at h
    split at h
    · cases h
    · rename_i h2
      have h3 : replaceLast a l = none := by
        cases hr : replaceLast a l with
        | none => rfl
        | some x => rw [hr] at h; cases h
      exact List.pairwise_cons.mpr ⟨replaceLast_none h3, ih h2⟩

theorem nextPerm_some : ∀ {l l' : List α}, nextPerm l = some l' →
    l'.Perm l ∧ l < l' ∧ ∀ m : List α, m.Perm l → l < m → l' ≤ m := by
  intro l
  induction l with
  | nil => intro l' h; simp [nextPerm] at h
  | cons a l ih =>
    intro l' h
    unfold nextPerm at h
    split at h
    · rename_i l2 h2
      cases h
      obtain ⟨i1, i2, i3⟩ := ih h2
      refine ⟨i1.cons a, cons_lt.mpr (Or.inr ⟨rfl, i2⟩), ?_⟩
      intro m hm hlt
      cases m with
      | nil => exact absurd hm.length_eq (by simp)
      | cons b m =>
        rcases cons_lt.mp hlt with h3 | ⟨rfl, h3⟩
        · exact cons_le.mpr (Or.inl h3)
        · exact cons_le.mpr (Or.inr ⟨rfl, i3 m ((List.perm_cons _).mp hm) h3⟩)
    · rename_i h2
      have hdesc := nextPerm_none h2
      cases hr : replaceLast a l with
      | none => rw [hr] at h; cases h
      | some x =>
        obtain ⟨c, l2⟩ := x
        rw [hr] at h
        cases h
        obtain ⟨r1, r2, r3, r4, -⟩ := replaceLast_some hdesc hr
        have hperm : (c :: l2.reverse).Perm (a :: l) := ((List.reverse_perm l2).cons c).trans r2
        refine ⟨hperm, cons_lt.mpr (Or.inl r1), ?_⟩
        intro m hm hlt
        cases m with
        | nil => exact absurd hm.length_eq (by simp)
        | cons b m =>
          rcases cons_lt.mp hlt with h3 | ⟨rfl, h3⟩
          · have hbl : b ∈ l := by
              have : b ∈ a :: l := hm.mem_iff.mp (by simp)
              rcases List.mem_cons.mp this with rfl | h
              · exact absurd h3 (lt_irrefl _)
              · exact h
            rcases lt_or_eq_of_le (r4 b hbl h3) with h4 | rfl
            · exact cons_le.mpr (Or.inl h4)
            · refine cons_le.mpr (Or.inr ⟨rfl, ?_⟩)
              apply asc_min
              · rw [List.pairwise_reverse]
                exact r3
              · exact (List.perm_cons _).mp (hm.trans hperm.symm)
          · have := desc_max hdesc ((List.perm_cons _).mp hm)
            exact absurd h3 (not_lt.mpr this)

/-- The loop visits, in increasing order, every arrangement from the first one on. -/
theorem permLoop_correct (l : List α) : ∃ N R, (∀ fuel, N ≤ fuel → permLoop fuel l = some R) ∧
    R.Pairwise (· < ·) ∧ ∀ m, m ∈ R ↔ m.Perm l ∧ l ≤ m := by
  -- induction on the number of arrangements after `l`
  have key : ∀ (k : Nat) (l : List α), (l.permutations.toFinset.filter (l < ·)).card ≤ k →
      ∃ N R, (∀ fuel, N ≤ fuel → permLoop fuel l = some R) ∧ R.Pairwise (· < ·) ∧
        ∀ m, m ∈ R ↔ m.Perm l ∧ l ≤ m := by
    intro k
    induction k with
    | zero =>
      intro l hk
      have hmax : ∀ m : List α, m.Perm l → ¬ l < m := by
        intro m hm hlt
        have : m ∈ l.permutations.toFinset.filter (l < ·) := by
          simp [List.mem_permutations, hm, hlt]
        have := Finset.card_pos.mpr ⟨m, this⟩
        omega
      have hn : nextPerm l = none := by
        cases h : nextPerm l with
        | none => rfl
        | some l' => exact absurd (nextPerm_some h).2.1 (hmax l' (nextPerm_some h).1)
      refine ⟨1, [l], ?_, by simp, ?_⟩
      · intro fuel hf
        obtain ⟨f, rfl⟩ := Nat.exists_eq_add_of_le' hf
        simp only [permLoop, hn]
      · intro m
        rw [List.mem_singleton]
        constructor
        · rintro rfl; exact ⟨List.Perm.refl _, le_refl _⟩
        · rintro ⟨h1, h2⟩
          exact le_antisymm (not_lt.mp (hmax m h1)) h2
    | succ k ih =>
      intro l hk
      cases h : nextPerm l with
      | none =>
        have hmax : ∀ m : List α, m.Perm l → m ≤ l := fun m hm => desc_max (nextPerm_none h) hm
        refine ⟨1, [l], ?_, by simp, ?_⟩
        · intro fuel hf
          obtain ⟨f, rfl⟩ := Nat.exists_eq_add_of_le' hf
          simp only [permLoop, h]
        · intro m
          rw [List.mem_singleton]
          constructor
          · rintro rfl; exact ⟨List.Perm.refl _, le_refl _⟩
          · rintro ⟨h1, h2⟩
            exact le_antisymm (hmax m h1) h2
      | some l' =>
        obtain ⟨s1, s2, s3⟩ := nextPerm_some h
        have hcard : (l'.permutations.toFinset.filter (l' < ·)).card <
            (l.permutations.toFinset.filter (l < ·)).card := by
          apply Finset.card_lt_card
          rw [Finset.ssubset_iff_of_subset]
          · exact ⟨l', by simp [List.mem_permutations, s1, s2], by simp⟩
          · intro m hm
            simp only [Finset.mem_filter, List.mem_toFinset, List.mem_permutations] at hm ⊢
            exact ⟨hm.1.trans s1, lt_trans s2 hm.2⟩
        obtain ⟨N, R, r1, r2, r3⟩ := ih l' (by omega)
        refine ⟨N + 1, l :: R, ?_, ?_, ?_⟩
        · intro fuel hf
          obtain ⟨f, rfl⟩ := Nat.exists_eq_add_of_le' (Nat.le_of_add_left_le hf : 1 ≤ fuel)
          simp only [permLoop, h]
          rw [r1 f (by omega)]
          rfl
        · refine List.pairwise_cons.mpr ⟨?_, r2⟩
          intro m hm
          exact lt_of_lt_of_le s2 ((r3 m).mp hm).2
        · intro m
          rw [List.mem_cons, r3]
          constructor
          · rintro (rfl | ⟨h1, h2⟩)
            · exact ⟨List.Perm.refl _, le_refl _⟩
            · exact ⟨h1.trans s1, le_of_lt (lt_of_lt_of_le s2 h2)⟩
          · rintro ⟨h1, h2⟩
            rcases lt_or_eq_of_le h2 with h3 | rfl
            · exact Or.inr ⟨h1.trans s1.symm, s3 m h1 h3⟩
            · exact Or.inl rfl
  exact key _ l (le_refl _)

/-- Started from an ascending list, the loop visits every arrangement exactly once. -/
theorem permLoop_all (l : List α) (h : l.Pairwise (· ≤ ·)) :
    ∃ N R, (∀ fuel, N ≤ fuel → permLoop fuel l = some R) ∧ R.Pairwise (· < ·) ∧
      ∀ m, m ∈ R ↔ m.Perm l := by
  obtain ⟨N, R, h1, h2, h3⟩ := permLoop_correct l
  refine ⟨N, R, h1, h2, fun m => ?_⟩
  rw [h3]
  exact ⟨fun hh => hh.1, fun hh => ⟨hh, asc_min h hh⟩⟩

end AmpGen.Comb
