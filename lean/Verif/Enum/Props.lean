import Verif.Enum.Lemmas
/-
C44: enumerations and their names.
-/
namespace AmpGen.Enum
open AmpGen.Strings (Str)

/-- C44.  For every declared list of different names: the text of the value number `i` is the name number `i`, parsing it gives `i` back, and parsing a word that
is neither a name nor a numeral nor empty gives the invalid value.

Missing: the value `Invalid` where it is not in the list, numerals and the empty word, see the counterexamples. -/
theorem enum_round_trip_partial {args : Str} {names : List Str} (h : Declared args names) (hn : names.Nodup) (invalid : Int) :
    (∀ (i : Nat) (n : Str), names[i]? = some n → toString args i = n ∧ parse args invalid (toString args i) = i) ∧
    (∀ w, w ∉ names → w ≠ [] → ¬ Numeral w → parse args invalid w = invalid) := by
  have hname : ∀ {args : Str} {names : List Str}, Declared args names → ∀ n ∈ names, Name n := by
    intro args names h
    induction h with
    | last hn => intro n hm; rw [List.mem_singleton] at hm; exact hm ▸ hn
    | cons hn _ ih =>
      intro n hm
      rcases List.mem_cons.mp hm with rfl | hm
      · exact hn
      · exact ih n hm
  constructor
  · intro i n hi
    have htext : toString args i = n := by
      obtain ⟨hlt, hget⟩ := List.getElem?_eq_some_iff.mp hi
      obtain ⟨k', args', h1, h2⟩ := skipTo_declared h 0 i 0 hlt
      simp only [List.replicate_zero, List.nil_append, Int.zero_add] at h1
      unfold toString
      rw [h1]
      rw [List.drop_eq_getElem_cons hlt, hget] at h2
      have hnn := hname h n (List.mem_of_getElem? hi)
      generalize names.drop (i + 1) = rest at h2
      cases h2 with
      | last _ =>
        have := name_skip hnn k' []
        rw [List.append_nil] at this
        rw [this]
        have := (name_take hnn [] (Or.inl rfl)).1
        rwa [List.append_nil] at this
      | cons _ _ =>
        rw [name_skip hnn]
        exact (name_take hnn _ (Or.inr rfl)).1
    refine ⟨htext, ?_⟩
    rw [htext]
    unfold parse
    rw [if_neg (strtoul_name (hname h n (List.mem_of_getElem? hi)))]
    have := (parseLoop_declared h n 0 0).1 i hi (by
      intro j hj he
      obtain ⟨l1, g1⟩ := List.getElem?_eq_some_iff.mp hi
      obtain ⟨l2, g2⟩ := List.getElem?_eq_some_iff.mp he
      have := (List.Nodup.getElem_inj_iff hn).mp (g2.trans g1.symm)
      omega)
    simp only [List.replicate_zero, List.nil_append, Nat.zero_add] at this
    rw [this]
  · intro w hw hne hnum
    unfold parse
    have hs : (strtoul w).2 ≠ [] := fun he => (strtoul_rest he).elim hne hnum
    have := (parseLoop_declared h w 0 0).2 hw
    simp only [List.replicate_zero, List.nil_append] at this
    rw [if_neg hs, this]

theorem demo_declared : Declared "Free, Hide,Fix".toList ["Free".toList, "Hide".toList, "Fix".toList] :=
  .cons (n := "Free".toList) (k := 1) ⟨by decide, by decide, by decide⟩ (.cons (n := "Hide".toList) (k := 0) ⟨by decide, by decide, by decide⟩
    (.last (n := "Fix".toList) ⟨by decide, by decide, by decide⟩))

example : parse "Free, Hide,Fix".toList 3 "Fix".toList = 2 ∧ parse "Free, Hide,Fix".toList 3 "Fi".toList = 3 := by
  have := enum_round_trip_partial demo_declared (by decide) 3
  refine ⟨?_, this.2 _ (by decide) (by decide) ?_⟩
  · have h := this.1 2 "Fix".toList rfl
    rw [h.1] at h
    exact h.2
  · rintro ⟨s, sign, ds, h1, h2, h3, h4, h5⟩
    have hi : isDigit 'i' = false := by decide
    have hF : isDigit 'F' = false := by decide
    obtain ⟨d, hd⟩ := List.exists_mem_of_ne_nil ds h4
    have : ∀ c ∈ ds, c = 'F' ∨ c = 'i' := by
      intro c hc
      have : c ∈ "Fi".toList := by rw [h1]; simp [hc]
      simpa using this
    rcases this d hd with rfl | rfl
    · exact absurd (h5 _ hd) (by decide)
    · exact absurd (h5 _ hd) (by decide)

/-- C44 is false for the value `Invalid` where it is not in the list: its text is empty, which is read as the first value; and for numerals: any number is
accepted as a value, whether it is one or not. -/
theorem enum_round_trip_counterexample {args : Str} {names : List Str} (h : Declared args names) (invalid : Int) :
    toString args names.length = [] ∧ parse args invalid (toString args names.length) = 0 ∧ parse args invalid "77".toList = 77 := by
  have h1 : toString args names.length = [] := by
    have := skipTo_beyond h 0 names.length 0 (by omega)
    simp only [List.replicate_zero, List.nil_append] at this
    unfold toString
    rw [this]
    rfl
  refine ⟨h1, ?_, rfl⟩
  rw [h1]
  rfl

example : parse "Free, Hide,Fix".toList 3 (toString "Free, Hide,Fix".toList 3) = 0 := (enum_round_trip_counterexample demo_declared 3).2.1

end AmpGen.Enum
