import Verif.Strings.Model
import Verif.Strings.Spec
import Mathlib.Data.List.Basic
import Mathlib.Data.List.TakeWhile
import Mathlib.Tactic.Tauto
/-
Helper lemmas for the string utilities.
-/
namespace AmpGen.Strings

theorem findAux_some {pat : Str} : ∀ {s : Str} {k p : Nat}, findAux pat s k = some p →
    k ≤ p ∧ p ≤ k + s.length ∧ pat <+: s.drop (p - k) ∧
      ∀ q, k ≤ q → q < p → ¬ pat <+: s.drop (q - k)
  | [], k, p, h => by
    simp only [findAux] at h
    split at h
    · rename_i hp
      simp only [Option.some.injEq] at h
      subst h
      simp [hp]
    · simp at h
  | c :: cs, k, p, h => by
    simp only [findAux] at h
    split at h
    · rename_i hp
      simp only [Option.some.injEq] at h
      subst h
      refine ⟨Nat.le_refl _, by simp, by simpa using hp, fun q _ _ => by omega⟩
    · rename_i hp
      obtain ⟨h1, h2, h3, h4⟩ := findAux_some h
      refine ⟨by omega, by simp only [List.length_cons]; omega, ?_, ?_⟩
      · have : p - k = (p - (k + 1)) + 1 := by omega
        rw [this]; simpa using h3
      · intro q hq1 hq2
        rcases Nat.eq_or_lt_of_le hq1 with rfl | hlt
        · simpa using hp
        · have : q - k = (q - (k + 1)) + 1 := by omega
          rw [this]; simpa using h4 q hlt hq2

theorem findAux_none {pat : Str} : ∀ {s : Str} {k : Nat}, findAux pat s k = none →
    ∀ q, k ≤ q → q ≤ k + s.length → ¬ pat <+: s.drop (q - k)
  | [], k, h => by
    simp only [findAux] at h
    split at h
    · simp at h
    · rename_i hp
      intro q _ _
      simpa using hp
  | c :: cs, k, h => by
    simp only [findAux] at h
    split at h
    · simp at h
    · rename_i hp
      intro q hq1 hq2
      rcases Nat.eq_or_lt_of_le hq1 with rfl | hlt
      · simpa using hp
      · have h3 := findAux_none h q hlt (by simp only [List.length_cons] at hq2; omega)
        have : q - k = (q - (k + 1)) + 1 := by omega
        rw [this]; simpa using h3

theorem find_some {s pat : Str} {pos p : Nat} (h : find s pat pos = some p) :
    pos ≤ p ∧ p ≤ s.length ∧ pat <+: s.drop p ∧
      ∀ q, pos ≤ q → q < p → ¬ pat <+: s.drop q := by
  have hb := find_bounds h
  unfold find at h
  split at h
  · obtain ⟨h1, h2, h3, h4⟩ := findAux_some h
    refine ⟨hb.1, hb.2, ?_, ?_⟩
    · rw [List.drop_drop] at h3
      rwa [show pos + (p - pos) = p by omega] at h3
    · intro q hq1 hq2 hpre
      have := h4 q hq1 hq2
      rw [List.drop_drop, show pos + (q - pos) = q by omega] at this
      exact this hpre
  · simp at h

theorem find_none {s pat : Str} {pos : Nat} (h : find s pat pos = none) :
    ∀ q, pos ≤ q → q ≤ s.length → ¬ pat <+: s.drop q := by
  unfold find at h
  intro q hq1 hq2 hpre
  split at h
  · have := findAux_none h q hq1 (by simp only [List.length_drop]; omega)
    rw [List.drop_drop, show pos + (q - pos) = q by omega] at this
    exact this hpre
  · omega

theorem find_eq_some_iff {s pat : Str} {pos p : Nat} :
    find s pat pos = some p ↔ pos ≤ p ∧ p ≤ s.length ∧ pat <+: s.drop p ∧
      ∀ q, pos ≤ q → q < p → ¬ pat <+: s.drop q := by
  constructor
  · exact find_some
  · rintro ⟨h1, h2, h3, h4⟩
    cases hf : find s pat pos with
    | none => exact absurd h3 (find_none hf p h1 h2)
    | some p' =>
      obtain ⟨k1, k2, k3, k4⟩ := find_some hf
      rcases Nat.lt_trichotomy p p' with h | h | h
      · exact absurd h3 (k4 p h1 h)
      · rw [h]
      · exact absurd k3 (h4 p' k1 h)

theorem occursAt_iff {pat s : Str} {p : Nat} :
    Spec.OccursAt pat s p ↔ p ≤ s.length ∧ pat <+: s.drop p := by
  constructor
  · rintro ⟨pre, post, rfl, rfl⟩
    refine ⟨by simp, ?_⟩
    simp [List.append_assoc]
  · rintro ⟨h1, post, h2⟩
    refine ⟨s.take p, post, ?_, by simp [h1]⟩
    rw [List.append_assoc, h2, List.take_append_drop]

/-! ### findAll -/

theorem mem_findAllFrom {s ch : Str} (pos p : Nat) :
    p ∈ findAllFrom s ch pos ↔ pos ≤ p ∧ p ≤ s.length ∧ ch <+: s.drop p := by
  fun_induction findAllFrom s ch pos with
  | case1 pos h =>
    simp only [List.not_mem_nil, false_iff, not_and]
    intro h1 h2
    exact find_none h p h1 h2
  | case2 pos q h ih =>
    obtain ⟨k1, k2, k3, k4⟩ := find_some h
    simp only [List.mem_cons, ih]
    constructor
    · rintro (rfl | ⟨h1, h2, h3⟩)
      · exact ⟨k1, k2, k3⟩
      · exact ⟨by omega, h2, h3⟩
    · rintro ⟨h1, h2, h3⟩
      rcases Nat.lt_trichotomy p q with h | h | h
      · exact absurd h3 (k4 p h1 h)
      · exact Or.inl h
      · exact Or.inr ⟨h, h2, h3⟩

theorem findAllFrom_sorted {s ch : Str} (pos : Nat) :
    (findAllFrom s ch pos).Pairwise (· < ·) := by
  fun_induction findAllFrom s ch pos with
  | case1 => exact List.Pairwise.nil
  | case2 pos q h ih =>
    refine List.Pairwise.cons ?_ ih
    intro a ha
    have := (mem_findAllFrom (q + 1) a).1 ha
    omega

/-! ### getlines / split -/

theorem getlines_nil (d : Char) : getlines d [] = [] := by simp [getlines]

theorem getlines_cons (d : Char) (c : Char) (cs : Str) :
    getlines d (c :: cs) =
      (c :: cs).takeWhile (· != d) :: getlines d (((c :: cs).dropWhile (· != d)).drop 1) := by
  rw [getlines]

theorem takeWhile_ne_no_delim (d : Char) (s : Str) : d ∉ s.takeWhile (· != d) := by
  intro h
  have := List.mem_takeWhile_imp h
  simp at this

theorem getlines_no_delim (d : Char) (s : Str) : ∀ item ∈ getlines d s, d ∉ item := by
  fun_induction getlines d s with
  | case1 => simp
  | case2 c cs ih =>
    intro item hi
    rcases List.mem_cons.1 hi with rfl | hi
    · exact takeWhile_ne_no_delim _ _
    · exact ih item hi

/-- Every item followed by the delimiter gives back the input, up to one
delimiter at the very end. -/
theorem getlines_flatMap (d : Char) (s : Str) :
    (getlines d s).flatMap (· ++ [d]) = s ∨ (getlines d s).flatMap (· ++ [d]) = s ++ [d] := by
  fun_induction getlines d s with
  | case1 => simp
  | case2 c cs ih =>
    simp only [List.flatMap_cons]
    generalize hs : c :: cs = s at *
    cases hd : s.dropWhile (· != d) with
    | nil =>
      have ht : s.takeWhile (· != d) = s := by
        have := List.takeWhile_append_dropWhile (p := (· != d)) (l := s)
        rw [hd, List.append_nil] at this
        exact this
      simp [ht, getlines_nil]
    | cons x xs =>
      have hx : x = d := by
        have hne : s.dropWhile (· != d) ≠ [] := by simp [hd]
        have := List.head_dropWhile_not (· != d) hne
        simp [hd] at this
        exact this
      have hs' : s = s.takeWhile (· != d) ++ d :: xs := by
        have := List.takeWhile_append_dropWhile (p := (· != d)) (l := s)
        rw [hd, hx] at this
        exact this.symm
      rw [hd] at ih
      simp only [List.drop_succ_cons, List.drop_zero] at ih ⊢
      rcases ih with ih | ih
      · left; rw [ih]; conv_rhs => rw [hs']
        simp
      · right; rw [ih]; conv_rhs => rw [hs']
        simp

theorem takeWhile_append_delim {d : Char} {w : Str} (hw : d ∉ w) (rest : Str) :
    (w ++ d :: rest).takeWhile (· != d) = w := by
  induction w with
  | nil => simp
  | cons c w ih =>
    have hc : c ≠ d := by intro h; exact hw (by simp [h])
    have : d ∉ w := fun h => hw (List.mem_cons_of_mem _ h)
    simp [hc, ih this]

theorem dropWhile_append_delim {d : Char} {w : Str} (hw : d ∉ w) (rest : Str) :
    (w ++ d :: rest).dropWhile (· != d) = d :: rest := by
  induction w with
  | nil => simp
  | cons c w ih =>
    have hc : c ≠ d := by intro h; exact hw (by simp [h])
    have : d ∉ w := fun h => hw (List.mem_cons_of_mem _ h)
    simp [hc, ih this]

theorem getlines_append {d : Char} {w : Str} (hw : d ∉ w) (rest : Str) :
    getlines d (w ++ d :: rest) = w :: getlines d rest := by
  have : w ++ d :: rest ≠ [] := by simp
  obtain ⟨c, cs, h⟩ := List.exists_cons_of_ne_nil this
  rw [h, getlines_cons, ← h, takeWhile_append_delim hw, dropWhile_append_delim hw]
  simp

theorem getlines_single {d : Char} {w : Str} (hw : d ∉ w) (hne : w ≠ []) :
    getlines d w = [w] := by
  obtain ⟨c, cs, rfl⟩ := List.exists_cons_of_ne_nil hne
  rw [getlines_cons]
  have ht : (c :: cs).takeWhile (· != d) = c :: cs := by
    rw [List.takeWhile_eq_self_iff]
    intro x hx
    have : x ≠ d := fun h => hw (h ▸ hx)
    simpa using this
  have hd : (c :: cs).dropWhile (· != d) = [] := by
    have := List.takeWhile_append_dropWhile (p := (· != d)) (l := c :: cs)
    rw [ht] at this
    simpa using this
  rw [ht, hd]; simp [getlines_nil]

/-! ### splitDelims -/

theorem foldl_splitStep_elems (delims : List Char) (k : Bool) :
    ∀ (s : Str) (st : SplitState),
      (s.foldl (splitStep delims k) st).elems =
        st.elems ++ (s.foldl (splitStep delims k) { elems := [], tmp := st.tmp }).elems ∧
      (s.foldl (splitStep delims k) st).tmp =
        (s.foldl (splitStep delims k) { elems := [], tmp := st.tmp }).tmp
  | [], st => by simp
  | c :: s, st => by
    simp only [List.foldl_cons]
    have h1 := foldl_splitStep_elems delims k s (splitStep delims k st c)
    have h2 := foldl_splitStep_elems delims k s
      (splitStep delims k { elems := [], tmp := st.tmp } c)
    have ht : (splitStep delims k st c).tmp =
        (splitStep delims k { elems := [], tmp := st.tmp } c).tmp := by
      unfold splitStep; split <;> rfl
    have he : (splitStep delims k st c).elems = st.elems ++
        (splitStep delims k { elems := [], tmp := st.tmp } c).elems := by
      unfold splitStep; split
      · by_cases htmp : st.tmp = [] <;> cases k <;> simp [htmp]
      · simp
    rw [h1.1, h1.2, h2.1, h2.2, ht, he]
    simp

/-- `splitDelims` with a pending piece. -/
def splitFrom (delims : List Char) (k : Bool) (tmp s : Str) : List Str :=
  let st := s.foldl (splitStep delims k) { elems := [], tmp := tmp }
  if st.tmp ≠ [] then st.elems ++ [st.tmp] else st.elems

theorem splitDelims_eq (s : Str) (delims : List Char) (k : Bool) :
    splitDelims s delims k = splitFrom delims k [] s := rfl

theorem splitFrom_nil (delims : List Char) (k : Bool) (tmp : Str) :
    splitFrom delims k tmp [] = if tmp ≠ [] then [tmp] else [] := by
  by_cases h : tmp = [] <;> simp [splitFrom, h]

theorem splitFrom_cons (delims : List Char) (k : Bool) (tmp : Str) (c : Char) (s : Str) :
    splitFrom delims k tmp (c :: s) =
      if c ∈ delims then
        (if tmp ≠ [] then [tmp] else []) ++ (if k then [[c]] else []) ++ splitFrom delims k [] s
      else splitFrom delims k (tmp ++ [c]) s := by
  unfold splitFrom
  simp only [List.foldl_cons]
  have h := foldl_splitStep_elems delims k s (splitStep delims k { elems := [], tmp := tmp } c)
  simp only [h.1, h.2]
  by_cases hc : c ∈ delims
  · have : (splitStep delims k { elems := [], tmp := tmp } c) =
        { elems := (if tmp ≠ [] then [tmp] else []) ++ (if k then [[c]] else []), tmp := [] } := by
      unfold splitStep
      rw [if_pos (by simpa using hc)]
      by_cases ht : tmp = [] <;> cases k <;> simp [ht]
    simp only [this, if_pos hc]
    split <;> simp
  · have : (splitStep delims k { elems := [], tmp := tmp } c) =
        { elems := [], tmp := tmp ++ [c] } := by
      unfold splitStep
      rw [if_neg (by simpa using hc)]
    simp only [this, if_neg hc]
    simp

theorem splitFrom_flatten_keep (delims : List Char) : ∀ (s tmp : Str),
    (splitFrom delims true tmp s).flatten = tmp ++ s
  | [], tmp => by
    rw [splitFrom_nil]; by_cases h : tmp = [] <;> simp [h]
  | c :: s, tmp => by
    rw [splitFrom_cons]
    by_cases hc : c ∈ delims
    · rw [if_pos hc]
      simp only [List.flatten_append, splitFrom_flatten_keep delims s []]
      by_cases h : tmp = [] <;> simp [h]
    · rw [if_neg hc, splitFrom_flatten_keep delims s]; simp

theorem splitFrom_flatten_drop (delims : List Char) : ∀ (s tmp : Str),
    (splitFrom delims false tmp s).flatten = tmp ++ s.filter (· ∉ delims)
  | [], tmp => by
    rw [splitFrom_nil]; by_cases h : tmp = [] <;> simp [h]
  | c :: s, tmp => by
    rw [splitFrom_cons]
    by_cases hc : c ∈ delims
    · rw [if_pos hc]
      simp only [List.flatten_append, splitFrom_flatten_drop delims s []]
      by_cases h : tmp = [] <;> simp [h, hc]
    · rw [if_neg hc, splitFrom_flatten_drop delims s]; simp [hc]

theorem splitFrom_pieces (delims : List Char) (k : Bool) : ∀ (s tmp : Str),
    (∀ c ∈ tmp, c ∉ delims) → ∀ w ∈ splitFrom delims k tmp s,
      w ≠ [] ∧ ((∀ c ∈ w, c ∉ delims) ∨ (k = true ∧ ∃ c ∈ delims, w = [c]))
  | [], tmp => by
    intro ht w hw
    rw [splitFrom_nil] at hw
    split at hw
    · simp at hw; subst hw; exact ⟨by assumption, Or.inl ht⟩
    · simp at hw
  | c :: s, tmp => by
    intro ht w hw
    rw [splitFrom_cons] at hw
    by_cases hc : c ∈ delims
    · rw [if_pos hc] at hw
      simp only [List.mem_append] at hw
      rcases hw with (hw | hw) | hw
      · split at hw
        · simp at hw; subst hw; exact ⟨by assumption, Or.inl ht⟩
        · simp at hw
      · cases k
        · simp at hw
        · simp at hw; subst hw; exact ⟨by simp, Or.inr ⟨rfl, c, hc, rfl⟩⟩
      · exact splitFrom_pieces delims k s [] (by simp) w hw
    · rw [if_neg hc] at hw
      refine splitFrom_pieces delims k s (tmp ++ [c]) ?_ w hw
      intro x hx
      rcases List.mem_append.1 hx with hx | hx
      · exact ht x hx
      · simp at hx; subst hx; exact hc

/-! ### trim -/

theorem ltrim_spec (s : Str) : ∃ pre, s = pre ++ ltrim s ∧ (∀ c ∈ pre, isSpace c = true) ∧
    ∀ c, (ltrim s).head? = some c → isSpace c = false := by
  refine ⟨s.takeWhile isSpace, (List.takeWhile_append_dropWhile).symm, ?_, ?_⟩
  · intro c hc; exact List.mem_takeWhile_imp hc
  · intro c hc
    have := List.head?_dropWhile_not isSpace s
    unfold ltrim at hc
    rw [hc] at this
    simpa using this

theorem rtrim_spec (s : Str) : ∃ post, s = rtrim s ++ post ∧ (∀ c ∈ post, isSpace c = true) ∧
    ∀ c, (rtrim s).getLast? = some c → isSpace c = false := by
  obtain ⟨pre, h1, h2, h3⟩ := ltrim_spec s.reverse
  refine ⟨pre.reverse, ?_, ?_, ?_⟩
  · have := congrArg List.reverse h1
    simpa [rtrim, ltrim] using this
  · intro c hc; exact h2 c (by simpa using hc)
  · intro c hc
    apply h3 c
    simpa [rtrim, ltrim] using hc

end AmpGen.Strings
