import Verif.Strings.LemmasMatch
import Verif.Strings.LemmasEdit
/-
Property theorems about the string utilities (C29, C30, C31, C32).
The notions used in the statements are those of `Verif.Strings.Spec` and of
Lean's list library.
-/
namespace AmpGen.Strings

open Spec

/-! ### C29: splitting and joining -/

/-- C29. Splitting on a set of delimiter characters and keeping the delimiters:
the pieces concatenate to the original string. -/
theorem splitDelims_keep_concat (s : Str) (delims : List Char) :
    (splitDelims s delims true).flatten = s := by
  rw [splitDelims_eq, splitFrom_flatten_keep]; rfl

example : splitDelims ['a', '+', 'b', 'c', '*', '+', 'd'] ['+', '*'] true =
    [['a'], ['+'], ['b', 'c'], ['*'], ['+'], ['d']] := by decide

/-- C29. Without keeping the delimiters, the pieces concatenate to the original
string with exactly the delimiter characters removed: nothing else is lost and
nothing is reordered. -/
theorem splitDelims_drop_concat (s : Str) (delims : List Char) :
    (splitDelims s delims false).flatten = s.filter (fun c => c ∉ delims) := by
  rw [splitDelims_eq, splitFrom_flatten_drop]; rfl

example : splitDelims ['a', '+', 'b', 'c', '*', '+', 'd'] ['+', '*'] false =
    [['a'], ['b', 'c'], ['d']] := by decide

/-- C29. Every piece is non-empty and is either free of delimiters or (when they
are kept) one single delimiter. -/
theorem splitDelims_pieces (s : Str) (delims : List Char) (keep : Bool) :
    ∀ w ∈ splitDelims s delims keep,
      w ≠ [] ∧ ((∀ c ∈ w, c ∉ delims) ∨ (keep = true ∧ ∃ c ∈ delims, w = [c])) :=
  splitFrom_pieces delims keep s [] (by simp)

/-- C29. Pieces are as long as possible: two delimiter-free pieces are never
adjacent when delimiters are kept, so a piece is only ended by a delimiter. -/
theorem splitDelims_maximal (s : Str) (delims : List Char) :
    (splitDelims s delims true).IsChain
      (fun a b => ¬ ((∀ c ∈ a, c ∉ delims) ∧ (∀ c ∈ b, c ∉ delims))) :=
  splitFrom_chain delims s [] (by simp)

/-- C29. Dropping the delimiters gives the same pieces as keeping them and then
discarding the delimiter pieces. -/
theorem splitDelims_drop_eq_filter (s : Str) (delims : List Char) :
    splitDelims s delims false =
      (splitDelims s delims true).filter (fun w => decide (∀ c ∈ w, c ∉ delims)) :=
  splitFrom_filter delims s [] (by simp)

/-- C29. Splitting on one delimiter without dropping blanks: no piece contains
the delimiter, and terminating every piece with the delimiter gives back the
string, up to one final delimiter. -/
theorem split_concat (s : Str) (d : Char) :
    (∀ w ∈ split s d false, d ∉ w) ∧
    ((split s d false).flatMap (· ++ [d]) = s ∨
     (split s d false).flatMap (· ++ [d]) = s ++ [d]) := by
  have h : split s d false = getlines d s := by simp [split]
  rw [h]
  exact ⟨getlines_no_delim d s, getlines_flatMap d s⟩

/-- C29. Dropping blanks removes exactly the pieces `""`, `" "`, tab and newline. -/
theorem split_ignore_blank (s : Str) (d : Char) :
    split s d true = (split s d false).filter
      (fun w => decide (w ≠ [] ∧ w ≠ [' '] ∧ w ≠ ['\n'] ∧ w ≠ ['\t'])) := by
  unfold split
  rw [List.filter_filter]
  congr 1
  funext w
  simp only [isBlankItem, Bool.not_true, Bool.false_or, Bool.not_false, Bool.true_or, Bool.and_true]
  by_cases h1 : w = [] <;> by_cases h2 : w = [' '] <;> by_cases h3 : w = ['\n'] <;>
    by_cases h4 : w = ['\t'] <;> simp [*]

/-- C29. Joining with the delimiter and splitting again is the identity on lists
of non-blank tokens that do not contain the delimiter. -/
theorem split_join_roundtrip (d : Char) (ws : List Str) (ign : Bool)
    (hd : ∀ w ∈ ws, d ∉ w)
    (hb : ∀ w ∈ ws, w ≠ [] ∧ w ≠ [' '] ∧ w ≠ ['\n'] ∧ w ≠ ['\t']) :
    split ([d].intercalate ws) d ign = ws := by
  have key : ∀ ws : List Str, (∀ w ∈ ws, d ∉ w) → (∀ w ∈ ws, w ≠ []) →
      getlines d ([d].intercalate ws) = ws := by
    intro ws
    induction ws with
    | nil => intro _ _; simp [getlines_nil]
    | cons w ws ih =>
      intro h1 h2
      cases ws with
      | nil => simpa using getlines_single (h1 w (by simp)) (h2 w (by simp))
      | cons w' ws' =>
        have : [d].intercalate (w :: w' :: ws') = w ++ d :: [d].intercalate (w' :: ws') := by
          simp [List.intercalate, List.intersperse]
        rw [this, getlines_append (h1 w (by simp)),
          ih (fun x hx => h1 x (List.mem_cons_of_mem _ hx))
            (fun x hx => h2 x (List.mem_cons_of_mem _ hx))]
  unfold split
  rw [key ws hd (fun w hw => (hb w hw).1), List.filter_eq_self]
  intro w hw
  obtain ⟨h1, h2, h3, h4⟩ := hb w hw
  simp [isBlankItem, h1, h2, h3, h4]

example : split ([','].intercalate [['a', 'b'], ['c'], ['d', ' ', 'e']]) ',' true =
    [['a', 'b'], ['c'], ['d', ' ', 'e']] :=
  split_join_roundtrip ',' _ true (by decide) (by decide)

/-- C29 (search). `findAll` reports exactly the positions at which the text occurs
and lists them in strictly increasing order. -/
theorem findAll_correct (input pat : Str) :
    (∀ p, p ∈ findAll input pat ↔ OccursAt pat input p) ∧
      (findAll input pat).Pairwise (· < ·) := by
  refine ⟨fun p => ?_, findAllFrom_sorted 0⟩
  rw [occursAt_iff, findAll, mem_findAllFrom]
  simp

example : OccursAt ['a', 'a'] ['b', 'a', 'a', 'a'] 2 := ⟨['b', 'a'], [], rfl, rfl⟩

/-- C29 (trimming). `trim` removes only white space, only at the two ends, and
all of it. -/
theorem trim_correct (s : Str) : ∃ pre post, s = pre ++ trim s ++ post ∧
    (∀ c ∈ pre, isSpace c = true) ∧ (∀ c ∈ post, isSpace c = true) ∧
    (∀ c, (trim s).head? = some c → isSpace c = false) ∧
    (∀ c, (trim s).getLast? = some c → isSpace c = false) := by
  obtain ⟨post, h1, h2, h3⟩ := rtrim_spec s
  obtain ⟨pre, h4, h5, h6⟩ := ltrim_spec (rtrim s)
  refine ⟨pre, post, ?_, h5, h2, h6, ?_⟩
  · unfold trim; rw [← h4]; exact h1
  · intro c hc
    apply h3
    rw [h4]
    have hne : ltrim (rtrim s) ≠ [] := by
      intro h; unfold trim at hc; rw [h] at hc; simp at hc
    rw [List.getLast?_append_of_ne_nil _ hne]
    exact hc

example : trim [' ', '\t', 'a', ' ', 'b', '\n'] = ['a', ' ', 'b'] := by decide

/-- C29. Swapping two characters twice is the identity. -/
theorem swapChars_involutive (s : Str) (a b : Char) : swapChars (swapChars s a b) a b = s := by
  unfold swapChars
  rw [List.map_map]
  conv => rhs; rw [← List.map_id s]
  congr 1
  funext c
  simp only [Function.comp, id]
  by_cases h1 : c = a
  · subst h1
    by_cases h2 : b = c <;> simp [h2]
  · by_cases h2 : c = b
    · subst h2; simp [h1]
    · simp [h1, h2]

/-! ### C30: replaceAll -/

/-- The specification determines the result: for every input there is exactly one
string obtained by replacing the occurrences scanned from the left. -/
theorem replaced_exists_unique (pat rep s : Str) (hp : pat ≠ []) :
    ∃ t, Replaced pat rep s t ∧ ∀ u, Replaced pat rep s u → u = t := by
  obtain ⟨t, ht⟩ := replaced_total (rep := rep) hp s.length s (Nat.le_refl _)
  exact ⟨t, ht, fun u hu => (replaced_unique ht hu).symm⟩

/-- C30 (partial: restricted to replacements at least as long as the pattern
whose excess does not contain the first character of the pattern).  The loop
terminates within one iteration more than the length of the input and returns
the left-to-right replacement. -/
theorem replaceAll_correct_partial (input rep : Str) (p0 : Char) (ptl : Str) (fuel : Nat)
    (hlen : (p0 :: ptl).length ≤ rep.length) (hgap : p0 ∉ rep.drop (p0 :: ptl).length)
    (hfuel : input.length < fuel) :
    ∃ t, replaceAll fuel input (p0 :: ptl) rep = some t ∧ Replaced (p0 :: ptl) rep input t := by
  unfold replaceAll
  split
  · rename_i h
    subst h
    refine ⟨input, rfl, ?_⟩
    obtain ⟨t, ht⟩ := replaced_total (pat := p0 :: ptl) (rep := p0 :: ptl) (by simp)
      input.length input (Nat.le_refl _)
    have : ∀ {s t : Str}, Replaced (p0 :: ptl) (p0 :: ptl) s t → t = s := by
      intro s t h
      induction h with
      | done => rfl
      | skip _ _ ih => rw [ih]
      | hit _ _ ih => rw [ih]
    rw [this ht] at ht
    exact ht
  · obtain ⟨t, h1, h2⟩ := replaceLoop_correct (pat := p0 :: ptl) rfl hlen hgap fuel [] [] input
      hfuel (by simp)
    exact ⟨t, by simpa using h1, h2⟩

example : replaceAll 10 ['x', 'a', 'b', 'a', 'b', 'y'] ['a', 'b'] ['[', 'b', ']'] =
    some ['x', '[', 'b', ']', '[', 'b', ']', 'y'] := by decide

example : (['a', 'b'] : Str).length ≤ (['[', 'b', ']'] : Str).length ∧
    'a' ∉ (['[', 'b', ']'] : Str).drop 2 := by decide

/-- C30 fails in general: after a replacement the search resumes `|pattern|`
characters further on even when the replacement is shorter, so it skips text:
replacing `aa` by nothing in `aaaa` leaves `aa`. -/
theorem replaceAll_shorter_counterexample :
    replaceAll 10 ['a', 'a', 'a', 'a'] ['a', 'a'] [] = some ['a', 'a'] ∧
    Replaced ['a', 'a'] [] ['a', 'a', 'a', 'a'] [] :=
  ⟨by decide, .hit (s := ['a', 'a']) (t := []) (by simp)
    (.hit (s := []) (t := []) (by simp) .done)⟩

/-- C30 fails in general: replacing `a` by `ba` in `a` never ends, because the
search resumes inside the inserted text. -/
theorem replaceAll_nonterminating : ∀ fuel, replaceAll fuel ['a'] ['a'] ['b', 'a'] = none := by
  have key : ∀ fuel (pre : Str), replaceLoop ['a'] ['b', 'a'] fuel (pre ++ ['a']) pre.length = none := by
    intro fuel
    induction fuel with
    | zero => intro _; rfl
    | succ n ih =>
      intro pre
      have hf : find (pre ++ ['a']) ['a'] pre.length = some pre.length := by
        rw [find_eq_some_iff]
        refine ⟨Nat.le_refl _, by simp, by simp, ?_⟩
        intro q h1 h2; omega
      simp only [replaceLoop, hf]
      have := ih (pre ++ ['b'])
      simpa using this
  intro fuel
  unfold replaceAll
  rw [if_neg (by decide)]
  exact key fuel []

/-! ### C31: wildcards -/

/-- C31 (partial: patterns without a wildcard, patterns whose only wildcard is
the last character, and patterns `*text*`).  For these shapes matching is exact. -/
theorem matchesWildcard_exact_partial (input p : Str) (star : Char) (hp : star ∉ p) :
    (matchesWildcard input p star = true ↔ WildMatch star p input) ∧
    (matchesWildcard input (p ++ [star]) star = true ↔ WildMatch star (p ++ [star]) input) ∧
    (matchesWildcard input (star :: p ++ [star]) star = true ↔
      WildMatch star (star :: p ++ [star]) input) := by
  have hpre : ∀ i, WildMatch star (p ++ [star]) i ↔ p <+: i := by
    intro i
    rw [wild_seg_star (q := []) hp]
    constructor
    · rintro ⟨sk, r, rfl, -⟩; exact ⟨sk ++ r, by simp⟩
    · rintro ⟨r, rfl⟩; exact ⟨r, [], by simp, .nil⟩
  refine ⟨?_, ?_, ?_⟩
  · rw [matches_literal hp, wild_literal hp]
  · rw [matches_prefix hp, hpre]
  · have h := matches_seg (star := star) (input := input) (p := []) (q := p ++ [star])
      (by simp) (by simp)
    rw [List.nil_append] at h
    rw [List.cons_append, h, wild_cons_star]
    have htw : (p ++ [star]).takeWhile (· != star) = p := takeWhile_append_delim hp []
    rw [htw]
    constructor
    · rintro ⟨-, k, hk, hm⟩
      rw [matches_prefix hp] at hm
      exact ⟨input.take k, input.drop k, (List.take_append_drop _ _).symm, (hpre _).mpr hm⟩
    · rintro ⟨sk, r, rfl, hr⟩
      refine ⟨by simp, ?_⟩
      have hpr := (hpre _).mp hr
      cases hf : find (sk ++ r) p 0 with
      | none =>
        exact absurd (by rwa [List.drop_left]) (find_none hf sk.length (Nat.zero_le _) (by simp))
      | some k =>
        refine ⟨k, rfl, ?_⟩
        rw [matches_prefix hp]
        exact (find_some hf).2.2.1

example : '*' ∉ ['K', 'p'] ∧ WildMatch '*' ['*', 'K', 'p', '*'] ['D', 'K', 'p', '_'] :=
  ⟨by decide, .star ['D'] (.char (by decide) (.char (by decide) (.star ['_'] .nil)))⟩

/-- C31 (partial: one direction).  A pattern that ends with the wildcard never
rejects a name it should accept, however many wildcards it contains. -/
theorem matchesWildcard_complete_partial (input w : Str) (star : Char)
    (h : WildMatch star (w ++ [star]) input) :
    matchesWildcard input (w ++ [star]) star = true :=
  matches_complete w.length w input (Nat.le_refl _) h

example : WildMatch '*' (['a', '*', 'b'] ++ ['*']) ['a', 'b', 'x', 'b'] :=
  .char (by decide) (.star ['b', 'x'] (.char (by decide) (.star [] .nil)))

/-- C31 (partial: one direction, one leading wildcard).  A name accepted by
`*text` does end with `text`. -/
theorem matchesWildcard_suffix_sound_partial (input p : Str) (star : Char) (hp : star ∉ p)
    (h : matchesWildcard input (star :: p) star = true) : WildMatch star (star :: p) input := by
  by_cases h0 : p = []
  · subst h0
    exact wild_cons_star.mpr ⟨input, [], by simp, .nil⟩
  · have hs := matches_seg (star := star) (input := input) (p := []) (q := p) (by simp) h0
    rw [List.nil_append] at hs
    obtain ⟨-, k, -, hm⟩ := hs.mp h
    rw [matches_literal hp] at hm
    exact wild_cons_star.mpr ⟨input.take k, input.drop k, (List.take_append_drop _ _).symm,
      (wild_literal hp).mpr hm⟩

/-- C31 fails in general: `*b` does not match `bab`, because only the first
occurrence of `b` is tried. -/
theorem matchesWildcard_incomplete_counterexample :
    matchesWildcard ['b', 'a', 'b'] ['*', 'b'] '*' = false ∧
    WildMatch '*' ['*', 'b'] ['b', 'a', 'b'] := by
  refine ⟨?_, .star ['b', 'a'] (.char (by decide) .nil)⟩
  cases h : matchesWildcard ['b', 'a', 'b'] ['*', 'b'] '*' with
  | false => rfl
  | true =>
    exfalso
    have hs := (matches_seg (star := '*') (input := ['b', 'a', 'b']) (p := []) (q := ['b'])
      (by simp) (by simp)).mp h
    obtain ⟨-, k, hk, hm⟩ := hs
    rw [matches_literal (by decide)] at hm
    have : k = 0 := by
      have h0 : find ['b', 'a', 'b'] (['b'].takeWhile (· != '*')) 0 = some 0 := by decide
      rw [h0] at hk; cases hk; rfl
    subst this
    exact absurd hm (by decide)

/-- C31 fails in general: `ab*b` matches `ab`, because the text matched by the two
ends of the pattern may overlap. -/
theorem matchesWildcard_unsound_counterexample :
    matchesWildcard ['a', 'b'] ['a', 'b', '*', 'b'] '*' = true ∧
    ¬ WildMatch '*' ['a', 'b', '*', 'b'] ['a', 'b'] := by
  constructor
  · refine (matches_seg (star := '*') (input := ['a', 'b']) (p := ['a', 'b']) (q := ['b'])
      (by decide) (by simp)).mpr ⟨by decide, 1, by decide, ?_⟩
    exact (matches_literal (by decide)).mpr (by decide)
  · intro h
    rw [show (['a', 'b', '*', 'b'] : Str) = ['a', 'b'] ++ '*' :: ['b'] by rfl,
      wild_seg_star (by decide)] at h
    obtain ⟨sk, r, h1, h2⟩ := h
    rw [wild_literal (by decide)] at h2
    subst h2
    have := congrArg List.length h1
    simp only [List.length_append, List.length_cons, List.length_nil] at this
    omega

/-! ### C32: edit distance -/

/-- C32. The edit distance is always produced, there is a sequence of that many
single-character edits turning `s` into `t`, and no shorter sequence exists. -/
theorem editDistance_minimal (s t : Str) :
    ∃ n, editDistance s t = some n ∧ EditSteps s t n ∧ ∀ m, EditSteps s t m → n ≤ m := by
  obtain ⟨n, h1, h2, h3⟩ := editDistance_min s t
  refine ⟨n, h1, edits_editSteps h2, ?_⟩
  intro m hm
  obtain ⟨k, hk, h⟩ := editSteps_edits hm
  exact Nat.le_trans (h3 k h) hk

example : editDistance ['k', 'i', 't', 't', 'e', 'n'] ['s', 'i', 't', 't', 'i', 'n', 'g'] = some 3 := by
  decide

/-- C32. The edit distance is a metric on strings. -/
theorem editDistance_metric :
    (∀ s t, editDistance s t = some 0 ↔ s = t) ∧
    (∀ s t, editDistance s t = editDistance t s) ∧
    (∀ s t u a b c, editDistance s t = some a → editDistance t u = some b →
      editDistance s u = some c → c ≤ a + b) := by
  refine ⟨?_, ?_, ?_⟩
  · intro s t
    obtain ⟨n, h1, h2, h3⟩ := editDistance_min s t
    constructor
    · intro h
      rw [h1] at h; cases h
      exact edits_zero h2 rfl
    · rintro rfl
      have := h3 0 (edits_refl s)
      rw [h1]; congr 1; omega
  · intro s t
    obtain ⟨n, h1, h2, h3⟩ := editDistance_min s t
    obtain ⟨m, g1, g2, g3⟩ := editDistance_min t s
    rw [h1, g1]
    have := h3 m (edits_symm g2)
    have := g3 n (edits_symm h2)
    congr 1; omega
  · intro s t u a b c ha hb hc
    obtain ⟨n, h1, h2, -⟩ := editDistance_min s t
    obtain ⟨m, g1, g2, -⟩ := editDistance_min t u
    obtain ⟨k, f1, -, f3⟩ := editDistance_min s u
    rw [h1] at ha; rw [g1] at hb; rw [f1] at hc
    cases ha; cases hb; cases hc
    obtain ⟨l, hl, he⟩ := edits_trans h2 g2
    exact Nat.le_trans (f3 l he) hl

end AmpGen.Strings
