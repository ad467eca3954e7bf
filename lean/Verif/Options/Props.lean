import Verif.Options.Lemmas
/-
C23: option files and command lines.
-/
namespace AmpGen.Options
open AmpGen.Strings (Str getlines find find_eq_some_iff find_none find_some)

/-- C23.  Reading a file: if its text consists of statements (words separated by blanks or in quotes, comments preceded by a blank or at the beginning of a line, blocks in
braces that may extend over several lines) and the statements, with those of imported files in their place, make the settings `es`, then the
file is read without failure and afterwards looking up any key gives the last setting of that key, what it was before if it is not set, and
the ordered input lists the keys in the order they were set.

Missing: comments that follow a word without a blank, see `options_comment_counterexample`. -/
theorem options_last_wins_partial {fs : Str → Option Str} {expand : Str → Str} {file text : Str} (hf : fs file = some text) (hcr : '\r' ∉ text)
    {ss es : List (List Str)} (hs : Statements (getlines '\n' text) ss) (he : Settings fs expand ss es) :
    ∃ n, ∀ m, n ≤ m → ∀ p, ∃ q, importFile fs expand m file p = some q ∧ (∀ key, q.find key = (lastSet es key <|> p.find key)) ∧
      q.getInputOrdered = (p.ordered ++ es.map fun e => e.head?.getD []).map q.find := by
  obtain ⟨n, hn⟩ := settings_apply he
  refine ⟨n + 1, fun m hm p => ?_⟩
  obtain ⟨m, rfl⟩ : ∃ k, m = k + 1 := ⟨m - 1, by omega⟩
  refine ⟨apply p es, ?_, fun key => apply_parsed es p key (settings_ne he), ?_⟩
  · rw [importFile, hf]
    simp only
    rw [import_text hcr hs, hn m (by omega)]
  · unfold Parser.getInputOrdered
    rw [apply_ordered]
    rfl

/-- Two files: the first imports the second, has a comment, sets `x` to a quoted word and `y` in a block over two lines. -/
def demoFiles (f : Str) : Option Str :=
  if f = ['m'] then some (['I', 'm', 'p', 'o', 'r', 't', ' ', 's', '\n', '#', ' ', 'c', '\n', 'x', ' ', '"', '2', ' ', '3', '"', ' ', '#', '\n', 'y', ' ', '{', '\n',
    ' ', '5', ' ', '}'])
  else if f = ['s'] then some ['x', ' ', '1'] else none

example : ∃ m q, importFile demoFiles id m ['m'] ⟨fun _ => none, []⟩ = some q ∧ q.find ['x'] = some [['x'], ['2', ' ', '3']] ∧
    q.find ['y'] = some [['y'], ['5']] ∧ q.find ['z'] = none := by
  have hp : ∀ c : Char, isBlank c = false → c ≠ '#' → c ≠ '"' → Plain [c] := fun c h1 h2 h3 => ⟨by simp, by simpa using h1, by simpa using h2.symm, by simpa using h3.symm⟩
  have hI : Plain "Import".toList := ⟨by decide, by decide, by decide, by decide⟩
  obtain ⟨n, hn⟩ := options_last_wins_partial (file := ['m']) (expand := id) (fs := demoFiles)
    (ss := [["Import".toList, ['s']], [['x'], ['2', ' ', '3']], [['y'], ['5']]])
    (es := [[['x'], ['1']], [['x'], ['2', ' ', '3']], [['y'], ['5']]]) rfl (by decide) (by
      have e : getlines '\n' ['I', 'm', 'p', 'o', 'r', 't', ' ', 's', '\n', '#', ' ', 'c', '\n', 'x', ' ', '"', '2', ' ', '3', '"', ' ', '#', '\n', 'y', ' ', '{', '\n',
        ' ', '5', ' ', '}'] =
        ["Import".toList ++ [' ', 's']] ++ (['#', ' ', 'c'] :: ([['x', ' ', '"', '2', ' ', '3', '"', ' ', '#']] ++ ([['y', ' ', '{'], [' ', '5', ' ', '}']] ++ []))) := by
          simp [getlines]
      rw [e]
      refine .block (ts := ["Import".toList, ['s']]) (.last (e := 0) ⟨.word hI (c := ' ') (by decide) (.last (hp 's' (by decide) (by decide) (by decide))), by simp, by decide⟩ rfl) ?_
      refine .skip (Or.inr (Or.inr (Or.inl rfl))) ?_
      refine .block (ts := [['x'], ['2', ' ', '3']]) (.last (e := 0) ⟨.word (hp 'x' (by decide) (by decide) (by decide)) (c := ' ') (by decide)
        (.quoted (w := ['2', ' ', '3']) (by decide) (by decide) (.blank (c := ' ') (by decide) (.comment _))), by simp, by decide⟩ rfl) ?_
      exact .block (ts := [['y'], ['{']] ++ [['5'], ['}']]) (.more (e := 1) ⟨.word (hp 'y' (by decide) (by decide) (by decide)) (c := ' ') (by decide)
        (.last (hp '{' (by decide) (by decide) (by decide))), by simp, by decide⟩ (by decide)
        (.last (e := net ['5'] + net ['}']) ⟨.blank (c := ' ') (by decide) (.word (hp '5' (by decide) (by decide) (by decide)) (c := ' ') (by decide)
          (.last (hp '}' (by decide) (by decide) (by decide)))), by simp, by decide⟩ (by decide))) .nil)
    (.imported (text := ['x', ' ', '1']) (us := [[['x'], ['1']]]) (vs := [[['x'], ['1']]]) rfl (by decide) (by
      have e : getlines '\n' ['x', ' ', '1'] = [['x', ' ', '1']] ++ [] := by simp [getlines]
      rw [e]
      exact .block (ts := [['x'], ['1']]) (.last (e := 0) ⟨.word (hp 'x' (by decide) (by decide) (by decide)) (c := ' ') (by decide)
        (.last (hp '1' (by decide) (by decide) (by decide))), by simp, by decide⟩ rfl) .nil)
      (.set (by decide) .nil) (.set (by decide) (.set (by decide) .nil)))
  obtain ⟨q, h1, h2, _⟩ := hn n le_rfl ⟨fun _ => none, []⟩
  exact ⟨n, q, h1, (h2 _).trans (by decide), (h2 _).trans (by decide), (h2 _).trans (by decide)⟩

/-- C23 fails for a comment that follows a word without a blank: the word before it is lost as well. -/
theorem options_comment_counterexample (depth : Int) : (makeParsedStrings "x y#c".toList depth).1 = ["x".toList] ∧
    (makeParsedStrings "x y #c".toList depth).1 = ["x".toList, "y".toList] :=
  ⟨rfl, rfl⟩

/-- C23.  A file that imports itself is never finished, however many nested imports are allowed. -/
theorem options_import_cycle_counterexample (m : Nat) (p : Parser) :
    importFile (fun f => if f = ['m'] then some "Import m".toList else none) id m ['m'] p = none := by
  induction m with
  | zero => rfl
  | succ m ih =>
    rw [importFile]
    have e : fileLines "Import m".toList = ["Import m".toList] := by simp [fileLines, getlines]
    simp only [if_true]
    rw [e, importLines]
    have h1 : ignoreThisLine "Import m".toList = false := rfl
    have h2 : makeParsedStrings "Import m".toList 0 = (["Import".toList, ['m']], 0) := rfl
    rw [h1, h2]
    simp only [List.nil_append, List.length_cons, List.length_nil, Bool.false_eq_true, if_false, ne_eq, not_true, Nat.add_eq_zero_iff,
      Nat.one_ne_zero, and_false]
    have h3 : (["Import".toList, ['m']].filter fun o => !isCurlyBrace o) = ["Import".toList, ['m']] := by decide
    rw [h3, addTokens_import]
    show Option.bind (importFile _ _ m ['m'] p) _ = none
    rw [ih]
    rfl

/-- C23, command lines.  The arguments make their settings in order, files being read where they are named: afterwards looking up any key gives the
last setting of that key, and what it was before if it is not set. -/
theorem command_line_last_wins {fs : Str → Option Str} {expand : Str → Str} {args : List Str} {es : List (List Str)} (h : Commands fs expand args es) :
    ∃ n, ∀ m, n ≤ m → ∀ p, ∃ q, commandLine fs expand m args p = some q ∧ (∀ key, q.find key = (lastSet es key <|> p.find key)) ∧
      q.getInputOrdered = (p.ordered ++ es.map fun e => e.head?.getD []).map q.find := by
  have occ : ∀ {s pat : Str}, ¬ pat <:+: s → find s pat 0 = none := by
    intro s pat hn
    cases hf : find s pat 0 with
    | none => rfl
    | some q =>
      obtain ⟨_, _, h3, _⟩ := find_some hf
      exact absurd (h3.isInfix.trans (List.drop_suffix q s).isInfix) hn
  have occ' : ∀ {s pat : Str}, pat <:+: s → find s pat 0 ≠ none := by
    rintro s pat ⟨a, b, rfl⟩ hf
    refine find_none hf a.length (by omega) (by simp) ?_
    rw [List.append_assoc, List.drop_left]
    exact List.prefix_append _ _
  have dash : ∀ s : Str, find (['-', '-'] ++ s) ['-', '-'] 0 ≠ none := fun s => occ' ⟨[], s, rfl⟩
  have noeq : ∀ key : Str, '=' ∉ key → find (['-', '-'] ++ key) ['='] 0 = none := by
    intro key hk
    apply occ
    intro hin
    have : '=' ∈ ['-', '-'] ++ key := hin.subset (by simp)
    simp at this
    exact hk this
  have eq : ∀ key words : Str, '=' ∉ key → find (['-', '-'] ++ key ++ ['='] ++ words) ['='] 0 = some (key.length + 2) := by
    intro key words hk
    rw [find_eq_some_iff]
    refine ⟨by omega, by simp, ?_, ?_⟩
    · have : (['-', '-'] ++ key).length = key.length + 2 := by simp
      rw [← this, List.append_assoc, List.drop_left]
      exact List.prefix_append _ _
    · intro q _ hq hpre
      have hlen : q < (['-', '-'] ++ key).length := by simpa using hq
      obtain ⟨t, ht⟩ := hpre
      have h0 : (['-', '-'] ++ key ++ ['='] ++ words)[q]? = some '=' := by
        have h1 := List.getElem?_drop (xs := ['-', '-'] ++ key ++ ['='] ++ words) (i := q) (j := 0)
        rw [Nat.add_zero] at h1
        rw [← h1, ← ht]; rfl
      rw [List.append_assoc, List.getElem?_append_left hlen] at h0
      have := List.mem_of_getElem? h0
      simp at this
      exact hk this
  have arg : ∀ {key words : Str} {ts : List Str} {d : Int} (m : Nat) (p : Parser), Plain key → key ∉ keywords → Line words ts d →
      addArg fs expand m (key ++ [' '] ++ words) p = some (apply p [key :: ts]) := by
    intro key words ts d m p hp hk hl
    have hline : Line (key ++ [' '] ++ words) (key :: ts) (net key + d) := by
      rw [List.append_assoc]
      exact .word hp (by decide) hl
    unfold addArg
    rcases makeParsedStrings_line hline 0 with h' | h'
    · rw [h', addTokens_set hk]; rfl
    · simp at h'
  have main : ∃ n, ∀ m, n ≤ m → ∀ p, commandLine fs expand m args p = some (apply p es) := by
    induction h with
    | nil => exact ⟨0, fun m _ p => rfl⟩
    | @missing file rest es hn hf _ ih =>
      obtain ⟨n, hn'⟩ := ih
      refine ⟨n + 1, fun m hm p => ?_⟩
      obtain ⟨m, rfl⟩ : ∃ k, m = k + 1 := ⟨m - 1, by omega⟩
      rw [commandLine.eq_def]
      simp only
      rw [if_pos (occ hn), importFile, hf]
      exact hn' (m + 1) (by omega) p
    | @file file text rest us vs es hn hf hcr hst hse _ ih =>
      obtain ⟨n, hn'⟩ := ih
      obtain ⟨n2, h2⟩ := settings_apply hse
      refine ⟨n + n2 + 1, fun m hm p => ?_⟩
      obtain ⟨m, rfl⟩ : ∃ k, m = k + 1 := ⟨m - 1, by omega⟩
      rw [commandLine.eq_def]
      simp only
      rw [if_pos (occ hn), importFile, hf]
      simp only
      rw [import_text hcr hst, h2 m (by omega), Option.bind_some, hn' (m + 1) (by omega), apply_append]
    | @assign key words ts rest d es hp he hk hl _ ih =>
      obtain ⟨n, hn'⟩ := ih
      refine ⟨n, fun m hm p => ?_⟩
      rw [commandLine.eq_def]
      simp only
      rw [if_neg (by rw [List.append_assoc, List.append_assoc]; exact dash _), eq key words he]
      simp only
      have e1 : ((['-', '-'] ++ key ++ ['='] ++ words).drop 2).take (key.length + 2 - 2) = key := by
        simp
      have e2 : (['-', '-'] ++ key ++ ['='] ++ words).drop (key.length + 2 + 1) = words := by
        have : (['-', '-'] ++ key ++ ['=']).length = key.length + 2 + 1 := by simp
        rw [← this, List.drop_left]
      rw [e1, e2, arg m p hp hk hl, Option.bind_some, hn' m hm]
      exact congrArg some (apply_append p [key :: ts] es).symm
    | @pair key words ts rest d es hp he hk hw hl _ ih =>
      obtain ⟨n, hn'⟩ := ih
      refine ⟨n, fun m hm p => ?_⟩
      rw [commandLine.eq_def]
      simp only
      rw [if_neg (dash _), noeq key he]
      simp only
      rw [if_pos (occ hw)]
      have e1 : (['-', '-'] ++ key).drop 2 = key := rfl
      rw [e1, arg m p hp hk hl, Option.bind_some, hn' m hm]
      exact congrArg some (apply_append p [key :: ts] es).symm
    | @flag key rest es hp he hk hr _ ih =>
      obtain ⟨n, hn'⟩ := ih
      refine ⟨n, fun m hm p => ?_⟩
      rw [commandLine.eq_def]
      simp only
      rw [if_neg (dash _), noeq key he]
      simp only
      have e1 : (['-', '-'] ++ key).drop 2 = key := rfl
      have e2 : addArg fs expand m (key ++ [' ', '1']) p = some (apply p [[key, ['1']]]) := by
        have := arg (words := ['1']) m p hp hk (.last ⟨by simp, by decide, by decide, by decide⟩)
        simpa using this
      cases rest with
      | nil =>
        have := hn' m hm (apply p [[key, ['1']]])
        rw [commandLine] at this
        simp only
        rw [e1, e2, this]
        exact congrArg some (apply_append p [[key, ['1']]] es).symm
      | cons t rest =>
        simp only
        rw [if_neg (occ' (hr t rfl)), e1, e2, Option.bind_some, hn' m hm]
        exact congrArg some (apply_append p [[key, ['1']]] es).symm
  have hne : ∀ e ∈ es, e ≠ [] := by
    clear main
    induction h with
    | nil => intro e he; simp at he
    | missing _ _ _ ih => exact ih
    | file _ _ _ _ hse _ ih =>
      intro e he
      rcases List.mem_append.mp he with h | h
      · exact settings_ne hse e h
      · exact ih e h
    | assign _ _ _ _ _ ih =>
      intro e he
      rcases List.mem_cons.mp he with rfl | h
      · simp
      · exact ih e h
    | pair _ _ _ _ _ _ ih =>
      intro e he
      rcases List.mem_cons.mp he with rfl | h
      · simp
      · exact ih e h
    | flag _ _ _ _ _ ih =>
      intro e he
      rcases List.mem_cons.mp he with rfl | h
      · simp
      · exact ih e h
  obtain ⟨n, hn⟩ := main
  refine ⟨n, fun m hm p => ⟨apply p es, hn m hm p, fun key => apply_parsed es p key hne, ?_⟩⟩
  unfold Parser.getInputOrdered
  rw [apply_ordered]
  rfl

/-- `--x=3 --y --x 4` sets `x` to 4 and `y` to 1. -/
example : ∃ m q, commandLine (fun _ => none) id m ["--x=3".toList, "--y".toList, "--x".toList, "4".toList] ⟨fun _ => none, []⟩ = some q ∧
    q.find ['x'] = some [['x'], ['4']] ∧ q.find ['y'] = some [['y'], ['1']] := by
  have hp : ∀ c : Char, isBlank c = false → c ≠ '#' → c ≠ '"' → Plain [c] := fun c h1 h2 h3 => ⟨by simp, by simpa using h1, by simpa using h2.symm, by simpa using h3.symm⟩
  have hc : Commands (fun _ => none) id ["--x=3".toList, "--y".toList, "--x".toList, "4".toList] [[['x'], ['3']], [['y'], ['1']], [['x'], ['4']]] := by
    refine .assign (key := ['x']) (words := ['3']) (hp 'x' (by decide) (by decide) (by decide)) (by decide) (by decide) (.last (hp '3' (by decide) (by decide) (by decide))) ?_
    refine .flag (key := ['y']) (hp 'y' (by decide) (by decide) (by decide)) (by decide) (by decide) ?_ ?_
    · intro next h
      cases h
      exact ⟨[], ['x'], rfl⟩
    · refine .pair (key := ['x']) (words := ['4']) (hp 'x' (by decide) (by decide) (by decide)) (by decide) (by decide) (by decide) (.last (hp '4' (by decide) (by decide) (by decide))) .nil
  obtain ⟨n, hn⟩ := command_line_last_wins hc
  obtain ⟨q, h1, h2, _⟩ := hn n le_rfl ⟨fun _ => none, []⟩
  exact ⟨n, q, h1, (h2 _).trans (by decide), (h2 _).trans (by decide)⟩

/-- C23, named parameters.  If the last setting of a key has words after the key, a parameter of that name has the values these words stand for, with
the value-initialised value for words that cannot be read; otherwise it has its defaults. -/
theorem named_parameter_values {T : Type} (cast : Str → Option T) (dflt : T) (p : Parser) (name : Str) (defs : List T) :
    (∀ w ws, p.find name = some (name :: w :: ws) → namedParameter cast dflt p name defs = (w :: ws).map fun w => (cast w).getD dflt) ∧
    (p.find name = none ∨ p.find name = some [name] → namedParameter cast dflt p name defs = defs) := by
  unfold namedParameter
  refine ⟨?_, ?_⟩
  · intro w ws h
    rw [h]
    have hn : ¬ (name :: w :: ws).length < 2 := by simp
    simp only
    rw [if_neg hn]
    rfl
  · rintro (h | h) <;> rw [h] <;> simp

example : namedParameter (fun w => if w = ['1'] then some 1 else none) 0 ⟨fun k => if k = ['x'] then some [['x'], ['1'], ['q']] else none, [['x']]⟩ ['x'] [7] = [1, 0] := by
  decide

end AmpGen.Options
