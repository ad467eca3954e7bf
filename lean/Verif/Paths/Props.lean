import Verif.Paths.Lemmas
/-
C153: variables of the environment in paths; C154: lists of files.
-/
namespace AmpGen.Paths

open AmpGen.Strings
open Spec

/-- An environment with two variables. -/
def exampleEnv : Str → Option Str := fun n => if n = "HOME".toList then some "/u/a".toList else if n = "X".toList then some "b".toList else none

/-- **C153** In a path of any length with any number of variables, written `$name` up to the next dot or slash, every variable is replaced by its value, whatever the text between them. -/
theorem expand_variables_partial (getenv : Str → Option Str) (root : Str) (value : Str → Str) (ps : List Piece) (hr : Readable ps)
    (hv : ∀ n ∈ vars ps, lookup getenv root n = some (value n) ∧ '$' ∉ value n) :
    ∃ N, ∀ k, N ≤ k → expandGlobals getenv root k (written ps) = some (expanded value ps) := by
  refine ⟨(vars ps).length + 1, fun k hk => ?_⟩
  have := expand_from getenv root value ps hr hv [] (by simp) (k - ((vars ps).length + 1))
  rw [show (vars ps).length + 1 + (k - ((vars ps).length + 1)) = k by omega] at this
  exact this

example : expandGlobals exampleEnv "/opt".toList 4 "$HOME/$X.opt".toList = some "/u/a/b.opt".toList ∧
    expandGlobals exampleEnv "/opt".toList 4 "$AMPGENROOT/options".toList = some "/opt/options".toList := by decide +kernel

example : Readable [.var "HOME".toList, .text "/".toList, .var "X".toList, .text ".opt".toList] := by
  refine ⟨by decide, by decide, by decide, Or.inr (Or.inr (by decide)), by decide, by decide, by decide, by decide, Or.inr (Or.inl (by decide)), by decide, trivial⟩

/-- **C153** The value of `AMPGENROOT` is that of the environment if it is set there, and the directory of the sources otherwise; other variables have the value in the environment. -/
theorem lookup_value (getenv : Str → Option Str) (root n : Str) :
    lookup getenv root n = if getenv n = none ∧ n = "AMPGENROOT".toList then some root else getenv n := by
  unfold lookup
  cases h : getenv n with
  | none =>
    by_cases hn : n = "AMPGENROOT".toList
    · rw [if_pos hn, if_pos ⟨rfl, hn⟩]
    · rw [if_neg hn, if_neg fun hh => hn hh.2]
  | some v => simp

example : lookup exampleEnv "/opt".toList "AMPGENROOT".toList = some "/opt".toList := by decide +kernel

/-- **C153** A variable without a value ends the expansion: it and all that follows it are left as they are written. -/
theorem expand_missing (getenv : Str → Option Str) (root : Str) (value : Str → Str) (ps rest : List Piece) (n : Str) (hn : lookup getenv root n = none)
    (hr : Readable (ps ++ .var n :: rest)) (hv : ∀ m ∈ vars ps, lookup getenv root m = some (value m) ∧ '$' ∉ value m) :
    ∃ N, ∀ k, N ≤ k → expandGlobals getenv root k (written (ps ++ .var n :: rest)) = some (expanded value ps ++ written (.var n :: rest)) := by
  refine ⟨(vars ps).length + 1, fun k hk => ?_⟩
  have := expand_until getenv root value n rest hn ps hr hv [] (by simp) (k - ((vars ps).length + 1))
  rw [show (vars ps).length + 1 + (k - ((vars ps).length + 1)) = k by omega] at this
  exact this

example : expandGlobals exampleEnv "/opt".toList 4 "$X/$Y/$X".toList = some "b/$Y/$X".toList := by decide +kernel

/-- **C153** A variable in braces at the end of the path is replaced by its value. -/
theorem expand_braces_partial (getenv : Str → Option Str) (root pre name v : Str) (hp : '$' ∉ pre) (hn : '}' ∉ name) (hv : lookup getenv root name = some v) (hv' : '$' ∉ v) (k : Nat) :
    expandGlobals getenv root (k + 2) (pre ++ ('$' :: '{' :: name ++ ['}'])) = some (pre ++ v) := by
  unfold expandGlobals
  rw [step_braces getenv root hp hn hv]
  simp only
  unfold expandGlobals
  rw [step_text getenv root (by simp [hp, hv'])]
  simp

example : expandGlobals exampleEnv [] 2 "/d/${X}".toList = some "/d/b".toList := by decide +kernel

/-- **C153** Anywhere else the character after the brace is lost, whatever it is. -/
theorem braces_counterexample (getenv : Str → Option Str) (root pre name v : Str) (c : Char) (rest : Str) (hp : '$' ∉ pre) (hn : '}' ∉ name)
    (hv : lookup getenv root name = some v) (hv' : '$' ∉ v) (hr : '$' ∉ rest) (k : Nat) :
    expandGlobals getenv root (k + 2) (pre ++ ('$' :: '{' :: name ++ '}' :: c :: rest)) = some (pre ++ v ++ rest) := by
  unfold expandGlobals
  rw [step_braces getenv root hp hn hv]
  simp only
  unfold expandGlobals
  rw [step_text getenv root (by simp [hp, hv', hr])]
  simp

example : expandGlobals exampleEnv [] 2 "${HOME}/b.opt".toList = some "/u/ab.opt".toList := by decide +kernel

/-- **C153** A brace that is not closed: the name is the rest of the path; what the result is depends on the number of characters in front. -/
theorem unclosed_brace (getenv : Str → Option Str) (root pre name v : Str) (hp : '$' ∉ pre) (hn : '}' ∉ name) (hn' : '$' ∉ name) (hv : lookup getenv root name = some v)
    (hv' : '$' ∉ v) (hv0 : v ≠ []) (k : Nat) :
    expandGlobals getenv root (k + 3) (pre ++ '$' :: '{' :: name) =
      some (pre ++ v ++ (if pre.length = 0 then '{' :: name else if pre.length = 1 then v else [])) := by
  unfold expandGlobals
  rw [step_unclosed getenv root hp hn hv]
  simp only
  by_cases h0 : pre.length = 0
  · rw [if_pos h0, if_pos h0]
    unfold expandGlobals
    rw [step_text getenv root (by simp [hp, hv', hn'])]
  · rw [if_neg h0, if_neg h0]
    by_cases h1 : pre.length = 1
    · rw [if_pos h1, if_pos h1]
      unfold expandGlobals
      have hl : 0 < v.length := List.length_pos_iff.mpr hv0
      have hpl : (pre ++ v).length ≠ 0 ∧ (pre ++ v).length ≠ 1 := by rw [List.length_append]; omega
      rw [step_unclosed getenv root (pre := pre ++ v) (by simp [hp, hv']) hn hv, if_neg hpl.1, if_neg hpl.2]
      simp only
      unfold expandGlobals
      rw [List.append_nil, step_text getenv root (by simp [hp, hv'])]
    · rw [if_neg h1, if_neg h1]
      unfold expandGlobals
      rw [step_text getenv root (by simp [hp, hv'])]

example : expandGlobals exampleEnv [] 3 "${X".toList = some "b{X".toList ∧ expandGlobals exampleEnv [] 3 "a${X".toList = some "abb".toList ∧
    expandGlobals exampleEnv [] 3 "aa${X".toList = some "aab".toList := by decide +kernel

/-- **C153** A variable whose value refers to itself is expanded for ever. -/
theorem expand_forever_counterexample (getenv : Str → Option Str) (root name : Str) (h1 : '.' ∉ name) (h2 : '/' ∉ name) (h3 : name.head? ≠ some '{')
    (hv : getenv name = some ('$' :: name)) : ∀ k, expandGlobals getenv root k ('$' :: name) = none := by
  intro k
  induction k with
  | zero => rfl
  | succ k ih =>
    unfold expandGlobals
    have := step_plain getenv root (pre := []) (rest := []) (by simp) h1 h2 h3 (Or.inl rfl)
    rw [List.nil_append, List.append_nil] at this
    rw [this]
    have hl : lookup getenv root name = some ('$' :: name) := by unfold lookup; rw [hv]
    rw [hl]
    simpa using ih

/-! ### Lists of files -/

/-- **C154** The list of a directory that can be opened is that of its entries that match the pattern, with the path of the directory, in the order of the system; that of another is empty. -/
theorem list_directory (expand : Str → Option Str) (readdir : Str → Option (List Str)) (isDir : Str → Bool) (directory path pattern : Str) (he : expand directory = some path)
    (hw : '*' ∉ path) (k : Nat) :
    getListOfFiles expand readdir isDir (k + 1) directory pattern =
      some (match readdir path with | some names => (entries names pattern).map (inDir path) | none => []) := by
  unfold getListOfFiles
  rw [he]
  simp only
  rw [find_char_none (by simpa using hw)]
  simp only
  cases hr : readdir path with
  | none =>
    have := listLoop_stop readdir pattern (fun _ => []) path hr [] [] [] (by simp)
    rw [List.nil_append] at this
    rw [this]
    rfl
  | some names =>
    rw [listLoop_all readdir pattern (fun _ => names) [path] [] (by intro t ht; rw [List.mem_singleton.mp ht]; exact hr)]
    simp

/-- A tree of files: `/d` has two directories and a file. -/
def exampleDir : Str → Option (List Str) := fun p =>
  if p = "/d".toList then some [".".toList, "..".toList, "run1".toList, "run2".toList, "run.txt".toList, "old".toList]
  else if p = "/d/run1".toList then some [".".toList, "a.root".toList, "a.log".toList]
  else if p = "/d/run2".toList then some ["b.root".toList] else none

def exampleIsDir : Str → Bool := fun p => (exampleDir p).isSome

example : getListOfFiles some exampleDir exampleIsDir 1 "/d/run1".toList "*.root".toList = some ["/d/run1/a.root".toList] ∧
    getListOfFiles some exampleDir exampleIsDir 1 "/d/run3".toList "*.root".toList = some [] := by decide +kernel

/-- **C154** A path whose last name has a wildcard stands for the entries that match it: those that are no directories are listed, whatever the pattern, and then the entries that match
the pattern of every directory, if all of them can be opened. What follows the name with the wildcard is ignored. -/
theorem list_wildcard_partial (expand : Str → Option Str) (readdir : Str → Option (List Str)) (isDir : Str → Bool) (directory sub m rest pattern : Str)
    (he : expand directory = some (sub ++ '/' :: m ++ rest)) (he' : expand sub = some sub) (hs : '*' ∉ sub) (hm : '*' ∈ m) (hm' : '/' ∉ m)
    (hr : rest = [] ∨ rest.head? = some '/') (names : List Str) (hn : readdir sub = some names) (content : Str → List Str)
    (hc : ∀ t ∈ (entries names m).map (inDir sub), isDir t = true → readdir t = some (content t)) (k : Nat) :
    getListOfFiles expand readdir isDir (k + 2) directory pattern =
      some (((entries names m).map (inDir sub)).filter (fun f => !isDir f) ++
        (((entries names m).map (inDir sub)).filter fun f => isDir f).flatMap fun t => (entries (content t) pattern).map (inDir t)) := by
  obtain ⟨w, h1, h2, h3⟩ := wildcard_split hs hm hm' hr
  have hsub : (sub ++ '/' :: m ++ rest).take sub.length = sub := by rw [List.append_assoc, List.take_left]
  have hrest : (sub ++ '/' :: m ++ rest).drop (sub.length + 1) = m ++ rest := by
    rw [show sub.length + 1 = (sub ++ ['/']).length by simp, show sub ++ '/' :: m ++ rest = (sub ++ ['/']) ++ (m ++ rest) by simp, List.drop_left]
  have hin := list_directory expand readdir isDir sub sub m he' hs k
  rw [hn] at hin
  simp only at hin
  unfold getListOfFiles
  rw [he]
  simp only
  rw [h1]
  simp only
  rw [h2, h3]
  simp only
  rw [hsub, hrest]
  have hmatch : matchingString (m ++ rest) (if rest = [] then none else some (sub.length + 1 + m.length)) (some sub.length) = m := by
    by_cases h : rest = []
    · rw [if_pos h]; simp [h, matchingString]
    · rw [if_neg h]
      unfold matchingString
      simp only
      rw [show sub.length + 1 + m.length - sub.length - 1 = m.length by omega, List.take_left]
  rw [hmatch, hin]
  simp only
  rw [listLoop_all readdir pattern content]
  intro t ht
  rw [List.mem_filter] at ht
  exact hc t ht.1 ht.2

example : getListOfFiles some exampleDir exampleIsDir 2 "/d/run*".toList "*.root".toList =
    some ["/d/run.txt".toList, "/d/run1/a.root".toList, "/d/run2/b.root".toList] := by decide +kernel

example : '*' ∉ "/d".toList ∧ '*' ∈ "run*".toList ∧ '/' ∉ "run*".toList := by decide

/-- **C154** What follows the name with the wildcard is ignored: the list of `/d/run*/sub` is that of `/d/run*`. -/
theorem after_wildcard_counterexample (expand : Str → Option Str) (readdir : Str → Option (List Str)) (isDir : Str → Bool) (d1 d2 sub m rest pattern : Str)
    (h1 : expand d1 = some (sub ++ '/' :: m)) (h2 : expand d2 = some (sub ++ '/' :: m ++ '/' :: rest)) (he' : expand sub = some sub) (hs : '*' ∉ sub) (hm : '*' ∈ m) (hm' : '/' ∉ m)
    (names : List Str) (hn : readdir sub = some names) (content : Str → List Str)
    (hc : ∀ t ∈ (entries names m).map (inDir sub), isDir t = true → readdir t = some (content t)) (k : Nat) :
    getListOfFiles expand readdir isDir (k + 2) d2 pattern = getListOfFiles expand readdir isDir (k + 2) d1 pattern := by
  rw [list_wildcard_partial expand readdir isDir d1 sub m [] pattern (by rw [List.append_nil]; exact h1) he' hs hm hm' (Or.inl rfl) names hn content hc,
    list_wildcard_partial expand readdir isDir d2 sub m ('/' :: rest) pattern h2 he' hs hm hm' (Or.inr rfl) names hn content hc]

/-- **C154** A path with a wildcard and no slash in front of it is looked up for ever. -/
theorem relative_wildcard_counterexample (expand : Str → Option Str) (readdir : Str → Option (List Str)) (isDir : Str → Bool) (path : Str) (he : expand path = some path)
    (hw : '*' ∈ path) (hs : '/' ∉ path) : ∀ (k : Nat) (pattern : Str), getListOfFiles expand readdir isDir k path pattern = none := by
  intro k
  induction k with
  | zero => intro pattern; rfl
  | succ k ih =>
    intro pattern
    unfold getListOfFiles
    rw [he]
    simp only
    cases hf : find path ['*'] 0 with
    | none =>
      exfalso
      obtain ⟨i, hi⟩ := List.mem_iff_getElem?.mp hw
      have hlt : i < path.length := by
        by_contra hh
        rw [List.getElem?_eq_none (by omega)] at hi
        exact absurd hi (by simp)
      refine find_none hf i (Nat.zero_le _) (by omega) ⟨path.drop (i + 1), ?_⟩
      rw [List.drop_eq_getElem_cons hlt]
      rw [List.getElem?_eq_getElem hlt] at hi
      rw [Option.some.inj hi]
      rfl
    | some w =>
      simp only
      rw [findLastOf_none w fun i _ h => hs (List.mem_of_getElem? h)]
      simp only
      rw [ih]

/-- **C154** A directory that cannot be opened ends the list: those after it are left out. -/
theorem unreadable_counterexample :
    getListOfFiles some (fun p => if p = "/d/run1".toList then none else exampleDir p) exampleIsDir 2 "/d/run*".toList "*.root".toList = some ["/d/run.txt".toList] ∧
      exampleDir "/d/run2".toList = some ["b.root".toList] := by decide +kernel

end AmpGen.Paths
