/-
Model of the string utilities of AmpGen (src/Utilities.cpp, AmpGen/Utilities.h).

A `std::string` is modelled as `List Char`; `std::string::npos` as `none`.
-/
namespace AmpGen.Strings

abbrev Str := List Char

/-- `std::string::find` scanning loop: first position (counted from `k`) at which
`pat` is a prefix of the remaining text.  Library function used by
src/Utilities.cpp:88,117,184,219,227,233,234. -/
def findAux (pat : Str) : Str → Nat → Option Nat
  | [], k => if pat = [] then some k else none
  | c :: cs, k => if pat.isPrefixOf (c :: cs) then some k else findAux pat cs (k + 1)

/-- `s.find(pat, pos)`; `npos` is `none`.  A start position beyond the end of the
string gives `npos` (C++ standard, basic_string::find). -/
def find (s pat : Str) (pos : Nat) : Option Nat :=
  if pos ≤ s.length then findAux pat (s.drop pos) pos else none

/-- The `std::getline(ss, item, delim)` loop of src/Utilities.cpp:29-30: the
sequence of items extracted before the stream fails.  Extraction stops when no
character is left, so a trailing delimiter does not produce an empty item. -/
def getlines (d : Char) (s : Str) : List Str :=
  match s with
  | [] => []
  | c :: cs =>
    (c :: cs).takeWhile (· != d) :: getlines d (((c :: cs).dropWhile (· != d)).drop 1)
termination_by s.length
decreasing_by
  have := (List.dropWhile_suffix (l := c :: cs) (p := (· != d))).length_le
  simp only [List.length_drop, List.length_cons] at *
  omega

/-- The items skipped by `split` when `ignoreWhitespace` is set
(src/Utilities.cpp:31). -/
def isBlankItem (item : Str) : Bool :=
  item == [' '] || item == [] || item == ['\n'] || item == ['\t']

/-- `split( s, delim, ignoreWhitespace )`, src/Utilities.cpp:25-34. -/
def split (s : Str) (delim : Char) (ignoreWhitespace : Bool) : List Str :=
  (getlines delim s).filter fun item => !ignoreWhitespace || !isBlankItem item

/-- State of the loop of `split( s, delims, keepDelims )`: the pieces emitted so
far and the piece being accumulated (`tmp`). -/
structure SplitState where
  elems : List Str
  tmp : Str

/-- One iteration of the outer loop of `split( s, delims, keepDelims )`,
src/Utilities.cpp:40-54.  The inner loop over `delims` with its `break` acts once
if and only if the character is one of the delimiters. -/
def splitStep (delims : List Char) (keepDelims : Bool) (st : SplitState) (c : Char) : SplitState :=
  if delims.contains c then
    let e1 := if st.tmp ≠ [] then st.elems ++ [st.tmp] else st.elems
    let e2 := if keepDelims then e1 ++ [[c]] else e1
    { elems := e2, tmp := [] }
  else { st with tmp := st.tmp ++ [c] }

/-- `split( s, delims, keepDelims )`, src/Utilities.cpp:36-56. -/
def splitDelims (s : Str) (delims : List Char) (keepDelims : Bool) : List Str :=
  let st := s.foldl (splitStep delims keepDelims) { elems := [], tmp := [] }
  if st.tmp ≠ [] then st.elems ++ [st.tmp] else st.elems

/-- `swapChars( arg, a, b )`, src/Utilities.cpp:74-81. -/
def swapChars (arg : Str) (a b : Char) : Str :=
  arg.map fun c => if c = a then b else if c = b then a else c

theorem findAux_bounds {pat : Str} : ∀ {s : Str} {k p : Nat},
    findAux pat s k = some p → k ≤ p ∧ p ≤ k + s.length
  | [], k, p, h => by
    simp only [findAux] at h
    split at h <;> simp_all
  | c :: cs, k, p, h => by
    simp only [findAux] at h
    split at h
    · simp_all
    · have := findAux_bounds h
      simp only [List.length_cons]; omega

/-- A successful `find` returns a position inside the searched range. -/
theorem find_bounds {s pat : Str} {pos p : Nat} (h : find s pat pos = some p) :
    pos ≤ p ∧ p ≤ s.length := by
  unfold find at h
  split at h
  · have := findAux_bounds h
    simp only [List.length_drop] at this
    omega
  · exact absurd h (by simp)

/-- Loop of `findAll`, src/Utilities.cpp:86-93, with the position as argument.
Terminates because every successful `find` moves `pos` strictly forward and
`find` fails beyond the end of the string. -/
def findAllFrom (input ch : Str) (pos : Nat) : List Nat :=
  match _h : find input ch pos with
  | none => []
  | some p => p :: findAllFrom input ch (p + 1)
termination_by input.length + 1 - pos
decreasing_by
  have := find_bounds _h
  omega

/-- `findAll( input, ch )`, src/Utilities.cpp:83-95. -/
def findAll (input ch : Str) : List Nat := findAllFrom input ch 0

/-- Loop of `replaceAll`, src/Utilities.cpp:115-123.  The loop need not
terminate, so it is given an iteration budget; `none` means the budget ran out
before the loop condition became false. -/
def replaceLoop (pat rep : Str) : Nat → Str → Nat → Option Str
  | 0, _, _ => none
  | fuel + 1, output, start =>
    match find output pat start with
    | none => some output
    | some pos =>
      replaceLoop pat rep fuel
        (output.take pos ++ rep ++ output.drop (pos + pat.length)) (pos + pat.length)

/-- `replaceAll( input, toReplace, replaceWith )`, src/Utilities.cpp:107-124. -/
def replaceAll (fuel : Nat) (input pat rep : Str) : Option Str :=
  if pat = rep then some input else replaceLoop pat rep fuel input 0

/-- `replaceAll( input, rules )`, src/Utilities.cpp:126-131. -/
def replaceAllRules (fuel : Nat) (input : Str) (rules : List (Str × Str)) : Option Str :=
  rules.foldlM (fun output rule => replaceAll fuel output rule.1 rule.2) input

/-- `find_next_of( input, patterns, begin )`, src/Utilities.cpp:180-188: the
smallest position of any pattern (`npos` is the largest `size_t`). -/
def findNextOf (input : Str) (patterns : List Str) (begin_ : Nat) : Option Nat :=
  patterns.foldl (fun minPos pattern =>
    match find input pattern begin_, minPos with
    | none, m => m
    | some p, none => some p
    | some p, some m => if p < m then some p else some m) none

/-- `std::isspace` in the "C" locale, as used by `ltrim`/`rtrim`
(src/Utilities.cpp:322,331). -/
def isSpace (c : Char) : Bool :=
  c == ' ' || c == '\t' || c == '\n' || c == '\x0b' || c == '\x0c' || c == '\r'

/-- `ltrim`, src/Utilities.cpp:329-333. -/
def ltrim (s : Str) : Str := s.dropWhile isSpace

/-- `rtrim`, src/Utilities.cpp:320-324: erase everything after the last
non-space character (`find_if` on reverse iterators). -/
def rtrim (s : Str) : Str := (s.reverse.dropWhile isSpace).reverse

/-- `trim`, src/Utilities.cpp:327. -/
def trim (s : Str) : Str := ltrim (rtrim s)

/-- `pattern2.substr( 0, pattern2.find( wildcard_character ) )`,
src/Utilities.cpp:233: the literal text up to the next wildcard, or all of it. -/
def wildSegment (pattern2 : Str) (star : Char) : Str :=
  match pattern2.findIdx? (· == star) with
  | none => pattern2
  | some p2 => pattern2.take p2

/-- `stringMatchesWildcard`, src/Utilities.cpp:216-239.
`wildcard_string.substr( 0, pos + 1 )` ends with its only wildcard, so the
recursive call on `pattern1` (line 231) always takes one of the two
non-recursive exits of lines 220-222 or 226-227; it is inlined here as `match1`.
An empty wildcard string has `pos == npos` and takes line 223. -/
def matchesWildcard (input w : Str) (star : Char) : Bool :=
  match _h : w.findIdx? (· == star) with
  | none => input == w
  | some pos =>
    if w.length = 1 then true
    else if pos = w.length - 1 then find input (w.take (w.length - 1)) 0 == some 0
    else
      let pattern2 := w.drop (pos + 1)
      let match1 := if pos = 0 then true else find input (w.take pos) 0 == some 0
      if !match1 then false
      else
        match find input (wildSegment pattern2 star) 0 with
        | none => false
        | some p => matchesWildcard (input.drop p) pattern2 star
termination_by w.length
decreasing_by
  have hne : w ≠ [] := by intro hw; simp [hw] at _h
  have : 0 < w.length := List.length_pos_iff.mpr hne
  simp only [List.length_drop]; omega

/-- Row initialisation and recurrence of `editDistance`,
src/Utilities.cpp:195-201: given the cell to the left (`left = d[i][j-1]`), the
previous row from column `j-1` on (`diag = d[i-1][j-1]`, then the rest), compute
the remaining cells of row `i`. -/
def editRow (c : Char) : (s2 : Str) → (left diag : Nat) → (above : List Nat) → List Nat
  | [], _, _, _ => []
  | c2 :: s2, left, diag, up :: above =>
    let v := min (min (up + 1) (left + 1)) (diag + (if c = c2 then 0 else 1))
    v :: editRow c s2 v up above
  | _ :: _, _, _, [] => []

/-- One iteration of the outer loop: from row `i-1` to row `i`
(src/Utilities.cpp:199-201); column 0 holds `i` (line 196). -/
def editNextRow (s2 : Str) (i : Nat) (c : Char) (prev : List Nat) : List Nat :=
  match prev with
  | [] => []
  | d0 :: above => i :: editRow c s2 i d0 above

/-- All rows: the table `d` is filled row by row; only the last row is needed. -/
def editRows (s2 : Str) : (i : Nat) → Str → List Nat → List Nat
  | _, [], row => row
  | i, c :: s1, row => editRows s2 (i + 1) s1 (editNextRow s2 (i + 1) c row)

/-- `editDistance( s1, s2 )`, src/Utilities.cpp:190-203.  The last cell of the
last row; `none` would be an out-of-range access (proved impossible). -/
def editDistance (s1 s2 : Str) : Option Nat :=
  (editRows s2 0 s1 (List.range (s2.length + 1)))[s2.length]?

end AmpGen.Strings
