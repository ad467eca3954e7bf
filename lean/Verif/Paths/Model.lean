import Verif.Strings.Model
/-
Model of the functions on paths: variables of the environment, src/Utilities.cpp:335-363, and lists of files, src/Utilities.cpp:371-412.

Simplifications: the environment, the directories and the answer of `stat` are arbitrary functions, which do not change during a call; positions and lengths are smaller than `npos`,
so that the arithmetic of `size_t` only wraps around where `npos` itself is used in it.
-/
namespace AmpGen.Paths

open AmpGen.Strings (Str find findNextOf matchesWildcard)

/-- The end of an iteration: the loop is left with a path, or goes on with it. -/
inductive Step where
  | done (path : Str)
  | again (path : Str)
  deriving DecidableEq, Repr

/-- `getenv`, and the directory AmpGen was built from for `AMPGENROOT`, src/Utilities.cpp:352-356. -/
def lookup (getenv : Str → Option Str) (root : Str) (name : Str) : Option Str :=
  match getenv name with
  | some v => some v
  | none => if name = "AMPGENROOT".toList then some root else none

/-- The name of the variable at `pos` and the number of characters that are replaced, src/Utilities.cpp:341-350 and :362; `none` is all that follow. The end is moved by one in both cases:
after `npos` follows zero, and `npos - 1` is larger than any position, so that the comparison with `npos` in :362 is never true. `1 - pos` is larger than any position for `pos > 1`. -/
def reference (path : Str) (pos : Nat) : Str × Option Nat :=
  if path[pos + 1]? = some '{' then
    match find path ['}'] pos with
    | some e => ((path.drop (pos + 2)).take (e - pos - 2), some (e + 1 - pos + 1))
    | none => (path.drop (pos + 2), if pos ≤ 1 then some (1 - pos) else none)
  else
    match findNextOf path [['.'], ['/']] pos with
    | some e => ((path.drop (pos + 1)).take (e - pos - 1), some (e - 1 - pos + 1))
    | none => (path.drop (pos + 1), none)

/-- What follows the replaced characters. -/
def after (path : Str) (pos : Nat) : Option Nat → Str
  | some len => path.drop (pos + len)
  | none => []

/-- One iteration of the loop in `expandGlobals`, src/Utilities.cpp:338-364. -/
def step (getenv : Str → Option Str) (root : Str) (path : Str) : Step :=
  match find path ['$'] 0 with
  | none => .done path
  | some pos =>
    let r := reference path pos
    match lookup getenv root r.1 with
    | none => .done path
    | some v => .again (path.take pos ++ v ++ after path pos r.2)

/-- `expandGlobals`, src/Utilities.cpp:335-367, for a number of iterations; `none` if it needs more. -/
def expandGlobals (getenv : Str → Option Str) (root : Str) : Nat → Str → Option Str
  | 0, _ => none
  | n + 1, path =>
    match step getenv root path with
    | .done p => some p
    | .again p => expandGlobals getenv root n p

/-- `find_last_of( c, pos )`: the last position at or before `pos`. -/
def findLastOf (s : Str) (c : Char) : Nat → Option Nat
  | 0 => if s[0]? = some c then some 0 else none
  | pos + 1 => if s[pos + 1]? = some c then some (pos + 1) else findLastOf s c pos

/-- The loop over directories, src/Utilities.cpp:395-412; it ends with the first that cannot be opened. -/
def listLoop (readdir : Str → Option (List Str)) (pattern : Str) : List Str → List Str → List Str
  | [], files => files
  | top :: tops, files =>
    match readdir top with
    | none => files
    | some names =>
      listLoop readdir pattern tops (files ++ ((names.filter fun name => !(name == "..".toList || name == ".".toList) &&
        (pattern == [] || matchesWildcard name pattern '*')).map fun name => top ++ '/' :: name))

/-- `substr( begin + 1, end - begin - 1 )`, src/Utilities.cpp:386, of what follows the slash. -/
def matchingString (rest : Str) : Option Nat → Option Nat → Str
  | some e, some b => rest.take (e - b - 1)
  | some e, none => rest.take e
  | none, _ => rest

/-- `getListOfFiles`, src/Utilities.cpp:375-414, to a depth of recursion; `none` if it goes deeper, or `expandGlobals` does not end. `begin + 1` is zero if there is no slash. -/
def getListOfFiles (expand : Str → Option Str) (readdir : Str → Option (List Str)) (isDir : Str → Bool) : Nat → Str → Str → Option (List Str)
  | 0, _, _ => none
  | n + 1, directory, pattern =>
    match expand directory with
    | none => none
    | some path =>
      match find path ['*'] 0 with
      | none => some (listLoop readdir pattern [path] [])
      | some w =>
        let stop := find path ['/'] w
        let start := findLastOf path '/' w
        let sub := match start with | some b => path.take b | none => path
        let rest := match start with | some b => path.drop (b + 1) | none => path
        let matching := matchingString rest stop start
        match getListOfFiles expand readdir isDir n sub matching with
        | none => none
        | some these => some (listLoop readdir pattern (these.filter fun f => isDir f) (these.filter fun f => !isDir f))

end AmpGen.Paths
