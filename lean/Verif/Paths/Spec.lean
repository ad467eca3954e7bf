import Verif.Paths.Model
/-
What the words in the properties mean: a path is a sequence of text and variables.
-/
namespace AmpGen.Paths.Spec

open AmpGen.Strings (Str)

/-- A part of a path: text, or the name of a variable. -/
inductive Piece where
  | text (s : Str)
  | var (name : Str)
  deriving DecidableEq, Repr

/-- How a path is written. -/
def written : List Piece → Str
  | [] => []
  | .text s :: ps => s ++ written ps
  | .var n :: ps => '$' :: n ++ written ps

/-- Text has no dollar; the name of a variable ends at the next dot, slash or the end of the path, and does not begin with a brace. -/
def Readable : List Piece → Prop
  | [] => True
  | .text s :: ps => '$' ∉ s ∧ Readable ps
  | .var n :: ps => '.' ∉ n ∧ '/' ∉ n ∧ n.head? ≠ some '{' ∧ (written ps = [] ∨ (written ps).head? = some '.' ∨ (written ps).head? = some '/') ∧ Readable ps

/-- The path with the values of its variables. -/
def expanded (value : Str → Str) : List Piece → Str
  | [] => []
  | .text s :: ps => s ++ expanded value ps
  | .var n :: ps => value n ++ expanded value ps

/-- The variables of a path. -/
def vars : List Piece → List Str
  | [] => []
  | .text _ :: ps => vars ps
  | .var n :: ps => n :: vars ps

/-- The entries of a directory that match a pattern; the empty pattern matches all. -/
def entries (names : List Str) (pattern : Str) : List Str :=
  names.filter fun n => decide (n ≠ "..".toList ∧ n ≠ ".".toList) && (pattern.isEmpty || AmpGen.Strings.matchesWildcard n pattern '*')

/-- A name in a directory. -/
def inDir (dir name : Str) : Str := dir ++ '/' :: name

end AmpGen.Paths.Spec
