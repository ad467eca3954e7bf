import Verif.FitFile.Spec
/-
What updating an options file means, line by line.
-/
namespace AmpGen.FitFile
open AmpGen.Strings (Str)
open AmpGen.Params (Param)

/-- The words of a line are the pieces between blanks. -/
inductive WordsOf : Str → List Str → Prop
  | nil : WordsOf [] []
  | blank {s ws} : WordsOf s ws → WordsOf (' ' :: s) ws
  | last {w} : w ≠ [] → ' ' ∉ w → w ≠ ['\t'] → w ≠ ['\n'] → WordsOf w [w]
  | word {w s ws} : w ≠ [] → ' ' ∉ w → w ≠ ['\t'] → w ≠ ['\n'] → WordsOf s ws → WordsOf (w ++ ' ' :: s) (w :: ws)
  | tab {s ws} : WordsOf s ws → WordsOf ('\t' :: ' ' :: s) ws
  | tabLast : WordsOf ['\t'] []

/-- The flag, value, error and the limits of a parameter, if neither of them is zero. -/
def declaration (fmt : Format) (p : Param) : List Str :=
  if p.minInit ≠ 0 ∧ p.maxInit ≠ 0 then [flagText p.flag, fmt.fixed p.mean, fmt.fixed p.err, fmt.fixed p.minInit, fmt.fixed p.maxInit]
  else [flagText p.flag, fmt.fixed p.mean, fmt.fixed p.err]

/-- A line that is not about a parameter, or that relates a parameter to others by an equality. -/
inductive Kept (ps : List Param) (line : Str) : Prop
  | empty : WordsOf line [] → Kept ps line
  | other {key ws} : WordsOf line (key :: ws) → (∀ p ∈ ps, p.name ≠ key ∧ p.name ≠ key ++ "_Re".toList ∧ p.name ≠ key ++ "_Im".toList) → Kept ps line
  | equality {key ws} : WordsOf line (key :: "=".toList :: ws) → Kept ps line

/-- The line with the first word `key` is updated to one with the words `words`. -/
inductive Declared (fmt : Format) (ps : List Param) : Str → List Str → Prop
  | real {p} : p ∈ ps → Declared fmt ps p.name (p.name :: declaration fmt p)
  | complex {key re im} : re ∈ ps → im ∈ ps → re.name = key ++ "_Re".toList → im.name = key ++ "_Im".toList → (∀ p ∈ ps, p.name ≠ key) →
      Declared fmt ps key (key :: (declaration fmt re ++ declaration fmt im))

/-- What becomes of a line: it is kept if it is not about a parameter, and is a declaration with the current values if it is. -/
inductive Becomes (fmt : Format) (ps : List Param) : Str → Str → Prop
  | kept {line} : Kept ps line → Becomes fmt ps line line
  | updated {line out key w ws words} : WordsOf line (key :: w :: ws) → w ≠ "=".toList → Declared fmt ps key words → WordsOf out words → Becomes fmt ps line out

/-- A line that can be updated: a kept line, or a line with at least two words about a parameter or both parts of a complex one. -/
def Updatable (fmt : Format) (ps : List Param) (line : Str) : Prop :=
  Kept ps line ∨ ∃ key w ws words, WordsOf line (key :: w :: ws) ∧ w ≠ "=".toList ∧ Declared fmt ps key words

end AmpGen.FitFile
