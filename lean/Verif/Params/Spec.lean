import Verif.Params.Model
/-
What users see of a parameter set, and what lines of an options file declare.
-/
namespace AmpGen.Params
open AmpGen.Strings (Str)

/-- The parameter at a position. -/
def World.param (w : World) (a : Nat) : Option Param := (w.at a).map w.heap

/-- The name of an object. -/
def World.name (w : World) (id : Nat) : Str := (w.heap id).name

/-- The objects whose addition succeeded, in order. -/
def addedIn (outs : List Out) : List Nat := outs.filterMap fun o => match o with
  | .added id => some id
  | _ => none

/-- A position whose parameter is free or blind. -/
def Varying (w : World) (a : Nat) : Prop := ∃ p, w.param a = some p ∧ (p.flag = .free ∨ p.flag = .blind)

open Classical in
/-- The number of varying parameters before a position. -/
noncomputable def rank (w : World) (a : Nat) : Nat := ((List.range a).filter fun b => Varying w b).length

/-- A parameter as it is declared: its value is the declared value and its error the declared step. -/
def declared (name : Str) (flag : Flag) (mean step lo hi : ℚ) : Param where
  flag := flag
  name := name
  meanInit := mean
  stepInit := step
  minInit := lo
  maxInit := hi
  mean := mean
  err := step
  errPos := -9999
  errNeg := -9999
  index := -1

/-- `Declares num flag line ps`: the words of the line declare the parameters `ps`. -/
inductive Declares (num : Str → Option ℚ) (flag : Str → Flag) : List Str → List Param → Prop
  | real {name f a b : Str} {mean step : ℚ} : num a = some mean → num b = some step → flag f ≠ .invalid →
      Declares num flag [name, f, a, b] [declared name (flag f) mean step 0 0]
  | limits {name f a b c d : Str} {mean step lo hi : ℚ} : num a = some mean → num b = some step → num c = some lo → num d = some hi → flag f ≠ .invalid →
      Declares num flag [name, f, a, b, c, d] [declared name (flag f) mean step lo hi]
  | complex {name f a b g c d : Str} {mean step mean' step' : ℚ} : num a = some mean → num b = some step → num c = some mean' → num d = some step' →
      flag f ≠ .invalid → flag g ≠ .invalid →
      Declares num flag [name, f, a, b, g, c, d] [declared (name ++ "_Re".toList) (flag f) mean step 0 0, declared (name ++ "_Im".toList) (flag g) mean' step' 0 0]
  | complexLimits {name f a b c d g a' b' c' d' : Str} {mean step lo hi mean' step' lo' hi' : ℚ} : num a = some mean → num b = some step → num c = some lo →
      num d = some hi → num a' = some mean' → num b' = some step' → num c' = some lo' → num d' = some hi' → flag f ≠ .invalid → flag g ≠ .invalid →
      Declares num flag [name, f, a, b, c, d, g, a', b', c', d']
        [declared (name ++ "_Re".toList) (flag f) mean step lo hi, declared (name ++ "_Im".toList) (flag g) mean' step' lo' hi']
  | other {line : List Str} : line.length ∉ [4, 6, 7, 11] → Declares num flag line []
  | badFlag {name f : Str} {rest : List Str} : flag f = .invalid → Declares num flag (name :: f :: rest) []
  | badMean {name f a : Str} {rest : List Str} : num a = none → Declares num flag (name :: f :: a :: rest) []

/-- The lines that define an expression, by name. -/
def aliases (lines : List (List Str)) : List Str := lines.filterMap fun l => match l with
  | name :: eq :: _ :: _ => if eq = ['='] then some name else none
  | _ => none

end AmpGen.Params
