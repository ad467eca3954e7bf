import Verif.Enum.Model
/-
Declared lists of names.
-/
namespace AmpGen.Enum
open AmpGen.Strings (Str)

/-- A C++ identifier, as far as it matters: not empty, without blanks and commas, and not starting like a number. -/
structure Name (n : Str) : Prop where
  nonempty : n ≠ []
  chars : ∀ c ∈ n, c ≠ ' ' ∧ c ≠ ','
  first : ∀ c, n.head? = some c → isSpace c = false ∧ isDigit c = false ∧ c ≠ '-' ∧ c ≠ '+'

/-- `Declared args names`: the text `args` is the list of the names, separated by a comma and any number of blanks. -/
inductive Declared : Str → List Str → Prop
  | last {n : Str} : Name n → Declared n [n]
  | cons {n : Str} {k : Nat} {args : Str} {names : List Str} : Name n → Declared args names →
      Declared (n ++ ',' :: (List.replicate k ' ' ++ args)) (n :: names)

/-- A word that reads as a number: blanks, a sign, and at least one digit. -/
def Numeral (w : Str) : Prop := ∃ s sign ds, w = s ++ sign ++ ds ∧ (∀ c ∈ s, isSpace c = true) ∧ sign ∈ [[], ['-'], ['+']] ∧ ds ≠ [] ∧ ∀ c ∈ ds, isDigit c = true

end AmpGen.Enum
