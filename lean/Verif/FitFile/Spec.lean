import Verif.FitFile.Model
/-
Words, faithful number formats, and fit results that can be written.
-/
namespace AmpGen.FitFile
open AmpGen.Strings (Str)
open AmpGen.Params (Param Flag)

/-- A word: not empty and without blanks. -/
structure Word (w : Str) : Prop where
  nonempty : w ≠ []
  chars : ∀ c ∈ w, c ≠ ' ' ∧ c ≠ '\n' ∧ c ≠ '\r' ∧ c ≠ '\t'

/-- The words at the beginning of lines. -/
def keywords : List Str :=
  ["Parameter".toList, "FitQuality".toList, "FitFraction".toList, "Observable".toList, "ParamsOrder".toList, "CovarianceMatrix".toList]

/-- Numbers are written as words, reading a written number gives the number rounded by `fix` or `gen`, and no word at the beginning of lines is a number. -/
structure Faithful (fmt : Format) (fix gen : ℚ → ℚ) : Prop where
  fixedWord : ∀ x, Word (fmt.fixed x)
  generalWord : ∀ x, Word (fmt.general x)
  integerWord : ∀ n, Word (fmt.integer n)
  noComment : ∀ x, (fmt.general x).head? ≠ some '#'
  readFixed : ∀ x, fmt.stod (fmt.fixed x) = some (fix x)
  readGeneral : ∀ x, fmt.stod (fmt.general x) = some (gen x)
  readInteger : ∀ n, fmt.stoi (fmt.integer n) = some n
  keywords : ∀ k ∈ keywords, fmt.stod k = none

/-- A fit result with one row and column of the covariance matrix for each parameter, whose names are words. -/
structure Writable (r : Result) : Prop where
  rows : r.cov.length = r.params.length
  columns : ∀ row ∈ r.cov, row.length = r.params.length
  names : ∀ p ∈ r.params, Word p.name
  distinct : (r.params.map (·.name)).Nodup
  fractions : ∀ f ∈ r.fractions, Word f.1
  observables : ∀ o ∈ r.observables, Word o.1
  distinctObservables : (r.observables.map (·.1)).Nodup

/-- No parameter is blind. -/
def NotBlind (r : Result) : Prop := ∀ p ∈ r.params, p.flag ≠ .blind ∧ ¬ "_blind".toList <:+: p.name

/-- A word without blanks, comments, quotes and braces. -/
structure Bare (w : Str) : Prop where
  nonempty : w ≠ []
  chars : ∀ c ∈ w, c ≠ ' ' ∧ c ≠ '\n' ∧ c ≠ '\r' ∧ c ≠ '\t' ∧ c ≠ '#' ∧ c ≠ '"' ∧ c ≠ '{' ∧ c ≠ '}'

/-- A parameter that is not part of a complex one, has a name that means nothing to the options parser, and has no limits or two limits that are not zero. -/
structure Simple (p : Param) : Prop where
  name : Bare p.name
  star : p.name.head? ≠ some '*'
  keyword : p.name ∉ Options.keywords
  real : ¬ "_Re".toList <:+: p.name
  imaginary : ¬ "_Im".toList <:+: p.name
  flag : p.flag ≠ .invalid
  limits : p.minInit = 0 ↔ p.maxInit = 0

end AmpGen.FitFile
