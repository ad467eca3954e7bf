import Verif.Export.Model
import Verif.Polarised.Spec
import Mathlib.Analysis.Complex.Norm
/-
What exported code, symbols of generated functions and reused libraries should be.
-/
namespace AmpGen.Export

variable {X Code : Type}

/-- A number with at most six digits after the decimal point. -/
def SixDecimals (x : ℝ) : Prop := ∃ m : ℤ, x = m / 10 ^ 6

/-- A number with at most six significant digits. -/
def SixDigits (x : ℝ) : Prop := ∃ m k : ℤ, |m| < 10 ^ 6 ∧ x = m * (10 : ℝ) ^ k

/-- Both parts have at most six significant digits. -/
def SixDigitsC (z : ℂ) : Prop := SixDigits z.re ∧ SixDigits z.im

/-- The amplitude of the fitted model: sum of coupling times amplitude. -/
noncomputable def amplitude (es : List (Element X)) (buf : List ℝ) (x : X) : ℂ :=
  (es.map fun e => e.coupling * e.amp buf x).sum

/-- The part of the amplitude that is even under parity of the final state. -/
noncomputable def evenPart (es : List (Element X)) (buf : List ℝ) (x : X) : ℂ :=
  amplitude (es.filter fun e => e.parity = 1) buf x

/-- The remaining part of the amplitude. -/
noncomputable def oddPart (es : List (Element X)) (buf : List ℝ) (x : X) : ℂ :=
  amplitude (es.filter fun e => ¬ e.parity = 1) buf x

/-- Identifier of C: letters, digits and underscores, not starting with a digit. -/
def IsIdentifier (s : List Char) : Prop :=
  s ≠ [] ∧ (∀ c ∈ s, c.isAlphanum ∨ c = '_') ∧ ∀ c, s.head? = some c → ¬ c.isDigit

/-- The expressions compiled in a history. -/
def compiled : List (Op Code) → List (Fn Code)
  | [] => []
  | .compile f _ _ _ _ :: os => f :: compiled os
  | _ :: os => compiled os

/-- No compilation of the history is interrupted or fails. -/
def Undisturbed : List (Op Code) → Prop
  | [] => True
  | .compile _ _ _ _ ok :: os => ok = true ∧ Undisturbed os
  | .crash _ _ _ :: _ => False
  | _ :: os => Undisturbed os

end AmpGen.Export
