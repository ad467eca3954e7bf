import Verif.Strings.Model
import Mathlib.Analysis.SpecialFunctions.Trigonometric.Basic
/-
Model of what the words of a formula stand for: `processEndPoint` and the choice of coordinates, src/ExpressionParser.cpp:180-191,218-239, and
AmpGen/ExpressionParser.h:74-78.

Simplifications: numbers are real, and reading a word as a number is an argument; parameters are told apart by their names; a parameter that is itself given by a
formula is not modelled; the value of an unknown word, which is a symbol that is left to be given a value later, is an argument.
-/
namespace AmpGen.Parser
open AmpGen.Strings (Str)
open Complex (I)

/-- `coordinateType` and `angType`, src/ExpressionParser.cpp:27-28. -/
inductive Coordinates
  | cartesian | polar
  deriving DecidableEq

inductive AngularUnits
  | deg | rad
  deriving DecidableEq

/-- `m_isCartesian` and `m_sf`, AmpGen/ExpressionParser.h:90-91. -/
structure Settings where
  isCartesian : Bool
  sf : ℝ

/-- The end of the constructor, src/ExpressionParser.cpp:180-190. -/
noncomputable def settings (coord : Coordinates) (units : AngularUnits) : Settings :=
  ⟨coord ≠ .polar, if units = .deg then Real.pi / 180 else 1⟩

/-- `getMe()`, AmpGen/ExpressionParser.h:74-78: the one parser there is, which is made when it is first used, with the options of that time. -/
noncomputable def getMe (existing : Option Settings) (coord : Coordinates) (units : AngularUnits) : Settings := existing.getD (settings coord units)

/-- What a word stands for. -/
inductive Meaning
  | number (z : ℂ)
  | link (name : Str)
  | cartesian (re im : Str)
  | polar (sf : ℝ) (r phi : Str)
  | unknown (name : Str)

/-- `processEndPoint`, src/ExpressionParser.cpp:218-239.  `num` is `lexical_cast<double>`, and `params` the names in the parameter set, if there is one. -/
noncomputable def processEndPoint (st : Settings) (num : Str → Option ℝ) (params : Option (List Str)) (name : Str) : Meaning :=
  match num name with
  | some x => .number x
  | none =>
    if name = "PI".toList ∨ name = "pi".toList ∨ name = "M_PI".toList then .number Real.pi
    else if name = "e".toList then .number (Real.exp 1)
    else if name = "I".toList ∨ name = "i".toList then .number I
    else match params with
      | none => .unknown name
      | some ps =>
        if name ∈ ps then .link name
        else if name ++ "_Re".toList ∈ ps ∧ name ++ "_Im".toList ∈ ps then
          if st.isCartesian then .cartesian (name ++ "_Re".toList) (name ++ "_Im".toList)
          else .polar st.sf (name ++ "_Re".toList) (name ++ "_Im".toList)
        else .unknown name

/-- The value of what a word stands for, lines 223-231, for the current values of the parameters. -/
noncomputable def Meaning.value (current : Str → ℝ) (symbol : Str → ℂ) : Meaning → ℂ
  | .number z => z
  | .link p => current p
  | .cartesian re im => current re + I * current im
  | .polar sf r phi => current r * Complex.exp (sf * I * current phi)
  | .unknown name => symbol name

end AmpGen.Parser
