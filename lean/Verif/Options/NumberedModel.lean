import Verif.Options.Model
/-
Model of `NamedParameter<T>::getVectorArgument`, AmpGen/NamedParameter.h: the values of options whose names are a word followed by a number.

The counter of the code is an `unsigned int`; here it is a natural number.
-/
namespace AmpGen.Options
open AmpGen.Strings (Str)

/-- `NamedParameter<T>( name, default_value )` converted to `T`, AmpGen/NamedParameter.h:61-69 with `getVal`, :97-107: the first of the values.  The
conversion throws on an empty list, which a parameter made from one default value never is. -/
def namedValue {T : Type} (cast : Str → Option T) (zero : T) (p : Parser) (name : Str) (dflt : T) : Option T :=
  (namedParameter cast zero p name [dflt]).head?

/-- `name + std::to_string( x )`, AmpGen/NamedParameter.h:145. -/
def numberedName (name : Str) (x : Nat) : Str := name ++ Nat.toDigits 10 x

/-- The do-while loop of `getVectorArgument`, AmpGen/NamedParameter.h:144-147, for at most `fuel` turns: `none` if it is still running. -/
def vectorLoop {T : Type} [DecidableEq T] (cast : Str → Option T) (zero : T) (p : Parser) (name : Str) (dflt : T) : Nat → Nat → List T → Option (List T)
  | 0, _, _ => none
  | fuel + 1, x, out =>
    match namedValue cast zero p (numberedName name x) dflt with
    | none => none
    | some obj =>
      let out := if obj ≠ zero then out ++ [obj] else out
      if obj ≠ dflt then vectorLoop cast zero p name dflt fuel (x + 1) out else some out

/-- `getVectorArgument`, AmpGen/NamedParameter.h:139-149. -/
def getVectorArgument {T : Type} [DecidableEq T] (cast : Str → Option T) (zero : T) (p : Parser) (name : Str) (dflt : T) (fuel : Nat) : Option (List T) :=
  vectorLoop cast zero p name dflt fuel 0 []

end AmpGen.Options
