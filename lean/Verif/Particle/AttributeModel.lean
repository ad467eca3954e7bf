import Verif.Strings.Model
/-
Model of `Particle::attribute`, src/Particle.cpp.
-/
namespace AmpGen.Particle.Attribute
open AmpGen.Strings (Str split)

/-- `Particle::attribute( key )`, src/Particle.cpp:926-933, of a particle with the given modifiers; `none` is `nullopt`. -/
def getAttribute (modifiers : List Str) (key : Str) : Option Str :=
  modifiers.findSome? fun modifier =>
    match split modifier '=' true with
    | [a, b] => if a = key then some b else none
    | _ => none

end AmpGen.Particle.Attribute
