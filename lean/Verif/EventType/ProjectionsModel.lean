import Verif.EventType.Model
import Verif.Comb.Model
/-
Model of the projections an event type offers, src/EventType.cpp.

Simplifications: numbers are real; the titles of the axes and the units are left out. The option `EventType::Observable` is an argument.
-/
namespace AmpGen.EventType
open AmpGen.Strings AmpGen.Kinematics

/-- The values of the option `EventType::Observable` that `projection` tells apart, src/EventType.cpp:187, 192, 198. -/
inductive Observable
  | mass2
  | mass
  | other

/-- What `projection` passes to the constructor of `Projection`, src/EventType.cpp:188-197: the function, the name, the number of bins and the range. -/
structure Axis where
  func : Event → ℝ
  name : Str
  nBins : Nat
  min : ℝ
  max : ℝ

/-- `vectorToString( indices )` without a delimiter, AmpGen/Utilities.h:23-44. -/
def indexString (indices : List Nat) : Str := indices.flatMap (Nat.toDigits 10)

/-- `EventType::projection`, src/EventType.cpp:181-199; `none` is the empty `Projection()`. -/
noncomputable def projection (t : EventType ℝ) (nBins : Nat) (indices : List Nat) (observable : Observable) : Option Axis :=
  let mm := minmax t indices
  match observable with
  | .mass2 => some ⟨fun evt => evt.s indices, 's' :: indexString indices, nBins, mm.1 * mm.1 - 1 / 20, mm.2 * mm.2 + 1 / 20⟩
  | .mass => some ⟨fun evt => √(evt.s indices), 'm' :: indexString indices, nBins, if mm.1 > 1 / 20 then mm.1 - 1 / 20 else 0, mm.2 + 1 / 20⟩
  | .other => none

/-- `EventType::defaultProjections`, src/EventType.cpp:169-179: the loop over the sizes; `fuel` bounds the loop of `nCr`. -/
noncomputable def defaultProjections (t : EventType ℝ) (nBins : Nat) (observable : Observable) (fuel : Nat) : Option (List (Option Axis)) :=
  ((List.range' 2 (t.size - 2)).mapM fun r => Comb.nCr fuel t.size r).map fun combs => combs.flatten.map fun index => projection t nBins index observable

end AmpGen.EventType
