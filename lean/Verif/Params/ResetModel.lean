import Verif.Params.Model
/-
Model of copying the values of another parameter set and of going back to the initial values, src/MinuitParameterSet.cpp:205-215, and of the constructor of a
parameter without a flag, src/MinuitParameter.cpp:24-29.

Simplifications: as in Verif/Params/Model.lean; the two sets share no parameters, and no parameter is an expression.
-/
namespace AmpGen.Params
open AmpGen.Strings (Str)

/-- The body of the loop of `set( other )`, src/MinuitParameterSet.cpp:208-209.  `other[name]`, lines 90-97, reads the entry at the end of the map if there is no
parameter with this name (`none`), and so the test for the null pointer is of no use. -/
def World.copyOne (other w : World) (id : Nat) : Option World :=
  (other.find (w.heap id).name).map fun j => { w with heap := Function.update w.heap id { w.heap id with mean := (other.heap j).mean } }

/-- `set( other )`, src/MinuitParameterSet.cpp:205-211. -/
def World.set (w other : World) : Option World := w.params.foldlM (World.copyOne other) w

/-- `resetToInit()`, src/MinuitParameterSet.cpp:213-216. -/
def World.resetToInit (w : World) : World :=
  w.params.foldl (fun w id => { w with heap := Function.update w.heap id (w.heap id).resetToInit }) w

/-- What the memory of a new object contains. -/
structure Memory where
  meanInit : ℚ
  stepInit : ℚ
  minInit : ℚ
  maxInit : ℚ

/-- The constructor without a flag, src/MinuitParameter.cpp:24-29: it passes the members of the object, which have no values yet, in place of its arguments. -/
def Param.makeFree (memory : Memory) (name : Str) (_mean _step _mi _ma : ℚ) : Param :=
  (Param.make name .free memory.meanInit memory.stepInit memory.minInit memory.maxInit).resetToInit

end AmpGen.Params
