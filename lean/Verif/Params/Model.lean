import Verif.Strings.Model
import Mathlib.Logic.Function.Basic
import Mathlib.Algebra.Order.Field.Rat
/-
Model of src/MinuitParameterSet.cpp, src/MinuitParameter.cpp and the bookkeeping of src/Minimiser.cpp.

Parameter objects live in a heap and are identified by numbers, which stand for the pointers to them.  One parameter set is modelled.
Simplifications: values are exact rational numbers; the value of a `MinuitExpression` is not modelled, only that it is an object with a name
and the flag `Hide`; objects are never deleted.
-/
namespace AmpGen.Params
open AmpGen.Strings (Str)

/-- `Flag`, AmpGen/MinuitParameter.h:13. -/
inductive Flag
  | free | hide | fix | compileTimeConstant | blind | invalid
  deriving DecidableEq

/-- `MinuitParameter`, AmpGen/MinuitParameter.h:59-69. -/
structure Param where
  flag : Flag
  name : Str
  meanInit : ℚ
  stepInit : ℚ
  minInit : ℚ
  maxInit : ℚ
  mean : ℚ
  errPos : ℚ
  errNeg : ℚ
  err : ℚ
  index : Int
  deriving DecidableEq

/-- `MinuitParameter::resetToInit`, src/MinuitParameter.cpp:79-85. -/
def Param.resetToInit (p : Param) : Param := { p with mean := p.meanInit, err := p.stepInit, errPos := -9999, errNeg := -9999 }

/-- The constructor with a flag, src/MinuitParameter.cpp:16-22. -/
def Param.make (name : Str) (flag : Flag) (mean step mi ma : ℚ) : Param :=
  Param.resetToInit ⟨flag, name, mean, step, mi, ma, 0, 0, 0, 0, -1⟩

/-- `MinuitExpression::MinuitExpression`, src/MinuitExpression.cpp:12-24, without the expression. -/
def Param.expression (name : Str) : Param := ⟨.hide, name, 0, 0, 0, 0, 0, 0, 0, 0, -1⟩

/-- `MinuitParameter::setResult`, src/MinuitParameter.cpp:69-75. -/
def Param.setResult (p : Param) (mean err errNeg errPos : ℚ) : Param := { p with mean := mean, err := err, errPos := errPos, errNeg := errNeg }

/-- `isFree() || isBlind()`, src/MinuitParameter.cpp:41-42. -/
def Param.varies (p : Param) : Bool := p.flag == .free || p.flag == .blind

/-- The objects, the first unused number, and the members of the parameter set, AmpGen/MinuitParameterSet.h:64-66. -/
structure World where
  heap : Nat → Param
  next : Nat
  params : List Nat
  keys : Str → Option Nat

/-- An empty parameter set and no objects; `junk` is what unused memory contains. -/
def World.empty (junk : Param) : World := ⟨fun _ => junk, 0, [], fun _ => none⟩

/-- `new MinuitParameter`. -/
def World.create (w : World) (p : Param) : World × Nat := ({ w with heap := Function.update w.heap w.next p, next := w.next + 1 }, w.next)

/-- `find( key )`, src/MinuitParameterSet.cpp:251-255. -/
def World.find (w : World) (key : Str) : Option Nat := w.keys key

/-- `at( index )`, src/MinuitParameterSet.cpp:109-114. -/
def World.at (w : World) (i : Nat) : Option Nat := w.params[i]?

/-- `addToEnd`, src/MinuitParameterSet.cpp:30-42; a number that is not in use stands for the null pointer. -/
def World.addToEnd (w : World) (id : Nat) : World × Bool :=
  if w.next ≤ id then (w, false)
  else
    let w' := { w with params := w.params ++ [id] }
    if (w.keys (w.heap id).name).isSome then (w', false)
    else ({ w' with keys := Function.update w'.keys (w.heap id).name (some id) }, true)

/-- `unregister`, src/MinuitParameterSet.cpp:53-61. -/
def World.unregister (w : World) (id : Nat) : World × Bool :=
  if id ∈ w.params then ({ w with params := w.params.filter fun x => x != id }, true) else (w, false)

/-- `rename`, src/MinuitParameterSet.cpp:219-235. -/
def World.rename (w : World) (name new : Str) : World × Bool :=
  match w.find name with
  | none => (w, false)
  | some id =>
    if name = new then (w, false)
    else if (w.find new).isSome then (w, false)
    else
      ({ w with heap := Function.update w.heap id { w.heap id with name := new }
                keys := Function.update (Function.update w.keys name none) new (some id) }, true)

/-- The edits of a parameter set. -/
inductive Op
  | new (p : Param)
  | addPtr (id : Nat)
  | add (name : Str) (flag : Flag) (mean step mi ma : ℚ)
  | addOrGet (name : Str) (flag : Flag) (mean step mi ma : ℚ)
  | rename (name new : Str)
  | unregister (id : Nat)

/-- What an edit returns. -/
inductive Out
  | created (id : Nat)
  | added (id : Nat)
  | refused
  | got (id : Nat)
  | renamed (ok : Bool)
  | unregistered (ok : Bool)
  deriving DecidableEq

/-- `add( name, ... )`, src/MinuitParameterSet.cpp:44-49, also used by `addOrGet`, lines 237-242. -/
def World.addNew (w : World) (p : Param) : World × Out :=
  let (w, id) := w.create p
  let (w, ok) := w.addToEnd id
  (w, if ok then .added id else .refused)

/-- One edit. -/
def World.step (w : World) : Op → World × Out
  | .new p => let (w, id) := w.create p; (w, .created id)
  | .addPtr id => let (w, ok) := w.addToEnd id; (w, if ok then .added id else .refused)
  | .add name flag mean step mi ma => w.addNew (.make name flag mean step mi ma)
  | .addOrGet name flag mean step mi ma =>
    match w.keys name with
    | some id => (w, .got id)
    | none => w.addNew (.make name flag mean step mi ma)
  | .rename name new => let (w, ok) := w.rename name new; (w, .renamed ok)
  | .unregister id => let (w, ok) := w.unregister id; (w, .unregistered ok)

/-- A history of edits, with what they returned. -/
def World.run (w : World) : List Op → World × List Out
  | [] => (w, [])
  | op :: ops =>
    let (w, out) := w.step op
    let (w, outs) := w.run ops
    (w, out :: outs)

/-- `add( new MinuitParameter(...) )` without use of the result. -/
def World.addObject (w : World) (p : Param) : World := (w.addNew p).1

/-- `tryParameter`, src/MinuitParameterSet.cpp:117-155.  `num` is `lexical_cast<double>`, `none` where it clears `status`; `flag` is `parse<Flag>`. -/
def tryParameter (num : Str → Option ℚ) (flag : Str → Flag) (w : World) : List Str → World
  | [name, f, mean, step] =>
    match num mean, num step with
    | some mean, some step => if flag f = .invalid then w else w.addObject (.make name (flag f) mean step 0 0)
    | _, _ => w
  | [name, f, mean, step, mi, ma] =>
    match num mean, num step, num mi, num ma with
    | some mean, some step, some mi, some ma => if flag f = .invalid then w else w.addObject (.make name (flag f) mean step mi ma)
    | _, _, _, _ => w
  | [name, f, mean, step, f', mean', step'] =>
    match num mean, num step, num mean', num step' with
    | some mean, some step, some mean', some step' =>
      if flag f = .invalid ∨ flag f' = .invalid then w
      else (w.addObject (.make (name ++ "_Re".toList) (flag f) mean step 0 0)).addObject (.make (name ++ "_Im".toList) (flag f') mean' step' 0 0)
    | _, _, _, _ => w
  | [name, f, mean, step, mi, ma, f', mean', step', mi', ma'] =>
    match num mean, num step, num mi, num ma, num mean', num step', num mi', num ma' with
    | some mean, some step, some mi, some ma, some mean', some step', some mi', some ma' =>
      if flag f = .invalid ∨ flag f' = .invalid then w
      else (w.addObject (.make (name ++ "_Re".toList) (flag f) mean step mi ma)).addObject (.make (name ++ "_Im".toList) (flag f') mean' step' mi' ma')
    | _, _, _, _, _, _, _, _ => w
  | _ => w

/-- `tryAlias`, src/MinuitParameterSet.cpp:157-161, with the test made before it in `loadFromStream`, line 170. -/
def tryAlias (w : World) : List Str → World
  | name :: eq :: _ :: _ => if eq = ['='] then w.addObject (.expression name) else w
  | _ => w

/-- The expressions for charge conjugate particles in `loadFromStream`, src/MinuitParameterSet.cpp:179-192.  `conj` gives the name of the
conjugate parameter, if the particle list has one. -/
def conjugates (conj : Str → Option Str) (w : World) : List Str :=
  w.params.filterMap fun id =>
    match conj (w.heap id).name with
    | none => none
    | some name => if (w.find name).isSome then none else some name

/-- `loadFromStream`, src/MinuitParameterSet.cpp:163-194, without the warning. -/
def loadFromStream (num : Str → Option ℚ) (flag : Str → Flag) (conj : Str → Option Str) (w : World) (lines : List (List Str)) : World :=
  let w := lines.foldl (tryParameter num flag) w
  let w := lines.foldl tryAlias w
  (conjugates conj w).foldl (fun w name => w.addObject (.expression name)) w

/-- The members of `Minimiser` that describe a fit, AmpGen/Minimiser.h:93-97. -/
structure Minimiser where
  mapping : List Nat
  nParams : Nat
  cov : List ℚ

/-- The loop of `prepare`, src/Minimiser.cpp:151-160: the positions that become variables. -/
def freePositions (w : World) : List Nat :=
  (List.range w.params.length).filter fun i => match w.at i with
    | some id => (w.heap id).varies
    | none => false

/-- Change the object at a position, `at( m )->...`; `none` where the null pointer would be used. -/
def World.modifyAt (w : World) (m : Nat) (f : Param → Param) : Option World :=
  match w.at m with
  | none => none
  | some id => some { w with heap := Function.update w.heap id (f (w.heap id)) }

/-- A loop `for( i ) at( mapping[i] )->...` over the positions, counting from `i`. -/
def World.modifyAll (f : Nat → Param → Param) : List Nat → Nat → World → Option World
  | [], _, w => some w
  | m :: ms, i, w => (w.modifyAt m (f i)).bind (World.modifyAll f ms (i + 1))

/-- `prepare`, src/Minimiser.cpp:117-164, with `setMapping`, src/MinuitParameterSet.cpp:275-279. -/
def prepare (w : World) : Option (World × Minimiser) :=
  let mapping := freePositions w
  (World.modifyAll (fun i p => { p with index := i }) mapping 0 w).map fun w =>
    (w, ⟨mapping, mapping.length, List.replicate (mapping.length * mapping.length) 0⟩)

/-- The assignments of `Minimiser::operator()`, src/Minimiser.cpp:87-89, and of `setFromMinuit`, src/MinuitParameterSet.cpp:270-273. -/
def evaluate (m : Minimiser) (w : World) (x : Nat → ℚ) : Option World := World.modifyAll (fun i p => { p with mean := x i }) m.mapping 0 w

/-- `Minimize()`: the function is evaluated at any sequence of points. -/
def minimise (m : Minimiser) (w : World) : List (Nat → ℚ) → Option World
  | [] => some w
  | x :: xs => (evaluate m w x).bind fun w => minimise m w xs

/-- `doFit`, src/Minimiser.cpp:205-214, without the optional `RunMinos`: the loop that stores the results.  `X`, `Errors` and `CovMatrix` are
those of the library. -/
def doFit (m : Minimiser) (w : World) (xs : List (Nat → ℚ)) (X Errors : Nat → ℚ) (CovMatrix : Nat → Nat → ℚ) : Option (World × Minimiser) := do
  let w ← minimise m w xs
  let w ← World.modifyAll (fun i p => p.setResult (X i) (Errors i) (Errors i) (Errors i)) (m.mapping.take m.nParams) 0 w
  let cov := (List.range m.nParams).foldl (fun cov i => (List.range m.nParams).foldl (fun cov j => cov.set (i + m.nParams * j) (CovMatrix i j)) cov) m.cov
  pure (w, { m with cov := cov })

/-- `covMatrix`, src/Minimiser.cpp:297-307: the entries. -/
def Minimiser.covMatrix (m : Minimiser) (i j : Nat) : Option ℚ :=
  if i < m.nParams ∧ j < m.nParams then m.cov[i + j * m.nParams]? else none

/-- `covMatrixFull`, src/Minimiser.cpp:309-319: a matrix of zeros, as large as the set, into which the loops write. -/
def Minimiser.covMatrixFull (m : Minimiser) (poison : ℚ) : Nat → Nat → ℚ :=
  (List.range m.mapping.length).foldl (fun M i => (List.range m.mapping.length).foldl (fun M j =>
    Function.update M (m.mapping.getD i 0) (Function.update (M (m.mapping.getD i 0)) (m.mapping.getD j 0)
      (m.cov.getD (i + j * m.mapping.length) poison))) M) fun _ _ => 0

/-- The changes made by `gradientTest`, src/Minimiser.cpp:99-115, to one parameter. -/
def gradientStep (w : World) (m : Nat) : Option World := do
  let id ← w.at m
  let old := (w.heap id).mean
  let w ← w.modifyAt m fun p => { p with mean := p.meanInit + p.stepInit }
  let w ← w.modifyAt m fun p => { p with mean := p.meanInit - p.stepInit }
  w.modifyAt m fun p => { p with mean := old }

/-- `gradientTest`, src/Minimiser.cpp:99-115. -/
def gradientTest (m : Minimiser) (w : World) : Option World := m.mapping.foldlM gradientStep w

end AmpGen.Params
