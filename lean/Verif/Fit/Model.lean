import Verif.Params.Model
import Mathlib.Algebra.Order.Floor.Semiring
import Mathlib.Algebra.Order.Field.Rat
/-
Model of the rest of src/Minimiser.cpp: the errors found by scanning the function (Minos), the scan of one parameter, the result object, what is
printed for blind parameters, and which function is minimised.  The parameter set, `prepare`, `doFit` without Minos and the evaluation of the
function are those of Verif/Params/Model.lean.

Simplifications: values are exact rational numbers.  The library that minimises is an argument: it evaluates the function at any sequence of points,
and returns any numbers.  `none` is the use of a null pointer, or, where there is a bound on the number of turns, a loop that goes on.
-/
namespace AmpGen.Fit
open AmpGen.Params
open AmpGen.Strings (Str)

/-- The loop of `doFit` for `Minimiser::RunMinos`, src/Minimiser.cpp:227-238.  `pts i` are the points at which the library evaluates the function in
`GetMinosError( i, … )`, `low i` and `high i` what it returns.  The value that is stored is the current value of the parameter, `*param`. -/
def runMinos (m : Minimiser) (pts : Nat → List (Nat → ℚ)) (low high : Nat → ℚ) : List Nat → World → Option World
  | [], w => some w
  | i :: is, w =>
    (minimise m w (pts i)).bind fun w =>
      (w.modifyAt (m.mapping.getD i w.params.length) fun p => p.setResult p.mean p.err (low i) (high i)).bind fun w => runMinos m pts low high is w

/-- `doFit`, src/Minimiser.cpp:188-238, with `Minimiser::RunMinos`. -/
def doFitMinos (m : Minimiser) (w : World) (xs : List (Nat → ℚ)) (X Errors : Nat → ℚ) (CovMatrix : Nat → Nat → ℚ)
    (pts : Nat → List (Nat → ℚ)) (low high : Nat → ℚ) : Option (World × Minimiser) :=
  (doFit m w xs X Errors CovMatrix).bind fun r => (runMinos r.2 pts low high (List.range r.2.nParams) r.1).map fun w => (w, r.2)

/-- Change an object, `param->…`. -/
def setParam (w : World) (id : Nat) (f : Param → Param) : World := { w with heap := Function.update w.heap id (f (w.heap id)) }

/-- `minos`, src/Minimiser.cpp:328-352, without the output: `X` is what the library found, `pts` where it evaluates the function, `low` and `high`
what it returns. -/
def minos (m : Minimiser) (w : World) (id : Nat) (X : Nat → ℚ) (pts : List (Nat → ℚ)) (low high : ℚ) : Option World :=
  let p := w.heap id
  let hasLimits := p.minInit ≠ 0 ∨ p.maxInit ≠ 0
  if hasLimits ∧ p.mean - p.err < p.minInit then some w
  else if hasLimits ∧ p.mean + p.err > p.maxInit then some w
  else
    (minimise m w pts).bind fun w =>
      World.modifyAll (fun i p => { p with mean := X i }) (m.mapping.take m.nParams) 0 (setParam w id fun q => q.setResult p.mean q.err low high)

/-- `m_parSet->at( name + "_blind" )->mean()`. -/
def blindOffset (w : World) (p : Param) : Option ℚ := (w.find (p.name ++ "_blind".toList)).map fun b => (w.heap b).mean

/-- The loop of `scan`, src/Minimiser.cpp:286-290: at most that many turns. -/
def scanLoop (FCN : World → ℚ) (id : Nat) (offset max step : ℚ) : Nat → ℚ → World → List (ℚ × ℚ) → Option (List (ℚ × ℚ) × World)
  | 0, _, _, _ => none
  | n + 1, sv, w, graph =>
    if sv < max then
      let w := setParam w id fun p => { p with mean := sv - offset }
      scanLoop FCN id offset max step n (sv + step) w (graph ++ [(sv, FCN w)])
    else some (graph, w)

/-- `scan`, src/Minimiser.cpp:277-293. -/
def scan (FCN : World → ℚ) (w : World) (id : Nat) (min max step : ℚ) (turns : Nat) : Option (List (ℚ × ℚ) × World) :=
  let p := w.heap id
  (if p.flag = .blind then blindOffset w p else some 0).bind fun offset =>
    (scanLoop FCN id offset max step turns min w []).map fun r => (r.1, setParam r.2 id fun q => { q with mean := p.mean })

/-- The members of `ROOT::Fit::FitResult` that are set, src/Minimiser.cpp:390-426. -/
structure Result where
  names : List Str
  params : List ℚ
  errors : List ℚ
  cov : List ℚ
  minos : Nat → Option (ℚ × ℚ)
  value : ℚ

/-- `set`, src/Minimiser.cpp:397-413, on a new result of `n` parameters, 392-396. -/
def Result.make (n : Nat) (X E : Nat → ℚ) (C : Nat → Nat → ℚ) (fcn : ℚ) : Result where
  names := List.replicate n []
  params := (List.range n).map X
  errors := (List.range n).map E
  cov := (List.range n).flatMap fun i => (List.range (i + 1)).map fun j => C i j
  minos := fun _ => none
  value := fcn

/-- One turn of the loop of `fitResult`, src/Minimiser.cpp:437-440. -/
def Result.add (w : World) (r : Result) (i : Nat) (p : Param) : Option Result :=
  let r := { r with names := r.names.set i p.name }
  let r := if p.errPos ≠ p.errNeg then { r with minos := Function.update r.minos i (some (p.errNeg, p.errPos)) } else r
  if p.flag = .blind then (blindOffset w p).map fun o => { r with params := r.params.modify i (· + o) } else some r

/-- The loop of `fitResult`, counting from `i`. -/
def Result.loop (w : World) : List Nat → Nat → Result → Option Result
  | [], _, r => some r
  | a :: as, i, r => ((w.at a).bind fun id => r.add w i (w.heap id)).bind (Result.loop w as (i + 1))

/-- `fitResult`, src/Minimiser.cpp:430-443, after a fit: `X`, `E` and `C` are those of the library. -/
def fitResult (m : Minimiser) (w : World) (FCN : World → ℚ) (X E : Nat → ℚ) (C : Nat → Nat → ℚ) : Option Result :=
  Result.loop w m.mapping 0 (.make m.nParams X E C (FCN w))

/-- A line of the table printed at the end of `doFit`. -/
structure Row where
  name : Str
  flag : Flag
  value : ℚ
  err : ℚ
  errPos : ℚ
  errNeg : ℚ
  deriving DecidableEq

/-- The line for one parameter, src/Minimiser.cpp:249-271; `none` inside if it is skipped. -/
def row (runMinos : Bool) (w : World) (p : Param) : Option (Option Row) :=
  let line (mean : ℚ) : Option Row :=
    if p.flag = .free ∨ p.flag = .fix ∨ p.flag = .blind then
      some ⟨p.name, p.flag, mean, if p.flag = .free then p.err else 0, if runMinos ∧ p.flag = .free then p.errPos else 0,
        if runMinos ∧ p.flag = .free then p.errNeg else 0⟩
    else none
  if p.flag = .blind then (blindOffset w p).map fun o => if o = 0 then none else line (p.mean + o)
  else some (line p.mean)

/-- The table, src/Minimiser.cpp:247-272. -/
def table (runMinos : Bool) (w : World) : List Nat → Option (List Row)
  | [] => some []
  | id :: ids => (row runMinos w (w.heap id)).bind fun r => (table runMinos w ids).map fun rs => r.toList ++ rs

/-- `fix` and `setFree`, src/MinuitParameter.cpp:46,58. -/
def setFlag (w : World) (id : Nat) (flag : Flag) : World := setParam w id fun p => { p with flag := flag }

/-- The constructor without a flag, src/MinuitParameter.cpp:24-29: the arguments of the other constructor are members of the object
that is not yet constructed.  `memory` is what they hold. -/
def makeFree (memory : Param) (name : Str) (_mean _step _mi _ma : ℚ) : Param :=
  Param.make name .free memory.meanInit memory.stepInit memory.minInit memory.maxInit

/-- `operator()( const double* )`, src/Minimiser.cpp:85-93, after the assignments. -/
def objective (FCN : World → ℚ) (terms : List (World → ℚ)) (zero : ℚ) (w : World) : ℚ :=
  terms.foldl (fun LL t => LL - 2 * t w) (FCN w) - zero

/-- The function given to the library in `doFit`, src/Minimiser.cpp:190-196, and the new `m_ll_zero`.  The functor holds a copy of the minimiser, made before
`m_ll_zero` is set.  `withGrad` is a function that has a gradient, `m_fcnWithGrad`; its value is `FCN`. -/
def fitObjective (withGrad normalise : Bool) (FCN : World → ℚ) (terms : List (World → ℚ)) (zero : ℚ) (w : World) : (World → ℚ) × ℚ :=
  (if withGrad then FCN else objective FCN terms zero, if normalise then FCN w else zero)

end AmpGen.Fit
