import Verif.Errors.Spec
/-
Model of the covariance matrix of a fit result: src/FitResult.cpp, AmpGen/FitResult.h.

Parameters are numbers, as in Verif/Errors/Model.lean; the parameter set is the list of its parameters, and the parameter number `i` of the set stands for
itself.  Matrices are functions of the indices.  Simplification: fit fractions, observables and the quality of the fit are carried along by C39.
-/
namespace AmpGen.FitErrors
open AmpGen.Strings (Str)
open AmpGen.Errors (Linear divide sqrt)

/-- A parameter: its name, whether it is free, whether it is blind, and its error. -/
structure Par where
  name : Str
  free : Bool
  blind : Bool
  err : ℝ

/-- A fit result, AmpGen/FitResult.h:64-76. -/
structure Result where
  mps : List Par
  nRows : Nat
  cov : Nat → Nat → ℝ
  covMapping : Str → Option Nat
  nBins : ℝ
  nParam : ℝ

/-- `m_covMapping[ name ] = i` in the loop over the parameters, src/FitResult.cpp:53-56,66-68. -/
def mapping (mps : List Par) : Str → Option Nat :=
  (List.range mps.length).foldl (fun m i => match mps[i]? with
    | some p => Function.update m p.name (some i)
    | none => m) fun _ => none

/-- `m_nParam++`, src/FitResult.cpp:54,68. -/
noncomputable def countFloating (mps : List Par) : ℝ := mps.foldl (fun n p => if p.free || p.blind then n + 1 else n) 0

/-- The constructor from a parameter set and a covariance matrix, src/FitResult.cpp:59-70. -/
noncomputable def Result.make (mps : List Par) (nRows : Nat) (cov : Nat → Nat → ℝ) : Result :=
  { mps := mps, nRows := nRows, cov := cov, covMapping := mapping mps, nBins := 0, nParam := countFloating mps }

/-- The copy constructor, src/FitResult.cpp:24-37: the map from names to indices is not copied, and the number of bins and of parameters are copied through
functions that return an `int`, :286-287. -/
noncomputable def Result.copy (r : Result) : Result :=
  { mps := r.mps, nRows := r.nRows, cov := r.cov, covMapping := fun _ => none
    nBins := if 0 ≤ r.nBins then (⌊r.nBins⌋ : ℝ) else (⌈r.nBins⌉ : ℝ)
    nParam := if 0 ≤ r.nParam then (⌊r.nParam⌋ : ℝ) else (⌈r.nParam⌉ : ℝ) }

/-- Whether a parameter is floating, src/FitResult.cpp:235,246. -/
noncomputable def isFloating (extended : Bool) (p : Par) : Bool := (p.free || p.blind || extended) && decide (p.err > 1 / 10 ^ 6)

/-- `floating`, src/FitResult.cpp:231-238. -/
noncomputable def Result.floating (r : Result) (extended : Bool) : List Nat :=
  ((r.mps.zipIdx).filter fun p => isFloating extended p.1).map fun p => p.2

/-- The loop for the indices in `getReducedCovariance`, src/FitResult.cpp:242-247. -/
noncomputable def Result.floatingIndices (r : Result) (extended : Bool) : List Nat :=
  (List.range r.mps.length).foldl (fun acc i => match r.mps[i]? with
    | some p => if isFloating extended p then acc ++ [i] else acc
    | none => acc) []

/-- `getReducedCovariance`, src/FitResult.cpp:240-260. -/
noncomputable def Result.reducedCovariance (r : Result) (extended : Bool) : Nat → Nat → ℝ :=
  let indices := r.floatingIndices extended
  if indices.length > r.nRows then fun _ _ => 0
  else fun i j => r.cov (indices.getD i 0) (indices.getD j 0)

/-- `getErrorPropagator`, src/FitResult.cpp:262-265. -/
noncomputable def Result.errorPropagator (r : Result) (extended : Bool) : Linear :=
  { cov := r.reducedCovariance extended, params := r.floating extended }

/-- `cov( x, y )` for names, src/FitResult.cpp:294: `none`, an exception, for other names. -/
def Result.covariance (r : Result) (x y : Str) : Option ℝ := do
  let i ← r.covMapping x
  let j ← r.covMapping y
  some (r.cov i j)

/-- `correlation`, src/FitResult.cpp:302-311: minus one if there is no such parameter; NaN is `none`. -/
noncomputable def Result.correlation (r : Result) (x y : Str) : Option ℝ :=
  match r.covMapping x, r.covMapping y with
  | some i, some j => divide (some (r.cov i j)) (sqrt (r.cov i i * r.cov j j))
  | _, _ => some (-1)

/-- `dof`, src/FitResult.cpp:291. -/
noncomputable def Result.dof (r : Result) : ℝ := r.nBins - r.nParam - 1

end AmpGen.FitErrors
