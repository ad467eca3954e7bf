import Verif.Strings.Model
import Mathlib.Analysis.Real.Sqrt
import Mathlib.Algebra.BigOperators.Group.Finset.Basic
import Mathlib.Data.Finset.Range
/-
Model of src/ErrorPropagator.cpp and AmpGen/ErrorPropagator.h.

Parameters are numbers that stand for pointers, and a `Store` gives their values (`mean()`); functions to be propagated read the store.  Real numbers are exact,
`none` stands for NaN (a division by zero or the root of a negative number).
Simplifications: matrices are functions of the indices, of the size of the list of parameters; the matrix inverse, the Cholesky decomposition and random
numbers are arguments.
-/
namespace AmpGen.Errors
open Finset
open AmpGen.Strings (Str)

/-- The values of all parameters. -/
abbrev Store := Nat → ℝ

/-- A function to be propagated. -/
abbrev Fcn := Store → ℝ

/-- `LinearErrorPropagator`, AmpGen/ErrorPropagator.h:72-73. -/
structure Linear where
  cov : Nat → Nat → ℝ
  params : List Nat

/-- The parameter number `i`. -/
def Linear.at (P : Linear) (i : Nat) : Nat := P.params.getD i 0

/-- Division, NaN for a zero or NaN denominator. -/
noncomputable def divide (a b : Option ℝ) : Option ℝ :=
  match a, b with
  | some a, some b => if b = 0 then none else some (a / b)
  | _, _ => none

/-- `std::sqrt`. -/
noncomputable def sqrt (x : ℝ) : Option ℝ := if x < 0 then none else some (Real.sqrt x)

/-- `derivative`, AmpGen/ErrorPropagator.h:75-84: the result and the values of the parameters afterwards.  Where the variance is negative the parameter is set to NaN
while the function is evaluated, and the result is NaN. -/
noncomputable def Linear.derivative (P : Linear) (fcn : Fcn) (s : Store) (i : Nat) : Option ℝ × Store :=
  let start := s (P.at i)
  match sqrt (P.cov i i) with
  | none => (none, Function.update s (P.at i) start)
  | some sigma =>
    let s := Function.update s (P.at i) (start + sigma)
    let plus := fcn s
    let s := Function.update s (P.at i) (start - sigma)
    let minus := fcn s
    let s := Function.update s (P.at i) start
    (divide (some (plus - minus)) (some (2 * sigma)), s)

/-- The derivatives with respect to all parameters: the loops of `getError` and `covarianceMatrix`. -/
noncomputable def Linear.gradient (P : Linear) (fcn : Fcn) (s : Store) : List (Option ℝ) × Store :=
  (List.range P.params.length).foldl (fun (acc : List (Option ℝ) × Store) i =>
    let (d, s) := P.derivative fcn acc.2 i
    (acc.1 ++ [d], s)) ([], s)

/-- A vector without NaN. -/
def allSome (v : List (Option ℝ)) : Option (List ℝ) := v.mapM id

/-- `Dot( a, m_cov * b )`. -/
noncomputable def Linear.dot (P : Linear) (a b : List ℝ) : ℝ :=
  ∑ i ∈ range P.params.length, a.getD i 0 * ∑ j ∈ range P.params.length, P.cov i j * b.getD j 0

/-- `getError`, src/ErrorPropagator.cpp:109-121. -/
noncomputable def Linear.getError (P : Linear) (fcn : Fcn) (s : Store) : Option ℝ × Store :=
  let (v, s) := P.gradient fcn s
  ((allSome v).bind fun v => sqrt (P.dot v v), s)

/-- One pass of the loop of `getVectorError`, src/ErrorPropagator.cpp:127-143. -/
noncomputable def Linear.vectorStep (P : Linear) (fcn : Store → List ℝ) (rank : Nat) (s : Store) (i : Nat) : List (Option ℝ) × Store :=
  let start := s (P.at i)
  match sqrt (P.cov i i) with
  | none => (List.replicate rank none, Function.update s (P.at i) start)
  | some sigma =>
    let lo := s (P.at i) - sigma
    let hi := s (P.at i) + sigma
    let s := Function.update s (P.at i) hi
    let plus := fcn s
    let s := Function.update s (P.at i) lo
    let minus := fcn s
    let s := Function.update s (P.at i) start
    ((List.range rank).map fun j => divide (some (plus.getD j 0 - minus.getD j 0)) (some (2 * sigma)), s)

/-- `getVectorError`, src/ErrorPropagator.cpp:123-148. -/
noncomputable def Linear.getVectorError (P : Linear) (fcn : Store → List ℝ) (rank : Nat) (s : Store) : List (Option ℝ) × Store :=
  let (columns, s) := (List.range P.params.length).foldl (fun (acc : List (List (Option ℝ)) × Store) i =>
    let (d, s) := P.vectorStep fcn rank acc.2 i
    (acc.1 ++ [d], s)) ([], s)
  ((List.range rank).map fun j => (allSome (columns.map fun c => c.getD j none)).bind fun v => sqrt (P.dot v v), s)

/-- The matrix `A` of `covarianceMatrix`, src/ErrorPropagator.cpp:164-167. -/
noncomputable def Linear.jacobian (P : Linear) (fs : List Fcn) (s : Store) : List (List (Option ℝ)) × Store :=
  fs.foldl (fun (acc : List (List (Option ℝ)) × Store) f =>
    let (row, s) := P.gradient f acc.2
    (acc.1 ++ [row], s)) ([], s)

/-- `covarianceMatrix`, src/ErrorPropagator.cpp:161-181. -/
noncomputable def Linear.covarianceMatrix (P : Linear) (fs : List Fcn) (s : Store) : (Nat → Nat → Option ℝ) × Store :=
  let (A, s) := P.jacobian fs s
  (fun i j => (allSome (A.getD i [])).bind fun a => (allSome (A.getD j [])).bind fun b =>
    some (∑ k ∈ range P.params.length, ∑ l ∈ range P.params.length, a.getD k 0 * P.cov k l * b.getD l 0), s)

/-- `correlationMatrix`, src/ErrorPropagator.cpp:240-251, from the covariance matrix of the functions. -/
noncomputable def correlation (cov : Nat → Nat → Option ℝ) (i j : Nat) : Option ℝ :=
  divide (cov i j) ((cov i i).bind fun a => (cov j j).bind fun b => sqrt (a * b))

/-- `combinationWeights`, src/ErrorPropagator.cpp:211-227, from the inverse `inv` of the covariance matrix of `n` estimators. -/
noncomputable def combinationWeights (n : Nat) (inv : Nat → Nat → ℝ) : List (Option ℝ) :=
  let wt := ∑ i ∈ range n, ∑ j ∈ range n, inv i j
  (List.range n).map fun i => divide (some (∑ j ∈ range n, inv i j)) (some wt)

/-- `combinationCovWeighted`, src/ErrorPropagator.cpp:183-209, from the covariance matrix of the functions, its inverse and the values of the functions: the
combination and its variance. -/
noncomputable def combine (n : Nat) (cov inv : Nat → Nat → ℝ) (values : Nat → ℝ) : Option (ℝ × ℝ) :=
  let wt := ∑ i ∈ range n, ∑ j ∈ range n, inv i j
  let weights := fun i => ∑ j ∈ range n, inv i j
  if wt = 0 then none
  else some (∑ i ∈ range n, values i * weights i / wt, ∑ i ∈ range n, ∑ j ∈ range n, weights i * weights j * cov i j / (wt * wt))

/-- `posMap`, src/ErrorPropagator.cpp:231-238: the position of a name; the last one if there are several. -/
def Linear.posMap (P : Linear) (name : Nat → Str) (n : Str) : Option Nat :=
  (List.range P.params.length).foldl (fun r i => if name (P.at i) = n then some i else r) none

/-- First loop of `add`, src/ErrorPropagator.cpp:86-93: `props`, `superSet` and the parameters. -/
def Linear.place (P : Linear) (name : Nat → Str) : List Nat → Nat → List Nat → List Nat × List Nat
  | [], _, ps => ([], ps)
  | x :: xs, superSet, ps =>
    match P.posMap name (name x) with
    | some pos => let (props, ps) := P.place name xs superSet ps; (pos :: props, ps)
    | none => let (props, ps) := P.place name xs (superSet + 1) (ps ++ [x]); (superSet :: props, ps)

/-- `add`, src/ErrorPropagator.cpp:80-107.  `ResizeTo` fills new entries with zero. -/
noncomputable def Linear.add (P Q : Linear) (name : Nat → Str) : Linear :=
  let (props, ps) := P.place name Q.params P.params.length P.params
  let start := fun x y => if x < P.params.length ∧ y < P.params.length then P.cov x y else 0
  let cov := (List.range Q.params.length).foldl (fun (c : Nat → Nat → ℝ) x => (List.range Q.params.length).foldl (fun (c : Nat → Nat → ℝ) y =>
    Function.update c (props.getD x 0) (Function.update (c (props.getD x 0)) (props.getD y 0)
      (c (props.getD x 0) (props.getD y 0) + Q.cov x y))) c) start
  ⟨cov, ps⟩

/-- `LinearErrorPropagator( params )`, src/ErrorPropagator.cpp:58-78: the free parameters with an error, and the squares of the errors on the diagonal. -/
noncomputable def Linear.ofParams (free : Nat → Bool) (err : Nat → ℝ) (params : List Nat) : Linear :=
  let ps := params.filter fun p => free p && decide (err p ≠ 0)
  ⟨fun i j => if i = j then err (ps.getD i 0) * err (ps.getD i 0) else 0, ps⟩

/-- `GaussErrorPropagator`, AmpGen/ErrorPropagator.h:98-101, without the generator. -/
structure Gauss where
  params : List Nat
  start : List ℝ
  chol : Nat → Nat → ℝ

/-- One pass of the loop that transposes the matrix, src/ErrorPropagator.cpp:28-32. -/
def swapEntries (m : Nat → Nat → ℝ) (i j : Nat) : Nat → Nat → ℝ :=
  fun a b => if a = i ∧ b = j then m j i else if a = j ∧ b = i then m i j else m a b

/-- The loops that transpose the matrix, src/ErrorPropagator.cpp:28-32. -/
def transposeLoop (n : Nat) (m : Nat → Nat → ℝ) : Nat → Nat → ℝ :=
  (List.range n).foldl (fun m i => ((List.range n).filter fun j => i < j).foldl (fun m j => swapEntries m i j) m) m

/-- The constructor of `GaussErrorPropagator`, src/ErrorPropagator.cpp:17-33, from the upper triangular matrix of the decomposition. -/
def Gauss.make (params : List Nat) (U : Nat → Nat → ℝ) (s : Store) : Gauss :=
  ⟨params, params.map s, transposeLoop params.length U⟩

/-- Assign values to parameters in turn. -/
def assign (ps : List Nat) (vs : List ℝ) (s : Store) : Store := (ps.zip vs).foldl (fun s pv => Function.update s pv.1 pv.2) s

/-- `perturb`, src/ErrorPropagator.cpp:35-45, for random numbers `e`. -/
noncomputable def Gauss.perturb (G : Gauss) (e : Nat → ℝ) (s : Store) : Store :=
  assign G.params ((List.range G.params.length).map fun j => G.start.getD j 0 + ∑ k ∈ range G.params.length, G.chol j k * e k) s

/-- `reset`, src/ErrorPropagator.cpp:47-50. -/
def Gauss.reset (G : Gauss) (s : Store) : Store := assign G.params G.start s

/-- One sample of `NonlinearErrorPropagator::correlationMatrix`, src/ErrorPropagator.cpp:349-368: the matrix, the sum of the weights and the values. -/
noncomputable def sampleStep (params : List Nat) (fs : List Fcn) (averages : List ℝ) (acc : (Nat → Nat → ℝ) × ℝ × Store) (p : List ℝ) :
    (Nat → Nat → ℝ) × ℝ × Store :=
  let s := assign params p acc.2.2
  let prime := fs.map fun f => f s
  (fun i j => acc.1 i j + (prime.getD i 0 - averages.getD i 0) * (prime.getD j 0 - averages.getD j 0), acc.2.1 + fs.length * fs.length, s)

/-- `NonlinearErrorPropagator::correlationMatrix`, src/ErrorPropagator.cpp:293-373, for the points `samples` that the Markov chains end at. -/
noncomputable def nonlinear (params : List Nat) (fs : List Fcn) (samples : List (List ℝ)) (s : Store) : (Nat → Nat → Option ℝ) × Store :=
  let averages := fs.map fun f => f s
  let (m, w, s) := samples.foldl (sampleStep params fs averages) (fun _ _ => 0, 0, s)
  (fun i j => divide (some (m i j)) (some w), s)

end AmpGen.Errors
