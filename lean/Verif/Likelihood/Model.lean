import Verif.Coherent.Model
import Mathlib.Analysis.SpecialFunctions.Log.Basic
/-
Model of src/IncoherentSum.cpp, AmpGen/SumPDF.h, the constraints of
src/ExtendLikelihoodBase.cpp, src/PartialWidthConstraint.cpp and src/LASSO.cpp, and the
function that is minimised (src/Minimiser.cpp), on top of the model of a coherent sum.
Numbers are real and complex numbers; the compensated sum of AmpGen/SumPDF.h is a sum.
-/
namespace AmpGen.Likelihood

open Coherent

variable {P X : Type} {W : Nat}

/-! ### Incoherent sums -/

/-- `prob_unnormalised`, src/IncoherentSum.cpp:93-104, for the event at block `b`, lane `l`. -/
noncomputable def incUnnorm (A : Amps P X) (s : St P X W) (b : Nat) (l : Fin W) : ℝ :=
  (List.range A.n).foldl (fun v i => v + Complex.normSq ((s.me i).coefficient * s.cache i b l)) 0

/-- `prob` and `operator()`, src/IncoherentSum.cpp:88-91,107-116.  `m_norm` is the member set
by the inherited `CoherentSum::prepare` (src/CoherentSum.cpp:72-123). -/
noncomputable def incProb (A : Amps P X) (s : St P X W) (b : Nat) (l : Fin W) : ℝ :=
  A.weight s.par / s.norm * incUnnorm A s b l

/-- `evaluator`, src/IncoherentSum.cpp:152-170. -/
noncomputable def incEvaluator (A : Amps P X) (s : St P X W) (x : X) : ℝ :=
  A.weight s.par / s.norm *
    (List.range A.n).foldl (fun v j => v + Complex.normSq ((s.me j).coefficient * A.amp j (s.me j).buffer x)) 0

/-- `norm()`, src/IncoherentSum.cpp:25-38. -/
noncomputable def incNorm (A : Amps P X) (s : St P X W) : ℝ :=
  (List.range A.n).foldl (fun v i => v + (s.norms (i * A.n + i)).re * Complex.normSq (s.me i).coefficient) 0

/-- `norm(i, j)`, AmpGen/IncoherentSum.h:61. -/
noncomputable def incNormAt (A : Amps P X) (s : St P X W) (i j : Nat) : ℂ :=
  if i = j then s.norms (i * A.n + i) else 0

/-- `fitFractions`, src/IncoherentSum.cpp:71-85: one calculator for each element; the values
are those of AmpGen/FitFraction.h:63-76, followed by their sum. -/
noncomputable def incFractions (A : Amps P X) (s : St P X W) : List ℝ :=
  ffValues (fun i => (s.me i).coefficient) (incNormAt A s) (List.range A.n)
    ((List.range A.n).map fun i => ([i], [i]))

/-- `componentEvaluator`, src/IncoherentSum.cpp:172-197, at an event. -/
noncomputable def incComponents (A : Amps P X) (s : St P X W) (x : X) : List ℝ :=
  (List.range A.n).map fun i => Complex.normSq ((s.me i).coefficient * A.amp i (s.me i).buffer x)

/-! ### The likelihood -/

/-- A component of the likelihood: a coherent or an incoherent sum. -/
structure Comp (P X : Type) where
  A : Amps P X
  inco : Bool

/-- The density of a component at a data event. -/
noncomputable def Comp.prob (c : Comp P X) (s : St P X W) (b : Nat) (l : Fin W) : ℝ :=
  if c.inco then incProb c.A s b l else s.prob c.A b l

/-- State of a `SumPDF`, AmpGen/SumPDF.h:46-48. -/
structure SumSt (P X : Type) (W : Nat) where
  events : Option (List (Fin W → SimEvent X))
  pdfs : List (Comp P X × St P X W)

/-- `fill_likelihood`, AmpGen/SumPDF.h:68-90: every component is prepared, then the output of
every block is the weight times the logarithm of the sum of the densities
(AmpGen/SumPDF.h:93-105).  With `W = 1` this is the version without vector instructions. -/
noncomputable def fillLikelihood (evs : List (Fin W → SimEvent X)) (pdfs : List (Comp P X × St P X W)) :
    List (Fin W → ℝ) :=
  evs.zipIdx.map fun eb l =>
    (eb.1 l).weight * Real.log (pdfs.foldl (fun v c => v + c.1.prob c.2 eb.2 l) 0)

/-- `getVal`, AmpGen/SumPDF.h:59-67, on the prepared components. -/
noncomputable def sumVal (evs : List (Fin W → SimEvent X)) (pdfs : List (Comp P X × St P X W)) : ℝ :=
  -2 * sumElements ((fillLikelihood evs pdfs).foldl (fun acc b l => acc l + b l) fun _ => 0)

/-- Operations of a client of a `SumPDF`: changing the parameters, which are shared by all
components, `setEvents` (AmpGen/SumPDF.h:108-112), operations on a single component, and
`getVal`. -/
inductive SOp (P X : Type) (W : Nat) where
  | setPar (p : P)
  | setEvents (evs : List (Fin W → SimEvent X)) (junk : Nat → Nat → Fin W → ℂ)
  | onPdf (k : Nat) (op : Op P X W)
  | getVal

/-- Apply an operation to every component. -/
noncomputable def applyAll (sched : List Req → List Req) (op : Op P X W)
    (pdfs : List (Comp P X × St P X W)) : List (Comp P X × St P X W) :=
  pdfs.map fun c => (c.1, c.2.apply c.1.A sched op)

noncomputable def SumSt.apply (sched : List Req → List Req) (t : SumSt P X W) : SOp P X W → SumSt P X W
  | .setPar p => { t with pdfs := applyAll sched (.setPar p) t.pdfs }
  | .setEvents evs junk =>
    { events := some evs, pdfs := applyAll sched (.setEvents (evs.map fun b l => (b l).x) junk) t.pdfs }
  | .onPdf k op =>
    { t with pdfs := t.pdfs.modify k fun c => (c.1, c.2.apply c.1.A sched op) }
  | .getVal => { t with pdfs := applyAll sched .prepare t.pdfs }

/-- Construction from components built at the point `p`, AmpGen/SumPDF.h:54-55, and a history. -/
noncomputable def sumRun (comps : List (Comp P X)) (sched : List Req → List Req) (p : P)
    (ops : List (SOp P X W)) : SumSt P X W :=
  ops.foldl (fun t op => t.apply sched op) ⟨none, comps.map fun c => (c, St.init c.A p)⟩

/-- The number returned by a `getVal` after a history; `none` if no data are attached (a null
pointer is dereferenced). -/
noncomputable def sumGetVal (comps : List (Comp P X)) (sched : List Req → List Req) (p : P)
    (ops : List (SOp P X W)) : Option ℝ :=
  let t := sumRun comps sched p (ops ++ [.getVal])
  t.events.map fun evs => sumVal evs t.pdfs

/-! ### Constraints -/

/-- `GaussianConstraint::operator()`, src/ExtendLikelihoodBase.cpp:15-18. -/
noncomputable def gaussian (x mean sigma : ℝ) : ℝ :=
  -(x - mean) * (x - mean) / (2 * sigma * sigma)

/-- The sums of `PartialWidthConstraint`, src/PartialWidthConstraint.cpp:20-32: no
distinction is made between the two triangles of the matrix of integrals. -/
noncomputable def widthSum (coef : Nat → ℂ) (norm : Nat → Nat → ℂ) (is : List Nat) : ℂ :=
  is.foldl (fun sum i => is.foldl (fun sum j => sum + coef i * (starRingEnd ℂ) (coef j) * norm i j) sum) 0

/-- The ratio of `PartialWidthConstraint`, src/PartialWidthConstraint.cpp:33; `norm(i, j)` is
src/CoherentSum.cpp:262 and AmpGen/Integrator.h (`Bilinears::get`). -/
noncomputable def widthRatio (A : Amps P X) (s : St P X W) (num den : List Nat) : ℝ :=
  (widthSum (fun i => (s.me i).coefficient) (fun i j => s.norms (i * A.n + j)) num).re /
    (widthSum (fun i => (s.me i).coefficient) (fun i j => s.norms (i * A.n + j)) den).re

/-- `PartialWidthConstraint::operator()`, src/PartialWidthConstraint.cpp:35. -/
noncomputable def partialWidth (weight ratio target : ℝ) : ℝ :=
  weight * (ratio - target) * (ratio - target)

/-- `LASSO::operator()`, src/LASSO.cpp:14-22. -/
noncomputable def lasso (A : Amps P X) (s : St P X W) (lambda : ℝ) : ℝ :=
  lambda * (List.range A.n).foldl (fun sum i =>
    sum + Real.sqrt (Complex.normSq (s.me i).coefficient * (s.norms (i * A.n + i)).re)) 0

/-- The function given to the minimiser, src/Minimiser.cpp:85-93, from the value of the
function that is fitted, the values of the constraints, and the offset. -/
noncomputable def fcn (LL : ℝ) (terms : List ℝ) (zero : ℝ) : ℝ :=
  terms.foldl (fun LL t => LL - 2 * t) LL - zero

end AmpGen.Likelihood
