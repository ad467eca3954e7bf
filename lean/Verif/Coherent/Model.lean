import Mathlib.Data.Complex.BigOperators
/-
Model of src/CoherentSum.cpp, src/Integrator.cpp and AmpGen/FitFraction.h over the real
and complex numbers (rounding is not modelled).  Event lists are lists of blocks of `W`
lanes (`W = 1` without vector instructions); that reads and writes of the caches hit the
cells described here is the subject of the Store area.
-/
namespace AmpGen.Coherent

open Classical

/-- What a coherent sum is built from: `P` is the type of points in parameter space, `X` of
events.  `ext` are the values a matrix element's transfers copy from the parameters
(src/CacheTransfer.cpp:20-57), `amp` its compiled function (AmpGen/CompiledExpression.h:150-157),
`coup` its coupling, `weight` the yield (AmpGen/CoherentSum.h:119). -/
structure Amps (P X : Type) where
  n : Nat
  name : Nat → String
  ext : Nat → P → List ℝ
  amp : Nat → List ℝ → X → ℂ
  coup : Nat → P → ℂ
  weight : P → ℝ

/-- An event of the integration sample. -/
structure SimEvent (X : Type) where
  x : X
  weight : ℝ
  genPdf : ℝ

/-- Mutable part of a matrix element: AmpGen/CompiledExpression.h (`m_externals`,
`m_hasExternalsChanged`) and AmpGen/MatrixElement.h:28-29. -/
structure ME where
  buffer : List ℝ
  changed : Bool
  coefficient : ℂ
  workToDo : Bool

/-- A queued integral, AmpGen/Integrator.h:22-30; `dest` is the address of the result. -/
structure Req where
  dest : Nat
  i : Nat
  j : Nat

/-- The integrator: AmpGen/Integrator.h:63-71. `cache` maps field, block and lane to a value. -/
structure Integrator (X : Type) (W : Nat) where
  events : Option (List (Fin W → SimEvent X))
  weight : List (Fin W → ℝ)
  norm : ℝ
  cache : Nat → Nat → Fin W → ℂ
  queue : List Req

/-- The unroll factor, AmpGen/Integrator.h:64. -/
def batch : Nat := 8

/-- State of a coherent sum, AmpGen/CoherentSum.h:106-127.  `par` is the current point in
parameter space, owned by the parameter set. -/
structure St (P X : Type) (W : Nat) where
  par : P
  me : Nat → ME
  data : Option (List (Fin W → X))
  cache : Nat → Nat → Fin W → ℂ
  integ : Integrator X W
  norms : Nat → ℂ
  norm : ℝ
  calls : Nat

variable {P X : Type} {W : Nat}

/-- Names in order of first registration: the fields of a cache, AmpGen/Store.h:30-39,53. -/
def registered (names : List String) : List String :=
  names.foldl (fun acc s => if s ∈ acc then acc else acc ++ [s]) []

/-- `find( fcn.name() )[0]`, AmpGen/Store.h:59,151. -/
def Amps.field (A : Amps P X) (i : Nat) : Nat :=
  (registered ((List.range A.n).map A.name)).idxOf (A.name i)

/-! ### Integrator -/

/-- `utils::sum_elements` of a lane-wise accumulator, AmpGen/simd/utils.h. -/
noncomputable def sumElements (acc : Fin W → ℝ) : ℝ := ∑ l, acc l

/-- AmpGen/Integrator.h:34-49.  `junk` is what the newly allocated cache holds. -/
noncomputable def Integrator.make (evs : List (Fin W → SimEvent X)) (junk : Nat → Nat → Fin W → ℂ) :
    Integrator X W :=
  let w := evs.map fun b l => (b l).weight / (b l).genPdf
  { events := some evs, weight := w,
    norm := sumElements (w.foldl (fun acc b l => acc l + b l) fun _ => 0),
    cache := junk, queue := [] }

/-- One integral, src/Integrator.cpp:41-55: real and imaginary parts are accumulated lane by
lane over the blocks, then summed over lanes and divided by the norm. -/
noncomputable def Integrator.integral (I : Integrator X W) (i j : Nat) : ℂ :=
  let acc := (I.weight.zipIdx).foldl (fun (acc : (Fin W → ℝ) × (Fin W → ℝ)) wb =>
    let c := fun l => I.cache i wb.2 l * (starRingEnd ℂ) (I.cache j wb.2 l)
    (fun l => acc.1 l + wb.1 l * (c l).re, fun l => acc.2 l + wb.1 l * (c l).im))
    (fun _ => 0, fun _ => 0)
  (⟨sumElements acc.1, sumElements acc.2⟩ : ℂ) / (I.norm : ℂ)

/-- `integrateBlock`, src/Integrator.cpp:37-58.  The loop over the queue runs in parallel:
`sched` is the order in which its iterations write their results. -/
noncomputable def Integrator.integrateBlock (sched : List Req → List Req) (I : Integrator X W)
    (mem : Nat → ℂ) : Integrator X W × (Nat → ℂ) :=
  ({ I with queue := [] },
    (sched I.queue).foldl (fun m r => Function.update m r.dest (I.integral r.i r.j)) mem)

/-- `queueIntegral`, src/Integrator.cpp:62-66. -/
noncomputable def Integrator.queueIntegral (sched : List Req → List Req) (I : Integrator X W)
    (mem : Nat → ℂ) (r : Req) : Integrator X W × (Nat → ℂ) :=
  let I' := { I with queue := I.queue ++ [r] }
  if I'.queue.length = batch then I'.integrateBlock sched mem else (I', mem)

/-- `flush`, src/Integrator.cpp:68-72. -/
noncomputable def Integrator.flush (sched : List Req → List Req) (I : Integrator X W)
    (mem : Nat → ℂ) : Integrator X W × (Nat → ℂ) :=
  if I.queue.length = 0 then (I, mem) else I.integrateBlock sched mem

/-- Queue a list of integrals in order. -/
noncomputable def Integrator.queueAll (sched : List Req → List Req) (I : Integrator X W)
    (mem : Nat → ℂ) (rs : List Req) : Integrator X W × (Nat → ℂ) :=
  rs.foldl (fun s r => s.1.queueIntegral sched s.2 r) (I, mem)

/-! ### Coherent sum -/

/-- `setExternal`, AmpGen/CompiledExpression.h:130-136. -/
noncomputable def ME.setExternal (m : ME) (value : ℝ) (address : Nat) : ME :=
  if m.buffer[address]? = some value then m
  else { m with buffer := m.buffer.set address value, changed := true }

/-- `prepare` of a matrix element, src/CompiledExpressionBase.cpp:73-76. -/
noncomputable def ME.prepare (m : ME) (values : List ℝ) : ME :=
  values.zipIdx.foldl (fun m v => m.setExternal v.1 v.2) m

/-- A freshly built sum, src/CoherentSum.cpp:40-70: expressions are linked to the parameters
at the point `p` (src/CompiledExpressionBase.cpp:66); nothing is attached. -/
noncomputable def St.init (A : Amps P X) (p : P) : St P X W :=
  { par := p, me := fun i => ⟨A.ext i p, true, 0, false⟩, data := none, cache := fun _ _ _ => 0,
    integ := ⟨none, [], 0, fun _ _ _ => 0, []⟩, norms := fun _ => 0, norm := 1, calls := 0 }

/-- `transferParameters`, src/CoherentSum.cpp:267-271. -/
noncomputable def St.transferParameters (A : Amps P X) (s : St P X W) : St P X W :=
  { s with me := fun i => { s.me i with coefficient := A.coup i s.par } }

/-- `m_cache.update( t )` on the data, AmpGen/Store.h:149-206. -/
noncomputable def St.updateCache (A : Amps P X) (s : St P X W) (i : Nat) : Nat → Nat → Fin W → ℂ :=
  match s.data with
  | none => s.cache
  | some evs => Function.update s.cache (A.field i) fun b l =>
      match evs[b]? with
      | some e => A.amp i (s.me i).buffer (e l)
      | none => s.cache (A.field i) b l

/-- `m_integrator.updateCache( t )`, AmpGen/Integrator.h:59. -/
noncomputable def St.updateInteg (A : Amps P X) (s : St P X W) (i : Nat) : Nat → Nat → Fin W → ℂ :=
  match s.integ.events with
  | none => s.integ.cache
  | some evs => Function.update s.integ.cache (A.field i) fun b l =>
      match evs[b]? with
      | some e => A.amp i (s.me i).buffer (e l).x
      | none => s.integ.cache (A.field i) b l

/-- Body of the loop of `prepare` for matrix element `i`, src/CoherentSum.cpp:76-87. -/
noncomputable def St.prepareOne (A : Amps P X) (s : St P X W) (i : Nat) : St P X W :=
  let m := (s.me i).prepare (A.ext i s.par)
  let s1 := { s with me := Function.update s.me i m }
  if s1.calls ≠ 0 ∧ m.changed = false then s1
  else { s1 with
    cache := s1.updateCache A i,
    integ := { s1.integ with cache := s1.updateInteg A i },
    me := Function.update s1.me i { m with changed := false, workToDo := true } }

/-- The pairs visited by the double loop of `updateNorms`, src/CoherentSum.cpp:112-115. -/
def pairs (n : Nat) : List (Nat × Nat) :=
  (List.range n).flatMap fun i => ((List.range n).filter fun j => i ≤ j).map fun j => (i, j)

/-- `norm()`, src/CoherentSum.cpp:245-265, on an `n` by `n` matrix of integrals. -/
noncomputable def normOf (n : Nat) (coef : Nat → ℂ) (norms : Nat → ℂ) : ℝ :=
  ((List.range n).foldl (fun acc i => (List.range n).foldl (fun acc j =>
    acc + coef i * (starRingEnd ℂ) (coef j) *
      (if i > j then (starRingEnd ℂ) (norms (j * n + i)) else norms (i * n + j))) acc) (0 : ℂ)).re

/-- `updateNorms`, src/CoherentSum.cpp:108-123. -/
noncomputable def St.updateNorms (A : Amps P X) (sched : List Req → List Req) (s : St P X W) : St P X W :=
  let todo := (pairs A.n).filter fun ij => (s.me ij.1).workToDo || (s.me ij.2).workToDo
  let q := s.integ.queueAll sched s.norms (todo.map fun ij => ⟨ij.1 * A.n + ij.2, ij.1, ij.2⟩)
  let f := q.1.flush sched q.2
  { s with integ := f.1, norms := f.2, norm := normOf A.n (fun i => (s.me i).coefficient) f.2 }

/-- `prepare`, src/CoherentSum.cpp:72-106. -/
noncomputable def St.prepare (A : Amps P X) (sched : List Req → List Req) (s : St P X W) : St P X W :=
  let s1 := (List.range A.n).foldl (fun s i => s.prepareOne A i) (s.transferParameters A)
  let s2 := if s1.integ.events.isSome then s1.updateNorms A sched else s1
  { s2 with me := fun i => { s2.me i with workToDo := false }, calls := s2.calls + 1 }

/-- `reset`, src/CoherentSum.cpp:217-225. -/
def St.reset (s : St P X W) (events : Bool) : St P X W :=
  if events then { s with calls := 0, data := none, integ := ⟨none, [], 0, fun _ _ _ => 0, []⟩ }
  else { s with calls := 0 }

/-- `setEvents`, src/CoherentSum.cpp:227-235; the cache is reallocated with contents `junk`. -/
def St.setEvents (s : St P X W) (evs : List (Fin W → X)) (junk : Nat → Nat → Fin W → ℂ) : St P X W :=
  { s.reset false with data := some evs, cache := junk }

/-- `setMC`, src/CoherentSum.cpp:238-243. -/
noncomputable def St.setMC (s : St P X W) (evs : List (Fin W → SimEvent X)) (junk : Nat → Nat → Fin W → ℂ) :
    St P X W :=
  { s.reset false with integ := Integrator.make evs junk }

/-- `getVal`, src/CoherentSum.cpp:289-300, for the event at index `k`. -/
noncomputable def St.getVal (A : Amps P X) (s : St P X W) (b : Nat) (l : Fin W) : ℂ :=
  (List.range A.n).foldl (fun v i => v + (s.me i).coefficient * s.cache i b l) 0

/-- `operator()`, AmpGen/CoherentSum.h:90 and src/CoherentSum.cpp:302-311; the weight is read
from its parameter (AmpGen/MinuitParameter.h:77). -/
noncomputable def St.prob (A : Amps P X) (s : St P X W) (b : Nat) (l : Fin W) : ℝ :=
  A.weight s.par / s.norm * Complex.normSq (s.getVal A b l)

/-- `amplitudeEvaluator`, src/CoherentSum.cpp:341-361, on any sample: a fresh cache is filled
with the current external buffers. -/
noncomputable def St.evalAmp (A : Amps P X) (s : St P X W) (x : X) : ℂ :=
  (List.range A.n).foldl (fun v j => v + (s.me j).coefficient * A.amp j (s.me j).buffer x) 0

/-- `evaluator`, src/CoherentSum.cpp:321-339. -/
noncomputable def St.evaluator (A : Amps P X) (s : St P X W) (x : X) : ℝ :=
  A.weight s.par / s.norm * Complex.normSq (s.evalAmp A x)

/-- `componentEvaluator`, src/CoherentSum.cpp:365-395: the list of functors, for the event at
`(b, l)` of a cache. -/
noncomputable def components (n : Nat) (coef : Nat → ℂ) (cache : Nat → Nat → Fin W → ℂ) (b : Nat)
    (l : Fin W) : List ℝ :=
  (pairs n).map fun ij =>
    (if ij.1 = ij.2 then 1 else 2) *
      (coef ij.1 * cache ij.1 b l * (starRingEnd ℂ) (coef ij.2 * cache ij.2 b l)).re

/-! ### Histories -/

/-- Operations of a client. `prepareElement` is `prepare` called on a single matrix element,
reachable through `operator[]`; `setExternals` is AmpGen/CompiledExpression.h:116. -/
inductive Op (P X : Type) (W : Nat) where
  | setPar (p : P)
  | setEvents (evs : List (Fin W → X)) (junk : Nat → Nat → Fin W → ℂ)
  | setMC (evs : List (Fin W → SimEvent X)) (junk : Nat → Nat → Fin W → ℂ)
  | reset (events : Bool)
  | prepare
  | transferParameters
  | prepareElement (i : Nat)
  | setExternals (i : Nat) (values : List ℝ)

noncomputable def St.apply (A : Amps P X) (sched : List Req → List Req) (s : St P X W) : Op P X W → St P X W
  | .setPar p => { s with par := p }
  | .setEvents evs junk => s.setEvents evs junk
  | .setMC evs junk => s.setMC evs junk
  | .reset e => s.reset e
  | .prepare => s.prepare A sched
  | .transferParameters => s.transferParameters A
  | .prepareElement i => { s with me := Function.update s.me i ((s.me i).prepare (A.ext i s.par)) }
  | .setExternals i v => { s with me := Function.update s.me i { s.me i with buffer := v } }

noncomputable def run (A : Amps P X) (sched : List Req → List Req) (p : P) (ops : List (Op P X W)) : St P X W :=
  ops.foldl (fun s op => s.apply A sched op) (St.init A p)

/-! ### Fit fractions -/

/-- The sum over two sets of amplitudes, AmpGen/FitFraction.h:79-84,88-92; `norm i j` is
`pdf->norm(i,j)`. -/
noncomputable def ffSum (coef : Nat → ℂ) (norm : Nat → Nat → ℂ) (is js : List Nat) : ℂ :=
  is.foldl (fun sum i => js.foldl (fun sum j =>
    sum + coef i * (starRingEnd ℂ) (coef j) *
      (if j ≥ i then norm i j else (starRingEnd ℂ) (norm j i))) sum) 0

/-- `norm()`, AmpGen/FitFraction.h:77-85. -/
noncomputable def ffNorm (coef : Nat → ℂ) (norm : Nat → Nat → ℂ) (normSet : List Nat) : ℝ :=
  (ffSum coef norm normSet normSet).re

/-- `getVal`, AmpGen/FitFraction.h:86-94. -/
noncomputable def ffVal (coef : Nat → ℂ) (norm : Nat → Nat → ℂ) (normSet is js : List Nat) : ℝ :=
  (ffSum coef norm is js).re / ffNorm coef norm normSet

/-- `operator()()`, AmpGen/FitFraction.h:63-76: the values of all calculators followed by
their sum. -/
noncomputable def ffValues (coef : Nat → ℂ) (norm : Nat → Nat → ℂ) (normSet : List Nat)
    (calcs : List (List Nat × List Nat)) : List ℝ :=
  let r := calcs.foldl (fun (st : List ℝ × ℝ) c =>
    (st.1 ++ [ffVal coef norm normSet c.1 c.2], st.2 + ffVal coef norm normSet c.1 c.2)) ([], 0)
  r.1 ++ [r.2]

end AmpGen.Coherent
