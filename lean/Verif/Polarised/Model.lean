import Verif.Coherent.Model
import Mathlib.Analysis.Real.Sqrt
/-
Model of src/PolarisedSum.cpp over the real and complex numbers.  Integrator, external
buffers and event lists are those of the Coherent area.
-/
namespace AmpGen.Polarised

open Classical
open AmpGen.Coherent (ME Req Integrator SimEvent registered pairs)

/-- What a polarised sum is built from.  `s1` and `s2` are the numbers of polarisation states
of the initial and the final state (`m_dim`), `amp i buf x c` is component `c` of the tensor of
matrix element `i` (src/PolarisedSum.cpp:78-90), `pol` the values of the parameters in
`m_pVector`, `frac` the parameter `polFrac` if it exists (src/PolarisedSum.cpp:124-125). -/
structure PAmps (P X : Type) where
  n : Nat
  s1 : Nat
  s2 : Nat
  name : Nat → String
  ext : Nat → P → List ℝ
  amp : Nat → List ℝ → X → Nat → ℂ
  coup : Nat → P → ℂ
  weight : P → ℝ
  pol : P → Nat → ℝ
  frac : Option (P → ℝ)

/-- AmpGen/PolarisedSum.h, the mutable members used below. -/
structure St (P X : Type) (W : Nat) where
  par : P
  me : Nat → ME
  rho : Nat → ℂ
  data : Option (List (Fin W → X))
  cache : Nat → Nat → Fin W → ℂ
  pdf : Nat → Fin W → ℝ
  integ : Integrator X W
  norms : Nat → ℂ
  norm : ℝ
  calls : Nat

variable {P X : Type} {W : Nat}

/-- First field of a matrix element in a cache: every element occupies `s1 * s2` fields,
AmpGen/Store.h:30-39,59 and src/PolarisedSum.cpp:225. -/
def PAmps.offset (A : PAmps P X) (i : Nat) : Nat :=
  A.s1 * A.s2 * (registered ((List.range A.n).map A.name)).idxOf (A.name i)

/-- `densityMatrix`, src/PolarisedSum.cpp:135-160, as a flattened array. -/
noncomputable def densityMatrix (dim : Nat) (pv : Nat → ℝ) (k : Nat) : ℂ :=
  if dim ≠ 2 ∧ dim ≠ 3 then (if k / dim = k % dim then 1 else 0)
  else
    let px := pv 0
    let py := pv 1
    let pz := pv 2
    if dim = 2 then
      match k with
      | 0 => 1 + pz
      | 1 => px + Complex.I * py
      | 2 => px - Complex.I * py
      | 3 => 1 - pz
      | _ => 0
    else
      let Tyy := pv 3
      let Tzz := pv 4
      let Txy := pv 5
      let Txz := pv 6
      let Tyz := pv 7
      match k with
      | 0 => 1 + 1.5 * pz + √1.5 * Tzz
      | 1 => √0.375 * (px + Complex.I * py) + √3 * (Txz + Complex.I * Tyz)
      | 2 => -√1.5 * (Tzz + 2 * Tyy - 2 * Complex.I * Txy)
      | 3 => √0.375 * (px - Complex.I * py) + √3 * (Txz - Complex.I * Tyz)
      | 4 => 1 - √6 * Tzz
      | 5 => √0.375 * (px + Complex.I * py) - √3 * (Txz + Complex.I * Tyz)
      | 6 => -√1.5 * (Tzz + 2 * Tyy + 2 * Complex.I * Txy)
      | 7 => √0.375 * (px - Complex.I * py) - √3 * (Txz - Complex.I * Tyz)
      | 8 => 1 - 1.5 * pz + √1.5 * Tzz
      | _ => 0

/-- The matrix `rho` of `probExpression`, src/PolarisedSum.cpp:383-407; the Pauli matrices are
those of src/DiracMatrices.cpp:21-24. -/
noncomputable def rhoExpr (dim : Nat) (p : Nat → ℝ) (a b : Nat) : ℂ :=
  let identity : ℂ := if a = b then 1 else 0
  if dim = 2 then
    let sigma0 : ℂ := match a, b with
      | 0, 1 => 1
      | 1, 0 => 1
      | _, _ => 0
    let sigma1 : ℂ := match a, b with
      | 0, 1 => -Complex.I
      | 1, 0 => Complex.I
      | _, _ => 0
    let sigma2 : ℂ := match a, b with
      | 0, 0 => 1
      | 1, 1 => -1
      | _, _ => 0
    identity + sigma0 * p 0 + sigma1 * p 1 + sigma2 * p 2
  else if dim = 3 then
    let px := p 0
    let py := p 1
    let pz := p 2
    let Tyy := p 3
    let Tzz := p 4
    let Txy := p 5
    let Txz := p 6
    let Tyz := p 7
    match a, b with
    | 0, 0 => 1 + 1.5 * pz + √1.5 * Tzz
    | 1, 0 => √0.375 * (px + Complex.I * py) + √3 * (Txz + Complex.I * Tyz)
    | 2, 0 => -√1.5 * (Tzz + 2 * Tyy - 2 * Complex.I * Txy)
    | 0, 1 => √0.375 * (px - Complex.I * py) + √3 * (Txz - Complex.I * Tyz)
    | 1, 1 => 1 - √6 * Tzz
    | 2, 1 => √0.375 * (px + Complex.I * py) - √3 * (Txz + Complex.I * Tyz)
    | 0, 2 => -√1.5 * (Tzz + 2 * Tyy + 2 * Complex.I * Txy)
    | 1, 2 => √0.375 * (px - Complex.I * py) - √3 * (Txz - Complex.I * Tyz)
    | 2, 2 => 1 - 1.5 * pz + √1.5 * Tzz
    | _, _ => identity
  else identity

/-- `transitionMatrix`, src/PolarisedSum.cpp:236-253: `x1` is the array of cached amplitudes. -/
noncomputable def transition (A : PAmps P X) (p : P) (x1 : Nat → ℂ) (m f : Nat) : ℂ :=
  (List.range A.n).foldl (fun acc i => acc + A.coup i p * x1 (A.s1 * A.s2 * i + (m * A.s2 + f))) 0

/-- `probExpression`, src/PolarisedSum.cpp:408-426.  A sum over a repeated index is the plain
sum of products (src/Tensor.cpp:439-447 with both indices lower). -/
noncomputable def probExpr (A : PAmps P X) (p : P) (x1 : Nat → ℂ) : ℝ :=
  let T := transition A p x1
  let rhof : Nat → Nat → ℂ := fun b c => match A.frac with
    | none => if b = c then 1 else 0
    | some fr => if b = 0 ∧ c = 0 then (fr p : ℂ) else if b = 1 ∧ c = 1 then 1 - (fr p : ℂ) else 0
  let TT := fun a d => ∑ b ∈ Finset.range A.s2, ∑ c ∈ Finset.range A.s2, T a b * rhof b c * (starRingEnd ℂ) (T d c)
  (∑ a ∈ Finset.range A.s1, ∑ b ∈ Finset.range A.s1, rhoExpr A.s1 (A.pol p) a b * TT b a).re

/-- The factor multiplying an integral in `norm(i,j)`, src/PolarisedSum.cpp:273-294, for the
flattened index `x`. -/
noncomputable def normFactor (A : PAmps P X) (p : P) (rho : Nat → ℂ) (x : Nat) : ℂ :=
  let f := x % A.s2
  let psi := (x - f) / A.s2
  match A.frac with
  | none => rho psi
  | some fr =>
    if psi = 0 then
      (if f = 0 then rho psi * (fr p : ℂ) else rho psi * (1 - (fr p : ℂ)))
    else 0

/-- The integrals queued by `norm(i,j,integ)`: src/PolarisedSum.cpp:265-297.  The result of
integral `x` of the pair is stored in matrix `x` of `m_norms`. -/
def normRequests (A : PAmps P X) (i j : Nat) : List Req :=
  ((List.range (A.s2 * A.s1 * A.s1)).filter fun x =>
    A.frac.isNone || decide ((x - x % A.s2) / A.s2 = 0)).map fun x =>
    let f := x % A.s2
    let psi := (x - f) / A.s2
    let m2 := psi % A.s1
    let m1 := (psi - m2) / A.s1
    ⟨x * (A.n * A.n) + (i * A.n + j), A.offset i + m1 * A.s2 + f, A.offset j + m2 * A.s2 + f⟩

/-- `norm(i,j)`, src/PolarisedSum.cpp:265-297. -/
noncomputable def normTotal (A : PAmps P X) (p : P) (rho : Nat → ℂ) (norms : Nat → ℂ) (i j : Nat) : ℂ :=
  (List.range (A.s2 * A.s1 * A.s1)).foldl
    (fun total x => total + normFactor A p rho x * norms (x * (A.n * A.n) + (i * A.n + j))) 0

/-- The last loop of `updateNorms`, src/PolarisedSum.cpp:309-316. -/
noncomputable def normSum (A : PAmps P X) (p : P) (rho : Nat → ℂ) (norms : Nat → ℂ) : ℝ :=
  ((List.range A.n).foldl (fun z i => (List.range A.n).foldl (fun z j =>
    z + A.coup i p * (starRingEnd ℂ) (A.coup j p) *
      (if i > j then (starRingEnd ℂ) (normTotal A p rho norms j i) else normTotal A p rho norms i j)) z) (0 : ℂ)).re

/-- src/PolarisedSum.cpp:51-132. -/
noncomputable def St.init (A : PAmps P X) (p : P) : St P X W :=
  { par := p, me := fun i => ⟨A.ext i p, true, 0, false⟩, rho := fun _ => 0, data := none,
    cache := fun _ _ _ => 0, pdf := fun _ _ => 0, integ := ⟨none, [], 0, fun _ _ _ => 0, []⟩,
    norms := fun _ => 0, norm := 1, calls := 0 }

/-- `transferParameters`, src/PolarisedSum.cpp:482-493. -/
noncomputable def St.transferParameters (A : PAmps P X) (s : St P X W) : St P X W :=
  { s with
    me := fun i => { (s.me i).prepare (A.ext i s.par) with coefficient := A.coup i s.par },
    rho := densityMatrix A.s1 (A.pol s.par) }

/-- Writing all components of element `i` into a cache, AmpGen/Store.h:149-206. -/
noncomputable def writeFields (A : PAmps P X) (i : Nat) (buf : List ℝ) {E : Type} (x : E → X)
    (evs : Option (List (Fin W → E))) (cache : Nat → Nat → Fin W → ℂ) : Nat → Nat → Fin W → ℂ :=
  match evs with
  | none => cache
  | some evs => fun fld b l =>
      if A.offset i ≤ fld ∧ fld < A.offset i + A.s1 * A.s2 then
        match evs[b]? with
        | some e => A.amp i buf (x (e l)) (fld - A.offset i)
        | none => cache fld b l
      else cache fld b l

/-- `flagUpdate`, `updateData` and `updateInteg` on element `i`, src/PolarisedSum.cpp:171-175. -/
noncomputable def St.updateOne (A : PAmps P X) (s : St P X W) (i : Nat) : St P X W :=
  let m := s.me i
  let work := decide (s.calls = 0) || m.changed
  let s1 := { s with me := Function.update s.me i { m with workToDo := work } }
  if work then { s1 with
    cache := writeFields A i m.buffer id s1.data s1.cache,
    integ := { s1.integ with cache := writeFields A i m.buffer SimEvent.x s1.integ.events s1.integ.cache } }
  else s1

/-- `updateNorms`, src/PolarisedSum.cpp:299-317. -/
noncomputable def St.updateNorms (A : PAmps P X) (sched : List Req → List Req) (s : St P X W) : St P X W :=
  let todo := (pairs A.n).filter fun ij => (s.me ij.1).workToDo || (s.me ij.2).workToDo
  let any := (List.range A.n).any fun i => (s.me i).workToDo
  let f := if any then
      let q := s.integ.queueAll sched s.norms (todo.flatMap fun ij => normRequests A ij.1 ij.2)
      q.1.flush sched q.2
    else (s.integ, s.norms)
  { s with integ := f.1, norms := f.2, norm := normSum A s.par s.rho f.2 }

/-- `prepare`, src/PolarisedSum.cpp:168-185. -/
noncomputable def St.prepare (A : PAmps P X) (sched : List Req → List Req) (s : St P X W) : St P X W :=
  let s1 := (List.range A.n).foldl (fun s i => s.updateOne A i) (s.transferParameters A)
  let s2 := if s1.integ.events.isSome then s1.updateNorms A sched else s1
  { s2 with
    me := fun i => { s2.me i with workToDo := false, changed := false },
    pdf := fun b l => probExpr A s2.par fun fld => s2.cache fld b l,
    calls := s2.calls + 1 }

/-- `setEvents`, src/PolarisedSum.cpp:211-218. -/
def St.setEvents (s : St P X W) (evs : List (Fin W → X)) (junk : Nat → Nat → Fin W → ℂ) : St P X W :=
  { s with calls := 0, data := some evs, cache := junk }

/-- `setMC`, src/PolarisedSum.cpp:220-227. -/
noncomputable def St.setMC (s : St P X W) (evs : List (Fin W → SimEvent X)) (junk : Nat → Nat → Fin W → ℂ) :
    St P X W :=
  { s with calls := 0, integ := Integrator.make evs junk }

/-- `operator()`, src/PolarisedSum.cpp:187-190,255-258. -/
noncomputable def St.prob (A : PAmps P X) (s : St P X W) (b : Nat) (l : Fin W) : ℝ :=
  A.weight s.par / s.norm * s.pdf b l

/-- `evaluator`, src/PolarisedSum.cpp:509-524 (the value for an event of any sample). -/
noncomputable def St.evaluator (A : PAmps P X) (s : St P X W) (x : X) : ℝ :=
  A.weight s.par / s.norm *
    probExpr A s.par fun fld => A.amp (fld / (A.s1 * A.s2)) (s.me (fld / (A.s1 * A.s2))).buffer x (fld % (A.s1 * A.s2))

/-- One functor of `componentEvaluator`, src/PolarisedSum.cpp:527-567; `v i c` is component `c`
of element `i` in the cache. -/
noncomputable def component (A : PAmps P X) (coef : Nat → ℂ) (rho : Nat → ℂ) (v : Nat → Nat → ℂ) (i j : Nat) : ℝ :=
  (if i = j then 1 else 2) * ((List.range (A.s2 * A.s1 * A.s1)).foldl (fun total x =>
    let f := x % A.s2
    let psi := (x - f) / A.s2
    let m2 := psi % A.s1
    let m1 := (psi - m2) / A.s1
    total + rho psi * coef i * v i (m1 * A.s2 + f) * (starRingEnd ℂ) (coef j * v j (m2 * A.s2 + f))) (0 : ℂ)).re

noncomputable def components (A : PAmps P X) (coef : Nat → ℂ) (rho : Nat → ℂ) (v : Nat → Nat → ℂ) : List ℝ :=
  (pairs A.n).map fun ij => component A coef rho v ij.1 ij.2

inductive Op (P X : Type) (W : Nat) where
  | setPar (p : P)
  | setEvents (evs : List (Fin W → X)) (junk : Nat → Nat → Fin W → ℂ)
  | setMC (evs : List (Fin W → SimEvent X)) (junk : Nat → Nat → Fin W → ℂ)
  | reset
  | prepare

noncomputable def St.apply (A : PAmps P X) (sched : List Req → List Req) (s : St P X W) : Op P X W → St P X W
  | .setPar p => { s with par := p }
  | .setEvents evs junk => s.setEvents evs junk
  | .setMC evs junk => s.setMC evs junk
  | .reset => { s with calls := 0 }
  | .prepare => s.prepare A sched

noncomputable def run (A : PAmps P X) (sched : List Req → List Req) (p : P) (ops : List (Op P X W)) : St P X W :=
  ops.foldl (fun s op => s.apply A sched op) (St.init A p)

end AmpGen.Polarised
