import Verif.Dalitz.Model
/-
Model of the widths of src/ThreeBodyCalculators.cpp.

Simplifications: the spin-averaged matrix element of a final state is an arbitrary function of the event, which does not change while the
calculator is used; `TGraph` is the list of its points.
-/
namespace AmpGen.Dalitz

/-- `PartialWidth`, AmpGen/ThreeBodyCalculators.h:18-28. -/
structure PartialWidth where
  integrator : Integrator
  rule : (ℝ × ℝ → Option ℝ) → Option ℝ
  totalWidth : Momenta → ℝ

/-- `PartialWidth::getWidth`, src/ThreeBodyCalculators.cpp:136-140. -/
noncomputable def PartialWidth.getWidth (w : PartialWidth) (s : ℝ) : PartialWidth × Option ℝ :=
  let w' := { w with integrator := w.integrator.setMother s }
  (w', w'.integrator.integrateDP w'.rule w'.totalWidth)

/-- The members of `ThreeBodyCalculator`, AmpGen/ThreeBodyCalculators.h:31-38. -/
structure Calculator where
  min : ℝ
  max : ℝ
  norm : ℝ
  step : ℝ
  nKnots : Nat
  name : String
  widths : List PartialWidth

/-- One turn of the loop of `getWidth`, src/ThreeBodyCalculators.cpp:260-264: widths that are not numbers are left out. -/
noncomputable def widthStep (s : ℝ) (acc : List PartialWidth × ℝ) (w : PartialWidth) : List PartialWidth × ℝ :=
  let p := w.getWidth s
  match p.2 with
  | none => (acc.1 ++ [p.1], acc.2)
  | some wp => (acc.1 ++ [p.1], acc.2 + wp)

/-- `getWidth`, src/ThreeBodyCalculators.cpp:257-266. -/
noncomputable def Calculator.getWidth (c : Calculator) (s : ℝ) : Calculator × ℝ :=
  let r := c.widths.foldl (widthStep s) ([], 0)
  ({ c with widths := r.1 }, r.2)

/-- `setNorm`, src/ThreeBodyCalculators.cpp:268-272. -/
noncomputable def Calculator.setNorm (c : Calculator) (mNorm : ℝ) : Calculator :=
  let r := { c with norm := 1 }.getWidth (mNorm * mNorm)
  { r.1 with norm := r.2 }

/-- `setAxis`, src/ThreeBodyCalculators.cpp:197-203; the division is by zero for a single knot. -/
noncomputable def Calculator.setAxis (c : Calculator) (nKnots : Nat) (min max : ℝ) : Calculator :=
  { c with nKnots := nKnots, min := min, max := max, step := (max - min) / ((nKnots : ℝ) - 1) }

/-- The constructor, src/ThreeBodyCalculators.cpp:173-195, after the final states have been found; the initial value of `m_step` is arbitrary. -/
noncomputable def construct (head : String) (widths : List PartialWidth) (nKnots : Nat) (min max junk : ℝ) : Calculator :=
  let c : Calculator := ⟨min, max, 1, junk, nKnots, head, widths⟩
  if nKnots ≠ 999 then c.setAxis nKnots min max else c

/-- The name of a knot, src/ThreeBodyCalculators.cpp:213. -/
def knotName (name : String) (c : Nat) : String := name ++ "::Spline::Gamma::" ++ toString c

/-- The current values of the parameters by name. -/
abbrev Values := String → Option ℝ

/-- The loop of `updateRunningWidth`, src/ThreeBodyCalculators.cpp:210-216, from knot `i` for `n` knots. -/
noncomputable def Calculator.knots (c : Calculator) (mps : Values) (i : Nat) : Nat → Calculator × Values
  | 0 => (c, mps)
  | n + 1 =>
    let s := c.min + (i : ℝ) * c.step
    let r := c.getWidth s
    let value := r.2 / r.1.norm
    let name := knotName c.name i
    let mps' : Values := if (mps name).isSome then Function.update mps name (some value) else mps
    r.1.knots mps' (i + 1) n

/-- `updateRunningWidth`, src/ThreeBodyCalculators.cpp:205-219; nothing if the mass is needed and is not a parameter. -/
noncomputable def Calculator.updateRunningWidth (c : Calculator) (mps : Values) (mNorm : ℝ) : Option (Calculator × Values) :=
  open Classical in
  (if mNorm = 0 then mps (c.name ++ "_mass") else some mNorm).map fun m => (c.setNorm m).knots mps 0 c.nKnots

/-- `widthGraph` with a range, src/ThreeBodyCalculators.cpp:89-98. -/
noncomputable def Calculator.widthGraph (c : Calculator) (steps : Nat) (min max : ℝ) : List (ℝ × ℝ) :=
  let st := (max - min) / ((steps : ℝ) - 1)
  (List.range steps).map fun k => (c.min + (k : ℝ) * st, (c.getWidth (c.min + (k : ℝ) * st)).2)

/-- `dispersive`, src/ThreeBodyCalculators.cpp:45-54. -/
def dispersive (_fcn : ℝ → ℝ) (_s _min _max : ℝ) : ℝ := 0

/-- `runningMass`, src/ThreeBodyCalculators.cpp:56-87; `width` is the parameter for the width. -/
noncomputable def Calculator.runningMass (c : Calculator) (width mass min max : ℝ) (nSteps nSubtractions : Nat) : List (ℝ × ℝ) :=
  let s0 := mass * mass
  let width0 := width / (c.getWidth s0).2
  let integralTerm := fun s => dispersive (fun x => width0 * (c.getWidth x).2 / x ^ nSubtractions) s min 1000 * mass * s ^ nSubtractions / Real.pi
  let A1 := if nSubtractions = 1 then 0 else (integralTerm (s0 + 0.001) - integralTerm (s0 - 0.001)) / (2 * 0.001)
  let A0 := if nSubtractions = 0 then 0 else s0 - A1 * s0 + integralTerm s0
  (List.range nSteps).map fun k =>
    let s := min + (max - min) * (k : ℝ) / (nSteps : ℝ)
    (s, A0 + A1 * s - integralTerm s)

end AmpGen.Dalitz
