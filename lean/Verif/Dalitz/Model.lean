import Verif.Kinematics.Model
import Mathlib.Analysis.SpecialFunctions.Trigonometric.Inverse
/-
Model of src/DalitzIntegrator.cpp and of the widths of src/ThreeBodyCalculators.cpp.

Simplifications: numbers are real, one lane; `SQRT` of a negative number and zero divided by zero have no outcome (`none`) instead of NaN; the cubature rule
`integrate` is an argument; `TLorentzVector` is `P4`.
-/
namespace AmpGen.Dalitz

open AmpGen.Kinematics (P4)

/-- The members of `DalitzIntegrator`, AmpGen/DalitzIntegrator.h:75-80. -/
structure Integrator where
  min : ℝ
  max : ℝ
  s0 : ℝ
  s1 : ℝ
  s2 : ℝ
  s3 : ℝ

/-- `setMother`, src/DalitzIntegrator.cpp:80-86. -/
noncomputable def Integrator.setMother (d : Integrator) (s : ℝ) : Integrator :=
  { d with s0 := s, min := √d.s1 + √d.s2, max := √s - √d.s3 }

/-- The constructor, src/DalitzIntegrator.cpp:28-33. -/
noncomputable def make (s0 s1 s2 s3 : ℝ) : Integrator := Integrator.setMother ⟨0, 0, s0, s1, s2, s3⟩ s0

/-- `set`, src/DalitzIntegrator.cpp:35-41. -/
noncomputable def Integrator.set (d : Integrator) (s0 s1 s2 s3 : ℝ) : Integrator := { d with s1 := s1, s2 := s2, s3 := s3 }.setMother s0

open Classical in
/-- `safe_sqrt`, AmpGen/DalitzIntegrator.h:47-53. -/
noncomputable def safeSqrt (x : ℝ) : ℝ := if 0 < x then √x else 0

open Classical in
/-- `SQRT`, src/DalitzIntegrator.cpp:21-25. -/
noncomputable def rootOf (x : ℝ) : Option ℝ := if 0 ≤ x then some √x else none

/-- `getMAB`, src/DalitzIntegrator.cpp:88-91. -/
noncomputable def Integrator.getMAB (d : Integrator) (x : ℝ × ℝ) : ℝ := d.min + (d.max - d.min) * (Real.cos (Real.pi * x.1) + 1) / 2

/-- The square of the momentum of the first particle, src/DalitzIntegrator.cpp:67,96,113,134. -/
noncomputable def Integrator.argA (d : Integrator) (mAB : ℝ) : ℝ := mAB * mAB / 4 - (d.s1 + d.s2) / 2 + (d.s1 - d.s2) * (d.s1 - d.s2) / (4 * mAB * mAB)

/-- The energy of the third particle, src/DalitzIntegrator.cpp:70,97,114,137. -/
noncomputable def Integrator.eC (d : Integrator) (mAB : ℝ) : ℝ := (d.s0 - d.s3 - mAB * mAB) / (2 * mAB)

/-- The twelve numbers of an event. -/
abbrev Momenta := Nat → ℝ

/-- The numbers that `setEvent` writes, src/DalitzIntegrator.cpp:72-78,139-145. -/
noncomputable def write (event : Momenta) (pA eA eB pC eC angle : ℝ) : Momenta := fun i =>
  if i = 2 then pA else if i = 3 then eA else if i = 6 then -pA else if i = 7 then eB else if i = 9 then pC * Real.sin (Real.pi * angle)
  else if i = 10 then pC * Real.cos (Real.pi * angle) else if i = 11 then eC else event i

/-- `setEvent`, src/DalitzIntegrator.cpp:64-79. -/
noncomputable def Integrator.setEvent (d : Integrator) (x : ℝ × ℝ) (event : Momenta) : Momenta :=
  let mAB := d.getMAB x
  let pA := safeSqrt (d.argA mAB)
  let eA := √(pA * pA + d.s1)
  let eB := √(pA * pA + d.s2)
  let eC := d.eC mAB
  let pC := safeSqrt (eC * eC - d.s3)
  write event pA eA eB pC eC x.2

/-- `J`, src/DalitzIntegrator.cpp:93-105. -/
noncomputable def Integrator.J (d : Integrator) (x : ℝ × ℝ) : ℝ :=
  let mAB := d.getMAB x
  let pA := safeSqrt (d.argA mAB)
  let eC := d.eC mAB
  let pC := safeSqrt (eC * eC - d.s3)
  let deriv1 := Real.pi / 2 * (d.max - d.min) * Real.sin (Real.pi * x.1)
  let deriv2 := Real.pi * Real.sin (Real.pi * x.2)
  4 * deriv1 * deriv2 * pA * pC * mAB

/-- `getMAB` for a given mass of the mother, src/DalitzIntegrator.cpp:123-129. -/
noncomputable def Integrator.getMABAt (d : Integrator) (x : ℝ × ℝ) (s : ℝ) : ℝ :=
  let max := √s - √d.s3
  let min := √d.s1 + √d.s2
  min + (max - min) * (Real.cos (Real.pi * x.1) + 1) / 2

/-- `J` for a given mass of the mother, src/DalitzIntegrator.cpp:107-121. -/
noncomputable def Integrator.JAt (d : Integrator) (x : ℝ × ℝ) (s : ℝ) : Option ℝ :=
  let mAB := d.getMABAt x s
  let max := √s - √d.s3
  let min := √d.s1 + √d.s2
  (rootOf (d.argA mAB)).map fun pA =>
    let eC := d.eC mAB
    let pC := safeSqrt (eC * eC - d.s3)
    let deriv1 := Real.pi / 2 * (max - min) * Real.sin (Real.pi * x.1)
    let deriv2 := Real.pi * Real.sin (Real.pi * x.2)
    4 * deriv1 * deriv2 * pA * pC * mAB

/-- `setEvent` for a given mass of the mother, src/DalitzIntegrator.cpp:131-146. -/
noncomputable def Integrator.setEventAt (d : Integrator) (x : ℝ × ℝ) (event : Momenta) (s : ℝ) : Option Momenta := do
  let mAB := d.getMABAt x s
  let pA ← rootOf (d.argA mAB)
  let eA ← rootOf (pA * pA + d.s1)
  let eB ← rootOf (pA * pA + d.s2)
  let eC := d.eC mAB
  let pC ← rootOf (eC * eC - d.s3)
  return write event pA eA eB pC eC x.2

/-- The momentum of a particle, src/DalitzIntegrator.cpp:44-46. -/
def at4 (event : Momenta) (i : Nat) : P4 := ⟨event (4 * i), event (4 * i + 1), event (4 * i + 2), event (4 * i + 3)⟩

/-- `dotProduct`, src/Kinematics.cpp:86-89. -/
noncomputable def dotProduct (p1 p2 pX : P4) : ℝ := -p1.Dot p2 + p1.Dot pX * p2.Dot pX / pX.Dot pX

/-- The sum of two momenta. -/
def plus (p q : P4) : P4 := ⟨p.x + q.x, p.y + q.y, p.z + q.z, p.E + q.E⟩

open Classical in
/-- `sqDp1`, src/DalitzIntegrator.cpp:42-54; `Mag` is the root of the square, which is positive. -/
noncomputable def Integrator.sqDp1 (d : Integrator) (event : Momenta) : ℝ :=
  let pA := plus (at4 event 0) (at4 event 1)
  let arg := 2 * (√(pA.Dot pA) - d.min) / (d.max - d.min) - 1
  if 1 < arg ∨ arg < -1 then -1 else Real.arccos arg / Real.pi

open Classical in
/-- `sqDp2`, src/DalitzIntegrator.cpp:55-62. -/
noncomputable def Integrator.sqDp2 (_d : Integrator) (event : Momenta) : Option ℝ :=
  let p1 := at4 event 0
  let p3 := at4 event 2
  let pA := plus p1 (at4 event 1)
  let norm := dotProduct p1 p1 pA * dotProduct p3 p3 pA
  if norm ≤ 0 then none else some (Real.arccos (dotProduct p1 p3 pA / √norm) / Real.pi)

/-- The function that `integrateDP` integrates over the unit square, AmpGen/DalitzIntegrator.h:89-93. -/
noncomputable def Integrator.integrand (d : Integrator) (f : Momenta → ℝ) (s : ℝ) (x : ℝ × ℝ) : Option ℝ := do
  let event ← d.setEventAt x (fun _ => 0) s
  let j ← d.JAt x s
  return j * f event

/-- `integrateDP`, AmpGen/DalitzIntegrator.h:84-97, for a rule of integration `rule`, which sees NaN. -/
noncomputable def Integrator.integrateDPAt (d : Integrator) (rule : (ℝ × ℝ → Option ℝ) → Option ℝ) (f : Momenta → ℝ) (s : ℝ) : Option ℝ :=
  (rule (d.integrand f s)).map fun i => i / s

/-- `integrateDP` without a mass, AmpGen/DalitzIntegrator.h:37-40. -/
noncomputable def Integrator.integrateDP (d : Integrator) (rule : (ℝ × ℝ → Option ℝ) → Option ℝ) (f : Momenta → ℝ) : Option ℝ := d.integrateDPAt rule f d.s0

end AmpGen.Dalitz
