import Verif.Kinematics.Spec
import Mathlib.Analysis.SpecialFunctions.Complex.Arg
import Mathlib.Analysis.SpecialFunctions.Trigonometric.Inverse
/-
Model of the angles between the decay planes of a four-body decay, src/Kinematics.cpp 55-83 and 91-136, with the functions of the ROOT vectors they call.
Real numbers; a division of zero by zero is `none`.
-/
namespace AmpGen.Angles

open AmpGen.Kinematics (Event P4 V3)

/-- `TVector3::Dot`. -/
def Dot (p q : V3) : ℝ := p.x * q.x + p.y * q.y + p.z * q.z

/-- `TVector3::Cross`. -/
def Cross (p q : V3) : V3 := ⟨p.y * q.z - p.z * q.y, p.z * q.x - p.x * q.z, p.x * q.y - p.y * q.x⟩

/-- `operator+` of `TVector3`. -/
def Add (p q : V3) : V3 := ⟨p.x + q.x, p.y + q.y, p.z + q.z⟩

/-- `TVector3::Unit`: the null vector is returned as it is. -/
noncomputable def Unit (p : V3) : V3 :=
  let tot2 := Dot p p
  let tot := if tot2 > 0 then 1 / √tot2 else 1
  ⟨p.x * tot, p.y * tot, p.z * tot⟩

/-- `TLorentzVector::Vect`. -/
def Vect (p : P4) : V3 := ⟨p.x, p.y, p.z⟩

/-- `TLorentzVector::BoostVector`, with the sign of its use `Boost( -p.BoostVector() )`. -/
noncomputable def negBoostVector (p : P4) : V3 := ⟨-(p.x / p.E), -(p.y / p.E), -(p.z / p.E)⟩

/-- `TLorentzVector::Boost`. -/
noncomputable def Boost (p : P4) (b : V3) : P4 :=
  let b2 := Dot b b
  let gamma := 1 / √(1 - b2)
  let bp := b.x * p.x + b.y * p.y + b.z * p.z
  let gamma2 := if b2 > 0 then (gamma - 1) / b2 else 0
  ⟨p.x + gamma2 * bp * b.x + gamma * b.x * p.E, p.y + gamma2 * bp * b.y + gamma * b.y * p.E,
    p.z + gamma2 * bp * b.z + gamma * b.z * p.E, gamma * (p.E + bp)⟩

/-- `pFromEvent( evt, ref )`, src/Kinematics.cpp:53-56. -/
def pFromEvent (evt : Event) (ref : Nat) : P4 :=
  ⟨evt.data (4 * ref), evt.data (4 * ref + 1), evt.data (4 * ref + 2), evt.data (4 * ref + 3)⟩

/-- `operator+` of `TLorentzVector`. -/
def sum4 (a b c d : P4) : P4 := ⟨a.x + b.x + c.x + d.x, a.y + b.y + c.y + d.y, a.z + b.z + c.z + d.z, a.E + b.E + c.E + d.E⟩

/-- `TMath::ATan2( y, x )`. -/
noncomputable def ATan2 (y x : ℝ) : ℝ := Complex.arg ⟨x, y⟩

/-- `acoplanarity`, src/Kinematics.cpp:70-84. -/
noncomputable def acoplanarity (evt : Event) : ℝ :=
  let p0 := pFromEvent evt 0
  let p1 := pFromEvent evt 1
  let p2 := pFromEvent evt 2
  let p3 := pFromEvent evt 3
  let pD := sum4 p0 p1 p2 p3
  let p0 := Boost p0 (negBoostVector pD)
  let p1 := Boost p1 (negBoostVector pD)
  let p2 := Boost p2 (negBoostVector pD)
  let p3 := Boost p3 (negBoostVector pD)
  let t1 := Unit (Cross (Vect p0) (Vect p1))
  let t2 := Unit (Cross (Vect p2) (Vect p3))
  Real.arccos (Dot t1 t2)

/-- `phi`, src/Kinematics.cpp:115-136. -/
noncomputable def phi (evt : Event) (i j k w : Nat) : Option ℝ :=
  let pA_4vec := pFromEvent evt i
  let pB_4vec := pFromEvent evt j
  let pC_4vec := pFromEvent evt k
  let pD_4vec := pFromEvent evt w
  let pM := sum4 pA_4vec pB_4vec pC_4vec pD_4vec
  let pA := Vect (Boost pA_4vec (negBoostVector pM))
  let pB := Vect (Boost pB_4vec (negBoostVector pM))
  let pC := Vect (Boost pC_4vec (negBoostVector pM))
  let pD := Vect (Boost pD_4vec (negBoostVector pM))
  let n1 := Unit (Cross pA pB)
  let n2 := Unit (Cross pC pD)
  let cosPhi := Dot n1 n2
  let mag := √(Dot (Cross pD (Unit (Add pA pB))) (Cross pD (Unit (Add pA pB))))
  open Classical in
  if mag = 0 then none
  else
    let sinPhi := Dot pD n1 / mag
    some (ATan2 sinPhi cosPhi)

/-- `PHI`, src/Kinematics.cpp:91-112. -/
noncomputable def PHI (evt : Event) : Option ℝ :=
  let pA_4vec := pFromEvent evt 0
  let pB_4vec := pFromEvent evt 1
  let pC_4vec := pFromEvent evt 3
  let pD_4vec := pFromEvent evt 2
  let pM := sum4 pA_4vec pB_4vec pC_4vec pD_4vec
  let pA := Vect (Boost pA_4vec (negBoostVector pM))
  let pB := Vect (Boost pB_4vec (negBoostVector pM))
  let pC := Vect (Boost pC_4vec (negBoostVector pM))
  let pD := Vect (Boost pD_4vec (negBoostVector pM))
  let n1 := Unit (Cross pA pB)
  let n2 := Unit (Cross pC pD)
  let cosPhi := Dot n1 n2
  let mag := √(Dot (Cross pD (Unit (Add pA pB))) (Cross pD (Unit (Add pA pB))))
  open Classical in
  if mag = 0 then none
  else
    let sinPhi := Dot pD n1 / mag
    some (ATan2 sinPhi cosPhi)

end AmpGen.Angles
