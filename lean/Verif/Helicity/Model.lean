import Verif.Polarisation.Model
import Verif.Polarisation.Spec
import Verif.Wigner.Model
/-
Model of `helicityAmplitude`, src/Wigner.cpp.

Simplifications: numbers are real or complex and an expression is its value; `none` stands for a value that is undefined, because of a quotient by zero, the root of a
negative number or an element that is read behind the end of a vector.  A particle with more than two decay products is given by its momentum, since its decay is
not used.
-/
namespace AmpGen.Helicity
open Complex
open AmpGen.Transform (V4 M4 minkowski Transform TransformSequence)
open AmpGen.Polarisation (Mom Properties SpinBasis externalSpinTensor Bar)
open AmpGen.Polarisation.Spec (cx cc)
open AmpGen.Spin (LS recouplingConstants spinOrbitCouplings)
open AmpGen.Wigner (toInt angCoordinates wigner_D)

/-- A particle and its decay: with no, one, two or more products. -/
inductive Particle
  | stable (pr : Properties) (index : Nat) (polState : ℤ) (p : Mom)
  | one (pr : Properties) (d : Particle)
  | two (pr : Properties) (L S : Nat) (helAmp : Option (List ℝ)) (d1 d2 : Particle)
  | many (pr : Properties) (key : String) (p : Mom)

/-- `Particle::props`. -/
def Particle.props : Particle → Properties
  | .stable pr .. => pr
  | .one pr .. => pr
  | .two pr .. => pr
  | .many pr .. => pr

/-- `Particle::isStable`, src/Particle.cpp:778. -/
def Particle.isStable : Particle → Bool
  | .stable .. => true
  | _ => false

/-- `ParticleProperties::isPhoton`, src/ParticleProperties.cpp:162-165. -/
def isPhoton (pr : Properties) : Bool := pr.pdgID = 22

/-- `ParticleProperties::isNeutrino`, src/ParticleProperties.cpp:167-170. -/
def isNeutrino (pr : Properties) : Bool := pr.pdgID.natAbs = 12 || pr.pdgID.natAbs = 14 || pr.pdgID.natAbs = 16

/-- `Particle::spin`: half of `twoSpin`. -/
noncomputable def spin (pr : Properties) : ℝ := (pr.twoSpin : ℝ) / 2

/-- `Particle::P`, src/Particle.cpp:233-252. -/
def Particle.P : Particle → Mom
  | .stable _ _ _ p => p
  | .one _ d => d.P
  | .two _ _ _ _ d1 d2 => d1.P + d2.P
  | .many _ _ p => p

/-- `Particle::massSq`, src/Particle.cpp:714. -/
def Particle.massSq (t : Particle) : ℝ :=
  if t.isStable then t.props.mass * t.props.mass else t.P 3 * t.P 3 - t.P 0 * t.P 0 - t.P 1 * t.P 1 - t.P 2 * t.P 2

/-- `index_string`, src/Wigner.cpp:225-229. -/
def Particle.key : Particle → String
  | .stable _ i _ _ => toString i
  | .one _ d => "{" ++ d.key ++ "}"
  | .two _ _ _ _ d1 d2 => "{" ++ d1.key ++ d2.key ++ "}"
  | .many _ k _ => k

/-- The options that are read. -/
structure Config where
  movingParent : Bool
  noSpinAlign : Bool
  basis : SpinBasis

/-- A sequence of transformations applied to a momentum, `TransformSequence::operator()`, src/Transform.cpp:135-141; the result is real. -/
noncomputable def apply (s : TransformSequence) (p : Mom) : Option Mom :=
  match s.matrix .vector with
  | some (.four L) => some fun i => (L.mulVec (cx p) i).re
  | _ => none

/-- The rotation in `wickTransform`, src/Wigner.cpp:108-119. -/
noncomputable def wickRotation (P : Mom) (ve : ℤ) : TransformSequence :=
  let pT := P 0 * P 0 + P 1 * P 1
  let pP := P 0 * P 0 + P 1 * P 1 + P 2 * P 2
  let cos_theta := if pP > 1e-15 then P 2 / √pP else 1
  let cos_phi := if pT > 1e-15 then P 0 / √pT else 1
  let sin_phi := if pT > 1e-15 then P 1 / √pT else 0
  let rot : Transform := if ve = 1 then ⟨cos_theta, sin_phi, -cos_phi, 0, .rotate⟩ else ⟨-cos_theta, -sin_phi, cos_phi, 0, .rotate⟩
  let sequence := TransformSequence.single rot
  if ve = -1 then sequence.push_back ⟨-1, 1, 0, 0, .rotate⟩ else sequence

/-- `wickTransform`, src/Wigner.cpp:100-128. -/
noncomputable def wickTransform (P : Mom) (t : Particle) (ve : ℤ) : Option TransformSequence :=
  if !t.isStable || !(isPhoton t.props || isNeutrino t.props) then
    if t.massSq ≤ 0 then none
    else some ((wickRotation P ve).join (.single ⟨P 3 / √t.massSq, 0, 0, 1, .boost⟩))
  else some (wickRotation P ve)

/-- The frame of a particle, src/Wigner.cpp:248-260. -/
noncomputable def frameOf (cfg : Config) (head : Bool) (t : Particle) (parentFrame : Option TransformSequence) (sgn : ℤ) : Option TransformSequence :=
  if !head || cfg.movingParent then do
    let F ← parentFrame
    let p ← apply F t.P
    let w ← wickTransform p t sgn
    some (F.join w)
  else some .empty

/-- `basisSpinor`, src/Wigner.cpp:187-195. -/
def basisSpinor (polState id : ℤ) : Option V4 :=
  if 0 < id ∧ polState = 1 then some ![1, 0, 0, 0]
  else if 0 < id ∧ polState = -1 then some ![0, 1, 0, 0]
  else if id < 0 ∧ polState = 1 then some ![0, 0, 1, 0]
  else if id < 0 ∧ polState = -1 then some ![0, 0, 0, 1]
  else none

/-- `basisVector`, src/Wigner.cpp:197-205. -/
noncomputable def basisVector (polState : ℤ) : Option V4 :=
  if polState = 0 then some ![0, 0, 1, 0]
  else if polState = 1 then some (-((1 / √2 : ℝ) : ℂ) • ![1, I, 0, 0])
  else if polState = -1 then some (((1 / √2 : ℝ) : ℂ) • ![1, -I, 0, 0])
  else none

open Classical in
/-- The amplitude of a particle that does not decay, src/Wigner.cpp:263-287; the daughters of a stable particle of other spin do not exist. -/
noncomputable def stableAmplitude (cfg : Config) (pr : Properties) (polState : ℤ) (p : Mom) (myFrame : Option TransformSequence) (Mz : ℝ) : Option ℂ :=
  if pr.twoSpin = 0 then some (if Mz = 0 then 1 else 0)
  else if pr.twoSpin = 1 then
    if cfg.noSpinAlign then some (if 2 * Mz = polState then 1 else 0)
    else
      match externalSpinTensor cfg.basis pr p polState, myFrame.bind (fun F => F.inverse.matrix .bispinor), basisSpinor (toInt (2 * Mz)) pr.pdgID with
      | some (.four labPol), some (.four S), some mzSpinor => some (∑ i, Bar (S.mulVec mzSpinor) i * labPol i)
      | _, _, _ => none
  else if pr.twoSpin = 2 then
    match externalSpinTensor cfg.basis pr p polState, myFrame.bind (fun F => F.inverse.matrix .vector), basisVector (toInt Mz) with
    | some (.four labPol), some (.four L), some frameVector => some (minkowski (cc (L.mulVec frameVector)) labPol)
    | _, _, _ => none
  else none

/-- `userHelicityCouplings`, src/Wigner.cpp:207-223, of the numbers that are given. -/
def userHelicityCouplings : List ℝ → Option (List LS)
  | [] => none
  | [f, m1, m2] => some [⟨f, m1, m2⟩]
  | f :: m1 :: m2 :: rest => (userHelicityCouplings rest).map (⟨f, m1, m2⟩ :: ·)
  | _ => none

/-- The couplings of the helicities, src/Wigner.cpp:288-307; `S` is twice the spin, or zero if it is not given. -/
noncomputable def couplings (pr : Properties) (L S : Nat) (helAmp : Option (List ℝ)) (d1 d2 : Properties) : Option (List LS) :=
  match helAmp with
  | some things => userHelicityCouplings things
  | none =>
    let S' : ℝ := if S = 0 then
        match (spinOrbitCouplings (fun _ => true) false pr.twoSpin d1.twoSpin d2.twoSpin).find? (fun l => l.1 == (L : ℚ)) with
        | some l => (l.2 : ℝ)
        | none => 999
      else (S : ℝ) / 2
    some (recouplingConstants (spin pr) L S' (spin d1) (spin d2))

open Classical in
/-- The rotation function of the direction of the first product, src/Wigner.cpp:318,324.  The angle of a momentum that is zero is not defined, and not used if the spin
is zero. -/
noncomputable def rotation (myFrame : Option TransformSequence) (P : Mom) (J M dm : ℝ) : Option ℂ :=
  match myFrame.bind fun F => apply F P with
  | some q => if q 0 * q 0 + q 1 * q 1 + q 2 * q 2 = 0 then (if J = 0 then wigner_D (0, none) J M dm else none) else wigner_D (angCoordinates (q 0) (q 1) (q 2)) J M dm
  | none => if J = 0 then wigner_D (0, none) J M dm else none

open Classical in
/-- The couplings that are skipped, src/Wigner.cpp:322-323. -/
noncomputable def skipped (d1 d2 : Properties) (k : LS) : Bool := (isPhoton d1 && decide (k.m1 = 0)) || (isPhoton d2 && decide (k.m2 = 0))

/-- The map from index strings to frames. -/
abbrev Cache := List (String × Option TransformSequence)

/-- The frame from the cache, added if it is not there, src/Wigner.cpp:250-261. -/
noncomputable def cached (c : Cache) (key : String) (frame : Option TransformSequence) : Option TransformSequence × Cache :=
  match c.lookup key with
  | some F => (F, c)
  | none => (frame, (key, frame) :: c)

/-- `helicityAmplitude`, src/Wigner.cpp:231-337: the amplitude, and the cache afterwards. -/
noncomputable def helicityAmplitude (cfg : Config) : Particle → Bool → Option TransformSequence → ℝ → ℤ → Cache → Option ℂ × Cache
  | .many .., _, _, _, _, c => (some 1, c)
  | .one _ d, _, F, Mz, sgn, c => helicityAmplitude cfg d false F Mz sgn c
  | .stable pr i pol p, head, F, Mz, sgn, c =>
    let (myFrame, c) := cached c (Particle.stable pr i pol p).key (frameOf cfg head (.stable pr i pol p) F sgn)
    (stableAmplitude cfg pr pol p myFrame Mz, c)
  | .two pr L S ha d1 d2, head, F, Mz, sgn, c =>
    let (myFrame, c) := cached c (Particle.two pr L S ha d1 d2).key (frameOf cfg head (.two pr L S ha d1 d2) F sgn)
    match couplings pr L S ha d1.props d2.props with
    | none => (none, c)
    | some cs => cs.foldl (fun (acc : Option ℂ × Cache) (k : LS) =>
        if skipped d1.props d2.props k then acc
        else
          let (h1, c1) := helicityAmplitude cfg d1 false myFrame k.m1 1 acc.2
          let (h2, c2) := helicityAmplitude cfg d2 false myFrame k.m2 (-1) c1
          (do
            let total ← acc.1
            let term ← rotation myFrame d1.P (spin pr) Mz (k.m1 - k.m2)
            let h1 ← h1
            let h2 ← h2
            some (total + k.factor * term * h1 * h2), c2)) (some 0, c)

/-- The call for the head of the decay, src/Particle.cpp:468-470; `Mz` is the polarisation state, or half of it for a fermion. -/
noncomputable def amplitude (cfg : Config) (t : Particle) (Mz : ℝ) : Option ℂ := (helicityAmplitude cfg t true (some .empty) Mz 1 []).1

end AmpGen.Helicity
