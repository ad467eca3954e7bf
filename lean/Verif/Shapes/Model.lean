import Verif.Lineshapes.Model
import Mathlib.Analysis.SpecialFunctions.Log.Basic
import Mathlib.Analysis.SpecialFunctions.Complex.Log
/-
Model of the other lineshapes: src/Lineshapes/{Flatte,GounarisSakurai,NonRelBW,Photon,Isotensor,Bugg,PALANO,FOCUS,GLASS,CoupledChannel,EtaDalitz,PolyNR}.cpp
and of InelasticSpline in src/Lineshapes/SplineShapes.cpp.

As in Verif/Lineshapes/Model.lean the functions are the values of the expressions they build, and parameters are arguments.  A quotient by zero and a root
of a negative number have no value (`none`).  `GeV` is one.  Debug symbols are not modelled.
-/
namespace AmpGen.Shapes

open AmpGen.Lineshapes (Q2 kFactor blattWeisskopf blattWeisskopfNorm runningWidth safeSqrt pol)
open Complex (I)

/-- A quotient. -/
noncomputable def quot (x y : ℂ) : Option ℂ := open Classical in if y = 0 then none else some (x / y)

/-- `complex_sqrt`, src/Expression.cpp:309-314. -/
noncomputable def complexSqrt (x : ℝ) : ℂ := if x > 0 then ((√x : ℝ) : ℂ) else I * ((√(-x) : ℝ) : ℂ)

/-! ### Flatte -/

/-- `aSqrtTerm`, src/Lineshapes/Flatte.cpp:10-14. -/
noncomputable def aSqrtTerm (s m0 : ℝ) : ℝ :=
  let a2 := 1 - (4 * m0 * m0) / s
  if a2 > 0 then √a2 else 0

/-- `fSqrtTerm`, src/Lineshapes/Flatte.cpp:16-19. -/
noncomputable def fSqrtTerm (s m0 : ℝ) : ℂ := complexSqrt (1 - 4 * m0 * m0 / s)

/-- The masses in the database, src/Lineshapes/Flatte.cpp:25-27,30-31. -/
structure Masses where
  mKPlus : ℝ
  mPiPlus : ℝ
  mEta : ℝ
  mPi0 : ℝ
  mK0 : ℝ

/-- The width of `Flatte`, src/Lineshapes/Flatte.cpp:24-53; `g` and `ratio` are the couplings of the particle. -/
noncomputable def flatteWidth (name modifier : String) (M : Masses) (g ratio s : ℝ) : Option ℂ :=
  if name = "f(0)(980)0" then
    let Gpipi := (1 / 3 : ℂ) * fSqrtTerm s M.mPi0 + (2 / 3 : ℂ) * fSqrtTerm s M.mPiPlus
    let GKK := if modifier = "CutKK" then ((1 / 2 * aSqrtTerm s M.mK0 + 1 / 2 * aSqrtTerm s M.mKPlus : ℝ) : ℂ)
      else (1 / 2 : ℂ) * fSqrtTerm s M.mK0 + (1 / 2 : ℂ) * fSqrtTerm s M.mKPlus
    some (g * (Gpipi + ratio * GKK))
  else if name = "a(0)(980)0" then
    let M_pieta := (M.mPiPlus + M.mEta) * (M.mPiPlus + M.mEta)
    let P_pieta := (M.mPiPlus - M.mEta) * (M.mPiPlus - M.mEta)
    let a := (1 - P_pieta / s) * (1 - M_pieta / s)
    if a < 0 then none else some (g * (((√a : ℝ) : ℂ) + ratio * fSqrtTerm s M.mKPlus))
  else some 0

/-- `Flatte`, src/Lineshapes/Flatte.cpp:19-65, without the factor of the modifier `kFactor`. -/
noncomputable def Flatte (name modifier : String) (M : Masses) (mass g ratio s : ℝ) : Option ℂ :=
  (flatteWidth name modifier M g ratio s).bind fun width =>
    let D : ℂ := (mass : ℂ) * mass - I * mass * width
    quot 1 (D - s)

/-! ### GounarisSakurai -/

/-- `q2`, src/Lineshapes/GounarisSakurai.cpp:15-19. -/
def gsQ2 (mpi s : ℝ) : ℝ := s - 4 * mpi * mpi

/-- `q`, src/Lineshapes/GounarisSakurai.cpp:21-24. -/
noncomputable def gsQ (mpi s : ℝ) : ℝ := safeSqrt (gsQ2 mpi s)

/-- `logTerm`, src/Lineshapes/GounarisSakurai.cpp:26-30. -/
noncomputable def logTerm (mpi s : ℝ) : ℝ := Real.log ((√s + safeSqrt (gsQ2 mpi s)) / (2 * mpi))

/-- `M2`, src/Lineshapes/GounarisSakurai.cpp:39-45. -/
noncomputable def gsM2 (mpi mass width0 s : ℝ) : ℝ :=
  let s0 := mass * mass
  let t1 := 2 * s0 * gsQ2 mpi s * gsQ mpi s * logTerm mpi s / (√s * gsQ mpi s0 ^ 3)
  let t2 := logTerm mpi s0 * (gsQ2 mpi s * (s - 3 * s0) + s * (s0 - s)) / (mass * gsQ2 mpi s0)
  let t3 := (s0 - s) / gsQ mpi s0
  s0 + width0 * (t1 + t2 + t3) / Real.pi

/-- `GounarisSakurai`, src/Lineshapes/GounarisSakurai.cpp:32-56, with the modifiers `IncludeRadiusInWidth` and `BL`. -/
noncomputable def GounarisSakurai (useRadius normalisedFF : Bool) (mpi s s1 s2 mass width0 radius : ℝ) (L : ℕ) : Option ℂ :=
  let D : ℂ := (gsM2 mpi mass width0 s : ℂ) - I * mass * (runningWidth s s1 s2 mass width0 (if useRadius then radius else 0) L : ℝ)
  let q2 := |Q2 s s1 s2|
  let FormFactor : ℝ := if normalisedFF then √(blattWeisskopf (q2 * radius * radius) L) else √(blattWeisskopfNorm (q2 * radius * radius) 0 L)
  quot ((kFactor mass width0 * FormFactor : ℝ) : ℂ) (D - s)

/-! ### Simple propagators -/

/-- `NonRelBW`, src/Lineshapes/NonRelBW.cpp:13-23. -/
noncomputable def NonRelBW (mass width s : ℝ) : Option ℂ :=
  quot ((√(width / 2 / Real.pi) : ℝ) : ℂ) (((√s : ℝ) : ℂ) - mass - I * width / 2)

/-- `Photon`, src/Lineshapes/Photon.cpp:6-11. -/
noncomputable def Photon (mass s : ℝ) : Option ℂ := quot 1 ((s : ℂ) - mass * mass)

/-! ### Phase shifts -/

/-- The phase of `Isotensor`, src/Lineshapes/Isotensor.cpp:18-24; `a` is in degrees. -/
noncomputable def isotensorPhase (a b c d s : ℝ) : Option ℝ :=
  let mpi := 0.139570
  let polyTerm := pol s [1, b, c, d]
  open Classical in
  if s / 4 - mpi * mpi < 0 ∨ polyTerm = 0 then none else some (-2 * (a * Real.pi / 180) * √(s / 4 - mpi * mpi) / polyTerm)

/-- `Isotensor`, src/Lineshapes/Isotensor.cpp:12-29. -/
noncomputable def Isotensor (a b c d s : ℝ) : Option ℂ :=
  (isotensorPhase a b c d s).map fun (phaseShift : ℝ) => (Complex.exp (I * (phaseShift : ℂ)) - 1) / (2 * I)

/-- `InelasticSpline`, src/Lineshapes/SplineShapes.cpp:94-101, for the values of the two splines. -/
noncomputable def InelasticSpline (inelasticity phaseShift : ℝ) : ℂ :=
  let phi : ℂ := (Real.cos (2 * phaseShift) : ℝ) + I * (Real.sin (2 * phaseShift) : ℝ)
  (inelasticity * phi - 1) * (-0.5 * I)

/-! ### K pi S-wave -/

/-- `phsp_twoBody`, src/Lineshapes/kMatrix.cpp:20-23. -/
noncomputable def phspTwoBody (s m0 m1 : ℝ) : ℂ := complexSqrt (1 - (m0 + m1) * (m0 + m1) / s)

/-- `phsp_FOCUS`, src/Lineshapes/kMatrix.cpp:33-38. -/
noncomputable def phspFOCUS (s m0 m1 : ℝ) : ℂ :=
  let mp := m0 + m1
  let mm := m0 - m1
  complexSqrt ((1 - mp * mp / s) * (1 - mm * mm / s))

/-- `phsp_fourPi`, src/Lineshapes/kMatrix.cpp:25-31. -/
noncomputable def phspFourPi (s : ℝ) : ℂ :=
  let mPiPlus := 0.139570
  let rho_4pi := pol s [0.00051, -0.01933, 0.13851, -0.20840, -0.29744, 0.13655, 1.07885]
  if s > 1 then phspTwoBody s (2 * mPiPlus) (2 * mPiPlus) else (rho_4pi : ℝ)

/-- The modifiers of `PALANO` and `FOCUS`. -/
inductive SWave
  | Kpi | KEta | I32

/-- What `PALANO` and `FOCUS` return, src/Lineshapes/PALANO.cpp:50-86, src/Lineshapes/FOCUS.cpp:39-82, for the K-matrix of isospin 1/2 without its zero, the
zeros, the K-matrix of isospin 3/2 without its zero, and the phase space of both channels. -/
noncomputable def sWave (m : SWave) (k00 k01 k11 k32 adler12 adler32 : ℝ) (rho1 rho2 : ℂ) : Option ℂ :=
  let K11 : ℂ := adler12 * k00
  let K12 : ℂ := adler12 * k01
  let K22 : ℂ := adler12 * k11
  let K32 : ℂ := adler32 * k32
  let detK := K11 * K22 - K12 * K12
  let del := 1 - rho1 * rho2 * detK - I * (rho1 * K11 + rho2 * K22)
  match m with
  | .Kpi => quot (K11 - I * rho2 * detK) del
  | .KEta => quot K12 del
  | .I32 => quot 1 (1 - I * K32 * rho1)

/-- `GLASS`, src/Lineshapes/GLASS.cpp:13-43. -/
noncomputable def GLASS (s s1 s2 mass width0 a r phiR phiF R F : ℝ) : ℂ :=
  let s0 := mass * mass
  let q2 := Q2 s s1 s2
  let q20 := Q2 s0 s1 s2
  let q := safeSqrt q2
  let i := I
  let width := width0 * mass * √(q2 / (q20 * s))
  let rbw : ℂ := (s0 : ℂ) * width0 / (((√q20 : ℝ) : ℂ) * ((mass : ℂ) * mass - s - i * mass * width))
  let den : ℂ := 1 + 0.5 * r * a * q2 - i * a * q
  let resTerm : ℂ := R * Complex.exp (i * (phiR + 2 * phiF)) * rbw * (1 + 0.5 * r * a * q2 + i * a * q)
  let nrTerm : ℂ := F * Complex.exp (i * phiF) * (a * q * Real.cos phiF + (1 + 0.5 * r * a * q2) * Real.sin phiF) * (√s : ℝ) / q
  (nrTerm + resTerm) / den

/-! ### Bugg -/

/-- `rho`, src/Lineshapes/Bugg.cpp:12-16. -/
noncomputable def buggRho (s s0 : ℝ) : ℝ :=
  let a2 := 1 - (4 * s0) / s
  if a2 > 0 then a2 else 0

/-- `rho_2`, src/Lineshapes/Bugg.cpp:18-21. -/
noncomputable def buggRho2 (s s0 : ℝ) : ℂ := complexSqrt (1 - (4 * s0) / s)

/-- `q`, src/Lineshapes/Bugg.cpp:23. -/
noncomputable def buggQ (s s0 : ℝ) : ℝ := if s > 4 * s0 then s - 4 * s0 else 4 * s0 - s

/-- `rho_4pi`, src/Lineshapes/Bugg.cpp:25-28. -/
noncomputable def rho4pi (s lambda s0 : ℝ) : ℝ := 1 / (1 + Real.exp (lambda * (s0 - s)))

/-- `Buggj1`, src/Lineshapes/Bugg.cpp:30-36. -/
noncomputable def buggJ1 (s m0 : ℝ) : ℝ :=
  let rho_pipi := √(buggRho s (m0 * m0))
  let addTerm := if rho_pipi > 0 then rho_pipi * Real.log ((1 - rho_pipi) / (1 + rho_pipi)) else 0
  (2 + addTerm) / Real.pi

/-- `Gamma_4pi`, src/Lineshapes/Bugg.cpp:38-42. -/
noncomputable def gamma4pi (s m0 M g_4pi lambda s0 : ℝ) : ℝ :=
  if s > 16 * m0 * m0 then g_4pi * rho4pi s lambda s0 / rho4pi (M * M) lambda s0 else 0

/-- The parameters of `Bugg`, src/Lineshapes/Bugg.cpp:46-61. -/
structure BuggPar where
  M : ℝ
  b1 : ℝ
  b2 : ℝ
  A : ℝ
  g_4pi : ℝ
  g_2K : ℝ
  g_2eta : ℝ
  alpha : ℝ
  sA : ℝ
  s0_4pi : ℝ
  lambda_4pi : ℝ
  mPi : ℝ
  mK : ℝ
  mEta : ℝ

/-- `g1sg`, src/Lineshapes/Bugg.cpp:65. -/
noncomputable def BuggPar.g1sg (p : BuggPar) (s : ℝ) : ℝ := p.M * (p.b1 + p.b2 * s) * Real.exp (-(s - p.M * p.M) / p.A)

/-- `adlerZero`, src/Lineshapes/Bugg.cpp:66; `sA` here is in units of GeV. -/
noncomputable def BuggPar.adlerZero (p : BuggPar) (s : ℝ) : ℝ := (s - p.sA) / (p.M * p.M - p.sA)

/-- `Gamma_tot`, src/Lineshapes/Bugg.cpp:68-77. -/
noncomputable def BuggPar.width (p : BuggPar) (s : ℝ) : ℂ :=
  let gamma_2pi := ((p.g1sg s * p.adlerZero s : ℝ) : ℂ) * buggRho2 s (p.mPi * p.mPi)
  let gamma_2K := ((p.g_2K * p.g1sg s * s / (p.M * p.M) * Real.exp (-p.alpha * buggQ s (p.mK * p.mK)) : ℝ) : ℂ) * buggRho2 s (p.mK * p.mK)
  let gamma_2eta := ((p.g_2eta * p.g1sg s * s / (p.M * p.M) * Real.exp (-p.alpha * buggQ s (p.mEta * p.mEta)) : ℝ) : ℂ) * buggRho2 s (p.mEta * p.mEta)
  let gamma_4pi : ℝ := p.M * gamma4pi s p.mPi p.M p.g_4pi p.lambda_4pi p.s0_4pi
  gamma_2pi + gamma_2K + gamma_2eta + gamma_4pi

/-- `Bugg`, src/Lineshapes/Bugg.cpp:44-99. -/
noncomputable def Bugg (az : Bool) (p : BuggPar) (s : ℝ) : Option ℂ :=
  let z := buggJ1 s p.mPi - buggJ1 (p.M * p.M) p.mPi
  let iBW : ℂ := ((p.M * p.M - s - p.g1sg s * p.adlerZero s * z : ℝ) : ℂ) - I * p.width s
  (quot 1 iBW).map fun BW => if az then BW * ((s : ℂ) - p.sA) * p.g1sg s else BW

/-! ### CoupledChannel -/

/-- `Hr` of real numbers, src/Lineshapes/CoupledChannel.cpp:37-44. -/
noncomputable def Hr (x y z : ℝ) : ℂ := complexSqrt (x * x + y * y + z * z - 2 * x * y - 2 * x * z - 2 * z * y)

/-- `rho_twoBody`, src/Lineshapes/CoupledChannel.cpp:46-49. -/
noncomputable def rhoTwoBody (s s1 s2 : ℝ) : ℂ := Hr s s1 s2 / (16 * Real.pi * s)

/-- The attribute `phsp` of a channel, src/Lineshapes/CoupledChannel.cpp:139-149. -/
inductive Phsp
  | default | AS | CM

/-- `phaseSpace` of two bodies, src/Lineshapes/CoupledChannel.cpp:130-165; `CM` for waves with `l = 0` and `l > 3`. -/
noncomputable def phaseSpace (kind : Phsp) (s m1 m2 radius : ℝ) (l : ℕ) : ℂ :=
  let s1 := m1 * m1
  let s2 := m2 * m2
  match kind with
  | .default =>
    let k2 := Q2 s s1 s2
    let k2p := if k2 > 0 then k2 else 0
    rhoTwoBody s s1 s2 * (blattWeisskopf (k2p * radius * radius) l : ℝ)
  | .AS => 2 * complexSqrt (Q2 s s1 s2 / s)
  | .CM =>
    let sT := (m1 + m2) * (m1 + m2)
    let q2 := (s * s + s1 * s1 + s2 * s2 - 2 * s * s1 - 2 * s * s2 - 2 * s1 * s2) / (4 * s)
    let q := complexSqrt q2
    let arg : ℂ := ((s1 : ℂ) + s2 - s + 2 * (√s : ℝ) * q) / (2 * m1 * m2)
    (2 * q * Complex.log arg / (√s : ℝ) - ((s1 : ℂ) - s2) * (1 / s - 1 / sT) * (Real.log (m1 / m2) : ℝ)) / (16 * I * Real.pi * Real.pi)

/-- A channel of `CoupledChannel`, src/Lineshapes/CoupledChannel.cpp:184-186. -/
structure Channel where
  kind : Phsp
  m1 : ℝ
  m2 : ℝ
  radius : ℝ
  l : ℕ
  coupling : ℝ

/-- `totalWidth` and `totalWidthAtPole`, src/Lineshapes/CoupledChannel.cpp:183-192. -/
noncomputable def totalWidth (channels : List Channel) (s : ℝ) : ℂ :=
  channels.foldl (fun (w : ℂ) (c : Channel) => w + c.coupling * phaseSpace c.kind s c.m1 c.m2 c.radius c.l) 0

/-- The modifiers of `CoupledChannel`. -/
inductive CoupledMod
  | none | BL | norm
  deriving DecidableEq

/-- `CoupledChannel`, src/Lineshapes/CoupledChannel.cpp:172-205. -/
noncomputable def CoupledChannel (mod : CoupledMod) (channels : List Channel) (s s1 s2 mass width radius : ℝ) (L : ℕ) : Option ℂ :=
  let q2 := |Q2 s s1 s2|
  let formFactor : ℝ := if mod = .BL then √(blattWeisskopf (q2 * radius * radius) L) else √(blattWeisskopfNorm (q2 * radius * radius) 0 L)
  (if mod = .norm then quot width (totalWidth channels (mass * mass)) else some 1).bind fun widthNorm =>
    let D : ℂ := (mass : ℂ) * mass - I * mass * totalWidth channels s * widthNorm
    (quot 1 (D - s)).map fun BW => ((kFactor mass width * formFactor : ℝ) : ℂ) * BW

/-! ### Shapes of a whole decay -/

/-- A momentum. -/
structure P4 where
  x : ℝ
  y : ℝ
  z : ℝ
  E : ℝ

/-- `dot` of two momenta, src/Tensor.cpp:242-255. -/
def dot (p q : P4) : ℝ := p.E * q.E - p.x * q.x - p.y * q.y - p.z * q.z

/-- The sum of two momenta, of which `P` of a particle that decays is made, src/Particle.cpp:233-254. -/
def P4.add (p q : P4) : P4 := ⟨p.x + q.x, p.y + q.y, p.z + q.z, p.E + q.E⟩

/-- The variable `y` of `EtaDalitz`, src/Lineshapes/EtaDalitz.cpp:15-25; the masses are those of the database, src/Particle.cpp:793. -/
noncomputable def etaY (m mp mm m0 : ℝ) (pp pm p0 : P4) : ℝ :=
  let P := (pp.add pm).add p0
  let T0 := dot pp P - m * mp
  let T1 := dot pm P - m * mm
  let T2 := dot p0 P - m * m0
  let Q := T0 + T1 + T2
  3 * T2 / Q - 1

/-- `EtaDalitz` without another lineshape, src/Lineshapes/EtaDalitz.cpp:13-30. -/
noncomputable def EtaDalitz (m mp mm m0 : ℝ) (pp pm p0 : P4) : ℝ :=
  let z := 1 - 1.07 * etaY m mp mm m0 pp pm p0
  if z > 0 then √z else 1

/-- `PolyNR`, src/Lineshapes/PolyNR.cpp:10-40. -/
def PolyNR (degree : ℕ) (C : ℕ → ℕ → ℝ) (s01 s02 : ℝ) : ℝ :=
  (List.range (degree + 1)).foldl (fun (rt : ℝ) (i : ℕ) =>
    (List.range (degree + 1)).foldl (fun (rt : ℝ) (j : ℕ) => rt + C i j * s01 ^ i * s02 ^ j) rt) 0

end AmpGen.Shapes
