import Mathlib.Analysis.Real.Sqrt
import Mathlib.Analysis.SpecialFunctions.Trigonometric.Basic
import Mathlib.Data.Complex.Basic
import Mathlib.Analysis.SpecialFunctions.Trigonometric.Arctan
/-
Model of src/Lineshapes.cpp, src/Lineshapes/BW.cpp, src/Lineshapes/LASS.cpp and of the helper of
src/Lineshapes/CoupledChannel.cpp that repeats the barrier factors.  The functions build symbolic expressions; here they
are the values of these expressions, over the real and complex numbers.  `make_cse` does not change a value and is left out.
Parameters (`Parameter( name + "_mass" )` and so on) are arguments.  The debug symbols are not modelled.
-/
namespace AmpGen.Lineshapes

/-- `Q2`, src/Lineshapes.cpp:11-15. -/
noncomputable def Q2 (s M1sq M2sq : ℝ) : ℝ := (s - 2 * M1sq - 2 * M2sq + (M1sq - M2sq) * (M1sq - M2sq) / s) / 4

/-- `kFactor`, src/Lineshapes.cpp:17-24. -/
noncomputable def kFactor (mass width : ℝ) : ℝ :=
  let gamma := mass * √(mass * mass + width * width)
  √((2 * √2 / Real.pi) * mass * width * gamma / √(mass * mass + gamma))

/-- `BlattWeisskopf_Norm`, src/Lineshapes.cpp:26-40.  The numerator for `L = 4` mixes `z0` and `z`, as the code does.  For
`L > 4` an error is printed and the expression is `0`. -/
noncomputable def blattWeisskopfNorm (z z0 : ℝ) : ℕ → ℝ
  | 0 => 1
  | 1 => (1 + z0) / (1 + z)
  | 2 => (z0 * z0 + 3 * z0 + 9) / (z * z + 3 * z + 9)
  | 3 => (z0 * (z0 - 15) ^ 2 + 9 * (2 * z0 - 5) ^ 2) / (z * (z - 15) ^ 2 + 9 * (2 * z - 5) ^ 2)
  | 4 => ((z0 * z0 - 45 * z0 + 105) ^ 2 + 25 * z * (2 * z - 21) ^ 2) / ((z * z - 45 * z + 105) ^ 2 + 25 * z * (2 * z - 21) ^ 2)
  | _ => 0

/-- `BlattWeisskopf`, src/Lineshapes.cpp:42-55. -/
noncomputable def blattWeisskopf (z : ℝ) : ℕ → ℝ
  | 0 => 1
  | 1 => 2 * z ^ 1 / (1 + z)
  | 2 => 13 * z ^ 2 / (z * z + 3 * z + 9)
  | 3 => 277 * z ^ 3 / (z * (z - 15) ^ 2 + 9 * (2 * z - 5) ^ 2)
  | 4 => 12746 * z ^ 4 / ((z * z - 45 * z + 105) ^ 2 + 25 * z * (2 * z - 21) ^ 2)
  | _ => 0

/-- `blatt_weisskopf_sq`, src/Lineshapes/CoupledChannel.cpp:99-109, used for the coupled-channel phase space.  For `L = 2` the
denominator has `3*z * 9`, as in the code. -/
noncomputable def blattWeisskopfSq (z : ℝ) : ℕ → ℝ
  | 0 => 1
  | 1 => 2 * z / (1 + z)
  | 2 => 13 * z * z / (z * z + 3 * z * 9)
  | 3 => 277 * z * z * z / (z * (z - 15) * (z - 15) + 9 * (2 * z - 5) * (2 * z - 5))
  | _ => 0

/-- `BL`, src/Lineshapes.cpp:57-67. -/
noncomputable def BL (s s0 s1 s2 radius : ℝ) (L : ℕ) : ℝ :=
  let q2 := |Q2 s s1 s2|
  let q20 := |Q2 s0 s1 s2|
  √(blattWeisskopf (q2 * radius * radius) L / blattWeisskopf (q20 * radius * radius) L)

/-- `width`, src/Lineshapes.cpp:77-94. -/
noncomputable def runningWidth (s s1 s2 mass width radius : ℝ) (L : ℕ) : ℝ :=
  let q2v := Q2 s s1 s2
  let q2 := if q2v > 0 then q2v else 0
  let q20 := |Q2 (mass * mass) s1 s2|
  let BF := blattWeisskopfNorm (q2 * radius * radius) (q20 * radius * radius) L
  let q2r := q2 / q20
  width * BF * mass * √(q2r / s) * q2r ^ L

/-- `pol`, src/Lineshapes.cpp:135-144: the loop carries the sum and the power. -/
def pol {K : Type} [Add K] [Mul K] [Zero K] [One K] (X : K) (p : List K) : K :=
  (p.foldl (fun (s : K × K) (ip : K) => (s.1 + ip * s.2, s.2 * X)) (0, 1)).1

/-- The modifiers `BW` knows, src/Lineshapes/BW.cpp:69-72,83; any other modifier counts as `plain`. -/
inductive Modifier
  | plain | BL | BELLE2018 | NFF
  deriving DecidableEq

/-- The form factor of `BW`, src/Lineshapes/BW.cpp:67-72. -/
noncomputable def formFactor (m : Modifier) (s s1 s2 mass radius : ℝ) (L : ℕ) : ℝ :=
  let q2 := |Q2 s s1 s2|
  let q20 := |Q2 (mass * mass) s1 s2|
  match m with
  | .plain => √(blattWeisskopfNorm (q2 * radius * radius) 0 L)
  | .BL => √(blattWeisskopf (q2 * radius * radius) L)
  | .BELLE2018 => √(blattWeisskopfNorm (q2 * radius * radius) (q20 * radius * radius) L)
  | .NFF => 1

/-- `BW`, src/Lineshapes/BW.cpp:60-84. -/
noncomputable def BW (m : Modifier) (s s1 s2 mass width0 radius : ℝ) (L : ℕ) : ℂ :=
  let ff := formFactor m s s1 s2 mass radius L
  let w := runningWidth s s1 s2 mass width0 radius L
  let bw : ℂ := (ff : ℂ) / ((mass : ℂ) * mass - s - Complex.I * mass * w)
  if m = .BELLE2018 then bw else (kFactor mass width0 : ℂ) * bw

/-- `SBW`, src/Lineshapes/BW.cpp:86-96. -/
noncomputable def SBW (s mass width0 : ℝ) : ℂ :=
  (kFactor mass width0 : ℂ) * (1 / ((mass : ℂ) * mass - s - Complex.I * mass * width0))

/-- `safe_sqrt`, src/Expression.cpp:296-299. -/
noncomputable def safeSqrt (x : ℝ) : ℝ := if x > 0 then √x else 0

/-- What `LASS` can return, src/Lineshapes/LASS.cpp:48-50. -/
inductive LassPart
  | bw | nr | all
  deriving DecidableEq

/-- `rho` of `LASS`, src/Lineshapes/LASS.cpp:21,23-24. -/
noncomputable def lassRho (s s1 s2 : ℝ) : ℝ := safeSqrt (Q2 s s1 s2) / √s

/-- `LASS`, src/Lineshapes/LASS.cpp:13-52. -/
noncomputable def LASS (part : LassPart) (s s1 s2 mass width0 a r : ℝ) : ℂ :=
  let s0 := mass * mass
  let q2 := Q2 s s1 s2
  let q20 := Q2 s0 s1 s2
  let q := safeSqrt q2
  let rho := q / √s
  let rho0 := √q20 / mass
  let gamma := width0 * rho / rho0
  let i := Complex.I
  let bw : ℂ := ((mass : ℂ) * width0) / ((rho0 : ℂ) * ((s0 : ℂ) - s - i * mass * gamma))
  let nrPhaseShift : ℂ := (2 + (a : ℂ) * r * q2 + i * 2 * a * q) / (2 + (a : ℂ) * r * q2 - i * 2 * a * q)
  let NR : ℂ := 2 * (a : ℂ) * (√s : ℝ) / (2 + (a : ℂ) * r * q * q - 2 * i * a * q)
  match part with
  | .bw => bw * nrPhaseShift
  | .nr => NR
  | .all => NR + bw * nrPhaseShift

/-- `tan_phi1`, `tan_phi2` and `phase`, src/Lineshapes/LASS.cpp:30-32; the code only shows `phase` among the debug
symbols. -/
noncomputable def lassPhase (s s1 s2 mass width0 a r : ℝ) : ℝ :=
  let s0 := mass * mass
  let q2 := Q2 s s1 s2
  let q := safeSqrt q2
  let gamma := width0 * (q / √s) / (√(Q2 s0 s1 s2) / mass)
  Real.arctan (2 * a * q / (2 + a * r * q2)) + Real.arctan (mass * gamma / (s0 - s))

end AmpGen.Lineshapes
