import Verif.Shapes.Model
import Verif.Spline.Props
import Verif.Strings.Model
/-
Model of the lineshapes that are given by splines, src/Lineshapes/SplineShapes.cpp (InelasticSpline is in Verif/Shapes/Model.lean).

As in Verif/Shapes/Model.lean the functions are the values of the expressions they build and `GeV` is one.  A spline is a function; the function of the
spline with given knots is `AmpGen.Spline.spline`.  Simplification: every spline is evaluated on the memory its own transfer leaves; other parameters are
elsewhere (C05).
-/
namespace AmpGen.SplineShapes

open AmpGen.Lineshapes (Q2 kFactor blattWeisskopf blattWeisskopfNorm runningWidth)
open AmpGen.Shapes (quot)
open AmpGen.Strings (Str find)
open Complex (I)

/-- The number of knots and the range of the spline of a particle, `getSpline`, src/Spline.cpp:44-58: `vector` is the option `::Spline`, `N`, `Min` and `Max`
are the options with these names, zero if they are not given. -/
noncomputable def configuration (vector : List ℝ) (N min max : ℝ) : Nat × ℝ × ℝ :=
  match vector with
  | [n, a, b] => (⌊n⌋₊, a, b)
  | _ => (⌊N⌋₊, min, max)

/-- `lineshapeModifier.find( word ) != npos`. -/
def has (modifier word : Str) : Bool := (find modifier word 0).isSome

/-- `DecaySpline`, src/Lineshapes/SplineShapes.cpp:13-20. -/
noncomputable def DecaySpline (ff : ℝ → ℝ) (s s1 s2 : ℝ) : ℝ := ff (Q2 s s1 s2)

/-- The form factor of `GSpline`, src/Lineshapes/SplineShapes.cpp:38-40. -/
noncomputable def formFactor (modifier : Str) (s s1 s2 radius : ℝ) (L : Nat) : ℝ :=
  let q2 := |Q2 s s1 s2|
  let BF := √(blattWeisskopfNorm (q2 * radius * radius) 0 L)
  let BF := if has modifier "BL".toList then √(blattWeisskopf (q2 * radius * radius) L) else BF
  if has modifier "EFF".toList then Real.exp (-q2 * radius * radius / 2) else BF

/-- `GSpline`, src/Lineshapes/SplineShapes.cpp:22-66, for the splines of the width and of the shift of the mass. -/
noncomputable def GSpline (modifier : Str) (gamma dm2 : ℝ → ℝ) (s s1 s2 mass width0 radius : ℝ) (L : Nat) : Option ℂ :=
  let width_shape := gamma s
  let width_norm := gamma (mass * mass)
  let norm := kFactor mass width0 * formFactor modifier s s1 s2 radius L
  open Classical in
  if width_norm = 0 then none
  else
    let runningWidth := width0 * width_shape / width_norm
    let real_part := mass * mass
    let real_part := if has modifier "Dis".toList then real_part + dm2 s - dm2 (mass * mass) else real_part
    let self_energy : ℂ := (real_part : ℂ) - I * mass * runningWidth
    quot (norm : ℂ) (self_energy - s)

/-- `FormFactorSpline`, src/Lineshapes/SplineShapes.cpp:68-80. -/
noncomputable def FormFactorSpline (ff : ℝ → ℝ) (s s1 s2 mass width0 radius : ℝ) (L : Nat) : Option ℂ :=
  quot (ff s : ℂ) (-(s : ℂ) + mass * mass - I * mass * (runningWidth s s1 s2 mass width0 radius L : ℝ))

/-- `MIPWA`, src/Lineshapes/SplineShapes.cpp:82-92, for the splines of both parameters. -/
noncomputable def MIPWA (modifier : Str) (re im : ℝ → ℝ) (s : ℝ) : ℂ :=
  let real := re s
  let imag := im s
  if modifier ≠ "Polar".toList then (real : ℂ) + I * imag
  else (real : ℂ) * ((Real.cos imag : ℝ) + I * (Real.sin imag : ℝ))

end AmpGen.SplineShapes
