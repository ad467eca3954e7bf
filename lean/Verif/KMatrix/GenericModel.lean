import Verif.KMatrix.Model
import Mathlib.Data.Complex.Basic
/-
Model of the K-matrix of src/Lineshapes/GenericKmatrix.cpp: poles and a smooth part, with the options and parameters of a particle.
-/
namespace AmpGen.KMatrix
open Complex

/-- What the code looks up for a pair of channels, src/Lineshapes/GenericKmatrix.cpp:101-107: the option `…::nrShape` and the parameters `…::f1::…`, `…::f2::…` and `…::s0::…`. -/
structure PairOptions where
  shape : String
  f1 : ℂ
  f2 : ℂ
  s0 : ℂ

/-- The smooth part, src/Lineshapes/GenericKmatrix.cpp:95-111.  `look c1 c2` are the options with the numbers of the channels in their names, which count from one.  An unknown shape gives a
warning, and the element is not set; the tensor begins with zeros.  `sqrtS` is the square root of `s`. -/
noncomputable def nonResonant (look : Nat → Nat → PairOptions) (s sqrtS : ℂ) : Data ℂ := fun p =>
  let ch1 := p.1 + 1
  let ch2 := p.2 + 1
  let o := if ch1 > ch2 then look ch2 ch1 else look ch1 ch2
  if o.shape = "flat" then o.f1 else if o.shape = "pole" then (o.f1 + o.f2 * sqrtS) / (s - o.s0) else 0

/-- The poles, src/Lineshapes/GenericKmatrix.cpp:66-94: the parameters `…::mass` and `…::g::…` of each. -/
noncomputable def genericPoles (poles : List (ℂ × (Nat → ℂ))) : List (Pole ℂ) := poles.map fun p => ⟨p.1 * p.1, fun i => p.2 (i + 1)⟩

/-- The K-matrix, src/Lineshapes/GenericKmatrix.cpp:113-116. -/
noncomputable def genericKMatrix (poles : List (ℂ × (Nat → ℂ))) (look : Nat → Nat → PairOptions) (s sqrtS : ℂ) : Data ℂ := fun p =>
  constructKMatrix s (genericPoles poles) p + nonResonant look s sqrtS p

/-- The lineshape with the production amplitude `QVec`, src/Lineshapes/GenericKmatrix.cpp:40-165; `phsps` is the phase space of each channel at `s`. -/
noncomputable def genericQVec (quot : ℂ → ℂ → ℂ) (n : Nat) (poles : List (ℂ × (Nat → ℂ))) (look : Nat → Nat → PairOptions) (phsps : Nat → ℂ) (s sqrtS : ℂ) : ℂ :=
  qVectorAmplitude n (genericKMatrix poles look s sqrtS) (getPropagator quot I n (genericKMatrix poles look s sqrtS) phsps)

end AmpGen.KMatrix
