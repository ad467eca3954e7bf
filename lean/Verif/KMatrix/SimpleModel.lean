import Verif.KMatrix.Model
import Mathlib.Data.Complex.Basic
/-
Model of src/Lineshapes/kMatrixSimple.cpp: a K-matrix with any number of poles and two-body channels, with the masses and widths of the poles as parameters.
-/
namespace AmpGen.KMatrix
open Complex

/-- `phsp_twoBody`, src/Lineshapes/kMatrix.cpp:20-23.  The square root of the code is the function `root`. -/
noncomputable def phspTwoBody (root : ℂ → ℂ) (s m0 m1 : ℂ) : ℂ := root (1 - (m0 + m1) * (m0 + m1) / s)

/-- `gFromGamma`, src/Lineshapes/kMatrix.cpp:47-50. -/
noncomputable def gFromGamma (root : ℂ → ℂ) (m gamma rho : ℂ) : ℂ := root (m * gamma / rho)

/-- One pole, src/Lineshapes/kMatrixSimple.cpp:48-57: the parameters `kMatrix::pole::…::mass` and `…::width::…`; `masses` are those of the two particles of each channel. -/
noncomputable def simplePole (root : ℂ → ℂ) (masses : Nat → ℂ × ℂ) (mass : ℂ) (width : Nat → ℂ) : Pole ℂ :=
  ⟨mass * mass, fun channel => gFromGamma root mass (width channel) (phspTwoBody root (mass * mass) (masses channel).1 (masses channel).2)⟩

/-- `pTerm`, src/Lineshapes/kMatrixSimple.cpp:28-31: the number in the modifier of the lineshape, and 999 (with an error message) if there is none.  Simplification: a modifier which is
no number, for which `stoi` throws, is left out. -/
def pTerm (modifier : Option Nat) : Nat := modifier.getD 999

/-- The lineshape `kMatrixSimple`, src/Lineshapes/kMatrixSimple.cpp:21-83, at `s` in GeV squared.  `n` is the option `kMatrix::nChannels`.  `none`: a pole beyond the end of the list is used,
which is undefined. -/
noncomputable def kMatrixSimple (quot : ℂ → ℂ → ℂ) (root : ℂ → ℂ) (n : Nat) (masses : Nat → ℂ × ℂ) (poles : List (ℂ × (Nat → ℂ))) (modifier : Option Nat) (s : ℂ) : Option ℂ :=
  let configs := poles.map fun p => simplePole root masses p.1 p.2
  match configs[pTerm modifier]? with
  | none => none
  | some pole =>
    some (poleTerm n s pole (getPropagator quot I n (constructKMatrix s configs) fun c => phspTwoBody root s (masses c).1 (masses c).2) 0)

end AmpGen.KMatrix
