import Mathlib.Analysis.Complex.Basic
import Mathlib.Analysis.SpecialFunctions.Pow.Real
import Verif.Spin.Model
/-
Model of the rotation functions of src/Wigner.cpp.

Simplifications: numbers are real or complex and an expression is its value, since building and reordering expressions leaves their value alone (C01, C45);
conversions of a number that is negative to `unsigned int` do not occur for spins and projections that belong together and give zero in the model.
-/
namespace AmpGen.Wigner

open AmpGen.Spin (fact)

/-- `binomialCoefficient`, src/Wigner.cpp:34-38. -/
noncomputable def binomialCoefficient (n r : Nat) : ℝ :=
  (List.range r).foldl (fun (z : ℝ) (i : Nat) => z * (((n : ℝ) + 1 - ((i : ℝ) + 1)) / ((i : ℝ) + 1))) 1

/-- `fcn::fpow` for powers that are not negative, src/Expression.cpp:324-326. -/
def fpow {K : Type} [Field K] (x : K) (n : Nat) : K := (List.range n).foldl (fun (rt : K) _ => rt * x) 1

/-- `fcn::fpow`, src/Expression.cpp:322-327. -/
def fpowInt {K : Type} [Field K] (x : K) (n : ℤ) : K := if n < 0 then 1 / fpow x (-n).toNat else fpow x n.toNat

/-- `expandedBinomial`, src/Wigner.cpp:40-45. -/
noncomputable def expandedBinomial (x : ℝ) (n : Nat) : ℝ :=
  (List.range (n + 1)).foldl (fun (sum : ℝ) (k : Nat) => sum + binomialCoefficient n k * fpow x k) 0

/-- The conversion of a `double` to an `int`. -/
noncomputable def toInt (x : ℝ) : ℤ := if x < 0 then ⌈x⌉ else ⌊x⌋

/-- `modf`: what is left of a number without its integer part. -/
noncomputable def frac (x : ℝ) : ℝ := x - toInt x

/-- The sign `pow( -1, k )` of an integer `k`. -/
noncomputable def sign (k : ℤ) : ℝ := if k % 2 = 0 then 1 else -1

/-- The factor outside of the sum, src/Wigner.cpp:53-60. -/
noncomputable def fractionalPart (cb j m n : ℝ) (k_min : ℤ) : ℝ :=
  let frac_nc := frac (k_min - (m + n) / 2)
  let frac_ns := frac (j + (m + n) / 2 - k_min)
  if frac_nc = 0.5 ∧ frac_ns ≠ 0.5 then √(1 + cb)
  else if frac_nc ≠ 0.5 ∧ frac_ns = 0.5 then √(1 - cb)
  else if frac_nc = 0.5 ∧ frac_ns = 0.5 then √(1 - cb * cb)
  else 1

/-- What the body of the loop adds to the sum, src/Wigner.cpp:63-67. -/
noncomputable def term (cb j m n : ℝ) (k : ℤ) : ℝ :=
  let w2_num := fact (j + m) * fact (j - m) * fact (j + n) * fact (j - n)
  let w_den := fact k * fact (j + m - k) * fact (j + n - k) * fact (k - m - n)
  let norm := sign k * √w2_num / (w_den * (2 : ℝ) ^ j)
  let p1 := expandedBinomial cb (toInt (k - (m + n) / 2)).toNat
  let p2 := expandedBinomial (-cb) (toInt (j + (m + n) / 2 - k)).toNat
  norm * p1 * p2

/-- `wigner_d`, src/Wigner.cpp:47-71. -/
noncomputable def wigner_d (cb j m n : ℝ) : ℝ :=
  let k_min := toInt (max 0 (m + n))
  let k_max := toInt (min (j + m) (j + n))
  let sum := (List.range (k_max + 1 - k_min).toNat).foldl (fun (sum : ℝ) (i : Nat) => sum + term cb j m n (k_min + i)) 0
  sign (toInt (j + m)) * fractionalPart cb j m n k_min * sum

/-- `angCoordinates`, src/Wigner.cpp:132-139, of a momentum that is not zero: the cosine of the polar angle and the phase of the azimuth, nothing where its
quotients are zero by zero. -/
noncomputable def angCoordinates (x y z : ℝ) : ℝ × Option ℂ :=
  (z / √(x * x + y * y + z * z),
    if x * x + y * y = 0 then none
    else some (((x / √(x * x + y * y) : ℝ) : ℂ) + Complex.I * ((y / √(x * x + y * y) : ℝ) : ℂ)))

/-- `wigner_D`, src/Wigner.cpp:141-160; the phase is not used if its power is zero. -/
noncomputable def wigner_D (P : ℝ × Option ℂ) (J lA lB : ℝ) : Option ℂ :=
  if toInt (lB - lA) = 0 then some (wigner_d P.1 J lA lB : ℂ)
  else P.2.map fun (e : ℂ) => fpowInt e (toInt (lB - lA)) * (wigner_d P.1 J lA lB : ℂ)

end AmpGen.Wigner
