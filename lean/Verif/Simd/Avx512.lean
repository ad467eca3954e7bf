import Mathlib.Analysis.SpecialFunctions.Log.Basic
import Mathlib.Data.Nat.Bitwise
/-
Model of the logarithm of AmpGen/simd/avx512d_types.h, one lane of a vector of eight doubles.

Simplifications: a double is given by its 64 bits; arithmetic is exact.
-/
namespace AmpGen.Simd.Avx512

noncomputable section

/-- The number with a given pattern of 64 bits in the format of a double (IEEE 754); `none` if the exponent marks it as infinite or not a number. -/
def decode (b : Nat) : Option ℝ :=
  let s : ℝ := if b / 2 ^ 63 % 2 = 1 then -1 else 1
  let e : Nat := b / 2 ^ 52 % 2 ^ 11
  let f : ℝ := ((b % 2 ^ 52 : Nat) : ℝ)
  if e = 2 ^ 11 - 1 then none
  else if e = 0 then some (s * (f / 2 ^ 52) * (2 : ℝ) ^ (-1022 : ℤ))
  else some (s * (1 + f / 2 ^ 52) * (2 : ℝ) ^ ((e : ℤ) - 1023))

/-- `frexp`, AmpGen/simd/avx512d_types.h:82-91: mantissa and exponent. -/
def frexp (arg : Nat) : Option (ℝ × ℝ) :=
  let b := arg >>> 52
  let c := b ||| 0x4330000000000000
  (decode c).bind fun c =>
  (decode ((arg &&& 0x000FFFFFFFFFFFFF) ||| 0x3FE0000000000000)).bind fun mant =>
  some (mant, c - (4503599627370496 + 1022))

/-- `fmadd`, AmpGen/simd/avx512d_types.h:93-96. -/
def fmadd (a b c : ℝ) : ℝ := a * b + c

/-- `log`, AmpGen/simd/avx512d_types.h:97-121. -/
def log (arg : Nat) : Option ℝ :=
  let corr : ℝ := 0.693147180559945286226764
  let CL15 : ℝ := 0.148197055177935105296783
  let CL13 : ℝ := 0.153108178020442575739679
  let CL11 : ℝ := 0.181837339521549679055568
  let CL9 : ℝ := 0.22222194152736701733275
  let CL7 : ℝ := 0.285714288030134544449368
  let CL5 : ℝ := 0.399999999989941956712869
  let CL3 : ℝ := 0.666666666666685503450651
  let CL1 : ℝ := 2
  (frexp arg).bind fun (mant, exponent) =>
  let x := (mant - 1) / (mant + 1)
  let x2 := x * x
  let p := fmadd CL15 x2 CL13
  let p := fmadd p x2 CL11
  let p := fmadd p x2 CL9
  let p := fmadd p x2 CL7
  let p := fmadd p x2 CL5
  let p := fmadd p x2 CL3
  let p := fmadd p x2 CL1
  some (fmadd p x (corr * exponent))

end

end AmpGen.Simd.Avx512
