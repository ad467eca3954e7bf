import Verif.Expr.Model
import Verif.Spline.Model
import Mathlib.Analysis.SpecialFunctions.Complex.Log
import Mathlib.Analysis.SpecialFunctions.Trigonometric.Basic
/-
Model of the vector types (AmpGen/simd/avx2d_types.h, avx2f_types.h, arm128d_types.h, AmpGen/Complex.h) and of compiled expressions that work on them.

Simplifications: numbers are real; a lane without a number (NaN, infinite or not set) is `none`, and what is computed from it is `none`.  The functions of the
instruction sets act lane by lane as documented by their makers.  Numbers that are not vectors are converted to vectors at once, and not when they meet a vector.
Registers are converted to integers without overflow.
-/
namespace AmpGen.Simd
open AmpGen.Expr

noncomputable section

/-- The instruction sets whose complex numbers are those of AmpGen/Complex.h. -/
inductive Isa
  | avx2d | avx2f | arm128d
  deriving DecidableEq

/-- `real_v::size`, AmpGen/simd/avx2d_types.h:32, AmpGen/simd/avx2f_types.h:28, AmpGen/simd/arm128d_types.h:29. -/
def Isa.size : Isa → Nat
  | .avx2d => 4
  | .avx2f => 8
  | .arm128d => 2

/-- `real_v`: a number in each lane. -/
abbrev RealV (isa : Isa) := Fin isa.size → Option ℝ

/-- The result of a comparison: a truth value in each lane. -/
abbrev Mask (isa : Isa) := Fin isa.size → Option Bool

variable {isa : Isa}

/-- `real_v( const double& )`, AmpGen/simd/avx2d_types.h:36: the same number in all lanes. -/
def splat (x : ℝ) : RealV isa := fun _ => some x

/-- A function in each lane. -/
def lift1 {β : Type} (f : ℝ → Option β) (a : RealV isa) : Fin isa.size → Option β := fun i => (a i).bind f

/-- A function of two numbers in each lane. -/
def lift2 {β : Type} (f : ℝ → ℝ → Option β) (a b : RealV isa) : Fin isa.size → Option β := fun i => (a i).bind fun x => (b i).bind fun y => f x y

/-- `operator+`, AmpGen/simd/avx2d_types.h:62, AmpGen/simd/avx2f_types.h:55, AmpGen/simd/arm128d_types.h:58. -/
def add (a b : RealV isa) : RealV isa := lift2 (fun x y => some (x + y)) a b

/-- `operator-`, AmpGen/simd/avx2d_types.h:63, AmpGen/simd/avx2f_types.h:56, AmpGen/simd/arm128d_types.h:59. -/
def sub (a b : RealV isa) : RealV isa := lift2 (fun x y => some (x - y)) a b

/-- `operator*`, AmpGen/simd/avx2d_types.h:64, AmpGen/simd/avx2f_types.h:57, AmpGen/simd/arm128d_types.h:60. -/
def mul (a b : RealV isa) : RealV isa := lift2 (fun x y => some (x * y)) a b

open Classical in
/-- `operator/`, AmpGen/simd/avx2d_types.h:65, AmpGen/simd/avx2f_types.h:58, AmpGen/simd/arm128d_types.h:61. -/
def div (a b : RealV isa) : RealV isa := lift2 (fun x y => if y = 0 then none else some (x / y)) a b

/-- `operator-( x )`, AmpGen/simd/avx2d_types.h:66, AmpGen/simd/avx2f_types.h:59, AmpGen/simd/arm128d_types.h:62. -/
def neg (a : RealV isa) : RealV isa := mul (splat (-1)) a

open Classical in
/-- `operator<`, AmpGen/simd/avx2d_types.h:73, AmpGen/simd/avx2f_types.h:66, AmpGen/simd/arm128d_types.h:71. -/
def lt (a b : RealV isa) : Mask isa := lift2 (fun x y => some (decide (x < y))) a b

open Classical in
/-- `operator>`, AmpGen/simd/avx2d_types.h:74, AmpGen/simd/avx2f_types.h:67, AmpGen/simd/arm128d_types.h:72. -/
def gt (a b : RealV isa) : Mask isa := lift2 (fun x y => some (decide (x > y))) a b

open Classical in
/-- `operator<=`, AmpGen/simd/avx2d_types.h:75, AmpGen/simd/avx2f_types.h:68, AmpGen/simd/arm128d_types.h:73. -/
def le (a b : RealV isa) : Mask isa := lift2 (fun x y => some (decide (x ≤ y))) a b

open Classical in
/-- `operator>=`, AmpGen/simd/avx2d_types.h:76, AmpGen/simd/avx2f_types.h:69; AmpGen/simd/arm128d_types.h:74 calls the instruction for `<=`. -/
def ge (a b : RealV isa) : Mask isa :=
  if isa = .arm128d then lift2 (fun x y => some (decide (x ≤ y))) a b else lift2 (fun x y => some (decide (x ≥ y))) a b

open Classical in
/-- `operator==`, AmpGen/simd/avx2d_types.h:77, AmpGen/simd/avx2f_types.h:70, AmpGen/simd/arm128d_types.h:75. -/
def eq (a b : RealV isa) : Mask isa := lift2 (fun x y => some (decide (x = y))) a b

/-- `operator&&`, AmpGen/simd/avx2d_types.h:70, AmpGen/simd/avx2f_types.h:63, AmpGen/simd/arm128d_types.h:67. -/
def and (a b : Mask isa) : Mask isa := fun i => (a i).bind fun x => (b i).bind fun y => some (x && y)

/-- `operator||`, AmpGen/simd/avx2d_types.h:71, AmpGen/simd/avx2f_types.h:64, AmpGen/simd/arm128d_types.h:68. -/
def or (a b : Mask isa) : Mask isa := fun i => (a i).bind fun x => (b i).bind fun y => some (x || y)

/-- `select`, AmpGen/simd/avx2d_types.h:119, AmpGen/simd/avx2f_types.h:105, AmpGen/simd/arm128d_types.h:109. -/
def select (m : Mask isa) (a b : RealV isa) : RealV isa := fun i => (m i).bind fun c => if c then a i else b i

open Classical in
/-- `sqrt`, AmpGen/simd/avx2d_types.h:78, AmpGen/simd/avx2f_types.h:71, AmpGen/simd/arm128d_types.h:76. -/
def sqrt (a : RealV isa) : RealV isa := lift1 (fun x => if x < 0 then none else some √x) a

/-- `abs`, AmpGen/simd/avx2d_types.h:79, AmpGen/simd/avx2f_types.h:104, AmpGen/simd/arm128d_types.h:77. -/
def abs (a : RealV isa) : RealV isa := lift1 (fun x => some |x|) a

/-- `sin`, `cos`, `exp`: AmpGen/simd/avx2d_types.h:84-86, AmpGen/simd/avx2f_types.h:76-78, AmpGen/simd/arm128d_types.h:82-84. -/
def sin (a : RealV isa) : RealV isa := lift1 (fun x => some (Real.sin x)) a
/-- As `sin`. -/
def cos (a : RealV isa) : RealV isa := lift1 (fun x => some (Real.cos x)) a
/-- As `sin`. -/
def exp (a : RealV isa) : RealV isa := lift1 (fun x => some (Real.exp x)) a

open Classical in
/-- `log`, AmpGen/simd/avx2d_types.h:88, AmpGen/simd/avx2f_types.h:79, AmpGen/simd/arm128d_types.h:85. -/
def log (a : RealV isa) : RealV isa := lift1 (fun x => if x ≤ 0 then none else some (Real.log x)) a

/-- `tan`, AmpGen/simd/avx2d_types.h:113-117, AmpGen/simd/avx2f_types.h:98-102, AmpGen/simd/arm128d_types.h:97-101. -/
def tan (a : RealV isa) : RealV isa := div (sin a) (cos a)

/-- `sign`, AmpGen/simd/avx2d_types.h:121, AmpGen/simd/avx2f_types.h:107, AmpGen/simd/arm128d_types.h:111. -/
def sign (a : RealV isa) : RealV isa := select (gt a (splat 0)) (splat 1) (splat (-1))

/-- `atan2( y, x )`, AmpGen/simd/avx2d_types.h:124-128, AmpGen/simd/avx2f_types.h:110-116, AmpGen/simd/arm128d_types.h:112-116. -/
def atan2 (y x : RealV isa) : RealV isa := lift2 (fun y x => some (Complex.arg ⟨x, y⟩)) y x

/-- `fmadd`, AmpGen/simd/avx2d_types.h:133-136, AmpGen/simd/avx2f_types.h:108; `vmlaq_f64( a, b, c )` of AmpGen/simd/arm128d_types.h:123-126 is `a + b * c`. -/
def fmadd (a b c : RealV isa) : RealV isa :=
  if isa = .arm128d then add a (mul b c) else add (mul a b) c

/-- `remainder`, AmpGen/simd/avx2d_types.h:137, AmpGen/simd/avx2f_types.h:109; with a conversion to unsigned integers in AmpGen/simd/arm128d_types.h:127. -/
def remainder (a b : RealV isa) : RealV isa :=
  if isa = .arm128d then sub a (mul b (lift1 (fun q => some ((⌊q⌋₊ : ℕ) : ℝ)) (div a b)))
  else sub a (mul (lift1 (fun q => some ((⌊q⌋ : ℤ) : ℝ)) (div a b)) b)

/-- `fmod`, AmpGen/simd/avx2d_types.h:138-142, AmpGen/simd/avx2f_types.h:127-131, AmpGen/simd/arm128d_types.h:128. -/
def fmod (a b : RealV isa) : RealV isa :=
  let r := remainder (abs a) (abs b)
  if isa = .arm128d then mul r (sign a) else select (gt a (splat 0)) r (neg r)

/-- Rounding to the nearest integer, and to the even one of two. -/
def roundEven (x : ℝ) : ℤ :=
  if x - ⌊x⌋ < 1 / 2 then ⌊x⌋ else if 1 / 2 < x - ⌊x⌋ then ⌊x⌋ + 1 else if ⌊x⌋ % 2 = 0 then ⌊x⌋ else ⌊x⌋ + 1

/-- Rounding towards zero. -/
def truncate (x : ℝ) : ℤ := if 0 ≤ x then ⌊x⌋ else ⌈x⌉

/-- `to_int`, AmpGen/simd/avx2d_types.h:53-59 (rounded down), AmpGen/simd/avx2f_types.h:52 (rounded to the nearest), AmpGen/simd/arm128d_types.h:47 (towards zero). -/
def toInt (a : RealV isa) : Fin isa.size → Option ℤ :=
  lift1 (fun x => some (if isa = .avx2d then ⌊x⌋ else if isa = .avx2f then roundEven x else truncate x)) a

/-- `gather( base, offsets )`, AmpGen/simd/avx2d_types.h:129-132, AmpGen/simd/avx2f_types.h:117-125, AmpGen/simd/arm128d_types.h:117-122; there is nothing before the base. -/
def gather (base : Nat → ℝ) (offsets : RealV isa) : RealV isa := fun i => (toInt offsets i).bind fun k => if 0 ≤ k then some (base k.toNat) else none

/-- `Complex<real_v>`, AmpGen/Complex.h:7-27. -/
structure ComplexV (isa : Isa) where
  re : RealV isa
  im : RealV isa

/-- `Complex( re )`, AmpGen/Complex.h:17: the imaginary part is not set. -/
def ComplexV.ofReal (a : RealV isa) : ComplexV isa := ⟨a, fun _ => none⟩

/-- `conj`, AmpGen/Complex.h:47. -/
def conj (a : ComplexV isa) : ComplexV isa := ⟨a.re, neg a.im⟩

/-- `norm`, AmpGen/Complex.h:46. -/
def norm (a : ComplexV isa) : RealV isa := add (mul a.re a.re) (mul a.im a.im)

/-- `abs`, AmpGen/Complex.h:45. -/
def cabs (a : ComplexV isa) : RealV isa := sqrt (norm a)

/-- Operators of a complex and a real number, AmpGen/Complex.h:50-53. -/
def addR (a : ComplexV isa) (b : RealV isa) : ComplexV isa := ⟨add a.re b, a.im⟩
/-- See `addR`. -/
def subR (a : ComplexV isa) (b : RealV isa) : ComplexV isa := ⟨sub a.re b, a.im⟩
/-- See `addR`. -/
def mulR (a : ComplexV isa) (b : RealV isa) : ComplexV isa := ⟨mul a.re b, mul a.im b⟩
/-- See `addR`. -/
def divR (a : ComplexV isa) (b : RealV isa) : ComplexV isa := ⟨div a.re b, div a.im b⟩

/-- Operators of a real and a complex number, AmpGen/Complex.h:54-57. -/
def Radd (a : RealV isa) (b : ComplexV isa) : ComplexV isa := ⟨add a b.re, b.im⟩
/-- See `Radd`. -/
def Rsub (a : RealV isa) (b : ComplexV isa) : ComplexV isa := ⟨sub a b.re, neg b.im⟩
/-- See `Radd`. -/
def Rmul (a : RealV isa) (b : ComplexV isa) : ComplexV isa := ⟨mul a b.re, mul a b.im⟩
/-- See `Radd`. -/
def Rdiv (a : RealV isa) (b : ComplexV isa) : ComplexV isa := divR ⟨mul a b.re, mul (neg a) b.im⟩ (add (mul b.re b.re) (mul b.im b.im))

/-- Operators of complex numbers, AmpGen/Complex.h:58-61. -/
def cadd (a b : ComplexV isa) : ComplexV isa := ⟨add a.re b.re, add a.im b.im⟩
/-- See `cadd`. -/
def csub (a b : ComplexV isa) : ComplexV isa := ⟨sub a.re b.re, sub a.im b.im⟩
/-- See `cadd`. -/
def cmul (a b : ComplexV isa) : ComplexV isa := ⟨sub (mul a.re b.re) (mul a.im b.im), add (mul a.re b.im) (mul a.im b.re)⟩
/-- See `cadd`. -/
def cdiv (a b : ComplexV isa) : ComplexV isa :=
  divR ⟨add (mul a.re b.re) (mul a.im b.im), add (mul (neg a.re) b.im) (mul a.im b.re)⟩ (add (mul b.re b.re) (mul b.im b.im))

/-- `exp`, AmpGen/Complex.h:67-70. -/
def cexp (a : ComplexV isa) : ComplexV isa := Rmul (exp a.re) ⟨cos a.im, sin a.im⟩

/-- `sqrt`, AmpGen/Complex.h:71-76. -/
def csqrt (a : ComplexV isa) : ComplexV isa :=
  let r := cabs a
  ⟨sqrt (mul (splat (1 / 2)) (add r a.re)), mul (sign a.im) (sqrt (mul (splat (1 / 2)) (sub r a.re)))⟩

/-- `log`, AmpGen/Complex.h:77-81. -/
def clog (a : ComplexV isa) : ComplexV isa := ⟨mul (splat (1 / 2)) (log (norm a)), atan2 a.im a.re⟩

/-- `select` of complex numbers, AmpGen/simd/avx2d_types.h:151, AmpGen/simd/avx2f_types.h:140, AmpGen/simd/arm128d_types.h:138. -/
def cselect (m : Mask isa) (a b : ComplexV isa) : ComplexV isa := ⟨select m a.re b.re, select m a.im b.im⟩

/-- A value in the generated code. -/
inductive VVal (isa : Isa)
  | real (a : RealV isa)
  | cplx (a : ComplexV isa)
  | mask (m : Mask isa)

/-- A unary function in the generated code, src/UnaryExpression.cpp:17-76, AmpGen/Expression.h:55-64; `none` if no function of that name takes a value of that
type. -/
def vun : Un → VVal isa → Option (VVal isa)
  | .log, .real a => some (.real (log a))
  | .log, .cplx a => some (.cplx (clog a))
  | .sqrt, .real a => some (.real (sqrt a))
  | .sqrt, .cplx a => some (.cplx (csqrt a))
  | .exp, .real a => some (.real (exp a))
  | .exp, .cplx a => some (.cplx (cexp a))
  | .sin, .real a => some (.real (sin a))
  | .cos, .real a => some (.real (cos a))
  | .tan, .real a => some (.real (tan a))
  | .norm, .cplx a => some (.real (norm a))
  | .real, .real a => some (.real a)
  | .real, .cplx a => some (.real a.re)
  | .imag, .cplx a => some (.real a.im)
  | .isqrt, .real a => some (.real (div (splat 1) (sqrt a)))
  | .isqrt, .cplx a => some (.cplx (Rdiv (splat 1) (csqrt a)))
  | .conj, .real a => if isa = .avx2f then none else some (.real a)
  | .conj, .cplx a => some (.cplx (conj a))
  | .abs, .real a => some (.real (abs a))
  | .abs, .cplx a => some (.real (cabs a))
  | _, _ => none

/-- A binary operator in the generated code, src/BinaryExpression.cpp:45-77. -/
def vbin : Bin → VVal isa → VVal isa → Option (VVal isa)
  | .sum, .real a, .real b => some (.real (add a b))
  | .sum, .real a, .cplx b => some (.cplx (Radd a b))
  | .sum, .cplx a, .real b => some (.cplx (addR a b))
  | .sum, .cplx a, .cplx b => some (.cplx (cadd a b))
  | .sub, .real a, .real b => some (.real (sub a b))
  | .sub, .real a, .cplx b => some (.cplx (Rsub a b))
  | .sub, .cplx a, .real b => some (.cplx (subR a b))
  | .sub, .cplx a, .cplx b => some (.cplx (csub a b))
  | .prod, .real a, .real b => some (.real (mul a b))
  | .prod, .real a, .cplx b => some (.cplx (Rmul a b))
  | .prod, .cplx a, .real b => some (.cplx (mulR a b))
  | .prod, .cplx a, .cplx b => some (.cplx (cmul a b))
  | .div, .real a, .real b => some (.real (div a b))
  | .div, .real a, .cplx b => some (.cplx (Rdiv a b))
  | .div, .cplx a, .real b => some (.cplx (divR a b))
  | .div, .cplx a, .cplx b => some (.cplx (cdiv a b))
  | .and, .mask a, .mask b => some (.mask (and a b))
  | .or, .mask a, .mask b => some (.mask (or a b))
  | .gt, .real a, .real b => some (.mask (gt a b))
  | .lt, .real a, .real b => some (.mask (lt a b))
  | .ge, .real a, .real b => some (.mask (ge a b))
  | .le, .real a, .real b => some (.mask (le a b))
  | .eq, .real a, .real b => some (.mask (eq a b))
  | .fmod, .real a, .real b => some (.real (fmod a b))
  | .atan2, .real a, .real b => some (.real (atan2 a b))
  | _, _, _ => none

/-- `select( c, a, b )`, src/Expression.cpp:218-223, AmpGen/simd/avx2d_types.h:119, 151-153: a real number is complex with imaginary part zero. -/
def vselect : VVal isa → VVal isa → VVal isa → Option (VVal isa)
  | .mask m, .real a, .real b => some (.real (select m a b))
  | .mask m, .real a, .cplx b => some (.cplx (cselect m ⟨a, splat 0⟩ b))
  | .mask m, .cplx a, .real b => some (.cplx (cselect m a ⟨b, splat 0⟩))
  | .mask m, .cplx a, .cplx b => some (.cplx (cselect m a b))
  | _, _, _ => none

open Classical in
/-- The value of the generated code.  Constants: src/Expression.cpp:56-70; complex parameters: :332-337. -/
def veval (env : String → Fin isa.size → ℝ) : Ex ℂ → Option (VVal isa)
  | .const v => some (if v.im = 0 then .real (splat v.re) else .cplx ⟨splat v.re, splat v.im⟩)
  | .param n => some (.real fun i => some (env n i))
  | .cparam re im => some (.cplx ⟨fun i => some (env re i), fun i => some (env im i)⟩)
  | .lambda n => some (.real fun i => some (env n i))
  | .func _ => none
  | .un f e => (veval env e).bind (vun f)
  | .bin op l r => (veval env l).bind fun a => (veval env r).bind fun b => vbin op a b
  | .ternary c a b => (veval env c).bind fun c => (veval env a).bind fun a => (veval env b).bind fun b => vselect c a b
  | .subtree _ e => veval env e

/-- What a function with a complex result writes, `return_type( expression )`, src/CompiledExpressionBase.cpp:97-101. -/
def result : VVal isa → Option (ComplexV isa)
  | .real a => some (.ofReal a)
  | .cplx a => some a
  | .mask _ => none

/-- An element of an array, src/Array.cpp:20-30. -/
def element (mem : Nat → ℝ) (address size : Nat) (a : RealV isa) : RealV isa :=
  gather (fun k => mem (address + k)) (select (and (ge a (splat 0)) (lt a (splat size))) a (splat 0))

/-- `Spline::eval`, src/Spline.cpp:63-83. -/
def spline (mem : Nat → ℝ) (address nKnots : Nat) (min max : ℝ) (x : RealV isa) : RealV isa :=
  let points : RealV isa → RealV isa := element mem address (2 * nKnots)
  let spacing : RealV isa := splat ((max - min) / ((nKnots : ℝ) - 1))
  let dx := fmod (sub x (splat min)) spacing
  let bin := div (sub x (splat min)) spacing
  let n : RealV isa := splat nKnots
  let one : RealV isa := splat 1
  select (and (gt x (splat min)) (lt x (splat max)))
    (add (add (add (points bin)
      (mul (sub (div (sub (points (add bin one)) (points bin)) spacing)
        (div (mul (add (points (add (add bin one) n)) (mul (splat 2) (points (add bin n)))) spacing) (splat 6))) dx))
      (div (mul (mul (points (add bin n)) dx) dx) (splat 2)))
      (div (mul (mul (mul dx dx) dx) (sub (points (add (add bin one) n)) (points (add bin n)))) (mul (splat 6) spacing)))
    (points (splat ((nKnots - 1 : Nat) : ℝ)))

/-- `utils::sum_elements`, AmpGen/simd/utils.h:79-89. -/
def sumElements (a : RealV isa) : Option ℝ := (List.finRange isa.size).foldl (fun acc i => acc.bind fun s => (a i).bind fun x => some (s + x)) (some 0)

/-- The loop of `integrateBlock`, src/Integrator.cpp:41-54, over the blocks of weights and of the two amplitudes. -/
def integrateLoop : List (RealV isa × ComplexV isa × ComplexV isa) → RealV isa × RealV isa → RealV isa × RealV isa
  | [], acc => acc
  | (w, b1, b2) :: rest, (re, im) =>
    let c := cmul b1 (conj b2)
    integrateLoop rest (fmadd w c.re re, fmadd w c.im im)

open Classical in
/-- One integral, src/Integrator.cpp:41-55. -/
def integral (blocks : List (RealV isa × ComplexV isa × ComplexV isa)) (norm : ℝ) : Option ℂ :=
  let acc := integrateLoop blocks (splat 0, splat 0)
  (sumElements acc.1).bind fun re => (sumElements acc.2).bind fun im => if norm = 0 then none else some (⟨re, im⟩ / (norm : ℂ))

end

end AmpGen.Simd
