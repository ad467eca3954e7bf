import Verif.Simd.Model
import Mathlib.Analysis.SpecialFunctions.Pow.Complex
/-
Specification for the vector types: what the code generated for ordinary numbers computes, in the language of types of C++ (`double`, `std::complex<double>`, `bool`)
and with the functions of mathematics.
-/
namespace AmpGen.Simd.Spec
open AmpGen.Expr AmpGen.Simd

noncomputable section

/-- A value in the code for ordinary numbers. -/
inductive Val
  | real (x : ℝ)
  | cplx (z : ℂ)
  | bool (b : Bool)

/-- A value as a complex number. -/
def Val.number : Val → Option ℂ
  | .real x => some x
  | .cplx z => some z
  | .bool _ => none

/-- Arithmetic: on real numbers if both are real, on complex numbers otherwise. -/
def arith (f : ℝ → ℝ → Option ℝ) (g : ℂ → ℂ → Option ℂ) : Val → Val → Option Val
  | .real x, .real y => (f x y).map .real
  | a, b => a.number.bind fun z => b.number.bind fun w => (g z w).map .cplx

/-- A comparison of real numbers. -/
def compare (f : ℝ → ℝ → Bool) : Val → Val → Option Val
  | .real x, .real y => some (.bool (f x y))
  | _, _ => none

/-- The number without its fractional part. -/
def trunc (x : ℝ) : ℤ := if 0 ≤ x then ⌊x⌋ else ⌈x⌉

open Classical in
/-- Unary functions; functions that the vector types do not have are left out. -/
def unary : Un → Val → Option Val
  | .log, .real x => if 0 < x then some (.real (Real.log x)) else none
  | .log, .cplx z => if z = 0 then none else some (.cplx (Complex.log z))
  | .sqrt, .real x => if 0 ≤ x then some (.real √x) else none
  | .sqrt, .cplx z => some (.cplx (z ^ (1 / 2 : ℂ)))
  | .exp, .real x => some (.real (Real.exp x))
  | .exp, .cplx z => some (.cplx (Complex.exp z))
  | .sin, .real x => some (.real (Real.sin x))
  | .cos, .real x => some (.real (Real.cos x))
  | .tan, .real x => if Real.cos x = 0 then none else some (.real (Real.tan x))
  | .norm, .cplx z => some (.real (‖z‖ ^ 2))
  | .real, .real x => some (.real x)
  | .real, .cplx z => some (.real z.re)
  | .imag, .cplx z => some (.real z.im)
  | .isqrt, .real x => if 0 < x then some (.real (1 / √x)) else none
  | .isqrt, .cplx z => if z = 0 then none else some (.cplx (1 / z ^ (1 / 2 : ℂ)))
  | .conj, .real x => some (.real x)
  | .conj, .cplx z => some (.cplx (starRingEnd ℂ z))
  | .abs, .real x => some (.real |x|)
  | .abs, .cplx z => some (.real ‖z‖)
  | _, _ => none

open Classical in
/-- Binary functions; `fmod( a, b )` is `a` minus the largest multiple of `b` towards `a`, `atan2( y, x )` the angle of the point `( x, y )`. -/
def binary : Bin → Val → Val → Option Val
  | .sum, a, b => arith (fun x y => some (x + y)) (fun z w => some (z + w)) a b
  | .sub, a, b => arith (fun x y => some (x - y)) (fun z w => some (z - w)) a b
  | .prod, a, b => arith (fun x y => some (x * y)) (fun z w => some (z * w)) a b
  | .div, a, b => arith (fun x y => if y = 0 then none else some (x / y)) (fun z w => if w = 0 then none else some (z / w)) a b
  | .and, .bool a, .bool b => some (.bool (a && b))
  | .or, .bool a, .bool b => some (.bool (a || b))
  | .gt, a, b => compare (fun x y => decide (x > y)) a b
  | .lt, a, b => compare (fun x y => decide (x < y)) a b
  | .ge, a, b => compare (fun x y => decide (x ≥ y)) a b
  | .le, a, b => compare (fun x y => decide (x ≤ y)) a b
  | .eq, a, b => compare (fun x y => decide (x = y)) a b
  | .fmod, .real x, .real y => if y = 0 then none else some (.real (x - trunc (x / y) * y))
  | .atan2, .real y, .real x => some (.real (Complex.arg ⟨x, y⟩))
  | _, _, _ => none

open Classical in
/-- Whether an expression is of the complex type. -/
def isComplex : Ex ℂ → Bool
  | .const v => decide (v.im ≠ 0)
  | .cparam _ _ => true
  | .un f e => (f = .log ∨ f = .sqrt ∨ f = .exp ∨ f = .isqrt ∨ f = .conj) && isComplex e
  | .bin op a b => (op = .sum ∨ op = .sub ∨ op = .prod ∨ op = .div) && (isComplex a || isComplex b)
  | .ternary _ a b => isComplex a || isComplex b
  | .subtree _ e => isComplex e
  | _ => false

open Classical in
/-- The value of an expression in the code for ordinary numbers; both branches of a choice are converted to complex numbers if one is complex. -/
def value (env : String → ℝ) : Ex ℂ → Option Val
  | .const v => some (if v.im = 0 then .real v.re else .cplx v)
  | .param n => some (.real (env n))
  | .cparam re im => some (.cplx ⟨env re, env im⟩)
  | .lambda n => some (.real (env n))
  | .func _ => none
  | .un f e => (value env e).bind (unary f)
  | .bin op a b => (value env a).bind fun x => (value env b).bind fun y => binary op x y
  | .ternary c a b =>
    (value env c).bind fun t => match t with
      | .bool t => (if t then value env a else value env b).bind fun x =>
        if isComplex a || isComplex b then x.number.map .cplx else some x
      | _ => none
  | .subtree _ e => value env e

/-- `Within a e`: the expression `a` occurs in `e`. -/
inductive Within : Ex ℂ → Ex ℂ → Prop
  | refl (e) : Within e e
  | un {a f e} : Within a e → Within a (.un f e)
  | left {a op l r} : Within a l → Within a (.bin op l r)
  | right {a op l r} : Within a r → Within a (.bin op l r)
  | cond {a c x y} : Within a c → Within a (.ternary c x y)
  | yes {a c x y} : Within a x → Within a (.ternary c x y)
  | no {a c x y} : Within a y → Within a (.ternary c x y)
  | subtree {a k e} : Within a e → Within a (.subtree k e)

/-- No root of a complex number is taken at a negative real number. -/
def OffCut (env : String → ℝ) (e : Ex ℂ) : Prop :=
  ∀ f a z, (f = .sqrt ∨ f = .isqrt) → Within (.un f a) e → value env a = some (.cplx z) → ¬ (z.im = 0 ∧ z.re < 0)

/-- The expression compares with `>=`. -/
def UsesGe (e : Ex ℂ) : Prop := ∃ a b, Within (.bin .ge a b) e

/-- The value in a lane of a vector. -/
def lane {isa : Isa} (i : Fin isa.size) : VVal isa → Option Val
  | .real a => (a i).map .real
  | .cplx a => (a.re i).bind fun x => (a.im i).map fun y => .cplx ⟨x, y⟩
  | .mask m => (m i).map .bool

/-- The element of an array of `size` numbers with the number `a`, and the first element if there is none. -/
def elementAt (mem : Nat → ℝ) (address size : Nat) (a : ℝ) : ℝ := mem (address + if 0 ≤ a ∧ a < size then ⌊a⌋₊ else 0)

/-- The sum over events of weight, amplitude and conjugate amplitude, divided by the norm. -/
def integral {isa : Isa} (blocks : List ((Fin isa.size → ℝ) × (Fin isa.size → ℂ) × (Fin isa.size → ℂ))) (norm : ℝ) : ℂ :=
  (blocks.map fun b => ∑ i, (b.1 i : ℂ) * b.2.1 i * starRingEnd ℂ (b.2.2 i)).sum / norm

end

end AmpGen.Simd.Spec
