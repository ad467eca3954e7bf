import Mathlib.Analysis.Real.Sqrt
import Mathlib.Data.Complex.Basic
import Mathlib.LinearAlgebra.Matrix.Notation
/-
Model of src/Transform.cpp and AmpGen/Transform.h.

Simplifications: expressions are complex numbers, tensors of rank two are matrices with two or four rows; the argument and the axis of a transformation are
real.  `none` stands for a product of matrices of different sizes, which the code does not define.
-/
namespace AmpGen.Transform
open Complex

/-- Two by two and four by four matrices. -/
abbrev M2 := Matrix (Fin 2) (Fin 2) ℂ
abbrev M4 := Matrix (Fin 4) (Fin 4) ℂ

/-- `Transform::Type`, AmpGen/Transform.h:20. -/
inductive Kind | boost | rotate

/-- `Transform::Representation`, AmpGen/Transform.h:21. -/
inductive Repr | spinor | bispinor | vector

/-- `Transform`, AmpGen/Transform.h:36-38. -/
structure Transform where
  arg : ℝ
  kx : ℝ
  ky : ℝ
  kz : ℝ
  type : Kind

/-- `Transform::inverse`, src/Transform.cpp:11-14. -/
def Transform.inverse (t : Transform) : Transform := ⟨t.arg, -t.kx, -t.ky, -t.kz, t.type⟩

/-- `Sigma`, src/DiracMatrices.cpp:21-24. -/
def Sigma0 : M2 := !![0, 1; 1, 0]
def Sigma1 : M2 := !![0, -I; I, 0]
def Sigma2 : M2 := !![1, 0; 0, -1]

/-- `Transform::sigma_dot_p`, src/Transform.cpp:24-27. -/
noncomputable def sigma_dot_p (t : Transform) : M2 := (t.kx : ℂ) • Sigma0 + (t.ky : ℂ) • Sigma1 + (t.kz : ℂ) • Sigma2

/-- `Transform::J_dot_p`, src/Transform.cpp:29-36. -/
noncomputable def J_dot_p (t : Transform) : M4 := !![0, -t.kz, t.ky, 0; t.kz, 0, -t.kx, 0; -t.ky, t.kx, 0, 0; 0, 0, 0, 0]

/-- `Transform::K_dot_p`, src/Transform.cpp:38-46. -/
noncomputable def K_dot_p (t : Transform) : M4 := !![0, 0, 0, t.kx; 0, 0, 0, t.ky; 0, 0, 0, t.kz; t.kx, t.ky, t.kz, 0]

/-- `Transform::make_bispinor_operator`, src/Transform.cpp:48-55. -/
def make_bispinor_operator (A B C D : M2) : M4 :=
  !![A 0 0, A 0 1, B 0 0, B 0 1; A 1 0, A 1 1, B 1 0, B 1 1; C 0 0, C 0 1, D 0 0, D 0 1; C 1 0, C 1 1, D 1 0, D 1 1]

/-- `Transform::rotate_spinor`, src/Transform.cpp:57-61. -/
noncomputable def rotate_spinor (t : Transform) : M2 := ((√(0.5 * (1 + t.arg)) : ℝ) : ℂ) • (1 : M2) - (I * (√(0.5 * (1 - t.arg)) : ℝ)) • sigma_dot_p t

/-- `Transform::boost_spinor`, src/Transform.cpp:62-65. -/
noncomputable def boost_spinor (t : Transform) : M2 := ((√(0.5 * (t.arg + 1)) : ℝ) : ℂ) • (1 : M2) + ((√(0.5 * (t.arg - 1)) : ℝ) : ℂ) • sigma_dot_p t

/-- A tensor of rank two. -/
inductive Tensor
  | two (m : M2)
  | four (m : M4)

/-- The product of two tensors, `a(i,j) * b(j,k)`. -/
noncomputable def Tensor.mul : Tensor → Tensor → Option Tensor
  | .two a, .two b => some (.two (a * b))
  | .four a, .four b => some (.four (a * b))
  | _, _ => none

/-- `Transform::operator()( repr )`, src/Transform.cpp:67-97. -/
noncomputable def Transform.matrix (t : Transform) (repr : Repr) : Tensor :=
  match t.type, repr with
  | .rotate, .spinor => .two (rotate_spinor t)
  | .boost, .spinor => .two (boost_spinor t)
  | .rotate, .bispinor => .four (make_bispinor_operator (rotate_spinor t) 0 0 (rotate_spinor t))
  | .boost, .bispinor =>
    let t1 : M2 := ((√(0.5 * (t.arg + 1)) : ℝ) : ℂ) • (1 : M2)
    let t2 := -((√(0.5 * (t.arg - 1)) : ℝ) : ℂ) • sigma_dot_p t
    .four (make_bispinor_operator t1 t2 t2 t1)
  | .rotate, .vector => .four (1 + ((√(1 - t.arg * t.arg) : ℝ) : ℂ) • J_dot_p t + ((1 - t.arg : ℝ) : ℂ) • (J_dot_p t * J_dot_p t))
  | .boost, .vector => .four (1 - ((√(t.arg * t.arg - 1) : ℝ) : ℂ) • K_dot_p t + ((t.arg - 1 : ℝ) : ℂ) • (K_dot_p t * K_dot_p t))

/-- `TransformSequence`, AmpGen/Transform.h:68-69. -/
structure TransformSequence where
  transforms : List Transform
  cache : Repr → Option Tensor

/-- `TransformSequence::buildCache`, src/Transform.cpp:112-133: for the empty sequence the second assignment is always made. -/
noncomputable def buildCache (ts : List Transform) (repr : Repr) : Option Tensor :=
  match ts with
  | [] => some (.four 1)
  | t :: ts => ts.foldl (fun (rt : Option Tensor) (ti : Transform) => rt.bind fun r => (ti.matrix repr).mul r) (some (t.matrix repr))

/-- The default constructor, src/Transform.cpp:211-214, and `clear`, :163-167. -/
noncomputable def TransformSequence.empty : TransformSequence := ⟨[], buildCache []⟩

/-- The constructor from one transform, src/Transform.cpp:181-183. -/
noncomputable def TransformSequence.single (t : Transform) : TransformSequence := ⟨[t], buildCache [t]⟩

/-- The constructor from two sequences, src/Transform.cpp:185-197. -/
noncomputable def TransformSequence.join (t1 t2 : TransformSequence) : TransformSequence :=
  ⟨t1.transforms ++ t2.transforms, fun repr => (t2.cache repr).bind fun r2 => (t1.cache repr).bind fun r1 => r2.mul r1⟩

/-- The constructor from two transforms, src/Transform.cpp:199-209. -/
noncomputable def TransformSequence.pair (t1 t2 : Transform) : TransformSequence := ⟨[t1, t2], fun repr => (t2.matrix repr).mul (t1.matrix repr)⟩

/-- `push_back( transform )`, src/Transform.cpp:151-155. -/
noncomputable def TransformSequence.push_back (s : TransformSequence) (t : Transform) : TransformSequence := ⟨s.transforms ++ [t], buildCache (s.transforms ++ [t])⟩

/-- `push_back( sequence )`, src/Transform.cpp:157-161. -/
noncomputable def TransformSequence.push_all (s s' : TransformSequence) : TransformSequence :=
  ⟨s.transforms ++ s'.transforms, buildCache (s.transforms ++ s'.transforms)⟩

/-- `TransformSequence::inverse`, src/Transform.cpp:99-105. -/
noncomputable def TransformSequence.inverse (s : TransformSequence) : TransformSequence :=
  s.transforms.reverse.foldl (fun (rt : TransformSequence) (t : Transform) => rt.push_back t.inverse) .empty

/-- `operator()( repr )`, src/Transform.cpp:107-110. -/
noncomputable def TransformSequence.matrix (s : TransformSequence) (repr : Repr) : Option Tensor := s.cache repr

end AmpGen.Transform
