import Verif.Transform.Model
import Mathlib.LinearAlgebra.Matrix.ConjTranspose
/-
Sequences that a program can build, and what a frame transformation is.
-/
namespace AmpGen.Transform
open Complex

/-- The sequences built by constructors and member functions; a sequence is joined only to sequences that are not empty. -/
inductive Built : TransformSequence → Prop
  | empty : Built .empty
  | single (t) : Built (.single t)
  | pair (t1 t2) : Built (.pair t1 t2)
  | push (s t) : Built s → Built (s.push_back t)
  | pushAll (s s') : Built s → Built s' → Built (s.push_all s')
  | join (s s') : Built s → Built s' → s.transforms ≠ [] → s'.transforms ≠ [] → Built (s.join s')
  | inverse (s) : Built s → Built s.inverse

/-- A transformation is proper if its axis has unit length and its argument is the cosine of an angle, or the Lorentz factor of a velocity. -/
def Proper (t : Transform) : Prop :=
  t.kx ^ 2 + t.ky ^ 2 + t.kz ^ 2 = 1 ∧ match t.type with
    | .rotate => -1 ≤ t.arg ∧ t.arg ≤ 1
    | .boost => 1 ≤ t.arg

/-- A four-vector: three components and the energy. -/
abbrev V4 := Fin 4 → ℂ

/-- The scalar product of two four-vectors. -/
def minkowski (p q : V4) : ℂ := p 3 * q 3 - p 0 * q 0 - p 1 * q 1 - p 2 * q 2

/-- The matrices `Gamma` in Dirac's representation: three for the components and one for the energy, src/DiracMatrices.cpp:14-18. -/
def gamma : Fin 4 → M4
  | 0 => !![0, 0, 0, 1; 0, 0, 1, 0; 0, -1, 0, 0; -1, 0, 0, 0]
  | 1 => !![0, 0, 0, -I; 0, 0, I, 0; 0, I, 0, 0; -I, 0, 0, 0]
  | 2 => !![0, 0, 1, 0; 0, 0, 0, -1; -1, 0, 0, 0; 0, 1, 0, 0]
  | 3 => !![1, 0, 0, 0; 0, 1, 0, 0; 0, 0, -1, 0; 0, 0, 0, -1]

/-- Dirac's operator of a four-vector. -/
noncomputable def slash (p : V4) : M4 := p 3 • gamma 3 - p 0 • gamma 0 - p 1 • gamma 1 - p 2 • gamma 2

/-- The operator of a four-vector on two-component spinors. -/
noncomputable def weyl (p : V4) : M2 := p 3 • (1 : M2) - p 0 • Sigma0 - p 1 • Sigma1 - p 2 • Sigma2

end AmpGen.Transform
