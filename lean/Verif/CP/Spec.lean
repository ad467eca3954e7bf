import Verif.CP.Model
import Verif.Particle.Spec
import Mathlib.Algebra.Ring.NegOnePow
/-
Specification for CP conjugation and for the comparison of decay chains.
-/
namespace AmpGen.CP.Spec
open AmpGen.Strings AmpGen.PDG AmpGen.Particle AmpGen.CP

variable {K : Type} [Field K] [LinearOrder K]

/-- The tree decays only to two particles or one, and the product of (−1)^(J − L − s₁ − s₂) over all decays to two particles is the number; spins are given as their doubles. -/
inductive VertexPhases : Particle.Tree K → Int → Prop
  | stable (d : Data K) : VertexPhases (.node d []) 1
  | through (d : Data K) (t : Particle.Tree K) (x : Int) : VertexPhases t x → VertexPhases (.node d [t]) x
  | decay (d : Data K) (a b : Particle.Tree K) (x y m : Int) : VertexPhases a x → VertexPhases b y →
      2 * m = d.props.twoSpin - 2 * (d.orbital : Int) - a.data.props.twoSpin - b.data.props.twoSpin → VertexPhases (.node d [a, b]) ((m.negOnePow : ℤ) * x * y)

/-- The number is the product of the C-parities of all particles below the head that have one; a decay to one particle counts for nothing. -/
inductive CParities : Particle.Tree K → Int → Prop
  | through (d : Data K) (t : Particle.Tree K) (x : Int) : CParities t x → CParities (.node d [t]) x
  | node (d : Data K) (ds : List (Particle.Tree K)) (xs : List Int) : ds.length ≠ 1 → ds.length = xs.length →
      (∀ (i : Nat) (t : Particle.Tree K) (x : Int), ds[i]? = some t → xs[i]? = some x → CParities t x) →
      CParities (.node d ds) (((ds.map fun t => t.data.props.cparity).filter fun c => decide (c ≠ 0)).prod * xs.prod)

/-- The particle list gives particles and antiparticles the same spin and C-parity. -/
def SameNumbers (env : Env K) (t : Particle.Tree K) : Prop :=
  ∀ d q, Particle.Spec.Has t d → env.antiProps d.props = some q → q.twoSpin = d.props.twoSpin ∧ q.cparity = d.props.cparity

/-- The coupling of a process in the coordinates of the option: real and imaginary part, or modulus and phase with a unit of angles. -/
noncomputable def coupling (coords : Str) (sf re im : ℝ) : ℂ :=
  if coords = "polar".toList then (re : ℂ) * Complex.exp (Complex.I * (sf * im)) else (re : ℂ) + Complex.I * im

/-- The chains `a` and `b` stand at the same place of two decay chains, below particles with the same names and numbers of decay products. -/
inductive Place : Chain → Chain → Chain → Chain → Prop
  | here (t u : Chain) : Place t u t u
  | inside (n : Str) (L L' : Nat) (p p' : Int) (ds ds' : List Chain) (i : Nat) (d d' a b : Chain) : ds.length = ds'.length → ds[i]? = some d → ds'[i]? = some d' →
      Place d d' a b → Place (.node n L p ds) (.node n L' p' ds') a b

/-- The parts of a decay chain. -/
def name : Chain → Str | .node n _ _ _ => n
def orbital : Chain → Nat | .node _ L _ _ => L
def polarisation : Chain → Int | .node _ _ p _ => p
def products : Chain → List Chain | .node _ _ _ ds => ds

/-- Somewhere the chains have different particles, or decays to different numbers of particles. -/
def DifferentParticles (t u : Chain) : Prop :=
  ∃ a b, Place t u a b ∧ (name a ≠ name b ∨ (products a ≠ [] ∧ products b ≠ [] ∧ (products a).length ≠ (products b).length))

/-- Somewhere a particle decays in one of the chains and not in the other. -/
def Expanded (t u : Chain) : Prop := ∃ a b, Place t u a b ∧ name a = name b ∧ ((products a = [] ∧ products b ≠ []) ∨ (products a ≠ [] ∧ products b = []))

/-- Somewhere the same decay has different orbital angular momenta. -/
def DifferentOrbital (t u : Chain) : Prop := ∃ a b, Place t u a b ∧ name a = name b ∧ (products a).length = (products b).length ∧ orbital a ≠ orbital b

/-- Somewhere the same particle has different polarisations. -/
def DifferentPolarisation (t u : Chain) : Prop := ∃ a b, Place t u a b ∧ name a = name b ∧ (products a).length = (products b).length ∧ polarisation a ≠ polarisation b

end AmpGen.CP.Spec
