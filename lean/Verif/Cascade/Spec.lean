import Verif.Vertex.Spec
import Verif.Cascade.Model
/-
What the words in the properties of decay chains mean.  A decay chain is the tree of its particles; nothing here refers to how the spin tensor is computed.
-/
namespace AmpGen.Cascade.Spec
open AmpGen.Vertex AmpGen.Vertex.Spec

section
variable {K : Type} [Field K]

/-- The particles of a decay chain. -/
def particles : Tree K → List (Tree K)
  | .leaf j x p s => [.leaf j x p s]
  | .one j x d => .one j x d :: particles d
  | .two j x o a b => .two j x o a b :: (particles a ++ particles b)
  | .three j x a b c => .three j x a b c :: (particles a ++ particles b ++ particles c)
  | .more j x p => [.more j x p]

/-- The momentum of a particle: the sum of the momenta of the final state it decays to. -/
def momentum : Tree K → (Fin 4 → K)
  | .leaf _ _ p _ => p
  | .one _ _ d => momentum d
  | .two _ _ _ a b => fun μ => momentum a μ + momentum b μ
  | .three _ _ a b c => fun μ => momentum a μ + momentum b μ + momentum c μ
  | .more _ _ p => p

/-- A spin tensor is a state of its spin for a particle of momentum `P`: a vector has no component along the momentum, and a tensor has none either, is symmetric and has
no trace. -/
def IsState (P : Fin 4 → K) : State K → Prop
  | .scalar _ => True
  | .vector v => SpinOne P v
  | .tensor t => SpinTwo P t

/-- Twice the spin which a spin tensor describes. -/
def State.twoSpin : State K → Nat
  | .scalar _ => 0
  | .vector _ => 2
  | .tensor _ => 4

/-- A spin tensor in another frame of reference. -/
def State.moved (Λ : Matrix (Fin 4) (Fin 4) K) : State K → State K
  | .scalar s => .scalar s
  | .vector v => .vector (Λ.mulVec v)
  | .tensor t => .tensor (move Λ t)

/-- A multiple of a spin tensor. -/
def State.times (c : K) : State K → State K
  | .scalar s => .scalar (c * s)
  | .vector v => .vector (fun μ => c * v μ)
  | .tensor t => .tensor (fun μ ν => c * t μ ν)

/-- A decay chain in another frame: the momenta and the spin tensors of the final state change. -/
def Tree.moved (Λ : Matrix (Fin 4) (Fin 4) K) : Tree K → Tree K
  | .leaf j x p s => .leaf j x (Λ.mulVec p) (State.moved Λ s)
  | .one j x d => .one j x (Tree.moved Λ d)
  | .two j x o a b => .two j x o (Tree.moved Λ a) (Tree.moved Λ b)
  | .three j x a b c => .three j x (Tree.moved Λ a) (Tree.moved Λ b) (Tree.moved Λ c)
  | .more j x p => .more j x (Λ.mulVec p)

/-- The orbital angular momentum of a decay: S, P, D for 0, 1, 2. -/
def orbitalNumber (orbital : String) : Nat :=
  match orbital.toList with
  | 'P' :: _ => 1
  | 'D' :: _ => 2
  | _ => 0

/-- How often a decay chain changes sign under a reflection.  A decay does so if the spins and the orbital angular momentum have an odd sum; the decay of a vector to three
products, whose state is the product of the three momenta with the antisymmetric tensor, does so once. -/
def reflections : Tree K → Nat
  | .leaf _ _ _ _ => 0
  | .one _ _ d => reflections d
  | .two j _ o a b => (j / 2 + a.twoSpin / 2 + b.twoSpin / 2 + orbitalNumber o) + reflections a + reflections b
  | .three j _ _ _ _ => if j / 2 = 1 then 1 else 0
  | .more _ _ _ => 0

end

end AmpGen.Cascade.Spec
