import Verif.Cascade.FermionModel
import Verif.Cascade.Spec
/-
What the words in the properties of decay chains of fermions mean.
-/
namespace AmpGen.Cascade.Spec
open AmpGen.Vertex AmpGen.Vertex.Spec

/-- The fermions of a decay chain. -/
def fermions : FermionTree → List FermionTree
  | .leaf j x p s => [.leaf j x p s]
  | .one j x d => .one j x d :: fermions d
  | .first j x o f b => .first j x o f b :: fermions f
  | .second j x o b f => .second j x o b f :: fermions f

/-- The bosons of a decay chain. -/
def bosons : FermionTree → List (Tree ℂ)
  | .leaf _ _ _ _ => []
  | .one _ _ d => bosons d
  | .first _ _ _ f b => particles b ++ bosons f
  | .second _ _ _ b f => particles b ++ bosons f

/-- The momentum of a fermion: the sum of the momenta of the final state it decays to. -/
noncomputable def fermionMomentum : FermionTree → (Fin 4 → ℂ)
  | .leaf _ _ p _ => p
  | .one _ _ d => fermionMomentum d
  | .first _ _ _ f b => fun μ => fermionMomentum f μ + momentum b μ
  | .second _ _ _ b f => fun μ => momentum b μ + fermionMomentum f μ

/-- A spinor is a solution of the Dirac equation for mass `m` and momentum `P`, with the sign of antifermions, or of the equations of Rarita and Schwinger. -/
def IsSpinor (γ : Fin 4 → Matrix (Fin 4) (Fin 4) ℂ) (positive : Bool) (m : ℂ) (P : Fin 4 → ℂ) : Spinor → Prop
  | .half ψ => SpinHalf γ (if positive then 1 else -1) m P ψ
  | .threeHalf R => SpinThreeHalf γ (if positive then 1 else -1) m P R

/-- Twice the spin of a spinor. -/
def Spinor.twoSpin : Spinor → Nat
  | .half _ => 1
  | .threeHalf _ => 3

/-- A spinor in another frame of reference. -/
noncomputable def Spinor.moved (Λ S : Matrix (Fin 4) (Fin 4) ℂ) : Spinor → Spinor
  | .half ψ => .half (S.mulVec ψ)
  | .threeHalf R => .threeHalf (spinMove Λ S R)

/-- A decay chain in another frame. -/
noncomputable def FermionTree.moved (Λ S : Matrix (Fin 4) (Fin 4) ℂ) : FermionTree → FermionTree
  | .leaf j x p s => .leaf j x (Λ.mulVec p) (Spinor.moved Λ S s)
  | .one j x d => .one j x (FermionTree.moved Λ S d)
  | .first j x o f b => .first j x o (FermionTree.moved Λ S f) (Tree.moved Λ b)
  | .second j x o b f => .second j x o (Tree.moved Λ b) (FermionTree.moved Λ S f)

end AmpGen.Cascade.Spec
