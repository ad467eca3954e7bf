import Verif.Recursive.Model
import Verif.PhaseSpace.Spec
/-
Specification of events of decays in several steps.
-/
namespace AmpGen.Recursive

open AmpGen.Kinematics (P4)

/-- The name of the first particle of a chain. -/
def Chain.name : Chain → String
  | .mk name _ => name

mutual
/-- The names of the particles of the chain that do not decay, from left to right. -/
def Chain.finals : Chain → List String
  | .mk name [] => [name]
  | .mk _ (d :: ds) => d.finals ++ finalsList ds
def finalsList : List Chain → List String
  | [] => []
  | d :: ds => d.finals ++ finalsList ds
end

mutual
/-- The names of all particles of the chain, each with the places of its final states, if those of the whole chain are at `places`. -/
def Chain.particles : Chain → List Nat → List (String × List Nat)
  | .mk name ds, places => (name, places) :: particlesList ds places
def particlesList : List Chain → List Nat → List (String × List Nat)
  | [], _ => []
  | d :: ds, places => d.particles (places.take d.finals.length) ++ particlesList ds (places.drop d.finals.length)
end

mutual
/-- Each decay of the chain is possible: the masses of its products sum to less than that of the decaying particle. -/
def Chain.Allowed (mass : String → ℝ) : Chain → Prop
  | .mk _ [] => True
  | .mk name (d :: ds) => PhaseSpace.Allowed (mass name) ((d :: ds).map fun c => mass c.name) ∧ d.Allowed mass ∧ AllowedList mass ds
def AllowedList (mass : String → ℝ) : List Chain → Prop
  | [] => True
  | d :: ds => d.Allowed mass ∧ AllowedList mass ds
end

mutual
/-- Each decay of the chain is to two particles. -/
def Chain.TwoBody : Chain → Prop
  | .mk _ [] => True
  | .mk _ (d :: ds) => ds.length = 1 ∧ d.TwoBody ∧ TwoBodyList ds
def TwoBodyList : List Chain → Prop
  | [] => True
  | d :: ds => d.TwoBody ∧ TwoBodyList ds
end

/-- The sum of momenta. -/
noncomputable def sum4 (l : List P4) : P4 :=
  ⟨(l.map P4.x).sum, (l.map P4.y).sum, (l.map P4.z).sum, (l.map P4.E).sum⟩

/-- The momentum of a particle of mass `m`. -/
def OnShell (m : ℝ) (p : P4) : Prop := p.E ^ 2 = p.x ^ 2 + p.y ^ 2 + p.z ^ 2 + m ^ 2 ∧ 0 ≤ p.E

end AmpGen.Recursive
