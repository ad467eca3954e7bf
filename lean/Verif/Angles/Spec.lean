import Verif.Angles.Model
/-
The angle between two planes.
-/
namespace AmpGen.Angles

open AmpGen.Kinematics (Event P4 V3)

/-- The four momenta of an event as a function. -/
def four (evt : Event) (i j k w : Nat) : P4 := sum4 (pFromEvent evt i) (pFromEvent evt j) (pFromEvent evt k) (pFromEvent evt w)

/-- A massive momentum with positive energy. -/
def Massive (p : P4) : Prop := 0 < p.E ∧ 0 < p.Dot p

/-- The momentum of a particle in the rest frame of four particles. -/
noncomputable def atRest (evt : Event) (i j k w n : Nat) : V3 :=
  Vect (Boost (pFromEvent evt n) (negBoostVector (four evt i j k w)))

/-- Two vectors span a plane. -/
def Plane (p q : V3) : Prop := Cross p q ≠ ⟨0, 0, 0⟩

/-- `θ` is the angle from the plane of `a` and `b` to the plane of `c` and `d`, which meet in the line along `c + d = -(a + b)`: the angle of the turn around
the direction of `c + d` that takes the normal `a × b` to the normal `c × d`. -/
def Dihedral (a b c d : V3) (θ : ℝ) : Prop :=
  √(Dot (Cross a b) (Cross a b)) * √(Dot (Cross c d) (Cross c d)) * Real.cos θ = Dot (Cross a b) (Cross c d) ∧
  √(Dot (Cross a b) (Cross a b)) * √(Dot (Cross c d) (Cross c d)) * √(Dot (Add c d) (Add c d)) * Real.sin θ =
    Dot (Add c d) (Cross (Cross a b) (Cross c d))

/-- An event seen in a mirror: all momenta reversed. -/
def mirror (evt : Event) : Event := { evt with data := fun i => if i % 4 = 3 then evt.data i else -evt.data i }

end AmpGen.Angles
