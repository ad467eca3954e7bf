import Verif.Kinematics.Model
/-
Four-momenta of an event.
-/
namespace AmpGen.Kinematics

/-- The momentum of particle `i`. -/
def momentum (evt : Event) (i : Nat) : P4 := ⟨evt.data (4 * i), evt.data (4 * i + 1), evt.data (4 * i + 2), evt.data (4 * i + 3)⟩

/-- The sum of two momenta. -/
def P4.add (p q : P4) : P4 := ⟨p.x + q.x, p.y + q.y, p.z + q.z, p.E + q.E⟩

/-- The sum of the momenta of some particles. -/
noncomputable def total (evt : Event) : List Nat → P4
  | [] => ⟨0, 0, 0, 0⟩
  | i :: l => (momentum evt i).add (total evt l)

/-- The particles of an event: the number of complete four-momenta. -/
def particles (evt : Event) : Nat := evt.size / 4

/-- The scalar product of two vectors. -/
def V3.dot (p q : V3) : ℝ := p.x * q.x + p.y * q.y + p.z * q.z

/-- The vector product. -/
def V3.cross (p q : V3) : V3 := ⟨p.y * q.z - p.z * q.y, p.z * q.x - p.x * q.z, p.x * q.y - p.y * q.x⟩

/-- The momentum without the energy. -/
def P4.vect (p : P4) : V3 := ⟨p.x, p.y, p.z⟩

end AmpGen.Kinematics
