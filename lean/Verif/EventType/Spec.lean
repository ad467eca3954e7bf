import Verif.EventType.Model
import Verif.Kinematics.Spec
/-
What event types and lists of events should do.
-/
namespace AmpGen.EventType.Spec
open AmpGen.Strings AmpGen.Kinematics

/-- The names of the components of the momentum of a particle in the event format; the energy is left out on request. -/
def components (include_energy : Bool) : List (Str × Nat) :=
  (if include_energy then [("_E".toList, 3)] else []) ++ [("_Px".toList, 0), ("_Py".toList, 1), ("_Pz".toList, 2)]

/-- A permutation of the particles among those of the same name. -/
def KeepsNames (names : List Str) (σ : Equiv.Perm Nat) : Prop := (∀ i, names[σ i]? = names[i]?) ∧ ∀ i, names.length ≤ i → σ i = i

/-- No name is another name with digits behind it. -/
def NoDigitsBehind (names : List Str) : Prop := ∀ a ∈ names, ∀ b ∈ names, ∀ d : Str, d ≠ [] → (∀ c ∈ d, c.isDigit = true) → b ≠ a ++ d

/-- A particle with mass `m` and positive energy. -/
def OnShell (p : P4) (m : ℝ) : Prop := p.Dot p = m * m ∧ 0 ≤ m ∧ 0 < p.E

/-- An event with its particles ordered by their identifiers: the particle at `j` goes to `address j`, where its identifier belongs. -/
structure Ordered (ids actual : List Int) (e out : Event) (address : List Nat) : Prop where
  perm : address.Perm (List.range ids.length)
  identifier : ∀ j < ids.length, ids.getD (address.getD j 0) 0 = actual.getD j 0
  moved : ∀ j < ids.length, momentum out (address.getD j 0) = momentum e j
  others : ∀ k, ids.length ≤ k → momentum out k = momentum e k
  size : out.size = e.size

end AmpGen.EventType.Spec
