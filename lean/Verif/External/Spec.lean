import Verif.External.Model
/-
Specification side: which name a cell of the external buffer belongs to.
-/
namespace AmpGen.External

/-- `name` owns the cell `a` of the external buffer. -/
def Owns (R : Reg) (name : String) (a : Nat) : Prop :=
  ∃ e, R.find name = some e ∧ e.addr ≤ a ∧ a < e.addr + e.size

end AmpGen.External
