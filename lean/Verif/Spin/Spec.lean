import Verif.Spin.Model
/-
Which spins and projections can be added.
-/
namespace AmpGen.Spin

/-- The triangle rule. -/
def Triangle {K : Type} [Field K] [LinearOrder K] (a b c : K) : Prop := |a - b| ≤ c ∧ c ≤ a + b

end AmpGen.Spin
