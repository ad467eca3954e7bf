import Verif.Amplitude.Model
import Mathlib.Data.Fintype.Perm
/-
What is stated about the amplitude of a decay chain.
-/
namespace AmpGen.Amplitude

mutual
/-- All the nodes of a chain that decay, from the top. -/
def Node.decays : Node → List Node
  | .mk _ _ [] => []
  | .mk name lineshape (d :: ds) => .mk name lineshape (d :: ds) :: (d.decays ++ decaysOf ds)
/-- The decaying nodes of several chains. -/
def decaysOf : List Node → List Node
  | [] => []
  | d :: ds => d.decays ++ decaysOf ds
end

/-- The factor a decaying node contributes: its lineshape, with `BW` read as `SBW` for
decays to three or more; a node with a single product has no Breit-Wigner or form factor. -/
noncomputable def factor (factory : String → Node → ℂ) (n : Node) : ℂ :=
  match n.daughters.length with
  | 0 => 1
  | 1 => if contains "BW".toList n.lineshape.toList ∨ contains "FormFactor".toList n.lineshape.toList then 1
      else factory n.lineshape n
  | 2 => factory n.lineshape n
  | _ => if n.lineshape = "BW" then factory "SBW" n else factory n.lineshape n

/-- The rearrangements of the final state that move only identical particles. -/
noncomputable def exchanges {n : Nat} (names : Fin n → String) : Finset (Equiv.Perm (Fin n)) :=
  Finset.univ.filter fun σ => ∀ i, names (σ i) = names i

/-- The momenta of the final state in the order given by a rearrangement. -/
def ordered {n : Nat} {P : Type} (momenta : Nat → P) (σ : Equiv.Perm (Fin n)) : List P :=
  List.ofFn fun i => momenta (σ i)

end AmpGen.Amplitude
