import Verif.SpinAverage.Model
import Mathlib.Data.Fintype.BigOperators
import Mathlib.Data.Fin.VecNotation
/-
What the words in the property mean: tensors of rank `r` are functions of `r` indices of four values, the last of which is time.
-/
namespace AmpGen.SpinAverage.Spec

open AmpGen.Tensor (Tensor)
open AmpGen.Strings (Str)

noncomputable section

/-- The metric. -/
def g (μ : Fin 4) : ℝ := if μ = 3 then 1 else -1

/-- The full contraction of a tensor with its complex conjugate. -/
def square {r : Nat} (A : (Fin r → Fin 4) → ℂ) : ℝ := ∑ c, (∏ i, g (c i)) * Complex.normSq (A c)

/-- The contraction of any index with the momentum vanishes. -/
def Transverse {r : Nat} (P : Fin 4 → ℝ) (A : (Fin r → Fin 4) → ℂ) : Prop :=
  ∀ (i : Fin r) (c : Fin r → Fin 4), ∑ μ, ((g μ * P μ : ℝ) : ℂ) * A (Function.update c i μ) = 0

/-- The momentum of a massive particle. -/
def Timelike (P : Fin 4 → ℝ) : Prop := P 0 ^ 2 + P 1 ^ 2 + P 2 ^ 2 < P 3 ^ 2

/-- A tensor seen from another frame: every index is transformed. -/
def transform {r : Nat} (L : Fin 4 → Fin 4 → ℝ) (A : (Fin r → Fin 4) → ℂ) : (Fin r → Fin 4) → ℂ :=
  fun c => ∑ d, ((∏ i, L (c i) (d i) : ℝ) : ℂ) * A d

/-- A Lorentz transformation preserves the metric. -/
def Lorentz (L : Fin 4 → Fin 4 → ℝ) : Prop := ∀ ν ρ, ∑ μ, g μ * L μ ν * L μ ρ = if ν = ρ then g ν else 0

/-- The dimensions of the spin tensor of a particle of spin `J`: a single number, or `J` indices. -/
def shape (J : Nat) : List Nat := if J = 0 then [1] else List.replicate J 4

/-- A component of a tensor with these dimensions. -/
def component (poison : ℂ) {J : Nat} (t : Tensor ℂ) (c : Fin J → Fin 4) : ℂ :=
  if J = 0 then t.at poison [0] else t.at poison (List.ofFn fun i => (c i : Nat))

/-- The lineshape of the head of a chain: a Gaussian form factor if the chain had one, the usual one otherwise. -/
def formFactor (l : Str) : Str := if "EFF".toList <:+: l ∨ "ExpFF".toList <:+: l then "ExpFF".toList else "FormFactor".toList

/-- The current of one chain: the sum over orderings of coupling, propagators and spin tensor. -/
def current (poison : ℂ) {J : Nat} (c : Chain) (idx : Fin J → Fin 4) : ℂ :=
  (c.orderings.map fun p => c.coupling * c.propagator (formFactor c.lineshape) p * component poison (c.spinTensor p) idx).sum

/-- The current of all chains. -/
def total (poison : ℂ) {J : Nat} (chains : List Chain) (idx : Fin J → Fin 4) : ℂ := (chains.map fun c => current poison c idx).sum

end

end AmpGen.SpinAverage.Spec
