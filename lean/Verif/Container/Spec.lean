import Verif.Container.Model
/-
The elements that a generator makes.
-/
namespace AmpGen.Container

/-- The state of the generator after `n` blocks. -/
def after {σ α : Type} (gen : σ → List α × σ) : Nat → σ → σ
  | 0, s => s
  | n + 1, s => after gen n (gen s).2

/-- The first `n` blocks, one after the other. -/
def blocks {σ α : Type} (gen : σ → List α × σ) : Nat → σ → List α
  | 0, _ => []
  | n + 1, s => (gen s).1 ++ blocks gen n (gen s).2

end AmpGen.Container
