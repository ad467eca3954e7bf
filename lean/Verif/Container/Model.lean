/-
Model of AmpGen/DynamicContainer.h.

The generator is any function of a state, which gives the contents of the buffer and the next state.  `none` stands for undefined behaviour (remainder of a
division by zero).
-/
namespace AmpGen.Container

/-- A container: buffer, total size, and the state of the generator, AmpGen/DynamicContainer.h:50-52. -/
structure Container (σ α : Type) where
  buffer : List α
  totalSize : Nat
  state : σ

/-- `refresh`, AmpGen/DynamicContainer.h:64-68. -/
def Container.refresh {σ α : Type} (gen : σ → List α × σ) (c : Container σ α) : Container σ α :=
  { c with buffer := (gen c.state).1, state := (gen c.state).2 }

/-- The constructor, AmpGen/DynamicContainer.h:54-58. -/
def Container.make {σ α : Type} (gen : σ → List α × σ) (totalSize : Nat) (s : σ) : Container σ α := (⟨[], totalSize, s⟩ : Container σ α).refresh gen

/-- `operator[]`, AmpGen/DynamicContainer.h:62-63. -/
def Container.get {σ α : Type} (c : Container σ α) (pos : Nat) : Option α := if c.buffer.length = 0 then none else c.buffer[pos % c.buffer.length]?

/-- `Iterator& operator++()`, AmpGen/DynamicContainer.h:38-45. -/
def Container.next {σ α : Type} (gen : σ → List α × σ) (c : Container σ α) (pos : Nat) : Option (Container σ α × Nat) :=
  let pos := pos + 1
  if c.buffer.length = 0 then none
  else if pos % c.buffer.length = 0 then
    if c.totalSize = 0 then none
    else if pos % c.totalSize ≠ 0 then some (c.refresh gen, pos) else some (c, pos)
  else some (c, pos)

/-- `Iterator operator++() const`, AmpGen/DynamicContainer.h:31-37: the `%` is applied to 1 and the size, and the sum is compared with zero. -/
def Container.constNext {σ α : Type} (gen : σ → List α × σ) (c : Container σ α) (pos : Nat) : Option (Container σ α × Nat) :=
  if c.buffer.length = 0 then none
  else if pos + 1 % c.buffer.length = 0 ∧ pos + 1 ≠ c.totalSize then some (c.refresh gen, pos + 1) else some (c, pos + 1)

/-- A loop `for( it = begin(); it != end(); ++it )`: the elements visited and the container afterwards, with `n` passes left. -/
def Container.loop {σ α : Type} (step : Container σ α → Nat → Option (Container σ α × Nat)) : Nat → Container σ α → Nat → Option (List α × Container σ α)
  | 0, c, _ => some ([], c)
  | n + 1, c, pos => do
    let x ← c.get pos
    let (c, pos) ← step c pos
    let (xs, c) ← Container.loop step n c pos
    some (x :: xs, c)

/-- The loop over a container, `for( auto& x : container )`. -/
def Container.visit {σ α : Type} (gen : σ → List α × σ) (c : Container σ α) : Option (List α × Container σ α) :=
  Container.loop (Container.next gen) c.totalSize c 0

end AmpGen.Container
