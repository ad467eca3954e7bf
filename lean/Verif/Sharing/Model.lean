import Verif.Strings.Model
/-
Model of copying, cloning and expanding decay chains, src/Particle.cpp:902-923.

A decay chain holds shared pointers to its daughters, AmpGen/Particle.h:311, so that the daughters are in a memory that copies have in common: copying a chain
(the implicit copy constructor) copies the pointers.

Simplifications: of a particle only the name and the daughters are kept.  The memory only grows.  Pointers to parents and the string kept in each particle, which
neither function changes, are not modelled.
-/
namespace AmpGen.Sharing
open AmpGen.Strings (Str)

/-- A particle, AmpGen/Particle.h:297,311: its name and the addresses of its daughters. -/
structure Cell where
  name : Str
  kids : List Nat
  deriving DecidableEq

/-- The memory in which daughters are kept, AmpGen/Particle.h:311. -/
abbrev Heap := List Cell

/-- The loop of `clone`, src/Particle.cpp:905,909-912, over the daughters: each is cloned and kept at a new address.  `none`: an invalid address, or not enough steps. -/
def cloneKids : Nat → Heap → List Nat → Option (Heap × List Nat)
  | 0, _, _ => none
  | _ + 1, h, [] => some (h, [])
  | n + 1, h, a :: as => do
    let d ← h[a]?
    let (h, ks) ← cloneKids n h d.kids
    let (h', ks') ← cloneKids n (h ++ [{ d with kids := ks }]) as
    pure (h', h.length :: ks')

/-- `clone`, src/Particle.cpp:902-907. -/
def clone (n : Nat) (h : Heap) (c : Cell) : Option (Heap × Cell) := do
  let (h, ks) ← cloneKids n h c.kids
  pure (h, { c with kids := ks })

/-- The loop of `expand`, src/Particle.cpp:916-921, over the daughters: the memory, the daughters, and whether it worked.  A daughter is changed at its address. -/
def expandKids (p : Cell) : Nat → Heap → List Nat → Option (Heap × List Nat × Bool)
  | 0, _, _ => none
  | _ + 1, h, [] => some (h, [], false)
  | n + 1, h, a :: as => do
    let d ← h[a]?
    if d.name = p.name ∧ d.kids = [] then pure (h ++ [p], h.length :: as, true)
    else
      let (h, ks, worked) ← expandKids p n h d.kids
      let h := h.set a { d with kids := ks }
      if worked then pure (h, a :: as, true)
      else
        let (h, as, worked) ← expandKids p n h as
        pure (h, a :: as, worked)

/-- `expand`, src/Particle.cpp:914-923. -/
def expand (n : Nat) (h : Heap) (c p : Cell) : Option (Heap × Cell × Bool) := do
  let (h, ks, worked) ← expandKids p n h c.kids
  pure (h, { c with kids := ks }, worked)

end AmpGen.Sharing
