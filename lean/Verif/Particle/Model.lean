import Verif.PDG.Model
import Verif.Spin.Model
import Mathlib.Data.List.Sort
import Mathlib.Order.Defs.LinearOrder
/-
Model of decay trees and their descriptors, src/Particle.cpp, and of the splitting of descriptors, src/Utilities.cpp.

Simplifications: pointers to daughters are trees of values; whether a particle has a parent is an argument where it matters; the polarisation state and messages are left out. The factory of lineshapes is a
predicate on names. Characters are those of ASCII. Twice the spin is a natural number where orbital angular momenta are computed. A failed access (a null pointer, an element out of range) is `none`.
-/
namespace AmpGen.Particle
open AmpGen.Strings AmpGen.PDG

/-! ### Splitting -/

/-- The positions of the brackets, `vecFindAll`, src/Utilities.cpp:97-105, for two characters; true for the opening one. `p` is the position of the first character. -/
def bracesFrom (o c : Char) : Str → Nat → List (Nat × Bool)
  | [], _ => []
  | x :: xs, p => if x = o then (p, true) :: bracesFrom o c xs (p + 1) else if x = c then (p, false) :: bracesFrom o c xs (p + 1) else bracesFrom o c xs (p + 1)

/-- The position where the bracket is closed, src/Utilities.cpp:153-162: `diff` brackets are open. -/
def closing (diff : Int) : List (Nat × Bool) → Option Nat
  | [] => none
  | (p, b) :: rest => if diff + (if b then 1 else -1) = 0 then some p else closing (diff + (if b then 1 else -1)) rest

/-- The pairs of matching brackets, src/Utilities.cpp:149-163. -/
def matched : List (Nat × Bool) → List (Nat × Nat)
  | [] => []
  | (p, true) :: rest => match closing 1 rest with
    | some q => (p, q) :: matched rest
    | none => matched rest
  | (_, false) :: rest => matched rest

/-- The positions of a character, `findAll`, src/Utilities.cpp:83-95. -/
def positionsFrom (sep : Char) : Str → Nat → List Nat
  | [], _ => []
  | x :: xs, p => if x = sep then p :: positionsFrom sep xs (p + 1) else positionsFrom sep xs (p + 1)

/-- `s.substr( b, e - b )` with unsigned numbers. -/
def substr (s : Str) (b e : Nat) : Str := if e < b then s.drop b else (s.drop b).take (e - b)

/-- The loop over the separators, src/Utilities.cpp:167-176: the items that are found, and the position where the next one begins. -/
def splitLoop (tree : Str) (inner : List (Nat × Nat)) : List Nat → Nat → List Str → List Str × Nat
  | [], begin_, items => (items, begin_)
  | comma :: rest, begin_, items =>
    if inner.any fun b => decide (b.1 < comma ∧ comma < b.2) then splitLoop tree inner rest begin_ items
    else splitLoop tree inner rest (comma + 1) (items ++ [substr tree begin_ comma])

/-- `getItems`, src/Utilities.cpp:137-178; no items when the number of brackets is odd, `none` when an element of an empty list is accessed. -/
def getItems (tree : Str) (o c sep : Char) : Option (List Str) :=
  let braces := bracesFrom o c tree 0
  if braces.length % 2 ≠ 0 then some []
  else match braces with
    | [] => some [tree]
    | first :: _ => match matched braces with
      | [] => none
      | outer :: inner =>
        let r := splitLoop tree inner (positionsFrom sep tree 0) (outer.1 + 1) [tree.take first.1]
        some (r.1 ++ [substr tree r.2 outer.2])

/-! ### Particles -/

/-- The members of a particle apart from its daughters, AmpGen/Particle.h:297-313. -/
structure Data (K : Type) where
  name : Str
  props : Props K
  lineshape : Str
  vertexName : Str
  parity : Int
  index : Nat
  originalIndex : Nat
  orbital : Nat
  spinConf : Nat
  minL : Nat
  usesDefaultLineshape : Bool
  modifiers : List Str
deriving DecidableEq

/-- A particle with its daughters. -/
inductive Tree (K : Type) where
  | node (d : Data K) (ds : List (Tree K))

variable {K : Type} [Field K] [LinearOrder K]

def Tree.data : Tree K → Data K
  | .node d _ => d

def Tree.daughters : Tree K → List (Tree K)
  | .node _ ds => ds

/-- `Particle::isStable`, src/Particle.cpp:778. -/
def Tree.isStable (t : Tree K) : Bool := t.daughters.isEmpty

/-- What decay trees depend on: the particle database, the lineshapes of the factory, the width below which particles are quasi-stable, and the option `Particle::DefaultModifier`. -/
structure Env (K : Type) where
  db : DB K
  lineshapes : Str → Bool
  threshold : K
  defaultModifier : Str

/-- `Lineshape::Factory::isLineshape`, src/Lineshapes.cpp:96-104. -/
def Env.isLineshape (env : Env K) (mod : Str) : Bool := env.lineshapes (mod.takeWhile fun c => c ≠ '.')

/-- What the modifiers determine: the members that `parseModifier` changes. -/
structure Parsed where
  lineshape : Str
  vertexName : Str
  orbital : Nat
  spinConf : Nat
deriving DecidableEq

/-- A modifier of one character, src/Particle.cpp:164-182; `lexical_cast` of one character is a number for digits only. -/
def parseLetter (s : Parsed) (c : Char) : Parsed :=
  if c = 'S' then { s with orbital := 0 }
  else if c = 'P' then { s with orbital := 1 }
  else if c = 'D' then { s with orbital := 2 }
  else if c = 'F' then { s with orbital := 3 }
  else if c = 'G' then { s with orbital := 4 }
  else if c = 'H' then { s with orbital := 5 }
  else if c = 'I' then { s with orbital := 6 }
  else if c.isDigit then { s with spinConf := c.toNat - 48 }
  else { s with spinConf := 10 + c.toNat }

/-- `Particle::parseModifier`, src/Particle.cpp:156-188, for a modifier of one character. -/
def Env.parseOne (env : Env K) (s : Parsed) (c : Char) : Parsed := if env.isLineshape [c] then { s with lineshape := [c] } else parseLetter s c

/-- `Particle::parseModifier`, src/Particle.cpp:156-188. -/
def Env.parseModifier (env : Env K) (s : Parsed) (mod : Str) : Parsed :=
  let tokens := split mod '=' true
  if tokens.length = 2 ∧ tokens[0]? = some "vertex".toList then { s with vertexName := tokens.getD 1 [] }
  else if env.isLineshape mod then { s with lineshape := mod }
  else match mod with
    | [c] => parseLetter s c
    | [a, b] => env.parseOne (env.parseOne s a) b
    | _ => s

/-- The members before any modifier is parsed, AmpGen/Particle.h:297-313. -/
def Parsed.initial : Parsed := ⟨"BW".toList, [], 0, 0⟩

/-- Whether the name is that of a nonresonant state, src/Particle.cpp:701, 209. -/
def isNonRes (name : Str) : Bool := (find name "NonRes".toList 0).isSome

mutual
/-- `Particle::quarks`, src/Particle.cpp:702-705. -/
def Tree.quarks : Tree K → Option QuarkContent
  | .node d ds => if isNonRes d.name then (quarksList ds).bind PDG.daughterQuarks else some d.props.quarkContent
/-- The quarks of the daughters. -/
def quarksList : List (Tree K) → Option (List QuarkContent)
  | [] => some []
  | t :: ts => (t.quarks).bind fun q => (quarksList ts).map fun qs => q :: qs
end

/-- `Particle::conservesParity`, src/Particle.cpp:764-767. -/
def conservesParity (parity p0 p1 : Int) (L : Nat) : Bool := decide (parity = p0 * p1 * (if L % 2 = 0 then 1 else -1))

/-- The smallest orbital angular momentum, src/Particle.cpp:212, with `Particle::orbitalRange`, lines 599-634. -/
def minOrbital (S : Nat) (parity : Int) (isStrong : Bool) (ds : List (Tree K)) : Nat :=
  match ds with
  | [a, b] => (Spin.orbitalRange (conservesParity parity a.data.parity b.data.parity) isStrong S a.data.props.twoSpin.toNat b.data.props.twoSpin.toNat).1
  | _ => 0

/-- Whether the decay is taken as a strong one, src/Particle.cpp:209-211. -/
def isStrong (name : Str) (props : Props K) (ds : List (Tree K)) : Option Bool := do
  let dq ← (quarksList ds).bind PDG.daughterQuarks
  let q := if isNonRes name then dq else props.quarkContent
  return (q.eq dq || isNonRes name) && !(props.pdgID.natAbs = 24 || props.pdgID.natAbs = 23)

/-- The lineshape after `pdgLookup` and whether it is the default, src/Particle.cpp:199-208. -/
def Env.lookupLineshape (env : Env K) (name : Str) (props : Props K) (lineshape : Str) (usesDefault : Bool) : Str × Bool :=
  let r :=
    if lineshape = "BW".toList ∨ usesDefault = true then
      let l := if isNonRes name = true ∨ props.getWidth < env.threshold then "FormFactor".toList else lineshape
      (if props.pdgID = 22 then "Photon".toList else l, true)
    else (lineshape, false)
  (if env.defaultModifier ≠ [] ∧ '.' ∉ r.1 then r.1 ++ ['.'] ++ env.defaultModifier else r.1, r.2)

/-- `Particle::pdgLookup`, src/Particle.cpp:194-231, for a particle with properties. -/
def Env.pdgLookup (env : Env K) (d : Data K) (ds : List (Tree K)) : Option (Data K) := do
  let strong ← isStrong d.name d.props ds
  let l := env.lookupLineshape d.name d.props d.lineshape d.usesDefaultLineshape
  let minL := minOrbital d.props.twoSpin.toNat d.props.parity strong ds
  return { d with lineshape := l.1, usesDefaultLineshape := l.2, parity := d.props.parity, minL := minL, orbital := if d.orbital = 0 then minL else d.orbital }

/-- `Particle::operator<`, src/Particle.cpp:807-818. -/
def Tree.lt (a b : Tree K) : Bool :=
  let p := a.data.props
  let q := b.data.props
  if p.twoSpin ≠ q.twoSpin then decide (p.twoSpin > q.twoSpin)
  else if !a.isStable && b.isStable then true
  else if a.isStable && !b.isStable then false
  else if p.getMass ≠ q.getMass then decide (p.getMass > q.getMass)
  else if p.pdgID.natAbs = q.pdgID.natAbs ∧ p.pdgID ≠ q.pdgID then decide (p.pdgID > q.pdgID)
  else if p.charge ≠ q.charge then decide (p.charge > q.charge)
  else if p.pdgID ≠ q.pdgID then decide (p.pdgID > q.pdgID)
  else decide (a.data.index < b.data.index)

/-- `a` may stand before `b` when it is not greater. -/
def Tree.le (a b : Tree K) : Prop := b.lt a = false

instance (a b : Tree K) : Decidable (Tree.le a b) := inferInstanceAs (Decidable (b.lt a = false))

/-- The properties of the antiparticle, src/Particle.cpp:685-686, 694; `none` when it is not found. -/
def Env.antiProps (env : Env K) (p : Props K) : Option (Props K) := if p.hasDistinctAnti then env.db.findID (-p.pdgID) else some p

mutual
/-- `Particle::conjThis`, src/Particle.cpp:683-688. -/
def Env.conjThis (env : Env K) : Tree K → Option (Tree K)
  | .node d ds => (env.antiProps d.props).bind fun p => (env.conjThisList ds).map fun ds => .node { d with props := p } ds
/-- The loop over the daughters. -/
def Env.conjThisList (env : Env K) : List (Tree K) → Option (List (Tree K))
  | [] => some []
  | t :: ts => (env.conjThis t).bind fun t => (env.conjThisList ts).map fun ts => t :: ts
end

/-- The order of `std::stable_sort`, src/Particle.cpp:678. When the comparison is not a strict weak order the result of the library is not specified; the model is one possible result. -/
def sortTrees (ds : List (Tree K)) : List (Tree K) := ds.insertionSort Tree.le

/-- `Particle::sortDaughters`, src/Particle.cpp:674-681. -/
def Env.sortDaughters (env : Env K) (t : Tree K) : Option (Tree K) :=
  if t.data.props.pdgID < 0 then (env.conjThis t).bind fun t => env.conjThis (.node t.data (sortTrees t.daughters))
  else some (.node t.data (sortTrees t.daughters))

/-- The head of a descriptor: name and modifiers, src/Particle.cpp:90-93; `none` when there is no name or the particle is not found. -/
def Env.head (env : Env K) (item : Str) : Option (Data K) := do
  let mods ← getItems item '[' ']' ';'
  let name ← mods.head?
  let s := mods.tail.foldl env.parseModifier Parsed.initial
  let props ← env.db.find name
  return ⟨name, props, s.lineshape, s.vertexName, 0, 999, 999, s.orbital, s.spinConf, 0, false, mods.tail⟩

/-- `Particle::Particle( decayString )` with the default arguments, src/Particle.cpp:77-121; the fuel bounds the depth. -/
def Env.construct (env : Env K) : Nat → Str → Option (Tree K)
  | 0, _ => none
  | fuel + 1, s => do
    let items ← getItems s '{' '}' ','
    let item ← items.head?
    let d ← env.head item
    let ds ← items.tail.mapM (env.construct fuel)
    let d ← env.pdgLookup d ds
    env.sortDaughters (.node d ds)

/-- The constructor from a descriptor; `Props` shows that the depth is enough. -/
def Env.ofDescriptor (env : Env K) (s : Str) : Option (Tree K) := env.construct (s.length + 1) s

/-! ### Descriptors -/

/-- The letters of orbital angular momenta, src/Particle.cpp:285. -/
def orbitals : List Char := ['S', 'P', 'D', 'F', 'G', 'H', 'I']

/-- `Particle::orbitalString`, src/Particle.cpp:282-292; `none` when there is no letter for the orbital angular momentum. -/
def orbitalString (d : Data K) : Option Str :=
  if d.vertexName ≠ [] then some d.vertexName
  else (orbitals[d.orbital]?).map fun l =>
    [l] ++ (if d.spinConf ≠ 0 then (if d.spinConf < 10 then Nat.toDigits 10 d.spinConf else [Char.ofNat (d.spinConf - 10)]) else [])

/-- The modifiers that are only flags, src/Particle.cpp:307. -/
def flags : List Str := ["BgSpin0".toList, "Inco".toList, "NoSym".toList]

/-- The modifiers that are printed, src/Particle.cpp:305-309. -/
def printedModifiers (d : Data K) : Option (List Str) :=
  let orbital := if d.orbital ≠ d.minL ∨ d.spinConf ≠ 0 then (orbitalString d).map fun s => [s] else some []
  orbital.map fun orbital => orbital ++ (if !d.usesDefaultLineshape then [d.lineshape] else []) ++ flags.filter (fun m => decide (m ∈ d.modifiers)) ++ d.modifiers.filter (fun m => decide ('=' ∈ m))

/-- `Particle::modifierString`, src/Particle.cpp:299-312. -/
def modifierString (d : Data K) : Option Str :=
  (printedModifiers d).map fun mods =>
    let modString := mods.foldl (fun (s : Str) (m : Str) => s ++ (if s = ['['] then m else ';' :: m)) ['['] ++ [']']
    if modString = ['[', ']'] then [] else modString

mutual
/-- `Particle::makeUniqueString`, src/Particle.cpp:314-323. -/
def Tree.uniqueString : Tree K → Option Str
  | .node d ds => (modifierString d).bind fun m =>
      match ds with
      | [] => some (d.props.name ++ m)
      | _ => (uniqueStrings ds).map fun ss => d.props.name ++ m ++ ['{'] ++ [','].intercalate ss ++ ['}']
/-- The descriptors of the daughters. -/
def uniqueStrings : List (Tree K) → Option (List Str)
  | [] => some []
  | t :: ts => (t.uniqueString).bind fun s => (uniqueStrings ts).map fun ss => s :: ss
end

/-! ### Labels of the final state -/

mutual
/-- `Particle::getFinalStateParticles( false )`, src/Particle.cpp:325-344: the stable particles below. -/
def Tree.finalState : Tree K → List (Tree K)
  | .node _ ds => finalStates ds
/-- The loop over the daughters. -/
def finalStates : List (Tree K) → List (Tree K)
  | [] => []
  | t :: ts => (if t.isStable then [t] else t.finalState) ++ finalStates ts
end

/-- The assignment of one particle of the final state, src/Particle.cpp:104-110: the first position that is not used and has its name. -/
def assignOne (externals : List Str) (used : List Bool) (name : Str) : Option Nat :=
  (List.range externals.length).find? fun i => !(used.getD i false) && decide (externals[i]? = some name)

/-- The assignment of all particles of the final state, src/Particle.cpp:102-111, from their names: their positions, 999 when there is none, and the positions that are used. -/
def assign (externals : List Str) : List Str → List Bool → List Nat × List Bool
  | [], used => ([], used)
  | name :: names, used =>
    match assignOne externals used name with
    | some i => let r := assign externals names (used.set i true); (i :: r.1, r.2)
    | none => let r := assign externals names used; (999 :: r.1, r.2)

/-- The positions that the constructor assigns for a final state, src/Particle.cpp:100-118, and `isStateGood`. -/
def labels (externals : List Str) (names : List Str) : List Nat × Bool :=
  let r := assign externals names (List.replicate externals.length false)
  (r.1, r.2.all id)

/-! ### Conjugation -/

/-- Sorting as far as it is asked for, src/Particle.cpp:697. -/
def Env.reorder (env : Env K) (reorder : Bool) (t : Tree K) : Option (Tree K) := if reorder then env.sortDaughters t else some t

/-- The properties after conjugation, src/Particle.cpp:694. -/
def Env.conjProps (env : Env K) (change : Bool) (p : Props K) : Option (Props K) := if change then env.antiProps p else some p

mutual
/-- `Particle::conj`, src/Particle.cpp:690-700, with `setName`, lines 727-732; `isHead` says whether the particle has no parent. -/
def Env.conj (env : Env K) (invertHead reorder : Bool) : Bool → Tree K → Option (Tree K)
  | isHead, .node d ds => do
    let p ← env.conjProps (!isHead || invertHead) d.props
    let q ← env.db.find p.name
    let ds ← env.conjList invertHead reorder ds
    let t ← env.reorder reorder (.node { d with name := p.name, props := q, parity := q.parity } ds)
    let d ← env.pdgLookup t.data t.daughters
    return .node d t.daughters
/-- The loop over the daughters. -/
def Env.conjList (env : Env K) (invertHead reorder : Bool) : List (Tree K) → Option (List (Tree K))
  | [] => some []
  | t :: ts => do
    let t ← env.conj invertHead reorder false t
    let ts ← env.conjList invertHead reorder ts
    return t :: ts
end

end AmpGen.Particle
