import Verif.PDG.Model
import Verif.Kinematics.Model
import Mathlib.Data.List.Dedup
import Mathlib.Data.List.Sort
/-
Model of event types, src/EventType.cpp, and of the reading and writing of events, src/EventList.cpp.

Simplifications: options (`NamedParameter`) are arguments; printing is left out. A tree of ROOT is a list of entries, each a partial function from branch names to numbers; the kinds of numbers of branches are not
distinguished. Random numbers are arguments. A `std::map` is a list of pairs of keys and values with different keys; the order of the keys plays no role.
-/
namespace AmpGen.EventType
open AmpGen.Strings AmpGen.PDG AmpGen.Kinematics

/-- `EventType`, AmpGen/EventType.h:77-87. -/
structure EventType (K : Type) where
  mother : Str
  motherMass : K
  names : List Str
  pickled : List Str
  masses : List K
  timeDependent : Bool
  extensions : List Str
  alt : Bool

variable {K : Type} [Field K]

/-- The name without braces around it, src/EventType.cpp:49-53. -/
def stripBraces (s : Str) : Str := if s.head? = some '{' ∧ s.getLast? = some '}' then (s.drop 1).take (s.length - 2) else s

/-- The name for branches, src/EventType.cpp:62-65. -/
def pickle (alt : Bool) (name : Str) : Option Str :=
  if alt then replaceAllRules (name.length + 1) name [(['+'], ['p']), (['-'], ['m']), (['('], []), ([')'], [])]
  else replaceAllRules (name.length + 1) name [(['+'], ['~']), (['-'], ['#']), (['('], []), ([')'], [])]

/-- `EventType::EventType`, src/EventType.cpp:27-77; `none` when there is an exception or a particle is not found. -/
def make (db : DB K) (alt : Bool) (particleNames : List Str) (isTD : Bool) : Option (EventType K) := do
  if particleNames.length < 3 then none else
  let mother ← particleNames.head?
  let motherProperties ← db.find mother
  let names := particleNames.tail.map stripBraces
  let props ← names.mapM fun n => db.find n
  let pickled ← names.mapM (pickle alt)
  return ⟨mother, motherProperties.getMass, names, pickled, props.map Props.getMass, isTD, [], alt⟩

/-- `EventType::size`, src/EventType.cpp:140. -/
def EventType.size (t : EventType K) : Nat := t.names.length

/-- `EventType::eventSize`, src/EventType.cpp:290. -/
def EventType.eventSize (t : EventType K) : Nat := 4 * t.size + t.timeDependent.toNat

/-- `EventType::extendEventType`, src/EventType.cpp:106-109. -/
def EventType.extend (t : EventType K) (branch : Str) : EventType K := { t with extensions := t.extensions ++ [branch] }

/-- Assignment to an element of a map. -/
def put (m : List (Str × Nat)) (k : Str) (v : Nat) : List (Str × Nat) :=
  if m.any (fun kv => decide (kv.1 = k)) then m.map (fun kv => if kv.1 = k then (k, v) else kv) else m ++ [(k, v)]

/-- The name of a particle in the event format, src/EventType.cpp:85-95. -/
def stub (t : EventType K) (outputNames : Bool) (ip : Nat) : Str :=
  let name := t.pickled.getD ip []
  let parsed_name :=
    if t.alt then
      if t.pickled.count name > 1 then name ++ Nat.toDigits 10 ((t.pickled.take ip).count name)
      else name
    else "_".toList ++ Nat.toDigits 10 (ip + 1) ++ "_".toList ++ name
  if outputNames then parsed_name else Nat.toDigits 10 ip

/-- The assignments for one particle, src/EventType.cpp:96-100. -/
def addParticle (t : EventType K) (include_energy outputNames : Bool) (m : List (Str × Nat)) (ip : Nat) : List (Str × Nat) :=
  let s := if include_energy then 4 else 3
  let stub := stub t outputNames ip
  let m := if include_energy then put m (stub ++ "_E".toList) (s * ip + 3) else m
  let m := put m (stub ++ "_Px".toList) (s * ip + 0)
  let m := put m (stub ++ "_Py".toList) (s * ip + 1)
  put m (stub ++ "_Pz".toList) (s * ip + 2)

/-- `EventType::getEventFormat`, src/EventType.cpp:79-105; the right side of an assignment is evaluated before the left side. -/
def getEventFormat (include_energy : Bool) (t : EventType K) (outputNames : Bool) : List (Str × Nat) :=
  let m := (List.range t.size).foldl (addParticle t include_energy outputNames) []
  let m := if t.timeDependent then put m (t.mother ++ "_decayTime".toList) (4 * t.size) else m
  t.extensions.foldl (fun m extend => put m extend m.length) m

/-- The name of the antiparticle, or the name itself, src/EventType.cpp:161-163; `none` when the particle is not found. -/
def conjName (db : DB K) (keep : Bool) (x : Str) : Option Str := if keep then some x else (db.find x).map fun p => p.anti.name

/-- `EventType::conj`, src/EventType.cpp:158-165; `none` when a particle is not found. -/
def conj (db : DB K) (t : EventType K) (headOnly dontConjHead : Bool) : Option (EventType K) := do
  let mother ← conjName db dontConjHead t.mother
  let type ← t.names.mapM (conjName db headOnly)
  make db t.alt (mother :: type) t.timeDependent

/-- `EventType::minmax`, src/EventType.cpp:110-120. -/
def minmax (t : EventType K) (indices : List Nat) : K × K :=
  let min := indices.foldl (fun (a : K) (i : Nat) => a + t.masses.getD i 0) 0
  let max := (List.range t.size).foldl (fun (a : K) (x : Nat) => if x ∉ indices then a - t.masses.getD x 0 else a) t.motherMass
  (min, max)

/-- `EventType::count`, src/EventType.cpp:121-135. -/
def count (t : EventType K) (index : Nat) : Nat × Nat :=
  if index ≥ t.size then (0, 0)
  else (List.range t.size).foldl (fun (rt : Nat × Nat) (j : Nat) =>
    if t.names[j]? = t.names[index]? then (if j < index then rt.1 + 1 else rt.1, rt.2 + 1) else rt) (0, 0)

/-- The groups of identical particles, src/EventType.cpp:218-223; in the order of their names. -/
def groups (names : List Str) : List (List Nat) :=
  ((names.dedup.insertionSort (fun a b => (a < b) = true ∨ a = b)).map fun n => (List.range names.length).filter fun i => decide (names[i]? = some n)).filter fun g => g.length ≠ 1

/-- One turn of the loop of a shuffle, src/EventType.cpp:235-238: the addresses, and the event; `j` is the random number. -/
noncomputable def shuffleStep (st : List Nat × Event) (index j : Nat) : List Nat × Event :=
  if index = j then st
  else
    let a := st.1.getD index 0
    let b := st.1.getD j 0
    let shuffled := (st.1.set index b).set j a
    (shuffled, st.2.swap (shuffled.getD index 0) (shuffled.getD j 0))

/-- The shuffle of one group, src/EventType.cpp:233-239; the random numbers are in `draws`. -/
noncomputable def shuffle (draws : Nat → Nat) (evt : Event) (group : List Nat) : Event :=
  ((List.range group.length).foldl (fun (st : List Nat × Event) (index : Nat) => shuffleStep st index (draws index)) (group, evt)).2

/-- `EventType::symmetriser`, src/EventType.cpp:216-242; the random numbers for each group are in `draws`. -/
noncomputable def symmetriser (names : List Str) (draws : Nat → Nat → Nat) (evt : Event) : Event :=
  (groups names).zipIdx.foldl (fun (e : Event) (g : List Nat × Nat) => shuffle (draws g.2) e g.1) evt

/-- `matches` of `automaticOrdering`, src/EventType.cpp:248-259, for vectors of the same size; the product with an unsigned −1 is the negative number. -/
def matches_ (c1 c2 : List Int) (sgn : Int) : Bool :=
  let used := (List.range c1.length).foldl (fun (used : List Bool) (i : Nat) =>
    (List.range c2.length).foldl (fun (used : List Bool) (j : Nat) =>
      if c1.getD i 0 = sgn * c2.getD j 0 ∧ used.getD j false = false then used.set j true else used) used) (List.replicate c1.length false)
  used.all id

/-- The addresses of `automaticOrdering`, src/EventType.cpp:262, 270-276, for vectors of the same size. -/
def newAddresses (ids actual_ids : List Int) (sgn : Int) : List Nat :=
  (List.range ids.length).foldl (fun (new : List Nat) (i : Nat) =>
    match (List.range actual_ids.length).find? fun j => decide (actual_ids.getD j 0 = sgn * ids.getD i 0 ∧ new.getD j 0 = 999) with
    | some j => new.set j i
    | none => new) (List.replicate ids.length 999)

/-- The function that `EventType::automaticOrdering` returns, src/EventType.cpp:261-280, for vectors of the same size; `none` when a position outside of the event is written. -/
noncomputable def automaticOrdering (ids : List Int) (evt : Event) (actual_ids : List Int) : Option (Event × Bool) :=
  let order := fun sgn =>
    let new := newAddresses ids actual_ids sgn
    if ∀ a ∈ new, 4 * a + 4 ≤ evt.size then some (evt.reorder new, true) else none
  if matches_ ids actual_ids 1 then order 1
  else if matches_ ids actual_ids (-1) then order (-1)
  else some (evt, false)

/-! ### Reading and writing -/

/-- An entry of a tree. -/
abbrev Row := Str → Option ℝ

/-- An event with its weight and the density it was generated with, AmpGen/Event.h:59-61. -/
structure Record where
  evt : Event
  weight : ℝ
  genPdf : ℝ

/-- What `EventList::tree` writes for one event, src/EventList.cpp:144-168, without extensions of the list; a later branch of the same name is not reached. -/
noncomputable def writeRow (t : EventType ℝ) (r : Record) : Row := fun name =>
  match (getEventFormat true t true).lookup name with
  | some pos => some (r.evt.data pos)
  | none => if name = "genPdf".toList then some r.genPdf else if name = "weight".toList then some r.weight else none

/-- The position of the `p`-th branch given by the caller, src/EventList.cpp:91, 98. -/
def branchPosition (nBranches n p : Nat) : Nat := if nBranches = 0 ∨ nBranches = 4 * n then p else 4 * (p / 3) + p % 3

/-- The branches that are read and their positions in the event, src/EventList.cpp:93-115. -/
def readPositions (t : EventType ℝ) (branches : List Str) : List (Str × Nat) :=
  if branches ≠ [] then branches.zipIdx.map fun b => (b.1, branchPosition branches.length t.size b.2)
  else getEventFormat true t true

/-- `TreeReader::getEntry`: the values of one entry are copied to the positions, src/TreeReader.cpp:23-28; without such a branch nothing is copied. `none` when a position outside of the event is written. -/
noncomputable def transfer (row : Row) (positions : List (Str × Nat)) (temp : Event) : Option Event :=
  if ∀ b ∈ positions, b.2 < temp.size then
    some (positions.foldl (fun (e : Event) (b : Str × Nat) => match row b.1 with
      | some v => e.set b.2 v
      | none => e) temp)
  else none

/-- The units, src/EventList.cpp:131. -/
noncomputable def scale (units : ℝ) (n : Nat) (temp : Event) : Event := (List.range n).foldl (fun (e : Event) (k : Nat) => e.set k (e.data k * units)) temp

/-- The energies, src/EventList.cpp:134-137. -/
noncomputable def setEnergies (t : EventType ℝ) (temp : Event) : Event :=
  (List.range t.size).foldl (fun (e : Event) (k : Nat) =>
    e.set (4 * k + 3) (√(t.masses.getD k 0 * t.masses.getD k 0 + e.data (4 * k + 0) * e.data (4 * k + 0) + e.data (4 * k + 1) * e.data (4 * k + 1) + e.data (4 * k + 2) * e.data (4 * k + 2)))) temp

/-- What happens to an event after it was read, src/EventList.cpp:131-137, without ordering by identifiers and symmetrisation. -/
noncomputable def processEvent (t : EventType ℝ) (branches : List Str) (units : ℝ) (temp : Event) : Event :=
  let temp := if units ≠ 1 then scale units (getEventFormat true t true).length temp else temp
  if branches.length = 0 ∨ branches.length = 4 * t.size then temp else setEnergies t temp

/-- The loop of `EventList::loadFromTree`, src/EventList.cpp:130-139: `temp` is used for all entries. -/
noncomputable def loadLoop (t : EventType ℝ) (branches : List Str) (units : ℝ) (weightBranch : Str) : List Row → Record → Option (List Record)
  | [], _ => some []
  | row :: rows, temp => do
    let evt ← transfer row (readPositions t branches) temp.evt
    let genPdf := (row "genPdf".toList).getD temp.genPdf
    let weight := if weightBranch ≠ [] then (row weightBranch).getD temp.weight else temp.weight
    let temp : Record := ⟨processEvent t branches units evt, weight, genPdf⟩
    let rest ← loadLoop t branches units weightBranch rows temp
    return temp :: rest

/-- `EventList::loadFromTree`, src/EventList.cpp:63-142, with the arguments `Branches`, `InputUnits` and `WeightBranch`; the event starts with zeros, weight and density one. -/
noncomputable def loadFromTree (t : EventType ℝ) (branches : List Str) (units : ℝ) (weightBranch : Str) (rows : List Row) : Option (List Record) :=
  loadLoop t branches units weightBranch rows ⟨⟨(getEventFormat true t true).length, fun _ => 0⟩, 1, 1⟩

/-- The entries of a tree with `n` entries that are read, src/EventList.cpp:116-127 and src/TreeReader.cpp:23-28, 39: the list given by the caller and those that pass the filter; an empty list is no list. -/
def selectEntries (n : Nat) (entryList : List Nat) (filter : Option (Nat → Bool)) : List Nat :=
  let entryList := match filter with
    | none => entryList
    | some f => entryList ++ (List.range n).filter f
  if entryList ≠ [] then entryList else List.range n

/-- The elements of the list of entries that are accessed by an iteration over the tree, AmpGen/TreeReader.h:46-51 and src/TreeReader.cpp:23-28, 46-47: the reader gets an entry for each position from the first one to the
one behind the last; `none` is an access behind the end of the list. Without a list the position itself is the entry. -/
def accessed (n : Nat) (entryList : List Nat) : List (Option Nat) :=
  let nEntries := if entryList = [] then n else entryList.length
  (List.range (nEntries + 1)).map fun position => if entryList = [] then some position else entryList[position]?

/-- `EventList::loadFromTree` with `EntryList` and `Filter`, src/EventList.cpp:63-142; an entry that the tree does not have leaves all values as they are. -/
noncomputable def loadSelected (t : EventType ℝ) (branches : List Str) (units : ℝ) (weightBranch : Str) (entryList : List Nat) (filter : Option (Nat → Bool)) (rows : List Row) : Option (List Record) :=
  loadFromTree t branches units weightBranch ((selectEntries rows.length entryList filter).map fun k => rows.getD k fun _ => none)

end AmpGen.EventType
