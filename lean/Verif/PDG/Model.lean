import Verif.Strings.Model
import Mathlib.Algebra.Field.Basic
import Mathlib.Logic.Function.Basic
import Mathlib.Data.Fin.VecNotation
import Mathlib.Data.Fintype.Basic
/-
Model of the particle database: src/QuarkContent.cpp, src/ParticleProperties.cpp, src/ParticlePropertiesList.cpp.

Simplifications: characters are compared as ASCII letters; real numbers are those of a field `K`, integers do not overflow. The conversions `strtod` and `strtol` of the library are arguments. Pointers to
properties are positions in a list of objects. Printing of messages is left out. Members that are not initialised have arbitrary values, `junk`.
-/
namespace AmpGen.PDG
open AmpGen.Strings

/-- `QuarkState`, AmpGen/QuarkContent.h:17: the numbers of quarks less antiquarks, in the order of `gNames`. -/
abbrev QuarkState := Fin 6 → Int

/-- `QuarkState::gNames`, src/QuarkContent.cpp:13. -/
def gNames : Fin 6 → Char := ![ 'd', 'u', 's', 'c', 'b', 't' ]

/-- `QuarkState::QuarkState( str )`, src/QuarkContent.cpp:37-44; `gPositions` maps each name to its position, lines 46-52. -/
def QuarkState.ofString (str : Str) : QuarkState :=
  str.foldl (fun (q : QuarkState) (c : Char) => fun i => if gNames i = c.toLower then q i + (if c.isLower then 1 else -1) else q i) (fun _ => 0)

/-- `QuarkState::antiThis`, src/QuarkContent.cpp:54-57. -/
def QuarkState.anti (q : QuarkState) : QuarkState := fun i => (-1) * q i

/-- `QuarkState::operator+`, src/QuarkContent.cpp:77-81, 88-93. -/
def QuarkState.add (q r : QuarkState) : QuarkState := fun i => q i + r i

/-- `QuarkState::operator-`, src/QuarkContent.cpp:82-86, 94-99. -/
def QuarkState.sub (q r : QuarkState) : QuarkState := fun i => q i - r i

/-- `QuarkState::isVacuum`, src/QuarkContent.cpp:100-103. -/
def QuarkState.isVacuum (q : QuarkState) : Bool := decide (∀ i, q i = 0)

/-- `QuarkContent`, AmpGen/QuarkContent.h:38: the states of which the particle is a superposition. -/
abbrev QuarkContent := List QuarkState

/-- `QuarkContent::QuarkContent()`, src/QuarkContent.cpp:119. -/
def QuarkContent.default : QuarkContent := [fun _ => 0]

/-- `QuarkContent::QuarkContent( str )`, src/QuarkContent.cpp:22-35. -/
def QuarkContent.ofString (str : Str) : Option QuarkContent := do
  if (find str "non-qQ".toList 0).isSome then return [fun _ => 0]
  let str ← replaceAll (str.length + 1) str "sqrt".toList []
  let tokens := splitDelims str ['(', ')', '+', '-'] false
  let quarks := (tokens.map QuarkState.ofString).filter fun qc => !qc.isVacuum
  return if quarks.length = 0 then [fun _ => 0] else quarks

/-- `QuarkContent::antiThis`, src/QuarkContent.cpp:121-124. -/
def QuarkContent.anti (q : QuarkContent) : QuarkContent := q.map QuarkState.anti

/-- `QuarkContent::operator+=` and `operator-=`, src/QuarkContent.cpp:136-165, where `op` is the operation on states; `none` when an element out of range is read. -/
def QuarkContent.combine (op : QuarkState → QuarkState → QuarkState) (q r : QuarkContent) : Option QuarkContent :=
  if q.length * r.length ≤ 1 then q.zipIdx.mapM fun x => (r[x.2]?).map fun y => op x.1 y
  else some (q.flatMap fun x => r.map fun y => op x y)

/-- `QuarkContent::operator==`, src/QuarkContent.cpp:180-187. -/
def QuarkContent.eq (q r : QuarkContent) : Bool := q.any fun x => r.any fun y => decide (x = y)

/-- `Particle::daughterQuarks`, src/Particle.cpp:707-712, from the quark contents of the daughters; `none` when an element out of range is read. -/
def daughterQuarks (ds : List QuarkContent) : Option QuarkContent := ds.foldlM (QuarkContent.combine QuarkState.add) QuarkContent.default

/-- `ParticleProperties`, AmpGen/ParticleProperties.h:83-105. -/
structure Props (K : Type) where
  mass : K
  mErrPlus : K
  mErrMinus : K
  width : K
  wErrPlus : K
  wErrMinus : K
  radius : K
  gparity : Int
  parity : Int
  cparity : Int
  pdgID : Int
  rexist : Int
  charge : Int
  twoSpin : Int
  isospin : Str
  name_ : Str
  texName : Str
  chargeString : Str
  aformat : Char
  status : Char
  quarkContent : QuarkContent
  isValid : Bool
  customName : Bool
deriving DecidableEq

/-- The conversions of the library: `strtod`, and `strtol` with the information whether the whole word was read. -/
structure Library (K : Type) where
  strtod : Str → K
  strtol : Str → Int × Bool

variable {K : Type} [Field K]

/-- The properties without any information, `ParticleProperties("")`, AmpGen/ParticleProperties.h:83-105, src/ParticleProperties.cpp:66-67; two members are not initialised. -/
def Props.empty (junk : Char × Char) : Props K :=
  ⟨0, 0, 0, 0, 0, 0, 0, 0, 0, 0, 0, 0, 0, 0, [], [], [], [], junk.1, junk.2, QuarkContent.default, false, false⟩

/-- `ParticleProperties::chargeFromString`, src/ParticleProperties.cpp:40-50, without the status. -/
def chargeFromString (ch : Str) : Int :=
  if ch = ['+'] then 1 else if ch = ['-'] then -1 else if ch = [' '] then 0 else if ch = ['0'] then 0 else if ch = ['+', '+'] then 2 else if ch = ['-', '-'] then -2 else 0

/-- The spin from its text, src/ParticleProperties.cpp:100-104, 235-239; `unknown` is the value for a question mark. -/
def spinFromString (lib : Library K) (unknown : Int) (s : Str) : Int :=
  if s = ['?'] then unknown
  else match find s ['/'] 0 with
    | some p => (lib.strtol (s.take p)).1
    | none => 2 * (lib.strtol s).1

/-- The members that are set from the 18 fields of a line, src/ParticleProperties.cpp:74-114. -/
def Props.ofFields (lib : Library K) (f : Nat → Str) (quarks : QuarkContent) : Props K :=
  { mass := lib.strtod (f 0), mErrPlus := lib.strtod (f 1), mErrMinus := lib.strtod (f 2),
    width := lib.strtod (f 3), wErrPlus := lib.strtod (f 4), wErrMinus := lib.strtod (f 5),
    radius := if (lib.strtol (f 12)).1.natAbs ∈ [421, 411, 431, 4122] then 5 else 3 / 2,
    gparity := chargeFromString (f 7), parity := chargeFromString (f 9), cparity := chargeFromString (f 10),
    pdgID := (lib.strtol (f 12)).1, rexist := (lib.strtol (f 14)).1, charge := chargeFromString (f 13),
    twoSpin := spinFromString lib (-1) (f 8),
    isospin := f 6, name_ := f 16, texName := [], chargeString := f 13,
    aformat := if (f 11).length = 1 then (f 11).getD 0 ' ' else ' ',
    status := (f 15).getD 0 '\x00', quarkContent := quarks, isValid := true, customName := false }

/-- `ParticleProperties::ParticleProperties( pdg_string )`, src/ParticleProperties.cpp:60-115; `none` when the quark content is not read, which is shown not to happen. -/
def Props.ofString (lib : Library K) (junk : Char × Char) (pdg_string : Str) : Option (Props K) :=
  if pdg_string = [] then some (Props.empty junk)
  else if pdg_string.head? = some '*' then some (Props.empty junk)
  else if (split pdg_string ',' false).length ≠ 18 then some (Props.empty junk)
  else
    let s := (split pdg_string ',' false).map trim
    (QuarkContent.ofString (s.getD 17 [])).map (Props.ofFields lib fun i => s.getD i [])

/-- `ParticleProperties::hasDistinctAnti`, src/ParticleProperties.cpp:117. -/
def Props.hasDistinctAnti (p : Props K) : Bool := p.aformat ≠ ' '

/-- `ParticleProperties::isFermion`, src/ParticleProperties.cpp:158-160; the remainder has the sign of the dividend. -/
def Props.isFermion (p : Props K) : Bool := p.twoSpin.tmod 2 = 1

/-- `ParticleProperties::antiThis` and `anti`, src/ParticleProperties.cpp:119-135. -/
def Props.anti (p : Props K) : Props K :=
  if !p.hasDistinctAnti then p
  else { p with
    chargeString := swapChars p.chargeString '+' '-'
    charge := p.charge * -1
    parity := if p.isFermion then p.parity * -1 else p.parity
    quarkContent := p.quarkContent.anti
    pdgID := p.pdgID * -1 }

/-- `ParticleProperties::name`, src/ParticleProperties.cpp:137-144. -/
def Props.name (p : Props K) : Str :=
  if p.customName then p.name_
  else (if p.pdgID < 0 ∧ p.aformat = 'F' then p.name_ ++ "bar".toList else p.name_) ++ p.chargeString

/-- `ParticleProperties::setProperty`, src/ParticleProperties.cpp:225-250; the unit MeV is 1/1000, AmpGen/Units.h:9. `none` when the quark content is not read, which is shown not to happen. -/
def Props.setProperty (lib : Library K) (p : Props K) (key value : Str) : Option (Props K) :=
  if key = "mass".toList then some { p with mass := lib.strtod value / (1 / 1000) }
  else if key = "name".toList then some { p with name_ := value }
  else if key = "width".toList then some { p with width := lib.strtod value / (1 / 1000) }
  else if key = "spin".toList then some { p with twoSpin := spinFromString lib 0 value }
  else if key = "parity".toList then some { p with parity := chargeFromString value }
  else if key = "charge".toList then some { p with charge := chargeFromString value }
  else if key = "quarks".toList then (QuarkContent.ofString value).map fun q => { p with quarkContent := q }
  else some p

/-- `ParticleProperties::mass`, AmpGen/ParticleProperties.h:30. -/
def Props.getMass (p : Props K) : K := p.mass * (1 / 1000)

/-- `ParticleProperties::width`, AmpGen/ParticleProperties.h:33. -/
def Props.getWidth (p : Props K) : K := p.width * (1 / 1000)

/-- `ParticlePropertiesList`, AmpGen/ParticlePropertiesList.h:19-24; the objects of `m_theList` and those that are allocated later, and the maps of pointers. -/
structure DB (K : Type) where
  heap : List (Props K)
  byName : Str → Option Nat
  byID : Int → Option Nat

/-- The lines that `processFile` hands on, AmpGen/Utilities.h:114-126. -/
def processLines (lines : List Str) : List Str := (lines.map fun l => l.filter fun c => c ≠ '\r').filter fun l => l.length ≠ 0 && l.head? ≠ some '#'

/-- `ParticleProperties::setLabel`, AmpGen/ParticleProperties.h:63, if there is a label. -/
def Props.setLabel (p : Props K) (label : Option Str) : Props K :=
  match label with
  | some l => { p with texName := l }
  | none => p

/-- What `readFile` adds for valid properties, src/ParticlePropertiesList.cpp:104-113. -/
def insertWithAnti (latexLabels : Int → Option (Str × Str)) (P : Props K) : List (Props K) :=
  let label := latexLabels P.pdgID
  let P := P.setLabel (label.map Prod.fst)
  if P.hasDistinctAnti then [P, P.anti.setLabel (label.map Prod.snd)] else [P]

/-- What `readFile` adds for one line, src/ParticlePropertiesList.cpp:100-115. -/
def readLine (lib : Library K) (junk : Char × Char) (latexLabels : Int → Option (Str × Str)) (line : Str) : Option (List (Props K)) :=
  if line.head? = some '*' then some []
  else (Props.ofString lib junk line).map fun P => if !P.isValid then [] else insertWithAnti latexLabels P

/-- `ParticlePropertiesList::readFile`, src/ParticlePropertiesList.cpp:92-117. -/
def readFile (lib : Library K) (junk : Char × Char) (latexLabels : Int → Option (Str × Str)) (lines : List Str) : Option (List (Props K)) :=
  ((processLines lines).mapM (readLine lib junk latexLabels)).map List.flatten

/-- `ParticlePropertiesList::makeMappings`, src/ParticlePropertiesList.cpp:119-132. -/
def makeMappings (theList : List (Props K)) : DB K :=
  theList.zipIdx.foldl (fun (db : DB K) (it : Props K × Nat) =>
    { db with byName := Function.update db.byName it.1.name (some it.2), byID := Function.update db.byID it.1.pdgID (some it.2) }) ⟨theList, fun _ => none, fun _ => none⟩

/-- `ParticlePropertiesList::find( name )` and `get( name )`, src/ParticlePropertiesList.cpp:141-151, 32-37. -/
def DB.find (db : DB K) (name : Str) : Option (Props K) := (db.byName name).bind fun i => db.heap[i]?

/-- `ParticlePropertiesList::find( id )` and `get( id )`, src/ParticlePropertiesList.cpp:152-160, 39-44. -/
def DB.findID (db : DB K) (id : Int) : Option (Props K) := (db.byID id).bind fun i => db.heap[i]?

/-- `ParticlePropertiesList::makeAlias`, src/ParticlePropertiesList.cpp:181-193. -/
def DB.makeAlias (db : DB K) (name other : Str) : DB K :=
  match db.find name with
  | none => db
  | some p => { db with heap := db.heap ++ [{ p with customName := true, name_ := other, aformat := ' ' }], byName := Function.update db.byName other (some db.heap.length) }

/-- The loop over pairs of keys and values of `addParticle`, src/ParticlePropertiesList.cpp:210-213; `none` when a token out of range is read. -/
def setProperties (lib : Library K) : List Str → Props K → Option (Props K)
  | [], p => some p
  | [_], _ => none
  | key :: value :: rest, p => (p.setProperty lib key value).bind (setProperties lib rest)

/-- `ParticlePropertiesList::addParticle`, src/ParticlePropertiesList.cpp:195-215; the first token is the keyword. -/
def DB.addParticle (lib : Library K) (junk : Char × Char) (db : DB K) (tokens : List Str) : Option (DB K) := do
  let name ← tokens[1]?
  match db.byName name with
  | some i =>
    let p ← db.heap[i]?
    let p ← setProperties lib (tokens.drop 2) p
    return { db with heap := db.heap.set i p, byName := Function.update db.byName name (some i) }
  | none =>
    let p ← (Props.empty junk).setProperty lib "name".toList name
    let p ← setProperties lib (tokens.drop 2) p
    return { db with heap := db.heap ++ [p], byName := Function.update db.byName name (some db.heap.length) }

end AmpGen.PDG
