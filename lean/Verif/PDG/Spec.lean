import Verif.PDG.Model
/-
What the particle database should say.
-/
namespace AmpGen.PDG.Spec
open AmpGen.Strings

variable {K : Type}

/-- The number of quarks less the number of antiquarks of a flavour in a text such as `uD`: small letters are quarks, capital letters are antiquarks. -/
def flavour (small capital : Char) (text : Str) : Int := (text.count small : Int) - text.count capital

/-- One state of each particle, and the sum of the quark numbers of these states. -/
inductive Choice : List QuarkContent → QuarkState → Prop
  | nil : Choice [] (fun _ => 0)
  | cons {q : QuarkContent} {qs : List QuarkContent} {x s : QuarkState} : x ∈ q → Choice qs s → Choice (q :: qs) (fun i => x i + s i)

/-- The same properties, apart from the label for printing. -/
def SameButLabel (p q : Props K) : Prop := { p with texName := [] } = { q with texName := [] }

/-- `q` is the antiparticle of `p`: charge, identifier and quark numbers have the opposite sign, the parity only for fermions; everything else but name and label is the same. -/
structure IsAnti (p q : Props K) : Prop where
  mass : q.mass = p.mass
  width : q.width = p.width
  spin : q.twoSpin = p.twoSpin
  radius : q.radius = p.radius
  charge : q.charge = - p.charge
  pdgID : q.pdgID = - p.pdgID
  quarks : q.quarkContent = p.quarkContent.map fun s i => - s i
  parity : q.parity = if p.twoSpin % 2 = 1 ∧ 0 ≤ p.twoSpin then - p.parity else p.parity
  gparity : q.gparity = p.gparity
  cparity : q.cparity = p.cparity

/-- The last element of a list with some property. -/
def lastWith (P : Props K → Bool) (l : List (Props K)) : Option (Props K) := l.reverse.find? P

/-- The value that a list of keys and values gives to a key: the last one. -/
def lastValue (key : Str) (pairs : List (Str × Str)) : Option Str := (pairs.reverse.find? fun kv => decide (kv.1 = key)).map Prod.snd

/-- Keys and values as they stand in the options. -/
def words (pairs : List (Str × Str)) : List Str := pairs.flatMap fun kv => [kv.1, kv.2]

end AmpGen.PDG.Spec
