import Verif.Particle.Model
/-
What decay trees and their descriptors should satisfy.
-/
namespace AmpGen.Particle.Spec
open AmpGen.Strings AmpGen.PDG AmpGen.Particle

variable {K : Type} [Field K] [LinearOrder K]

/-- The characters that have a meaning in descriptors. -/
def structural : List Char := ['{', '}', ',', '[', ']', ';']

/-- A text without such characters. -/
def Plain (s : Str) : Prop := ∀ c ∈ s, c ∉ structural

/-- The particle or one of those it decays to, directly or not. -/
inductive Has : Tree K → Data K → Prop
  | here (d : Data K) (ds : List (Tree K)) : Has (.node d ds) d
  | inside (d : Data K) (ds : List (Tree K)) (t : Tree K) (e : Data K) : t ∈ ds → Has t e → Has (.node d ds) e

/-- The database has a particle under this name, which is its own name, has quarks, and is the antiparticle of its antiparticle. -/
def Consistent (db : DB K) (name : Str) : Prop :=
  ∃ p, db.find name = some p ∧ p.name = name ∧ Plain name ∧ p.quarkContent ≠ [] ∧
    (p.hasDistinctAnti = true → ∃ q, db.findID (-p.pdgID) = some q ∧ q.hasDistinctAnti = true ∧ db.findID (-q.pdgID) = some p)

/-- The names of lineshapes differ from those of orbital angular momenta and of flags, and the default modifier is an ordinary text. -/
structure Unambiguous (env : Env K) : Prop where
  long : ∀ s, env.lineshapes s = true → 2 ≤ s.length
  letters : ∀ a b, a ∈ ['S', 'P', 'D', 'F', 'G', 'H', 'I'] → env.lineshapes [a, b] = false
  flags : ∀ s ∈ ["BgSpin0", "Inco", "NoSym"], env.lineshapes s.toList = false
  defaultModifier : Plain env.defaultModifier ∧ '=' ∉ env.defaultModifier

/-- The modifiers of a particle can be written again: they are ordinary texts, those with an equals sign are settings and not lineshapes, and a named vertex does not come with an orbital state that would have to be
written in its place. -/
structure Writable (env : Env K) (d : Data K) : Prop where
  plain : ∀ m ∈ d.modifiers, Plain m
  settings : ∀ m ∈ d.modifiers, '=' ∈ m → 3 ≤ m.length ∧ env.isLineshape m = false
  vertex : d.vertexName = [] ∨ d.orbital = d.minL ∧ d.spinConf = 0

/-- The same decay tree: the particles agree in everything but the list of modifiers, of which the flags and the settings agree. -/
inductive Same : Tree K → Tree K → Prop
  | node (d : Data K) (mods : List Str) (ds ds' : List (Tree K)) :
      (∀ s ∈ ["BgSpin0", "Inco", "NoSym"], s.toList ∈ mods ↔ s.toList ∈ d.modifiers) →
      mods.filter (fun m => decide ('=' ∈ m)) = d.modifiers.filter (fun m => decide ('=' ∈ m)) →
      ds.length = ds'.length → (∀ (i : Nat) (t t' : Tree K), ds[i]? = some t → ds'[i]? = some t' → Same t t') →
      Same (.node d ds) (.node { d with modifiers := mods } ds')

/-- The database has the particle under its name, and its antiparticle, with the opposite identifier unless the particle is its own antiparticle: same spin and width, opposite quark numbers, opposite parity for
fermions. -/
structure Mirrored (env : Env K) (d : Data K) : Prop where
  name : d.props.name = d.name
  found : env.db.find d.name = some d.props
  quarks : d.props.quarkContent ≠ []
  anti : ∃ q, env.antiProps d.props = some q ∧ env.antiProps q = some d.props ∧ env.db.find q.name = some q ∧ q.twoSpin = d.props.twoSpin ∧ q.getWidth = d.props.getWidth ∧
    q.parity = (if d.props.twoSpin.toNat % 2 = 1 then - d.props.parity else d.props.parity) ∧ (∀ x : QuarkState, x ∈ q.quarkContent ↔ (fun i => - x i) ∈ d.props.quarkContent) ∧
    isNonRes q.name = isNonRes d.name ∧ (d.props.hasDistinctAnti = false ∨ q.pdgID = - d.props.pdgID ∧ d.props.pdgID.natAbs ≠ 22)

/-- Every particle of the tree is as `pdgLookup` leaves it, and in decays to two particles the spins can be added to the spin of the decaying particle. -/
inductive Settled (env : Env K) : Tree K → Prop
  | node (d : Data K) (ds : List (Tree K)) : env.pdgLookup d ds = some d →
      (∀ a b, ds = [a, b] → (d.props.twoSpin.toNat + a.data.props.twoSpin.toNat + b.data.props.twoSpin.toNat) % 2 = 0) → (∀ t ∈ ds, Settled env t) → Settled env (.node d ds)

/-- The decay products are in order everywhere; those of a particle that is its own antiparticle can all be told apart. -/
inductive Ordered (env : Env K) : Tree K → Prop
  | node (d : Data K) (ds : List (Tree K)) : env.sortDaughters (.node d ds) = some (.node d ds) →
      (d.props.hasDistinctAnti = true ∧ d.props.pdgID ≠ 0 ∨ d.props.hasDistinctAnti = false ∧ 0 ≤ d.props.pdgID ∧ ds.Pairwise fun a b => a.lt b = true) →
      (∀ t ∈ ds, Ordered env t) → Ordered env (.node d ds)

/-- The tree or a part of it. -/
inductive Contains : Tree K → Tree K → Prop
  | here (t : Tree K) : Contains t t
  | inside (d : Data K) (ds : List (Tree K)) (t u : Tree K) : t ∈ ds → Contains t u → Contains (.node d ds) u

/-- The conjugate decay: every particle is replaced by its antiparticle, with the same angular momenta, lineshapes and modifiers; the order of the decay products may differ. -/
inductive Conjugate (env : Env K) : Tree K → Tree K → Prop
  | node (d : Data K) (q : Props K) (ds cs ds' : List (Tree K)) : env.antiProps d.props = some q → ds.length = cs.length →
      (∀ (i : Nat) (t t' : Tree K), ds[i]? = some t → cs[i]? = some t' → Conjugate env t t') → ds'.Perm cs →
      Conjugate env (.node d ds) (.node { d with name := q.name, props := q, parity := q.parity } ds')

/-- The decay products are in an order in which all of them can be told apart; for antiparticles this is the order of the antiparticles of the decay products. -/
def ToldApart (env : Env K) (t : Tree K) : Prop :=
  (0 ≤ t.data.props.pdgID → t.daughters.Pairwise fun a b => a.lt b = true) ∧ (t.data.props.pdgID < 0 → ∃ cs, env.conjThisList t.daughters = some cs ∧ cs.Pairwise fun a b => a.lt b = true)

end AmpGen.Particle.Spec
