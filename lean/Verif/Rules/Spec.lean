import Verif.Rules.Model
import Verif.Particle.LemmasItems
import Verif.Particle.Spec
import Verif.Particle.Samples
/-
What the expansion of amplitudes should give.
-/
namespace AmpGen.Particle.Rules.Spec
open AmpGen.Strings AmpGen.PDG AmpGen.Particle AmpGen.Particle.Spec AmpGen.Particle.Rules

variable {K : Type} [Field K] [LinearOrder K] {V : Type}

mutual
/-- A cascade: the tree `t`, in which some particles of the final state decay according to the rules, the products of these decays too, and so on. With the rules that are used. -/
inductive Cascade (rules : List (Rule K V)) : Tree K → Tree K → List (Rule K V) → Prop
  | stop (d : Data K) : Cascade rules (.node d []) (.node d []) []
  | decay (d : Data K) (r : Rule K V) (u : Tree K) (cs : List (Rule K V)) : r ∈ rules → r.particle.data.name = d.name → Cascade rules r.particle u cs → Cascade rules (.node d []) u (r :: cs)
  | node (d : Data K) (t : Tree K) (ts us : List (Tree K)) (cs : List (Rule K V)) : Cascades rules (t :: ts) us cs → Cascade rules (.node d (t :: ts)) (.node d us) cs
/-- The same for the decay products. -/
inductive Cascades (rules : List (Rule K V)) : List (Tree K) → List (Tree K) → List (Rule K V) → Prop
  | nil : Cascades rules [] [] []
  | cons (t u : Tree K) (ts us : List (Tree K)) (cs cs' : List (Rule K V)) : Cascade rules t u cs → Cascades rules ts us cs' → Cascades rules (t :: ts) (u :: us) (cs ++ cs')
end

/-- There are no rules for the particles of the final state. -/
inductive Complete (rules : List (Rule K V)) : Tree K → Prop
  | leaf (d : Data K) : (∀ r ∈ rules, r.particle.data.name ≠ d.name) → Complete rules (.node d [])
  | node (d : Data K) (ds : List (Tree K)) : ds ≠ [] → (∀ t ∈ ds, Complete rules t) → Complete rules (.node d ds)

/-- The same decay tree up to the order of the decay products and modifiers without effect: the particles agree in everything but the list of modifiers, of which the flags and the settings agree. -/
inductive Alike : Tree K → Tree K → Prop
  | node (d : Data K) (mods : List Str) (ds cs ds' : List (Tree K)) :
      (∀ s ∈ ["BgSpin0", "Inco", "NoSym"], s.toList ∈ mods ↔ s.toList ∈ d.modifiers) →
      mods.filter (fun m => decide ('=' ∈ m)) = d.modifiers.filter (fun m => decide ('=' ∈ m)) →
      ds.length = cs.length → (∀ (i : Nat) (t t' : Tree K), ds[i]? = some t → cs[i]? = some t' → Alike t t') → cs.Perm ds' →
      Alike (.node d ds) (.node { d with modifiers := mods } ds')

/-- The text of the particle in a descriptor, its name and modifiers, contains the text `n`. -/
def Mentions (n : Str) (d : Data K) : Prop := ∃ m, modifierString d = some m ∧ n <:+: d.name ++ m

/-- Every particle with rules is mentioned once at most. -/
def Once (rules : List (Rule K V)) (t : Tree K) : Prop := ∀ r ∈ rules, t.nodes.Pairwise fun d e => ¬ (Mentions r.particle.data.name d ∧ Mentions r.particle.data.name e)

/-- The particles of the final state that have rules come without modifiers. -/
inductive Bare (rules : List (Rule K V)) : Tree K → Prop
  | leaf (d : Data K) : (∀ r ∈ rules, r.particle.data.name = d.name → modifierString d = some []) → Bare rules (.node d [])
  | node (d : Data K) (ds : List (Tree K)) : ds ≠ [] → (∀ t ∈ ds, Bare rules t) → Bare rules (.node d ds)

/-- A rule for which the text of the rule is a descriptor of a decay, in which the particle that decays is mentioned only as such and is not a nonresonant state, and the particles of which are all found in the database and can be
written with their modifiers. -/
structure Proper (env : Env K) (r : Rule K V) : Prop where
  shape : Shape '{' '}' ',' r.name
  reads : env.ofDescriptor r.name = some r.particle
  decays : r.particle.daughters ≠ []
  resonant : isNonRes r.particle.data.name = false
  fresh : ¬ r.particle.data.name <:+: r.name.drop r.particle.data.name.length
  name : r.particle.data.name ≠ []
  consistent : ∀ d, Has r.particle d → Consistent env.db d.name
  writable : ∀ d, Has r.particle d → Writable env d ∧ ∃ m, modifierString d = some m

end AmpGen.Particle.Rules.Spec
