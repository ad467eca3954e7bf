import Verif.Assembly.Model
import Verif.Coherent.Spec
/-
What the amplitudes of an event type and the tables of fit fractions should be.
-/
namespace AmpGen.Assembly
open AmpGen.Strings AmpGen.PDG AmpGen.Particle AmpGen.Particle.Rules
open AmpGen.Coherent (ffVal ffNorm)

variable {K : Type} [Field K] [LinearOrder K] {V : Type}

/-- A decay chain built again from its descriptor, with its couplings. -/
def rebuild (env : Env K) (x : Particle.Tree K × List (Rule K V)) : Option (Particle.Tree K × List (Rule K V)) := do
  let descriptor ← x.1.uniqueString
  let p ← env.ofDescriptor descriptor
  let _ ← p.uniqueString
  return (p, x.2)

/-- The final state of the chain covers that of the event type. -/
def covers (externals : List Str) (x : Particle.Tree K × List (Rule K V)) : Bool :=
  (labels externals (x.1.finalState.map fun y => y.data.name)).2

/-- All expansions of all rules for the decay of the mother with the prefix asked for, that have the
final state of the event type. -/
def candidates (env : Env K) (order : List (Particle.Tree K) → List (Particle.Tree K)) (all : List (Rule K V))
    (fuel : Nat) (mother : Str) (externals : List Str) (pre : Str) : Option (List (Particle.Tree K × List (Rule K V))) := do
  let expanded ← (all.filter fun r => decide (r.head = mother) && decide (r.prefix_ = pre)).mapM (expand env order all fuel)
  let rebuilt ← expanded.flatten.mapM (rebuild env)
  return rebuilt.filter (covers externals)

/-- `rt` has the first of the elements of `all` for every value of `key`, in the order of `all`. -/
def Firsts {α β : Type} (key : α → β) (all rt : List α) : Prop :=
  rt.Sublist all ∧ (rt.map key).Nodup ∧ (∀ x ∈ all, key x ∈ rt.map key) ∧
    ∀ y ∈ rt, ∃ a b, all = a ++ y :: b ∧ key y ∉ a.map key

/-- The amplitude of an event type: sum over chains of the product of the couplings times the
amplitude of the chain. -/
def totalAmplitude [CommSemiring V] (amp : Option Str → V) (l : List (Particle.Tree K × List (Rule K V))) : V :=
  (l.map fun x => (x.2.map fun c => c.value).prod * amp x.1.uniqueString).sum

/-- Element `i` is multiplied with a coupling whose name contains the name of the process. -/
def Uses (es : List Element) (i : Nat) (process : Str) : Prop :=
  ∃ e, es[i]? = some e ∧ ∃ c ∈ e.couplings, process <:+: c

/-- The descriptor of element `i` contains the name of the particle. -/
def Mentions (es : List Element) (i : Nat) (particle : Str) : Prop :=
  ∃ e, es[i]? = some e ∧ particle <:+: e.descriptor

/-- `l` is the increasing list of the numbers with a property. -/
def Lists (l : List Nat) (P : Nat → Prop) : Prop := l.Pairwise (· < ·) ∧ ∀ i, i ∈ l ↔ P i

end AmpGen.Assembly
