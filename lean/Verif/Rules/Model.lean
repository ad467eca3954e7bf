import Verif.Particle.Model
/-
Model of the rules for amplitudes, src/AmplitudeRules.cpp.

Simplifications: a coupling is its prefix, its name, its particle and its value; whether the value comes from two parameters or an expression does not matter here. The map from names to vectors of rules is the list of
all rules in the order in which they were added. `std::sort` of particles that all have the same index gives them in an order that is not specified: it is an argument.
-/
namespace AmpGen.Particle.Rules
open AmpGen.Strings AmpGen.PDG AmpGen.Particle

variable {K : Type} [Field K] [LinearOrder K] {V : Type}

/-- `Coupling`, AmpGen/AmplitudeRules.h:24-49. -/
structure Rule (K V : Type) where
  prefix_ : Str
  name : Str
  particle : Tree K
  value : V

/-- The prefix and the name of a coupling from the name of its parameter, src/AmplitudeRules.cpp:25-35; nothing when the name is ill-formed, in which case an error is printed and the name stays empty. -/
def splitName (name : Str) : Option (Str × Str) :=
  match split name '_' true with
  | [a, b, _] => some (a, b)
  | [a, _] => some ([], a)
  | _ => none

/-- `Coupling::head`, AmpGen/AmplitudeRules.h:31. -/
def Rule.head (r : Rule K V) : Str := r.particle.data.name

/-- `AmplitudeRules::rulesForDecay` without prefix, src/AmplitudeRules.cpp:97-100, and the insertion of rules, lines 70, 79, 234. -/
def rulesFor (rules : List (Rule K V)) (head : Str) : List (Rule K V) := rules.filter fun r => decide (r.head = head)

/-- `AmplitudeRules::rulesForDecay`, src/AmplitudeRules.cpp:97-105. -/
def rulesForDecay (rules : List (Rule K V)) (head pre : Str) : List (Rule K V) := if pre = [] then rulesFor rules head else (rulesFor rules head).filter fun r => decide (r.prefix_ = pre)

/-- `AmplitudeRules::hasDecay`, src/AmplitudeRules.cpp:92-95: names are in the map only with rules. -/
def hasDecay (rules : List (Rule K V)) (head : Str) : Bool := !(rulesFor rules head).isEmpty

/-- `canExpand`, src/AmplitudeRules.cpp:206-210. -/
def canExpand (rules : List (Rule K V)) (t : Tree K) : Bool := t.finalState.any fun x => hasDecay rules x.data.name

/-- `TotalCoupling::operator()`, src/AmplitudeRules.cpp:137-140. -/
def totalValue [Mul V] [One V] (cs : List (Rule K V)) : V := cs.foldl (fun prod c => prod * c.value) 1

/-- One particle of the loop, src/AmplitudeRules.cpp:216-225. `order` is the order of the final state particles, `fuel` bounds the loop of `replaceAll`. -/
def expandOne (env : Env K) (order : List (Tree K) → List (Tree K)) (rules : List (Rule K V)) (fuel : Nat) (x : Tree K × List (Rule K V)) : Option (List (Tree K × List (Rule K V))) :=
  if !canExpand rules x.1 then some [x]
  else do
    let nameToExpand ← x.1.uniqueString
    let it ← (order x.1.finalState).find? fun y => hasDecay rules y.data.name
    (rulesFor rules it.data.name).mapM fun subTree => do
      let expanded ← replaceAll fuel nameToExpand it.data.name subTree.name
      let p ← env.ofDescriptor expanded
      return (p, x.2 ++ [subTree])

/-- The loop, src/AmplitudeRules.cpp:212-228. -/
def expandLoop (env : Env K) (order : List (Tree K) → List (Tree K)) (rules : List (Rule K V)) : Nat → List (Tree K × List (Rule K V)) → Option (List (Tree K × List (Rule K V)))
  | 0, _ => none
  | fuel + 1, rt => do
    let new ← rt.mapM (expandOne env order rules (fuel + 1))
    if new.flatten.any fun x => canExpand rules x.1 then expandLoop env order rules fuel new.flatten else some new.flatten

/-- `AmplitudeRules::expand`, src/AmplitudeRules.cpp:201-230. -/
def expand (env : Env K) (order : List (Tree K) → List (Tree K)) (rules : List (Rule K V)) (fuel : Nat) (coupling : Rule K V) : Option (List (Tree K × List (Rule K V))) :=
  expandLoop env order rules fuel [(coupling.particle, [coupling])]

end AmpGen.Particle.Rules
