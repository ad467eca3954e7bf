import Verif.Rules.Model
import Verif.Coherent.Model
/-
Model of how a sum of amplitudes is put together from the rules of a model
(`getMatchingRules` of src/AmplitudeRules.cpp), and of the tables of fit fractions
(`fitFractions` of src/CoherentSum.cpp and src/PolarisedSum.cpp).
-/
namespace AmpGen.Assembly
open AmpGen.Strings AmpGen.PDG AmpGen.Particle AmpGen.Particle.Rules
open AmpGen.Coherent (ffVal)

variable {K : Type} [Field K] [LinearOrder K] {V : Type}

/-! ### Amplitudes of an event type -/

/-- The inner loop, src/AmplitudeRules.cpp:160-167: every expanded decay chain is built again from
its descriptor with the final state of the event type, and added unless its final state is not that
of the event type or there is one with the same descriptor already. -/
def addExpanded (env : Env K) (externals : List Str) :
    List (Particle.Tree K × List (Rule K V)) → List (Particle.Tree K × List (Rule K V)) → Option (List (Particle.Tree K × List (Rule K V)))
  | [], rt => some rt
  | (particle, coupling) :: expanded, rt => do
    let descriptor ← particle.uniqueString
    let p ← env.ofDescriptor descriptor
    let name ← p.uniqueString
    if (labels externals (p.finalState.map fun x => x.data.name)).2 &&
        !(rt.any fun x => decide (x.1.uniqueString = some name)) then
      addExpanded env externals expanded (rt ++ [(p, coupling)])
    else addExpanded env externals expanded rt

/-- The outer loop, src/AmplitudeRules.cpp:157-168. -/
def addRules (env : Env K) (order : List (Particle.Tree K) → List (Particle.Tree K)) (all : List (Rule K V)) (fuel : Nat)
    (externals : List Str) (pre : Str) :
    List (Rule K V) → List (Particle.Tree K × List (Rule K V)) → Option (List (Particle.Tree K × List (Rule K V)))
  | [], rt => some rt
  | rule :: rules, rt =>
    if rule.prefix_ ≠ pre then addRules env order all fuel externals pre rules rt
    else do
      let expanded ← expand env order all fuel rule
      let rt ← addExpanded env externals expanded rt
      addRules env order all fuel externals pre rules rt

/-- `AmplitudeRules::getMatchingRules`, src/AmplitudeRules.cpp:153-170. -/
def getMatchingRules (env : Env K) (order : List (Particle.Tree K) → List (Particle.Tree K)) (all : List (Rule K V)) (fuel : Nat)
    (mother : Str) (externals : List Str) (pre : Str) : Option (List (Particle.Tree K × List (Rule K V))) :=
  addRules env order all fuel externals pre (rulesForDecay all mother pre) []

/-! ### Tables of fit fractions -/

/-- What the tables use of a matrix element: the descriptor of its decay tree and the names of the
couplings it is multiplied with, AmpGen/MatrixElement.h, AmpGen/AmplitudeRules.h:63-83. -/
structure Element where
  descriptor : Str
  couplings : List Str

/-- What the tables use of a rule, AmpGen/AmplitudeRules.h:24-49. -/
structure Process where
  head : Str
  prefix_ : Str
  name : Str
deriving DecidableEq

/-- `TotalCoupling::contains`, src/AmplitudeRules.cpp:177-180. -/
def Element.contains (e : Element) (label : Str) : Bool := e.couplings.any fun c => (find c label 0).isSome

/-- `processIndex`, src/MatrixElement.cpp:34-41. -/
def processIndex (es : List Element) (label : Str) : List Nat :=
  (List.range es.length).filter fun i => match es[i]? with
    | some e => e.contains label
    | none => false

/-- `findIndices`, src/MatrixElement.cpp:77-84. -/
def findIndices (es : List Element) (decayDescriptor : Str) : List Nat :=
  (List.range es.length).filter fun i => match es[i]? with
    | some e => (find e.descriptor decayDescriptor 0).isSome
    | none => false

/-- A calculator of fit fractions, AmpGen/FitFraction.h:41-56. -/
structure Calculator where
  normSet : List Nat
  calculators : List (Str × List Nat × List Nat)

/-- The calculator for the decays of one particle, src/CoherentSum.cpp:150-157 and
src/PolarisedSum.cpp:437-444. -/
def fractionCalculator (es : List Element) (mother pre : Str) (rule : Str × List Process) : Calculator :=
  let normSet := findIndices es rule.1
  { normSet := normSet
    calculators := rule.2.foldl (fun acc process =>
      if process.head = mother ∧ process.prefix_ ≠ pre then acc
      else
        let numeratorIndices := processIndex es process.name
        if numeratorIndices.length = 0 ∨ numeratorIndices = normSet then acc
        else acc ++ [(process.name, numeratorIndices, numeratorIndices)]) [] }

/-- `rulesForDecay`, src/AmplitudeRules.cpp:97-105: without a prefix all rules are returned. -/
def headRules (rules : List (Str × List Process)) (mother pre : Str) : List Process :=
  match rules.find? fun r => decide (r.1 = mother) with
  | none => []
  | some r => if pre = [] then r.2 else r.2.filter fun p => decide (p.prefix_ = pre)

/-- Pairs `i < j` of the double loop, src/CoherentSum.cpp:164-171. -/
def pairLoop {α : Type} : List α → List (α × α)
  | [] => []
  | a :: l => l.map (fun b => (a, b)) ++ pairLoop l

/-- The calculator for interference fractions, src/CoherentSum.cpp:162-171. -/
def interferenceCalculator (es : List Element) (mother pre : Str) (rules : List (Str × List Process)) : Calculator :=
  { normSet := findIndices es mother
    calculators := (pairLoop (headRules rules mother pre)).map fun p =>
      (p.1.name ++ "x".toList ++ p.2.name, processIndex es p.1.name, processIndex es p.2.name) }

/-- The interference fractions of a polarised sum, src/PolarisedSum.cpp:454-466: processes without
amplitudes or with all of them are left out. -/
def polarisedInterference (es : List Element) (mother pre : Str) (rules : List (Str × List Process)) : Calculator :=
  let normSet := findIndices es mother
  let skip (p : Process) : Bool :=
    decide ((processIndex es p.name).length = 0) || decide (processIndex es p.name = normSet)
  { normSet := normSet
    calculators := ((pairLoop (headRules rules mother pre)).filter fun p => !skip p.1 && !skip p.2).map fun p =>
      (p.1.name ++ " ".toList ++ p.2.name, processIndex es p.1.name, processIndex es p.2.name) }

/-- A line of the table: name and value.  Simplification: without the error, which C38 is about. -/
abbrev Line := Str × ℝ

/-- The lines for one calculator, AmpGen/FitFraction.h:95-107: ordered by value, largest first,
followed by the sum.  Simplification: `std::sort` and `std::reverse` are a stable sort; lines with
equal values may come in another order. -/
noncomputable def lines (coef : Nat → ℂ) (norm : Nat → Nat → ℂ) (name : Str) (c : Calculator) : List Line :=
  let vs := c.calculators.map fun k => (k.1, ffVal coef norm c.normSet k.2.1 k.2.2)
  letI : DecidableRel fun a b : Line => a.2 ≥ b.2 := fun _ _ => Classical.propDecidable _
  vs.insertionSort (fun a b => a.2 ≥ b.2) ++ [("Sum_".toList ++ name, (vs.map fun l => l.2).foldl (· + ·) 0)]

/-- `CoherentSum::fitFractions`, src/CoherentSum.cpp:142-177: a block for every particle with rules
that has entries, followed by the interference fractions. -/
noncomputable def fitFractions (coef : Nat → ℂ) (norm : Nat → Nat → ℂ) (es : List Element) (mother pre : Str)
    (rules : List (Str × List Process)) : List Line :=
  (rules.flatMap fun rule =>
    let c := fractionCalculator es mother pre rule
    if c.calculators.length = 0 then [] else lines coef norm rule.1 c) ++
  lines coef norm (mother ++ "_interference".toList) (interferenceCalculator es mother pre rules)

end AmpGen.Assembly
