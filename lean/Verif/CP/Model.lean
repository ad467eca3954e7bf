import Verif.Particle.Model
import Mathlib.Data.Complex.Basic
import Mathlib.Analysis.Complex.Trigonometric
/-
Model of CP conjugation: the signs of decays under C and P (src/Particle.cpp:749-761, 876-888), the parameters of conjugate processes (src/AddCPConjugate.cpp), the values
of couplings (src/AmplitudeRules.cpp:131-149), and the comparison of decay chains (src/Particle.cpp:853-874) with its use to find channels (src/Lineshapes/GenericKmatrix.cpp:27-37).

Simplifications: decay trees are those of `Verif.Particle`, where a crash or an unknown particle has no result (`none`).  A parameter of a fit is its name with its value as
a function of the state, that is of the values of the free parameters: an expression that refers to other parameters follows them.  Numbers are real and complex.
-/
namespace AmpGen.CP
open AmpGen.Strings AmpGen.PDG AmpGen.Particle

variable {K : Type} [Field K] [LinearOrder K]

/-- The number (−1)^f of the code: `f % 2 == 0 ? 1 : -1`, src/Particle.cpp:755. -/
def sign (f : Int) : Int := if f.tmod 2 = 0 then 1 else -1

/-- `Particle::finalStateParity`, src/Particle.cpp:749-762.  Spins are half integers, and their sum is converted to `int`; (−1)^J has no value for half integers. -/
def finalStateParity : Particle.Tree K → Option Int
  | .node _ [] => some 1
  | .node _ [a] => finalStateParity a
  | .node d [a, b] =>
    let f := (d.props.twoSpin - (2 * (d.orbital : Int) + a.data.props.twoSpin + b.data.props.twoSpin)).tdiv 2
    (finalStateParity a).bind fun p => (finalStateParity b).map fun q => sign f * p * q
  | .node d (_ :: _ :: _ :: _) => if d.props.twoSpin.tmod 2 = 0 then some (sign (d.props.twoSpin.tdiv 2)) else none

mutual
/-- `Particle::C`, src/Particle.cpp:882-888. -/
def chargeParity : Particle.Tree K → Int
  | .node _ [] => 1
  | .node _ [a] => chargeParity a
  | .node _ (a :: b :: ds) =>
    (if a.data.props.cparity = 0 then 1 else a.data.props.cparity) * chargeParity a *
      ((if b.data.props.cparity = 0 then 1 else b.data.props.cparity) * chargeParity b * chargeParities ds)
/-- The product in the loop of line 886. -/
def chargeParities : List (Particle.Tree K) → Int
  | [] => 1
  | t :: ts => (if t.data.props.cparity = 0 then 1 else t.data.props.cparity) * chargeParity t * chargeParities ts
end

/-- `Particle::CP`, src/Particle.cpp:877-880. -/
def cp (t : Particle.Tree K) : Option Int := (finalStateParity t).map fun p => chargeParity t * p

noncomputable section

/-- A parameter of the set: its name and its value, as a function of the state.  Parameters that are not expressions have a real value. -/
structure Param (S : Type) where
  name : Str
  val : S → ℂ

/-- `MinuitParameter::mean`, and `MinuitExpression::mean`, src/MinuitExpression.cpp:26. -/
def Param.mean {S : Type} (p : Param S) (s : S) : ℝ := (p.val s).re

/-- An expression that is a number times a parameter: `MinuitParameterLink::operator()`, src/ExpressionParser.cpp:265-269, gives `mean`. -/
def link {S : Type} (name : Str) (sgn : Int) (p : Param S) : Param S := ⟨name, fun s => (sgn : ℂ) * (p.mean s : ℂ)⟩

end

/-- The test of one name in `isValidDecayDescriptor`, src/Particle.cpp:135-151; `first` says whether it is the first. -/
def validToken (env : Env K) (first : Bool) (token : Str) : Bool :=
  if token = "_Re".toList ∨ token = "_Im".toList then true
  else if '_' ∈ token ∧ first = true then (env.db.find (((token.dropWhile fun c => c ≠ '_').drop 1).takeWhile fun c => c ≠ '[')).isSome
  else (env.db.find (token.takeWhile fun c => c ≠ '[')).isSome

/-- `Particle::isValidDecayDescriptor`, src/Particle.cpp:124-154. -/
def isValidDecayDescriptor (env : Env K) (s : Str) : Bool :=
  if s.count '{' = 0 ∨ s.count '{' ≠ s.count '}' then false
  else (splitDelims s ['{', '}', ','] false).zipIdx.all fun x => validToken env (x.2 == 0) x.1

section
variable {S : Type}

/-- What `AddCPConjugate` makes of one parameter, src/AddCPConjugate.cpp:21-67: nothing, or a parameter to be added.  `coords` is the option
`CouplingConstant::Coordinates`, `forbidden` the option `AddCPConjugate::Forbid`. -/
noncomputable def conjugateParam (env : Env K) (coords : Str) (forbidden : List Str) (p : Param S) : Option (Option (Param S)) :=
  match find p.name "::".toList 0 with
  | some pos =>
    match env.db.find (p.name.take pos) with
    | some props => some (some (link (props.anti.name ++ p.name.drop pos) 1 p))
    | none => some none
  | none =>
    let tokens := split p.name '_' true
    match tokens.head?, tokens.getLast? with
    | some pname, some reOrIm =>
      if tokens.length = 1 ∧ isValidDecayDescriptor env pname = true then
        (env.ofDescriptor pname).bind fun particle =>
        if forbidden.count particle.data.name = 0 then
          (env.conj true true true particle).bind fun conj => conj.uniqueString.map fun name =>
            some ⟨name, fun s => (starRingEnd ℂ) (p.mean s : ℂ)⟩
        else some none
      else if reOrIm = "Re".toList ∨ reOrIm = "Im".toList then
        (env.ofDescriptor pname).bind fun particle =>
        if forbidden.count particle.data.name ≠ 0 then some none
        else (env.conj true true true particle).bind fun test =>
          if test.data.props.hasDistinctAnti = false then some none
          else
            (if coords = "polar".toList then (if reOrIm = "Re".toList then cp test else some 1) else if coords = "cartesian".toList then cp test else some 1).bind
              fun sgn => test.uniqueString.map fun name => some (link (name ++ "_".toList ++ reOrIm) sgn p)
      else if tokens.length = 2 then
        match env.db.find pname with
        | some props => some (some (link (props.anti.name ++ "_".toList ++ reOrIm) 1 p))
        | none => some (some (link [] 1 p))
      else some (some (link [] 1 p))
    | _, _ => none

/-- The loop that adds the parameters with new names, src/AddCPConjugate.cpp:68-71. -/
def addNew (mps : List (Param S)) : List (Param S) → List (Param S)
  | [] => mps
  | p :: ps => addNew (if mps.any fun q => decide (q.name = p.name) then mps else mps ++ [p]) ps

/-- `AddCPConjugate`, src/AddCPConjugate.cpp:15-72. -/
noncomputable def addCPConjugate (env : Env K) (coords : Str) (forbidden : List Str) (mps : List (Param S)) : Option (List (Param S)) :=
  (mps.mapM (conjugateParam env coords forbidden)).map fun tmp => addNew mps (tmp.filterMap id)

end

/-- `Coupling::operator()` for a pair of parameters, src/AmplitudeRules.cpp:131-134; `sf` is π/180 for angles in degrees. -/
noncomputable def couplingValue (isCartesian : Bool) (sf re im : ℝ) : ℂ :=
  if isCartesian then ⟨re, im⟩ else (re : ℂ) * Complex.exp (Complex.I * sf * im)

/-- `TotalCoupling::operator()`, src/AmplitudeRules.cpp:141-144. -/
noncomputable def totalCoupling (cs : List ℂ) : ℂ := cs.foldl (fun prod c => prod * c) 1

/-! ### Comparison of decay chains -/

/-- What `matches` sees of a decay chain: names, angular momenta and polarisations. -/
inductive Chain where
  | node (name : Str) (orbital : Nat) (polState : Int) (ds : List Chain)

/-- `Particle::MatchState`, AmpGen/Particle.h:280-287. -/
def mNone : Nat := 1
def mExact : Nat := 2
def mPartialExpansion : Nat := 4
def mDifferentOrbital : Nat := 8
def mDifferentPolarisation : Nat := 16

/-- The end of `matches`, src/Particle.cpp:868-873, with `~Exact` in 32 bits. -/
def matchEnd (L L' : Nat) (pol pol' : Int) (rt : Nat) : Nat :=
  let rt := if L ≠ L' then rt ||| mDifferentOrbital else rt
  let rt := if pol ≠ pol' then rt ||| mDifferentPolarisation else rt
  let rt := if rt = 0 then mExact else rt
  if rt &&& mExact ≠ 0 ∧ rt ≠ mExact then rt &&& 4294967293 else rt

mutual
/-- `Particle::matches`, src/Particle.cpp:853-874. -/
def matchChain : Chain → Chain → Nat
  | .node n L pol ds, .node n' L' pol' ds' =>
    if n ≠ n' then mNone
    else if (ds'.length = 0 ∧ ds.length ≠ 0) ∨ (ds'.length ≠ 0 ∧ ds.length = 0) then mPartialExpansion
    else if ds'.length ≠ ds.length then mNone
    else match matchList ds ds' 0 with
      | none => mNone
      | some rt => matchEnd L L' pol pol' rt
/-- The loop over the daughters, src/Particle.cpp:861-866; `none` is the return in line 864. -/
def matchList : List Chain → List Chain → Nat → Option Nat
  | d :: ds, d' :: ds', rt => if matchChain d d' = 0 then none else matchList ds ds' (rt ||| matchChain d d')
  | _, _, rt => some rt
end

/-- `find_channel_index`, src/Lineshapes/GenericKmatrix.cpp:27-37; `none` when the particle is not found. -/
def findChannelIndex (particle : Chain) : List Chain → Option Nat
  | [] => none
  | c :: cs => if matchChain particle c = mExact then some 0 else (findChannelIndex particle cs).map (· + 1)

end AmpGen.CP
