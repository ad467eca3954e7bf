import Mathlib.Algebra.Order.Field.Basic
/-
Model of AmpGen/Generator.h, the generation of events by accepting and rejecting proposals, for `EventList` as the type of all lists of events.

Simplifications: numbers are those of an ordered field `K`, and `none` is NaN; infinite numbers are not modelled, and a quotient by zero is NaN. The state of the random number generator, which the
phase space generator shares, is an arbitrary value of a type `σ`. The density is a function of the data of an event, with fixed parameters. Clocks and progress bars are left out.
-/
namespace AmpGen.Generator

variable {K σ : Type} [Field K] [LinearOrder K]

/-- `a > b` for numbers that may be NaN. -/
def gt : Option K → Option K → Bool
  | some a, some b => decide (b < a)
  | _, _ => false

/-- `a / b` for numbers that may be NaN. -/
def quot : Option K → Option K → Option K
  | some a, some b => if b = 0 then none else some (a / b)
  | _, _ => none

/-- `Event`, AmpGen/Event.h:59-62. -/
structure Event (K : Type) where
  data : List K
  genPdf : Option K
  weight : K
  index : Nat
deriving DecidableEq

/-- The phase space generator: `PhaseSpace`, whose `fill` writes the data of an event, or another type, whose `makeEvent` returns an event, AmpGen/Generator.h:55-70. -/
inductive PhaseSpace (K σ : Type) where
  | phaseSpace (fill : σ → List K × σ)
  | other (makeEvent : σ → Event K × σ)

/-- `EventList::resize` on an empty list, src/EventList.cpp:240-247; `n` is the number of particles. -/
def resize (n : Nat) (size : Nat) : List (Event K) := (List.range size).map fun i => ⟨List.replicate (4 * n) 0, some 1, 1, i⟩

/-- `Generator::fillEventListPhaseSpace`, AmpGen/Generator.h:53-71, where the number of events is the size of the list, as it is in all calls. -/
def fillEventListPhaseSpace (gps : PhaseSpace K σ) : List (Event K) → σ → List (Event K) × σ
  | [], s => ([], s)
  | e :: es, s =>
    let (e, s) := match gps with
      | .phaseSpace fill => let (d, s) := fill s; ({ e with data := d }, s)
      | .other makeEvent => makeEvent s
    let (es, s) := fillEventListPhaseSpace gps es s
    (e :: es, s)

/-- `Generator::getMax`, AmpGen/Generator.h:73-88. -/
def getMax (events : List (Event K)) : K :=
  events.foldl (fun (max : K) (evt : Event K) => match evt.genPdf with
    | none => max
    | some value => if value > max then value else max) 0

/-- The evaluation of the density for all events of a block, AmpGen/Generator.h:118-121. -/
def evaluate (pdf : List K → Option K) (mc : List (Event K)) : List (Event K) := mc.map fun e => { e with genPdf := quot (pdf e.data) e.genPdf }

/-- `EventList::push_back`, src/EventList.cpp:249-253, and `setGenPdf` on the last event, AmpGen/Generator.h:137-138. -/
def push (pdf : List K → Option K) (list : List (Event K)) (event : Event K) : List (Event K) :=
  list ++ [{ event with index := list.length, genPdf := pdf event.data }]

/-- The state of the loop over events: the list that is filled, the random number generator, the report of accepted events and the events printed in warnings. -/
structure State (K σ : Type) where
  list : List (Event K)
  rnd : σ
  report : List Bool
  warned : List (Event K)

/-- `efficiencyReport[i] = b`; `none` when it is out of range. -/
def mark (report : List Bool) (i : Nat) (b : Bool) : Option (List Bool) := if i < report.length then some (report.set i b) else none

/-- The test for accepting an event, AmpGen/Generator.h:136. -/
def accepted (genPdf : Option K) (maxProb u : K) : Bool := gt genPdf (some (maxProb * u))

/-- The loop over the events of a block, AmpGen/Generator.h:129-143. -/
def scan (rndm : σ → K × σ) (pdf : List K → Option K) (maxProb : K) (size0 N : Nat) : List (Event K) → State K σ → Option (State K σ)
  | [], st => some st
  | event :: es, st => do
    let st := if gt event.genPdf (some maxProb) then { st with warned := st.warned ++ [event] } else st
    let (u, s) := rndm st.rnd
    let st := { st with rnd := s }
    let st ← if accepted event.genPdf maxProb u then do
        let report ← mark st.report event.index true
        some { st with list := push pdf st.list event, report := report }
      else do
        let report ← mark st.report event.index false
        some { st with report := report }
    if st.list.length - size0 = N then some st else scan rndm pdf maxProb size0 N es st

/-- The loop over blocks, AmpGen/Generator.h:105-152; `fuel` bounds the number of blocks. -/
def blocks (gps : PhaseSpace K σ) (rndm : σ → K × σ) (pdf : List K → Option K) (nParticles generatorBlock size0 N : Nat) : Nat → K → State K σ → Option (State K σ)
  | 0, _, st => if st.list.length - size0 < N then none else some st
  | fuel + 1, maxProb, st =>
    if st.list.length - size0 < N then do
      let (mc, s) := fillEventListPhaseSpace gps (resize nParticles generatorBlock) st.rnd
      let previousSize := st.list.length
      let mc := evaluate pdf mc
      let maxProb := if maxProb = 0 then 3 / 2 * getMax mc else maxProb
      let st ← scan rndm pdf maxProb size0 N mc { st with rnd := s }
      if st.list.length = previousSize then some st
      else blocks gps rndm pdf nParticles generatorBlock size0 N fuel maxProb st
    else some st

/-- `Generator::fillEventList`, AmpGen/Generator.h:90-160; `rndm` is `none` for a null pointer. The bound on the number of blocks is shown to be sufficient. -/
def fillEventList (gps : PhaseSpace K σ) (rndm : Option (σ → K × σ)) (normalise : Bool) (nParticles generatorBlock : Nat) (pdf : List K → Option K)
    (list : List (Event K)) (N : Nat) (s : σ) : Option (State K σ) :=
  match rndm with
  | none => some ⟨list, s, [], []⟩
  | some rndm => blocks gps rndm pdf nParticles generatorBlock list.length N N (if normalise then 0 else 1) ⟨list, s, List.replicate generatorBlock false, []⟩

/-- The copy to the list that is returned, `emplace_back`, src/EventList.cpp:255-259, AmpGen/Generator.h:167. -/
def copy (evts : List (Event K)) : List (Event K) := evts.foldl (fun (output : List (Event K)) (event : Event K) => output ++ [{ event with index := output.length }]) []

/-- `Generator::generate( pdf, nEvents )`, AmpGen/Generator.h:161-169. -/
def generate (gps : PhaseSpace K σ) (rndm : Option (σ → K × σ)) (normalise : Bool) (nParticles generatorBlock : Nat) (pdf : List K → Option K) (N : Nat) (s : σ) : Option (List (Event K)) :=
  (fillEventList gps rndm normalise nParticles generatorBlock pdf [] N s).map fun st => copy st.list

/-- `Generator::generate( nEvents )`, AmpGen/Generator.h:170-178. -/
def generatePhaseSpace (gps : PhaseSpace K σ) (nParticles N : Nat) (s : σ) : List (Event K) := copy (fillEventListPhaseSpace gps (resize nParticles N) s).1

end AmpGen.Generator
