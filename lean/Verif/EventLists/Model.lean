import Mathlib.Data.Real.Archimedean
import Mathlib.Algebra.Order.Floor.Ring
/-
Model of the operations on lists of events, AmpGen/EventList.h and src/EventList.cpp (reading and writing of files is in Verif/EventType/Model.lean, histograms are
in Verif/Plots/Model.lean).

Simplifications: numbers are real; what an event holds besides its weight, density and index is of any type `D`; capacities are left out.  Undefined behaviour
has no result (`none`).
-/
namespace AmpGen.EventLists

variable {D : Type}

/-- The data members of `Event`, AmpGen/Event.h:65-68. -/
@[ext] structure Event (D : Type) where
  data : D
  genPdf : ℝ
  weight : ℝ
  index : Nat

/-- A new event, AmpGen/Event.h:65-68. -/
def Event.fresh (d : D) : Event D := ⟨d, 1, 1, 0⟩

/-- `Event::setIndex`, AmpGen/Event.h:55. -/
def Event.setIndex (e : Event D) (i : Nat) : Event D := { e with index := i }

/-- `push_back`, src/EventList.cpp:249-253, and `emplace_back`, src/EventList.cpp:255-259: the last event gets its index after it was appended. -/
def pushBack (l : List (Event D)) (e : Event D) : List (Event D) :=
  let l := l ++ [e]
  l.modify (l.length - 1) fun e => e.setIndex (l.length - 1)

/-- The loop of `add`, src/EventList.cpp:217-221, from event `i` of the other list on. -/
def addLoop (s0 : Nat) : List (Event D) → Nat → List (Event D) → List (Event D)
  | [], _, l => l
  | e :: es, i, l => addLoop s0 es (i + 1) (l.set (s0 + i) (e.setIndex (s0 + i)))

/-- `add`, src/EventList.cpp:213-222, of another list; `none0` are the contents of `Event()`. -/
def add (none0 : D) (l evts : List (Event D)) : List (Event D) :=
  let s0 := l.length
  addLoop s0 evts 0 (l ++ List.replicate evts.length (Event.fresh none0))

/-- `add` of the list itself, src/EventList.cpp:213-222: after the list has been enlarged, `evts.size()` is twice the old size, and the loop goes on behind the end of
the list. -/
def addSelf (l : List (Event D)) : Option (List (Event D)) :=
  let s0 := l.length
  let size := s0 + s0
  if s0 + size ≤ size then some l else none

/-- `resize`, src/EventList.cpp:240-247; `zero` are the contents of `Event( 4 * m_eventType.size() )`. -/
def resize (zero : D) (n : Nat) : List (Event D) := (List.range n).map fun i => (Event.fresh zero).setIndex i

/-- `erase`, src/EventList.cpp:229-233, of the events from position `a` to before `b`. -/
def erase (l : List (Event D)) (a b : Nat) : Option (List (Event D)) :=
  if a ≤ b ∧ b ≤ l.length then some (l.take a ++ l.drop b) else none

/-- `std::remove_if` and `erase`: the loop keeps the events for which the function is false. -/
def removeIf (f : Event D → Bool) : List (Event D) → List (Event D)
  | [] => []
  | e :: l => if f e then removeIf f l else e :: removeIf f l

/-- `filter`, AmpGen/EventList.h:143-148. -/
def filter (l : List (Event D)) (f : Event D → Bool) : List (Event D) := removeIf f l

/-- `transform`, AmpGen/EventList.h:137-141. -/
def transform (l : List (Event D)) (f : Event D → Event D) : List (Event D) := l.map f

/-- `count`, AmpGen/EventList.h:150-153. -/
def count (l : List (Event D)) (f : Event D → Bool) : Nat := l.foldl (fun n e => if f e then n + 1 else n) 0

/-- `setWeight`, AmpGen/EventList.h:98-102; the density is one if it is not given. -/
def setWeight (l : List (Event D)) (pos : Nat) (w : ℝ) (g : Option ℝ) : Option (List (Event D)) :=
  if pos < l.length then some (l.modify pos fun e => { e with weight := w, genPdf := g.getD 1 }) else none

/-- `setGenPDF`, AmpGen/EventList.h:103-106. -/
def setGenPDF (l : List (Event D)) (pos : Nat) (g : ℝ) : Option (List (Event D)) :=
  if pos < l.length then some (l.modify pos fun e => { e with genPdf := g }) else none

/-- The conversion of a `double` to `int`: towards zero, undefined outside the range of an `int`. -/
noncomputable def toInt (x : ℝ) : Option ℤ :=
  open Classical in
  let n := if 0 ≤ x then ⌊x⌋ else ⌈x⌉
  if -(2 ^ 31) ≤ n ∧ n < 2 ^ 31 then some n else none

/-- `integral`, src/EventList.cpp:208-211: the initial value of the sum is the literal `0`, and so the sum is an `int`. -/
noncomputable def integralFrom : ℤ → List (Event D) → Option ℤ
  | rv, [] => some rv
  | rv, e :: l => (toInt (rv + e.weight)).bind fun rv => integralFrom rv l

/-- `integral`, src/EventList.cpp:208-211. -/
noncomputable def integral (l : List (Event D)) : Option ℝ := (integralFrom 0 l).map fun n : ℤ => (n : ℝ)

/-- The value of an event in a table with one entry per event, as `event.index()` is used in AmpGen/Utilities.h:171, src/CoherentSum.cpp:290-297,
src/IncoherentSum.cpp:94-101 and src/PolarisedSum.cpp:257. -/
def lookUp {V : Type} (table : List V) (e : Event D) : Option V := table[e.index]?

/-- A call of a member function that changes the list. -/
inductive Op (D : Type) where
  | pushBack (e : Event D)
  | add (l : List (Event D))
  | clear
  | resize (n : Nat)
  | transform (f : Event D → Event D)
  | setWeight (pos : Nat) (w : ℝ) (g : Option ℝ)
  | setGenPDF (pos : Nat) (g : ℝ)
  | erase (a b : Nat)
  | filter (f : Event D → Bool)

/-- One call; `clear` is src/EventList.cpp:224-227. -/
def step (none0 zero : D) (l : List (Event D)) : Op D → Option (List (Event D))
  | .pushBack e => some (EventLists.pushBack l e)
  | .add l' => some (EventLists.add none0 l l')
  | .clear => some []
  | .resize n => some (EventLists.resize zero n)
  | .transform f => some (EventLists.transform l f)
  | .setWeight pos w g => EventLists.setWeight l pos w g
  | .setGenPDF pos g => EventLists.setGenPDF l pos g
  | .erase a b => EventLists.erase l a b
  | .filter f => some (EventLists.filter l f)

/-- A history of calls on an empty list. -/
def run (none0 zero : D) (ops : List (Op D)) : Option (List (Event D)) := ops.foldlM (step none0 zero) []

end AmpGen.EventLists
