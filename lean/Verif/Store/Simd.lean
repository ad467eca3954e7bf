import Verif.Store.Model
import Mathlib.Algebra.Group.Defs
import Mathlib.Algebra.Notation.Defs
/-
Model of event lists stored in blocks of `W` lanes (src/EventListSIMD.cpp,
AmpGen/EventListSIMD.h, AmpGen/simd/iterator.h, AmpGen/simd/utils.h).

Every function takes a value `poison`, which is what an out of bounds read returns:
a theorem that holds for every `poison` does not depend on such a read.
-/
namespace AmpGen.Store

variable {K : Type} [Zero K] [One K] [DecidableEq K]

/-- `Event`: coordinates, weight and generator density, AmpGen/Event.h:20-62.  The
position of the event in its list is not modelled. -/
structure Event (K : Type) where
  data : List K
  weight : K
  genPdf : K
  deriving DecidableEq, Repr

/-- `event[j]`. -/
def Event.get (poison : K) (e : Event K) (j : Nat) : K := e.data.getD j poison

/-- A default constructed event, AmpGen/Event.h:20, 59-62. -/
def Event.dflt : Event K := ⟨[], 1, 1⟩

/-- `utils::gather( container, functor, offset, df )`, AmpGen/simd/utils.h:65-74. -/
def gather (W : Nat) (poison : K) (container : List (Event K)) (fn : Event K → K) (offset : Nat)
    (df : K) : List K :=
  (List.range W).map fun k =>
    if df = 0 then
      if offset + k < container.length then
        match container[offset + k]? with
        | some e => fn e
        | none => poison
      else
        match container[container.length - 1]? with
        | some e => fn e
        | none => poison
    else
      if offset + k < container.length then
        match container[offset + k]? with
        | some e => fn e
        | none => poison
      else df

/-- `EventListSIMD`, AmpGen/EventListSIMD.h:36-39; a block is a list of `W` lanes. -/
structure Simd (K : Type) where
  data : Store (List K)
  weights : List (List K)
  genPDF : List (List K)

/-- `resize( nEvents )`, AmpGen/EventListSIMD.h:79-84, of an empty list, with the
constructor of `Store`, AmpGen/Store.h:20-27. -/
def Simd.make (W nEvents eventSize : Nat) : Simd K :=
  { data := ⟨nEvents, alignedSize W nEvents / W, eventSize,
      List.replicate (alignedSize W nEvents / W * eventSize) [], []⟩
    weights := List.replicate (alignedSize W nEvents / W * W) (List.replicate W 1)
    genPDF := List.replicate (alignedSize W nEvents / W * W) (List.replicate W 1) }

/-- Assignment of all the fields, weights and densities of one block. -/
def Simd.setBlock (s : Simd K) (b : Nat) (field : Nat → List K) (w g : List K) : Simd K :=
  { data := s.data.storeItems .aoS b (List.range s.data.nFields)
      ((List.range s.data.nFields).map field)
    weights := s.weights.set b w
    genPDF := s.genPDF.set b g }

/-- `EventListSIMD( const EventList& )`, src/EventListSIMD.cpp:141-151. -/
def Simd.ofEventList (W : Nat) (poison : K) (eventSize : Nat) (other : List (Event K)) : Simd K :=
  (List.range (alignedSize W other.length / W)).foldl (fun s b =>
    s.setBlock b (fun j => gather W poison other (fun e => e.get poison j) (b * W) 0)
      (gather W poison other (fun e => e.weight) (b * W) 0)
      (gather W poison other (fun e => e.genPdf) (b * W) 1)) (Simd.make W other.length eventSize)

/-- `gather( data, pos )`, src/EventListSIMD.cpp:247-253. -/
def Simd.gatherBlock (W : Nat) (poison : K) (s : Simd K) (buffer : List (Event K)) (b : Nat) :
    Simd K :=
  s.setBlock b (fun j => gather W poison buffer (fun e => e.get poison j) 0 0)
    (gather W poison buffer (fun e => e.weight) 0 0)
    (gather W poison buffer (fun e => e.genPdf) 0 0)

/-- The buffer of one block in `loadFromTree`, src/EventListSIMD.cpp:123-134; `tree`
are the selected entries. -/
def nextBuffer (W : Nat) (poison : K) (tree : List (Event K)) (buffer : List (Event K)) (b : Nat) :
    List (Event K) :=
  (List.range W).map fun k =>
    match tree[k + b * W]? with
    | some e => e
    | none => { buffer.getD k ⟨[], poison, poison⟩ with weight := 0 }

/-- The loop over the first `m` blocks of `loadFromTree`, src/EventListSIMD.cpp:121-137:
the list and the buffer, which keeps its content from block to block. -/
def loadLoop (W : Nat) (poison : K) (eventSize : Nat) (tree : List (Event K)) (m : Nat) :
    Simd K × List (Event K) :=
  (List.range m).foldl (fun (st : Simd K × List (Event K)) b =>
    (st.1.gatherBlock W poison (nextBuffer W poison tree st.2 b) b,
      nextBuffer W poison tree st.2 b))
    (Simd.make W tree.length eventSize, List.replicate W Event.dflt)

/-- `loadFromTree`, src/EventListSIMD.cpp:116-137. -/
def Simd.loadFromTree (W : Nat) (poison : K) (eventSize : Nat) (tree : List (Event K)) : Simd K :=
  (loadLoop W poison eventSize tree (alignedSize W tree.length / W)).1

/-- Lane `q` of block `p`. -/
def lane (poison : K) (b : Option (List K)) (q : Nat) : K :=
  match b with
  | some l => l.getD q poison
  | none => poison

/-- `operator[]( pos )`, src/EventListSIMD.cpp:215-226. -/
def Simd.at (W : Nat) (poison : K) (s : Simd K) (pos : Nat) : Event K :=
  { data := (List.range s.data.nFields).map fun i =>
      lane poison (s.data.read .aoS (pos / W) i) (pos % W)
    weight := lane poison s.weights[pos / W]? (pos % W)
    genPdf := lane poison s.genPDF[pos / W]? (pos % W) }

/-- `scatter( pos )`, src/EventListSIMD.cpp:228-245. -/
def Simd.scatter (W : Nat) (poison : K) (s : Simd K) (pos : Nat) : List (Event K) :=
  (List.range W).map fun evt =>
    { data := (List.range s.data.nFields).map fun i =>
        lane poison (s.data.read .aoS (pos / W) i) evt
      weight := lane poison s.weights[pos / W]? evt
      genPdf := lane poison s.genPDF[pos / W]? evt }

/-- The loop `for( auto& event : *this ) fcn( event )` of `transform`,
AmpGen/EventListSIMD.h:137-141, with the modifying iterator of
AmpGen/simd/iterator.h:4-37: `m` steps are left, the last case is the destructor. -/
def Simd.transformLoop (W : Nat) (poison : K) (fcn : Event K → Event K) :
    Nat → Nat → List (Event K) → Simd K → Simd K
  | 0, pos, buffer, s => if pos % W ≠ 0 then s.gatherBlock W poison buffer (pos / W) else s
  | m + 1, pos, buffer, s =>
    let buffer' := buffer.modify (pos % W) fcn
    if (pos + 1) % W = 0 then
      let s' := s.gatherBlock W poison buffer' ((pos + 1 - 1) / W)
      Simd.transformLoop W poison fcn m (pos + 1) (s'.scatter W poison (pos + 1)) s'
    else Simd.transformLoop W poison fcn m (pos + 1) buffer' s

/-- `transform( fcn )`, AmpGen/EventListSIMD.h:137-141. -/
def Simd.transform (W : Nat) (poison : K) (fcn : Event K → Event K) (s : Simd K) : Simd K :=
  s.transformLoop W poison fcn s.data.nEntries 0 (s.scatter W poison 0)

end AmpGen.Store
