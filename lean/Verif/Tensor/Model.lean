import Mathlib.Algebra.Ring.Defs
import Mathlib.Data.List.Basic
import Mathlib.Data.List.Sort
/-
Model of src/Tensor.cpp and AmpGen/Tensor.h.  The elements are symbolic expressions there; here they are their values, in
a commutative ring.  `unsigned` is modelled by the natural numbers, so sizes of 2^32 and more are outside the
model.  Reading outside an array gives an arbitrary value `poison`.
-/
namespace AmpGen.Tensor

/-- `Tensor::Index`, AmpGen/Tensor.h:32-46: two indices are equal if they share the pointer, here `name`. -/
structure Index where
  name : Nat
  upper : Bool
  deriving DecidableEq

/-- `operator-()`, AmpGen/Tensor.h:43. -/
def Index.flip (i : Index) : Index := ⟨i.name, !i.upper⟩

/-- `Tensor`, AmpGen/Tensor.h:147-151. -/
structure Tensor (K : Type) where
  dim : List Nat
  sym : List Nat
  unique : List Nat
  elements : List K

/-- `nElements`, src/Tensor.cpp:144-147. -/
def nElements (dim : List Nat) : Nat := dim.foldl (fun acc d => acc * (if d = 0 then 1 else d)) 1

/-- Number of coordinates set up, src/Tensor.cpp:79. -/
def nCoordinates (dim : List Nat) : Nat := dim.foldl (· * ·) 1

/-- `Tensor( dim )` with `setupCoordinates`, src/Tensor.cpp:25-30,77-86. -/
def Tensor.zero {K : Type} [CommRing K] (dim : List Nat) : Tensor K :=
  ⟨dim, List.range (nCoordinates dim), List.range (nCoordinates dim), List.replicate (nElements dim) 0⟩

/-- `Tensor( elements, dim )`, AmpGen/Tensor.h:60-72. -/
def Tensor.ofList {K : Type} (elements : List K) (dim : List Nat) : Tensor K :=
  ⟨dim, List.range (nCoordinates dim), List.range (nCoordinates dim), elements⟩

/-- `index_to_coordinates`, src/Tensor.cpp:113-125: the product there runs over the dimensions after
the current one. -/
def indexToCoordinates : Nat → List Nat → List Nat
  | _, [] => []
  | index, _ :: ds =>
    let dproduct := ds.foldr (fun d acc => acc * d) 1
    let val := (index - index % dproduct) / dproduct
    val :: indexToCoordinates (index - dproduct * val) ds

/-- `coordinates_to_index`, src/Tensor.cpp:127-137: the loop runs from the last dimension to the first,
carrying the index and the product of the dimensions seen. -/
def coordinatesToIndex (co dim : List Nat) : Nat :=
  ((co.zip dim).foldr (fun cd (s : Nat × Nat) => (s.1 + cd.1 * s.2, s.2 * cd.2)) (0, 1)).1

/-- `operator[]( i )`, src/Tensor.cpp:540,542. -/
def Tensor.atIndex {K : Type} (poison : K) (t : Tensor K) (i : Nat) : K :=
  t.elements.getD (t.sym.getD i t.elements.length) poison

/-- `operator[]( co )` with `symmetrisedIndex`, src/Tensor.cpp:541,543,99-106. -/
def Tensor.at {K : Type} (poison : K) (t : Tensor K) (co : List Nat) : K := t.atIndex poison (coordinatesToIndex co t.dim)

/-- `value[i] = x` -/
def Tensor.setIndex {K : Type} (t : Tensor K) (i : Nat) (x : K) : Tensor K :=
  { t with elements := t.elements.set (t.sym.getD i t.elements.length) x }

/-- `value[co] = x` -/
def Tensor.set {K : Type} (t : Tensor K) (co : List Nat) (x : K) : Tensor K := t.setIndex (coordinatesToIndex co t.dim) x

/-- `metricSgn`, src/Tensor.cpp:64-70. -/
def metricSgn (co : List Nat) : Int := co.foldl (fun prod c => prod * (if c = 3 then 1 else -1)) 1

/-- `contractor`, src/Tensor.cpp:365-370. -/
structure Contractor where
  i : Nat
  j : Nat
  sgn : Int
  deriving DecidableEq

/-- `TensorProxy`, AmpGen/Tensor.h:160-174. -/
structure Proxy (K : Type) where
  tensor : Tensor K
  indices : List Index

/-- The indices left over, with their dimensions: src/Tensor.cpp:390-401. -/
def freeIndices (i1 i2 : List Index) (d1 d2 : List Nat) : List (Index × Nat) :=
  ((i1.zip d1).filter fun p => i2.all fun q => q.name != p.1.name) ++
  ((i2.zip d2).filter fun p => i1.all fun q => q.name != p.1.name)

/-- The pairs of summed indices, src/Tensor.cpp:396-407. -/
def contractions (i1 i2 : List Index) : List Contractor :=
  (List.range i2.length).filterMap fun j =>
    (i2[j]?).bind fun b =>
      (i1.findIdx? fun a => a.name == b.name).map fun i =>
        ⟨i, j, if b.upper != ((i1[i]?).map Index.upper).getD b.upper then -1 else 1⟩

/-- One of the two loops distributing the free coordinates, src/Tensor.cpp:423-436.  `summed` says
which positions are summed over.  The loops are of `do … while` form, see `contract`. -/
def distribute (summed : Nat → Bool) (coords : List Nat) (size j0 : Nat) : List Nat × Nat :=
  (List.range size).foldl (fun s i => if summed i then s else (s.1.set i (coords.getD s.2 0), s.2 + 1))
    (List.replicate size 0, j0)

/-- The loop over the pairs, src/Tensor.cpp:442-445. -/
def assign : List Contractor → List Nat → List Nat × List Nat × Int → List Nat × List Nat × Int
  | c :: cs, v :: vs, (t1, t2, sign) =>
    assign cs vs (t1.set c.i v, t2.set c.j v, sign * (if v = 3 then 1 else c.sgn))
  | _, _, s => s

/-- The sum for one element, src/Tensor.cpp:438-447; the coordinate vectors are carried from one turn to the
next. -/
def elementSum {K : Type} [CommRing K] (poison : K) (a b : Tensor K) (cs : List Contractor) (dims : List Nat) (t1 t2 : List Nat) (n : Nat) :
    List Nat × List Nat × K :=
  (List.range n).foldl (fun s m =>
    let r := assign cs (indexToCoordinates m dims) (s.1, s.2.1, 1)
    (r.1, r.2.1, s.2.2 + (r.2.2 : K) * a.at poison r.1 * b.at poison r.2.1)) (t1, t2, 0)

/-- `operator*( TensorProxy, TensorProxy )`, src/Tensor.cpp:373-451.  `none`: with no index on one side the `do … while` loop
writes outside an empty array. -/
def contract {K : Type} [CommRing K] (poison : K) (p q : Proxy K) : Option (Proxy K) :=
  if p.indices.length = 0 ∨ q.indices.length = 0 then none
  else
    let free := freeIndices p.indices q.indices p.tensor.dim q.tensor.dim
    let cs := contractions p.indices q.indices
    let finalRank := free.map Prod.snd
    let dims := cs.map fun c => p.tensor.dim.getD c.i 0
    let n := dims.foldl (· * ·) 1
    let value := (List.range (nElements finalRank)).foldl (fun value elem =>
      let coords := indexToCoordinates elem finalRank
      let t1 := (distribute (fun i => cs.any fun c => c.i == i) coords p.indices.length 0).1
      let t2 := (distribute (fun i => cs.any fun c => c.j == i) coords q.indices.length (p.indices.length - cs.length)).1
      value.setIndex elem (elementSum poison p.tensor q.tensor cs dims t1 t2 n).2.2) (Tensor.zero finalRank)
    some ⟨value, free.map Prod.fst⟩

/-- `operator+( TensorProxy, TensorProxy )`, src/Tensor.cpp:482-510; `none` is the error return. -/
def add {K : Type} [CommRing K] (poison : K) (p q : Proxy K) : Option (Proxy K) :=
  let mapping := q.indices.filterMap fun b => p.indices.findIdx? fun a => a.name == b.name
  if mapping.length ≠ p.indices.length then none
  else
    let result := p.tensor.unique.foldl (fun (result : Tensor K) i =>
      let t1 := indexToCoordinates i p.tensor.dim
      let t2 := (List.range t1.length).map fun j => t1.getD (mapping.getD j 0) 0
      result.setIndex i (result.atIndex poison i + q.tensor.at poison t2)) p.tensor
    some ⟨result, p.indices⟩

/-- `dot`, src/Tensor.cpp:242-259. -/
def dot {K : Type} [CommRing K] (poison : K) (a b : Tensor K) : K :=
  if nElements a.dim = 1 ∧ nElements b.dim = 1 then a.atIndex poison 0 * b.atIndex poison 0
  else if a.dim.length ≠ b.dim.length ∨ nElements a.dim ≠ nElements b.dim then 0
  else (List.range (nElements a.dim)).reverse.foldl (fun result i =>
    result + (metricSgn (indexToCoordinates i a.dim) : K) * a.atIndex poison i * b.atIndex poison i) 0

/-- `imposeSymmetry( A, B )`, src/Tensor.cpp:512-527, on the map of coordinates. -/
def imposeSymmetry {K : Type} (t : Tensor K) (A B : Nat) : Tensor K :=
  let lo := min A B
  let hi := max A B
  let s := (List.range t.sym.length).foldl (fun (s : List Nat × List Nat) i =>
    let co := indexToCoordinates i t.dim
    let co := if co.getD hi 0 > co.getD lo 0 then (co.set lo (co.getD hi 0)).set hi (co.getD lo 0) else co
    let k := coordinatesToIndex co t.dim
    (s.1.set i (s.1.getD k 0), s.2 ++ [s.1.getD k 0])) (t.sym, [])
  { t with sym := s.1, unique := s.2.dedup.insertionSort (· ≤ ·) }

/-- `Identity`, src/Tensor.cpp:595-600. -/
def identity {K : Type} [CommRing K] (rank : Nat) : Tensor K :=
  (List.range rank).foldl (fun t i => t.set [i, i] 1) (Tensor.zero [rank, rank])

/-- `permutation_sign`, src/Tensor.cpp:608-616, on integers without overflow. -/
def permutationSign (p : List Nat) : Int :=
  (List.range (p.length - 1)).foldl (fun prod i =>
    (List.range' (i + 1) (p.length - (i + 1))).foldl (fun prod j => prod * ((p.getD i 0 : Int) - (p.getD j 0 : Int))) prod) 1

/-- `LeviCivita`, src/Tensor.cpp:602-624.  `std::next_permutation` visits every arrangement of the sorted
list once; here they come in some order `perms`. -/
def leviCivita {K : Type} [CommRing K] (rank : Nat) (perms : List (List Nat)) : Tensor K :=
  perms.foldl (fun t p => t.setIndex (t.sym.getD (coordinatesToIndex p t.dim) 0)
    ((permutationSign p / permutationSign (List.range rank) : Int) : K)) (Tensor.zero (List.replicate rank rank))

end AmpGen.Tensor
