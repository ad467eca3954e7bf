import Mathlib.Order.Defs.LinearOrder
import Mathlib.Order.Nat
import Mathlib.Data.Bool.Basic
import Mathlib.Data.List.Sort
import Mathlib.Algebra.Group.Defs
/-
Model of the combinatorial helpers of AmpGen/Utilities.h and src/Utilities.cpp and of
their use in src/Particle.cpp.
-/
namespace AmpGen.Comb

variable {α : Type}

section NextPerm
variable [LinearOrder α]

/-- Replaces the last element greater than `a` by `a` and returns it. -/
def replaceLast (a : α) : List α → Option (α × List α)
  | [] => none
  | b :: l =>
    match replaceLast a l with
    | some (c, l') => some (c, b :: l')
    | none => if a < b then some (b, a :: l) else none

/-- `std::next_permutation`: the pivot is the last position followed by a greater
element; it is exchanged with the last element greater than it and the rest is
reversed.  `none` stands for the return value `false`. -/
def nextPerm : List α → Option (List α)
  | [] => none
  | a :: l =>
    match nextPerm l with
    | some l' => some (a :: l')
    | none => (replaceLast a l).map fun (c, l') => c :: l'.reverse

/-- `do { visit } while( std::next_permutation( ... ) )` with an iteration budget:
the successive arrangements. -/
def permLoop : Nat → List α → Option (List (List α))
  | 0, _ => none
  | n + 1, l =>
    match nextPerm l with
    | none => some [l]
    | some l' => (permLoop n l').map (l :: ·)

end NextPerm

/-- The elements `i` with `!mask[i]`, AmpGen/Utilities.h:52-53. -/
def unmasked : Nat → List Bool → List Nat
  | _, [] => []
  | i, b :: mask => if !b then i :: unmasked (i + 1) mask else unmasked (i + 1) mask

/-- `nCr( n, r )`, AmpGen/Utilities.h:46-57, for `r ≤ n` (otherwise `mask.begin() + r`
is out of range and the result undefined: `none`). -/
def nCr (fuel n r : Nat) : Option (List (List Nat)) :=
  if r ≤ n then
    (permLoop fuel (List.replicate r false ++ List.replicate (n - r) true)).map
      (fun masks => masks.map (unmasked 0))
  else none

/-- The inner loop of `all_combinations`, AmpGen/Utilities.h:182-187, over the
families from the last to the first. -/
def decodeRev : List (List α) → Nat → List α
  | [], _ => []
  | e :: es, counter =>
    match e[counter % e.length]? with
    | some x => x :: decodeRev es ((counter - counter % e.length) / e.length)
    | none => []

/-- `all_combinations( elements )`, AmpGen/Utilities.h:174-190.  The counter is a
natural number (the code's `int` overflows beyond `2 ^ 31` combinations). -/
def allCombinations (elements : List (List α)) : List (List α) :=
  (List.range (elements.foldl (fun nc s => nc * s.length) 1)).map fun i =>
    (decodeRev elements.reverse i).reverse

/-- `identicalDaughterOrderings`, src/Particle.cpp:386-402, for final state particles
with the given names. -/
def identicalDaughterOrderings (fuel : Nat) (names : List String) : Option (List (List Nat)) :=
  (permLoop fuel (List.range names.length)).map fun ps =>
    ps.filter fun indices =>
      (List.range names.length).all fun i => names[i]? == (indices[i]?.bind fun j => names[j]?)

/-- Lexicographic `operator<` of `std::pair`, as the order of the sort. -/
def pairLe (x y : Nat × Nat) : Bool := x.1 < y.1 || (x.1 == y.1 && x.2 ≤ y.2)

/-- `arrPos` after sorting, src/Utilities.cpp:493-495 (the entries are distinct, so any
sorting algorithm gives the same list). -/
def arrPos (indices : List Nat) : List (Nat × Nat) :=
  (indices.zipIdx).insertionSort fun a b => pairLe a b = true

/-- The walk along one cycle, src/Utilities.cpp:504-509, with a step budget: visited
flags and length. -/
def walk (second : Nat → Nat) : Nat → (Nat → Bool) → Nat → Nat → Option ((Nat → Bool) × Nat)
  | 0, _, _, _ => none
  | n + 1, visited, j, size =>
    if visited j then some (visited, size)
    else walk second n (fun k => if k = j then true else visited k) (second j) (size + 1)

/-- State of the loop of `minSwaps`: visited flags, number of swaps, parity. -/
structure SwapState where
  visited : Nat → Bool
  ans : Nat
  parity : Int

/-- One iteration of the loop of `minSwaps`, src/Utilities.cpp:500-514. -/
def swapStep (second : Nat → Nat) (fuel : Nat) (par : Nat → Int) (st : SwapState) (i : Nat) :
    Option SwapState :=
  if st.visited i || second i = i then some st
  else (walk second fuel st.visited i 0).map fun (visited, size) =>
    if size > 0 then ⟨visited, st.ans + (size - 1), st.parity * par i⟩ else ⟨visited, st.ans, st.parity⟩

/-- `minSwaps( indices, exchangeParities )`, src/Utilities.cpp:491-516. -/
def minSwaps (fuel : Nat) (indices : List Nat) (par : List Int) : Option (Nat × Int) :=
  let second := fun i => ((arrPos indices)[i]?.map Prod.snd).getD 0
  ((List.range indices.length).foldlM
    (fun st i => swapStep second fuel (fun i => par.getD i 0) st i) ⟨fun _ => false, 0, 1⟩).map
    fun st => (st.ans, st.parity)

end AmpGen.Comb

namespace AmpGen.Comb

variable {α : Type}

/-- `parallel_sort( begin, end, comp, grainsize )`, AmpGen/Utilities.h:131-148, on the
contents of the range, with a recursion budget.  `sort` stands for `std::sort`, `lt` for
`comp`; the two recursive calls work on disjoint ranges, so their interleaving is
immaterial.  `std::inplace_merge` is a stable merge. -/
def parallelSort (sort : List α → List α) (lt : α → α → Bool) (grainsize : Nat) :
    Nat → List α → Option (List α)
  | 0, _ => none
  | n + 1, l =>
    if l.length < grainsize then some (sort l)
    else
      (parallelSort sort lt grainsize n (l.take (l.length / 2))).bind fun lo =>
      (parallelSort sort lt grainsize n (l.drop (l.length / 2))).bind fun hi =>
      some (List.merge lo hi fun a b => !lt b a)

/-- `parallel_accumulate( begin, end, init, f )`, AmpGen/Utilities.h:150-167, under the
schedule `threads`: the iterations each thread executes, in its order, threads listed in
the order in which their private totals (starting from zero) are combined. -/
def parallelAccumulate {A : Type} [Add A] [Zero A] (f : α → A) (init : A) (data : Nat → α)
    (threads : List (List Nat)) : A :=
  threads.foldl (fun total iters => total + iters.foldl (fun t it => t + f (data it)) 0) init

end AmpGen.Comb

namespace AmpGen.Comb

/-- The symmetrised amplitude, src/Particle.cpp:432-482 with `sumAmplitudes` true: the sum
over the orderings of the exchange parity times the amplitude for that ordering.  `amp`
stands for spin factor times propagator with the final state relabelled by `setOrdering`;
`fermion` is `isFermion()` by particle name. -/
def symmetrised {A : Type} [AddCommGroup A] (fuel : Nat) (names : List String) (fermion : String → Bool)
    (amp : List Nat → A) : Option A :=
  (identicalDaughterOrderings fuel names).bind fun orderings =>
    orderings.foldlM (fun total ordering =>
      (minSwaps fuel ordering (names.map fun s => if fermion s then -1 else 1)).map fun ep =>
        total + ep.2 • amp ordering) 0

end AmpGen.Comb
