import Verif.Strings.Model
import Mathlib.Data.Rat.Defs
/-
Model of src/BinDT.cpp, AmpGen/BinDT.h, src/FastDT.cpp and AmpGen/FastDT.h: adaptive binnings.

Numbers are exact rationals.  Pointers to events are elements of a type `E`, with coordinates `x e i`.  The library sort is any function that sorts
(`sort`), the order of the coordinates by nearest-neighbour variance is any function (`byVariance`); the properties quantify over both.
`none` stands for undefined behaviour: reading outside an array or the front of an empty queue.  Sizes and depths are unbounded naturals.
-/
namespace AmpGen.Binning
open AmpGen.Strings (Str split getlines)

/-- `BinDT::EndNode` and `BinDT::Decision`, AmpGen/BinDT.h:47-80: `m_voxNumber`, `m_binNumber`; `m_index`, `m_value`, `m_left`, `m_right`. -/
inductive Tree where
  | leaf (vox bin : Nat)
  | node (index : Nat) (value : ℚ) (left right : Tree)
  deriving DecidableEq

/-- `Decision::operator()` and `EndNode::operator()`, src/BinDT.cpp:353,360-363: the numbers of the node reached. -/
def Tree.route : Tree → (Nat → ℚ) → Nat × Nat
  | .leaf vox bin, _ => (vox, bin)
  | .node index value left right, evt => if evt index < value then right.route evt else left.route evt

/-- `getBinNumber`, src/BinDT.cpp:68. -/
def Tree.getBinNumber (t : Tree) (evt : Nat → ℚ) : Nat := (t.route evt).1

/-- The parameters of a binning (AmpGen/BinDT.h:144-150) and the library functions it calls. -/
structure Config (E : Type) where
  dim : Nat
  minEvents : Nat
  maxDepth : Nat
  /-- `m_queueOrdering`, after it has been filled in by default. -/
  ordering : List Nat
  x : E → Nat → ℚ
  sort : Nat → List E → List E
  byVariance : List E → List Nat

variable {E : Type}

/-- `splitEvents`, src/BinDT.cpp:38-51, and `_splitEvents`, src/FastDT.cpp:75-88: the cut and the two halves. -/
def splitEvents (c : Config E) (evts : List E) (index : Nat) : Option (ℚ × List E × List E) := do
  let s := c.sort index evts
  let m := s.length / 2
  let at_ := fun k => (s[k]?).map fun e => c.x e index
  let mid ← if s.length % 2 = 0 then do
      let a ← if m = 0 then none else at_ (m - 1)
      let b ← at_ m
      pure ((a + b) / 2)
    else do
      let d ← at_ (m + 1)
      let a ← if m = 0 then none else at_ (m - 1)
      let b ← at_ m
      pure ((d + a + b) / 3)
  let b ← at_ m
  let m := if mid > b then m + 1 else m
  pure (mid, s.take m, s.drop m)

/-- `refreshQueue` on an empty queue, src/BinDT.cpp:310-324 and src/FastDT.cpp:91-104.  The variance reads two events. -/
def refreshQueue (c : Config E) (evts : List E) (depth : Nat) : Option (List Nat) :=
  if evts.length > c.minEvents * 2 ^ c.dim ∧ depth + c.dim < c.maxDepth then some c.ordering
  else if evts.length < 2 then none
  else some (c.byVariance evts)

/-- `makeNodes( evts, indexQueue, depth )`, src/BinDT.cpp:170-189.  The first argument is the number of levels left, `m_maxDepth + 1 - depth`.
`bins` stands for `m_endNodes`; each entry records the events that end up in that node, which the code forgets. -/
def makeNodes (c : Config E) : Nat → List E → List Nat → List (List E) → Option (Tree × List (List E))
  | _, _, [], _ => none
  | 0, evts, _ :: _, bins => some (.leaf bins.length 999, bins ++ [evts])
  | r + 1, evts, index :: queue, bins =>
    if evts.length < 2 * c.minEvents then some (.leaf bins.length 999, bins ++ [evts])
    else do
      let (mid, l, rt) ← splitEvents c evts index
      let queue ← if queue = [] then refreshQueue c evts (c.maxDepth + 1 - r) else some queue
      let (left, bins) ← makeNodes c r l queue bins
      let (right, bins) ← makeNodes c r rt queue bins
      pure (.node index mid right left, bins)

/-- `makeNodes( evts )`, src/BinDT.cpp:157-168, as called from the constructors of AmpGen/BinDT.h:87-101. -/
def build (c : Config E) (evts : List E) : Option (Tree × List (List E)) := do
  let queue ← refreshQueue c evts 0
  makeNodes c (c.maxDepth + 1) evts queue []

/-- `bestCut_lineSearch`, src/BinDT.cpp:198-231.  Weights are read at coordinate `dim`; a division by zero gives zero here. -/
def bestCut (c : Config E) (source target : List E) (index : Nat) : ℚ :=
  let w := fun e => c.x e c.dim
  let f := fun e => c.x e index
  let sum := fun (l : List E) => (l.map w).foldl (· + ·) 0
  let swt := sum source
  let twt := sum target
  let step := fun (s : ℚ × ℚ × ℚ × Nat × ℚ × List E) (i : Nat) =>
    -- (t_w1, s_w1, maxChi2, s_p1, optPos, remaining source)
    let (tw1, sw1, maxChi2, sp1, opt, rest) := s
    match target[i]?, target[i + 1]? with
    | some a, some b =>
      let tw1 := tw1 + w a
      let pos := (f a + f b) / 2
      let passed := rest.takeWhile fun e => f e ≤ pos
      let rest := rest.dropWhile fun e => f e ≤ pos
      let sw1 := sw1 + sum passed
      let sp1 := sp1 + passed.length
      let chi2 := (sw1 - tw1) * (sw1 - tw1) / (sw1 + tw1) +
        (swt - sw1 - twt + tw1) * (swt - sw1 - twt + tw1) / (swt - sw1 + twt - tw1)
      if chi2 > maxChi2 ∧ sp1 ≥ c.minEvents ∧ source.length - sp1 ≥ c.minEvents then (tw1, sw1, chi2, sp1, pos, rest)
      else (tw1, sw1, maxChi2, sp1, opt, rest)
    | _, _ => s
  ((List.range' c.minEvents (target.length - c.minEvents - c.minEvents)).foldl step
    (sum (target.take c.minEvents), 0, -9999, 0, 0, source)).2.2.2.2.1

/-- `makeNodes( source, target, indexQueue, depth )`, src/BinDT.cpp:271-308.  `cut` is the line search: `bestCut c` in the code.
`std::lower_bound` on a sorted range is the first position whose coordinate is not below the cut. -/
def makeNodes2 (c : Config E) (cut : List E → List E → Nat → ℚ) :
    Nat → List E → List E → List Nat → List (List E × List E) → Option (Tree × List (List E × List E))
  | _, _, _, [], _ => none
  | 0, source, target, _ :: _, bins => some (.leaf bins.length 999, bins ++ [(source, target)])
  | r + 1, source, target, index :: queue, bins =>
    if source.length < 2 * c.minEvents ∨ target.length < 2 * c.minEvents then some (.leaf bins.length 999, bins ++ [(source, target)])
    else
      let s := c.sort index source
      let t := c.sort index target
      let opt := cut s t index
      let sl := s.takeWhile fun e => c.x e index < opt
      let sr := s.dropWhile fun e => c.x e index < opt
      let tl := t.takeWhile fun e => c.x e index < opt
      let tr := t.dropWhile fun e => c.x e index < opt
      if sl.length = 0 ∨ sr.length = 0 then some (.leaf bins.length 999, bins ++ [(source, target)])
      else do
        let queue ← if queue = [] then refreshQueue c s (c.maxDepth + 1 - r) else some queue
        let (left, bins) ← makeNodes2 c cut r sl tl queue bins
        let (right, bins) ← makeNodes2 c cut r sr tr queue bins
        pure (.node index opt right left, bins)

/-- `makeNodes( source, target )`, src/BinDT.cpp:191-197. -/
def build2 (c : Config E) (cut : List E → List E → Nat → ℚ) (source target : List E) : Option (Tree × List (List E × List E)) := do
  let queue ← refreshQueue c source 0
  makeNodes2 c cut (c.maxDepth + 1) source target queue []

/-! ### Serialisation -/

/-- A tree in memory: every node has an address. -/
inductive ATree where
  | leaf (addr vox bin : Nat)
  | node (addr index : Nat) (value : ℚ) (left right : ATree)

/-- The tree without the addresses. -/
def ATree.erase : ATree → Tree
  | .leaf _ vox bin => .leaf vox bin
  | .node _ index value l r => .node index value l.erase r.erase

/-- Address of a node. -/
def ATree.addr : ATree → Nat
  | .leaf a _ _ => a
  | .node a _ _ _ _ => a

/-- How the output stream prints pointers, unsigned integers and numbers with 17 digits, and what `stoi` and `stod` read (`none`: an exception). -/
structure Format where
  ptr : Nat → Str
  nat : Nat → Str
  num : ℚ → Str
  stoi : Str → Option Nat
  stod : Str → Option ℚ

/-- One line of output, without the end of line: the tokens separated by blanks. -/
def line (tokens : List Str) : Str := [' '].intercalate tokens

/-- `Decision::serialize` and `EndNode::serialize`, src/BinDT.cpp:334-339,355-358: the lines written. -/
def ATree.lines (fmt : Format) : ATree → List Str
  | .leaf a vox bin => [line [fmt.ptr a, fmt.nat vox, fmt.nat bin]]
  | .node a index value l r =>
    line [fmt.ptr a, fmt.nat index, fmt.num value, fmt.ptr l.addr, fmt.ptr r.addr] :: (l.lines fmt ++ r.lines fmt)

/-- `BinDT::serialize`, src/BinDT.cpp:142-147. -/
def serialize (fmt : Format) (t : ATree) : Str := ((t.lines fmt).flatMap fun l => l ++ ['\n']) ++ ['e', 'n', 'd']

/-- A node as rebuilt: its children are looked up by the text of their address. -/
inductive Rec where
  | leaf (vox bin : Nat)
  | node (index : Nat) (value : ℚ) (left right : Str)

/-- State of the reading loop: the first address, the map `nodes`, its keys and `m_endNodes`. -/
structure Loaded where
  top : Str
  heap : Str → Option Rec
  keys : List Str
  endNodes : List (Nat × Nat)

/-- One line, src/BinDT.cpp:111-128.  `none`: a line with too few tokens reads outside the array; a number that cannot be read throws, the
line is reported and skipped. -/
def readLine (fmt : Format) (s : Loaded) (l : Str) : Option Loaded :=
  match split l ' ' true with
  | [] => none
  | [_] => none
  | address :: t1 :: rest =>
    let s := if s.top = [] then { s with top := address } else s
    match rest with
    | [t2, t3, t4] =>
      match fmt.stoi t1, fmt.stod t2 with
      | some index, some value =>
        some { s with heap := Function.update s.heap address (some (.node index value t3 t4)), keys := s.keys ++ [address] }
      | _, _ => some s
    | [t2] =>
      match fmt.stoi t1, fmt.stoi t2 with
      | some vox, some bin =>
        some { s with heap := Function.update s.heap address (some (.leaf vox bin)), keys := s.keys ++ [address],
                      endNodes := s.endNodes ++ [(vox, bin)] }
      | _, _ => some s
    | _ =>
      match fmt.stoi t1 with
      | some vox =>
        some { s with heap := Function.update s.heap address (some (.leaf vox 999)), keys := s.keys ++ [address],
                      endNodes := s.endNodes ++ [(vox, 999)] }
      | none => some s

/-- The loop over the lines, up to the line `end`. -/
def readLines (fmt : Format) : List Str → Loaded → Option Loaded
  | [], s => some s
  | l :: ls, s => if l = ['e', 'n', 'd'] then some s else (readLine fmt s l).bind (readLines fmt ls)

/-- `readFromStream`, src/BinDT.cpp:105-140.  `none` also if a child is missing: its pointer is null and is used. -/
def readFromStream (fmt : Format) (text : Str) : Option Loaded := do
  let s ← readLines fmt (getlines '\n' text) ⟨[], fun _ => none, [], []⟩
  if (s.keys.all fun a => match s.heap a with
      | some (.node _ _ l r) => (s.heap l).isSome && (s.heap r).isSome
      | _ => true) then some s else none

/-- `operator()` on the nodes as rebuilt. -/
inductive Reaches (heap : Str → Option Rec) (evt : Nat → ℚ) : Str → Nat × Nat → Prop
  | leaf {a : Str} {vox bin : Nat} : heap a = some (.leaf vox bin) → Reaches heap evt a (vox, bin)
  | right {a l r : Str} {index : Nat} {value : ℚ} {p : Nat × Nat} : heap a = some (.node index value l r) → evt index < value →
      Reaches heap evt r p → Reaches heap evt a p
  | left {a l r : Str} {index : Nat} {value : ℚ} {p : Nat × Nat} : heap a = some (.node index value l r) → ¬ evt index < value →
      Reaches heap evt l p → Reaches heap evt a p

/-! ### The fast decision tree -/

/-- `FastDT::Node`, AmpGen/FastDT.h:28-38. -/
structure FNode where
  index : Nat
  left : Int
  right : Int
  cut : ℚ
  deriving DecidableEq

/-- The members of `FastDT` filled by `makeNodes`: the nodes, and one entry for each decrement of `m_endNodeCounter` recording the events. -/
structure FState (A : Type) where
  nodes : List FNode
  bins : List A
  deriving DecidableEq

/-- `return --m_endNodeCounter` -/
def FState.leaf {A : Type} (s : FState A) (a : A) : Int × FState A := (-((s.bins.length : Int) + 1), { s with bins := s.bins ++ [a] })

/-- `m_nodes.emplace_back( index + 1, left, right, cut ); return m_nodes.size() - 1` -/
def FState.push {A : Type} (s : FState A) (index : Nat) (left right : Int) (cut : ℚ) : Int × FState A :=
  ((s.nodes.length : Int), { s with nodes := s.nodes ++ [⟨index + 1, left, right, cut⟩] })

/-- `FastDT::makeNodes( evts, indexQueue, depth )`, src/FastDT.cpp:144-159. -/
def fastNodes (c : Config E) : Nat → List E → List Nat → FState (List E) → Option (Int × FState (List E))
  | _, _, [], _ => none
  | 0, evts, _ :: _, s => some (s.leaf evts)
  | r + 1, evts, index :: queue, s =>
    if evts.length < 2 * c.minEvents then some (s.leaf evts)
    else do
      let (mid, l, rt) ← splitEvents c evts index
      let queue ← if queue = [] then refreshQueue c evts (c.maxDepth + 1 - r) else some queue
      let (left, s) ← fastNodes c r l queue s
      let (right, s) ← fastNodes c r rt queue s
      pure (s.push index left right mid)

/-- The call with an empty queue at depth 0, src/FastDT.cpp:146. -/
def fastBuild (c : Config E) (evts : List E) : Option (FState (List E)) := do
  let queue ← refreshQueue c evts 1
  let (_, s) ← fastNodes c (c.maxDepth + 1) evts queue ⟨[], []⟩
  pure s

/-- `FastDT::makeNodes( source, target, indexQueue, depth )` with the default strategy, src/FastDT.cpp:176-249.  The coordinate (taken from a shuffled
list) and the result of the line search `bestCut_ls` (`none`: no cut found) are arbitrary functions. -/
def fastNodes2 (c : Config E) (pick : Nat → List E → List E → Nat) (cut : List E → List E → Nat → Option ℚ) :
    Nat → List E → List E → FState (List E × List E) → Int × FState (List E × List E)
  | 0, source, target, s => s.leaf (source, target)
  | r + 1, source, target, s =>
    if source.length < 2 * c.minEvents ∨ target.length < 2 * c.minEvents then s.leaf (source, target)
    else
      let index := pick r source target
      let sc := c.sort index source
      let tc := c.sort index target
      match cut sc tc index with
      | none => s.leaf (source, target)
      | some opt =>
        let sl := sc.takeWhile fun e => c.x e index ≤ opt
        let sr := sc.dropWhile fun e => c.x e index ≤ opt
        let tl := tc.takeWhile fun e => c.x e index ≤ opt
        let tr := tc.dropWhile fun e => c.x e index ≤ opt
        if sl.length = 0 ∨ sr.length = 0 then s.leaf (source, target)
        else
          let a := fastNodes2 c pick cut r sl tl s
          let b := fastNodes2 c pick cut r sr tr a.2
          b.2.push index a.1 b.1 opt

/-- `FastDT::makeNodes( source, target )`: the depth there stops at `m_maxDepth`, src/FastDT.cpp:160-163,179. -/
def fastBuild2 (c : Config E) (pick : Nat → List E → List E → Nat) (cut : List E → List E → Nat → Option ℚ) (source target : List E) :
    FState (List E × List E) := (fastNodes2 c pick cut c.maxDepth source target ⟨[], []⟩).2

/-- The loop of `findNode`, src/FastDT.cpp:43-52, with the addresses visited.  `none`: reading outside the array, the end of the program, or no
end within the given number of turns. -/
def findLoop (nodes : List FNode) (evt : Nat → ℚ) : Nat → Int → List Int → Option (Nat × List Int)
  | 0, _, _ => none
  | fuel + 1, address, visited =>
    if address < 0 then none
    else match nodes[address.toNat]? with
      | none => none
      | some node =>
        if node.index = 0 then none
        else
          let next := if evt (node.index - 1) > node.cut then node.right else node.left
          if next < 0 then some (next.natAbs - 1, visited ++ [address])
          else if next ≥ nodes.length then none
          else findLoop nodes evt fuel next (visited ++ [address])

/-- `findNode`, src/FastDT.cpp:40-55. -/
def findNode (nodes : List FNode) (evt : Nat → ℚ) (fuel : Nat) : Option (Nat × List Int) :=
  findLoop nodes evt fuel ((nodes.length : Int) - 1) []

end AmpGen.Binning
