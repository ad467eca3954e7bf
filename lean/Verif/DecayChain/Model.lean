import Verif.PhaseSpace.Model
import Mathlib.Analysis.SpecialFunctions.Trigonometric.Arctan
/-
Model of AmpGen/DecayChainStack.h and src/TreePhaseSpace.cpp over the real numbers.  Every
random number drawn is an argument.  The option `DecayChainStack::AggressiveOptimisation`, off by
default, is not modelled.
-/
namespace AmpGen.DecayChain

open Classical
open AmpGen.PhaseSpace (V4)

/-- `Node::Type`, AmpGen/DecayChainStack.h:32. -/
inductive Kind where
  | bw | flat | stable | quasi
  deriving DecidableEq

/-- `Node`, AmpGen/DecayChainStack.h:31-42.  `l` and `r` are particles below `N` and nodes
counted from `N` on. -/
structure Node where
  kind : Kind
  l : Nat
  r : Nat
  lo : ℝ
  hi : ℝ
  phi1 : ℝ
  phi2 : ℝ
  m : ℝ
  w : ℝ
  lfs : List Nat
  rfs : List Nat

/-- The properties of an intermediate particle used here: mass, width, `isQuasiStable`, and whether the lineshape
is one of `FormFactor`, `None`, `TD`. -/
structure Info where
  mass : ℝ
  width : ℝ
  quasi : Bool
  plain : Bool

/-- A decay descriptor after every decay has been made two-body
(AmpGen/DecayChainStack.h:157-165); a stable particle carries its index and mass. -/
inductive Tree where
  | leaf (index : Nat) (mass : ℝ)
  | res (info : Info) (a b : Tree)

/-- Sum over the products of `quasiStableTree`, AmpGen/DecayChainStack.h:166-167 and
src/Particle.cpp:346-358. -/
noncomputable def Tree.low : Tree → ℝ
  | .leaf _ m => m
  | .res i a b => if i.quasi then i.mass else a.low + b.low

/-- `Node::operator()(s)`, AmpGen/DecayChainStack.h:56-68. -/
noncomputable def Node.pdf (n : Node) (s : ℝ) : ℝ :=
  match n.kind with
  | .bw => (n.m * n.w) / ((n.phi2 - n.phi1) * ((s - n.m * n.m) * (s - n.m * n.m) + n.m * n.m * n.w * n.w))
  | .flat => 1 / (n.hi - n.lo)
  | .stable => 1
  | .quasi => 1

/-- `Node::operator()(random)`, AmpGen/DecayChainStack.h:80-98. -/
noncomputable def Node.draw (n : Node) (u : ℝ) : ℝ :=
  match n.kind with
  | .bw =>
    let y := Real.tan ((n.phi2 - n.phi1) * u)
    let mG := n.m * n.w
    let s0 := n.m * n.m
    s0 + mG * (mG * y + n.lo - s0) / (mG - y * (n.lo - s0))
  | .flat => (n.hi - n.lo) * u + n.lo
  | .stable => n.lo
  | .quasi => n.lo

/-- A node as it leaves the constructor's loop: AmpGen/DecayChainStack.h:166-177 with `Node::set`
(99-113).  The statement `type == Type::Flat` there has no effect; the type is
already `Flat`. -/
noncomputable def mkNode (gap : ℝ) (index : Nat) (i : Info) (a b : Tree) (l r : Nat) : Node :=
  let minMass := a.low + b.low
  let G := if i.quasi then 0 else i.mass * i.width * 10
  let s0 := i.mass * i.mass
  let range := if index = 0 ∨ i.quasi then (s0 - G, s0 + G) else (minMass ^ 2, (gap + minMass) ^ 2)
  let phi := fun x : ℝ => Real.arctan ((x - i.mass * i.mass) / (i.mass * i.width))
  if i.quasi then ⟨.quasi, l, r, range.1, range.2, 0, 0, i.mass, i.width, [], []⟩
  else if i.plain then ⟨.flat, l, r, range.1, range.2, 0, 0, i.mass, i.width, [], []⟩
  else ⟨.bw, l, r, range.1, range.2, phi range.1, phi range.2, i.mass, i.width, [], []⟩

/-- Index of a daughter, the new counter and the new stack,
AmpGen/DecayChainStack.h:170-173. -/
def child (N : Nat) (t : Tree) (counter : Nat) (toDo : List (Tree × Nat)) : Nat × Nat × List (Tree × Nat) :=
  match t with
  | .leaf i _ => (i, counter, toDo)
  | .res .. => (counter + 1 + N, counter + 1, (t, counter + 1) :: toDo)

/-- The constructor's loop, AmpGen/DecayChainStack.h:150-178; the top of the stack comes first.
`fuel` bounds the number of turns. -/
noncomputable def build (N : Nat) (gap : ℝ) : Nat → List (Tree × Nat) → Nat → (Nat → Node) → (Nat → Node)
  | 0, _, _, nodes => nodes
  | _ + 1, [], _, nodes => nodes
  | _ + 1, (.leaf .., _) :: _, _, nodes => nodes
  | fuel + 1, (.res i a b, index) :: toDo, counter, nodes =>
    let c1 := child N a counter toDo
    let c2 := child N b c1.2.1 c1.2.2
    build N gap fuel c2.2.2 c2.2.1 (Function.update nodes index (mkNode gap index i a b c1.1 c2.1))

/-- The final-state particles below an index, AmpGen/DecayChainStack.h:201-204. -/
def fsOf (N : Nat) (nodes : Nat → Node) (j : Nat) : List Nat :=
  if j < N then [j] else (nodes (j - N)).lfs ++ (nodes (j - N)).rfs

/-- One turn of the loop filling `lfs` and `rfs`, AmpGen/DecayChainStack.h:194-206. -/
def fsStep (N : Nat) (nodes : Nat → Node) (i : Nat) : Nat → Node :=
  Function.update nodes i { nodes i with lfs := fsOf N nodes (nodes i).l, rfs := fsOf N nodes (nodes i).r }

/-- AmpGen/DecayChainStack.h:262-265. -/
noncomputable def rho2 (s0 s1 s2 : ℝ) : ℝ := 1 - 2 * (s1 + s2) / s0 + (s1 - s2) * (s1 - s2) / (s0 * s0)

/-- `DecayChainStack<N>`, AmpGen/DecayChainStack.h:138-141. -/
structure Stack where
  N : Nat
  m0 : Nat → ℝ
  nodes : Nat → Node
  rhoMax : ℝ

/-- Lowest value of `s` below an index, AmpGen/DecayChainStack.h:196-199. -/
noncomputable def lowOf (N : Nat) (m0 : Nat → ℝ) (nodes : Nat → Node) (j : Nat) : ℝ :=
  if j < N then m0 j * m0 j else (nodes (j - N)).lo

/-- The constructor, AmpGen/DecayChainStack.h:145-210, for a particle of mass `mass`. -/
noncomputable def Stack.make (N : Nat) (mass : ℝ) (m0 : Nat → ℝ) (t : Tree) (junk : Nat → Node) : Stack :=
  let gap := (List.range N).foldl (fun g i => g - m0 i) mass
  let nodes := build N gap N [(t, 0)] 0 junk
  let rhoMax := (List.range (N - 1)).reverse.foldl (fun acc i =>
    acc * rho2 (nodes i).hi (lowOf N m0 nodes (nodes i).l) (lowOf N m0 nodes (nodes i).r)) 1
  ⟨N, m0, (List.range (N - 1)).reverse.foldl (fsStep N) nodes, √rhoMax⟩

/-- The array `state` of a proposal, AmpGen/DecayChainStack.h:282-292; `u i` is the number drawn
for node `i`. -/
noncomputable def Stack.state (c : Stack) (u : Nat → ℝ) (j : Nat) : ℝ :=
  if j < c.N then c.m0 j * c.m0 j else (c.nodes (j - c.N)).draw (u (j - c.N))

/-- The weight of a proposal, AmpGen/DecayChainStack.h:286-297. -/
noncomputable def Stack.weight (c : Stack) (u : Nat → ℝ) : ℝ :=
  √((List.range (c.N - 1)).reverse.foldl (fun weight i =>
    let s := c.state u (i + c.N)
    let sl := c.state u (c.nodes i).l
    let sr := c.state u (c.nodes i).r
    let v := rho2 s sl sr * (if s > sl + sr + 2 * √(sl * sr) then 1 else 0)
    if v < 0 then 0 else v * weight) 1)

/-- AmpGen/DecayChainStack.h:266-273. -/
noncomputable def boost (nx ny nz g vg : ℝ) (v : V4) : V4 :=
  let nv := v.x * nx + v.y * ny + v.z * nz
  { x := v.x + ((g - 1) * nv + vg * v.e) * nx
    y := v.y + ((g - 1) * nv + vg * v.e) * ny
    z := v.z + ((g - 1) * nv + vg * v.e) * nz
    e := g * v.e + vg * nv }

/-- Setting or boosting the particles of one daughter,
AmpGen/DecayChainStack.h:274-280,336-340. -/
noncomputable def moveSide (fs : List Nat) (px py pz e : ℝ) (nx ny nz g vg : ℝ) (ev : Nat → V4) : Nat → V4 :=
  if fs.length = 1 then Function.update ev (fs.headD 0) ⟨px, py, pz, e⟩
  else fs.foldl (fun ev x => Function.update ev x (boost nx ny nz g vg (ev x))) ev

/-- One turn of `fill_from_state`, AmpGen/DecayChainStack.h:320-341; `a` and `b` are the numbers
drawn. -/
noncomputable def fillStep (c : Stack) (state : Nat → ℝ) (a b : Nat → ℝ) (ev : Nat → V4) (i : Nat) : Nat → V4 :=
  let n := c.nodes i
  let sl := state n.l
  let sr := state n.r
  let s := state (i + c.N)
  let nz := 2 * a i - 1
  let phi := 2 * Real.pi * b i
  let p := 0.5 * √(s * rho2 s sl sr)
  let sZ := √(1 - nz * nz)
  let nx := sZ * Real.cos phi
  let ny := sZ * Real.sin phi
  let gl := √(1 + p * p / sl)
  let vgl := p / √sl
  let gr := √(1 + p * p / sr)
  let vgr := p / √sr
  let ev1 := moveSide n.lfs (p * nx) (p * ny) (p * nz) (√(sl + p * p)) nx ny nz gl vgl ev
  moveSide n.rfs (-p * nx) (-p * ny) (-p * nz) (√(sr + p * p)) (-nx) (-ny) (-nz) gr vgr ev1

/-- `fill_from_state`, AmpGen/DecayChainStack.h:317-342. -/
noncomputable def fillFromState (c : Stack) (state : Nat → ℝ) (a b : Nat → ℝ) (ev0 : Nat → V4) : Nat → V4 :=
  (List.range (c.N - 1)).reverse.foldl (fillStep c state a b)
    (fun i => if i < c.N then { ev0 i with e := c.m0 i } else ev0 i)

/-- The accept/reject loop with maximum `wmax`, AmpGen/DecayChainStack.h:348-352 and
src/TreePhaseSpace.cpp:74-82: attempt `k` uses `chain k`, the numbers `u k` and the uniform number `v k`. -/
noncomputable def acceptLoop (wmax : ℝ) (chain : Nat → Stack) (u : Nat → Nat → ℝ) (v : Nat → ℝ) :
    Nat → Nat → Option Nat
  | 0, _ => none
  | fuel + 1, k =>
    if (chain k).weight (u k) < v k * wmax then acceptLoop wmax chain u v fuel (k + 1) else some k

/-- `makeEvent`, AmpGen/DecayChainStack.h:344-356, and `fill_event`,
src/TreePhaseSpace.cpp:62-93, without the generator density. -/
noncomputable def makeEvent (wmax : ℝ) (chain : Nat → Stack) (u : Nat → Nat → ℝ) (v : Nat → ℝ) (a b : Nat → ℝ)
    (ev0 : Nat → V4) (fuel : Nat) : Option (Nat × (Nat → V4)) :=
  (acceptLoop wmax chain u v fuel 0).map fun k =>
    (k, fillFromState (chain k) ((chain k).state (u k)) a b ev0)

/-- `s(event, lfs, rfs)`, AmpGen/DecayChainStack.h:239-260. -/
def invMass (ev : Nat → V4) (fs : List Nat) : ℝ :=
  let P := fs.foldl (fun (P : V4) x => ⟨P.x + (ev x).x, P.y + (ev x).y, P.z + (ev x).z, P.e + (ev x).e⟩) ⟨0, 0, 0, 0⟩
  P.e * P.e - P.x * P.x - P.y * P.y - P.z * P.z

/-- `genPdf`, AmpGen/DecayChainStack.h:229-238. -/
noncomputable def genPdf (c : Stack) (ev : Nat → V4) : ℝ :=
  (List.range (c.N - 1)).foldl (fun g i => g * (c.nodes i).pdf (invMass ev ((c.nodes i).lfs ++ (c.nodes i).rfs))) 1

/-- `std::max_element` with a comparison: the first element no later one is greater than. -/
def maxElement {α : Type} (less : α → α → Bool) : α → List α → α
  | best, [] => best
  | best, x :: xs => maxElement less (if less best x then x else best) xs

/-- `initialise_weights`, src/TreePhaseSpace.cpp:55-60. -/
noncomputable def wmax (first : Stack) (rest : List Stack) : ℝ :=
  (maxElement (fun a b => decide (a.rhoMax > b.rhoMax)) first rest).rhoMax

end AmpGen.DecayChain
