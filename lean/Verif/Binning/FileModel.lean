import Verif.Binning.Model
import Verif.FitFile.Model
/-
Model of writing and reading fast decision trees, src/FastDT.cpp:8-30.

Simplifications: the index of a node that is read is cut off at zero (negative ones are never written), and integers have no bounds.
-/
namespace AmpGen.FastTree
open AmpGen.Binning (FNode findNode findLoop)
open AmpGen.Strings (Str split)
open AmpGen.FitFile (Format)

/-- The line of a node, src/FastDT.cpp:28. -/
def nodeLine (fmt : Format) (n : FNode) : Str :=
  fmt.integer n.index ++ ' ' :: (fmt.integer n.left ++ ' ' :: (fmt.integer n.right ++ ' ' :: fmt.general n.cut))

/-- `serialise`, src/FastDT.cpp:26-29: the text appended to the stream. -/
def serialise (fmt : Format) (nodes : List FNode) : Str := nodes.flatMap fun n => nodeLine fmt n ++ ['\n']

/-- The state of `readFromStream`: what is left of the stream, whether its end has been met, and the variable `tmp`. -/
structure In where
  text : Str
  eof : Bool
  line : Str

/-- `std::getline( stream, tmp )`, used in src/FastDT.cpp:18: once the end has been met, the variable is not touched. -/
def In.getline (s : In) : In :=
  if s.eof then s
  else match s.text.dropWhile (· != '\n') with
    | [] => ⟨[], true, s.text⟩
    | _ :: rest => ⟨rest, false, s.text.takeWhile (· != '\n')⟩

/-- What has become of the loop after some turns. -/
inductive Outcome where
  /-- The loop has ended; what is left of the stream. -/
  | done (nodes : List FNode) (rest : Str)
  /-- The end of the program: a line with another number of words, or an exception. -/
  | fatal
  /-- The loop goes on. -/
  | running (nodes : List FNode)

/-- The words of a line read as a node, src/FastDT.cpp:20-22. -/
def readNode (fmt : Format) (line : Str) : Option FNode :=
  match split line ' ' true with
  | [a, b, c, d] => do
    let i ← fmt.stoi a
    let l ← fmt.stoi b
    let r ← fmt.stoi c
    let x ← fmt.stod d
    pure ⟨i.toNat, l, r, x⟩
  | _ => none

/-- The loop of `readFromStream`, src/FastDT.cpp:13-24, for a number of turns; the nodes are appended to those of the tree. -/
def readLoop (fmt : Format) : Nat → In → List FNode → Outcome
  | 0, _, nodes => .running nodes
  | turns + 1, s, nodes =>
    if s.getline.line = [] then .done nodes s.getline.text
    else match readNode fmt s.getline.line with
      | none => .fatal
      | some n => readLoop fmt turns s.getline (nodes ++ [n])

/-- `FastDT( stream, n_nodes )`, src/FastDT.cpp:8-11, on a stream with the given text: the number of nodes is not used. -/
def readTree (fmt : Format) (turns : Nat) (text : Str) : Outcome := readLoop fmt turns ⟨text, false, []⟩ []

end AmpGen.FastTree
