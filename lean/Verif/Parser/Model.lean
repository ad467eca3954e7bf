import Verif.Strings.Model
/-
Model of the parser of expressions, src/ExpressionParser.cpp.

Simplifications: the expressions are values of an arbitrary type, with the functions, operators, end points and tensors of the code as arbitrary operations. A function with several arguments fails for a wrong number of
arguments, so functions may fail. Messages are reduced to whether an error is reported. Undefined behaviour (an access out of range), an exception and `FATAL` are `none`.
-/
namespace AmpGen.Parser
open AmpGen.Strings

/-- The names of the functions, src/ExpressionParser.cpp:150-167. -/
def unaryNames : List Str := ["sin", "cos", "tan", "acos", "atan", "asin", "sqrt", "exp", "log", "real", "imag", "abs", "atan2", "Ternary", "Secret"].map String.toList

/-- The names of the operators in the order in which they are applied, src/ExpressionParser.cpp:170-178. -/
def binaryNames : List Str := ["^", "/", "*", "-", "+", ">", "<", "&&", ","].map String.toList

/-- The operations on expressions. -/
structure Ops (E : Type) where
  un : Str → E → Option E
  bin : Str → E → E → E
  endPoint : Str → E
  tensor : List E → E

variable {E : Type}

/-- `processUnaryOperators`, src/ExpressionParser.cpp:44-54; the operators before the position are those of the first list. -/
def Ops.unaryPass (o : Ops E) : List Str → List Str → List E → Option (List Str × List E)
  | done, [], ex => some (done, ex)
  | done, op :: ops, ex =>
    if op ∈ unaryNames then do
      let e ← ex[done.length]?
      let v ← o.un op e
      o.unaryPass done ops (ex.set done.length v)
    else o.unaryPass (done ++ [op]) ops ex

/-- The loop over the positions for one operator, src/ExpressionParser.cpp:34-40. -/
def Ops.binaryPass (o : Ops E) (fcn : Str) : List Str → List Str → List E → Option (List Str × List E)
  | done, [], ex => some (done, ex)
  | done, op :: ops, ex =>
    if op ≠ fcn then o.binaryPass fcn (done ++ [op]) ops ex
    else do
      let a ← ex[done.length]?
      let b ← ex[done.length + 1]?
      o.binaryPass fcn done ops ((ex.set done.length (o.bin fcn a b)).eraseIdx (done.length + 1))

/-- `processBinaryOperators`, src/ExpressionParser.cpp:31-42. -/
def Ops.binaryPasses (o : Ops E) : List Str → List Str → List E → Option (List Str × List E)
  | [], ops, ex => some (ops, ex)
  | fcn :: fcns, ops, ex => (o.binaryPass fcn [] ops ex).bind fun r => o.binaryPasses fcns r.1 r.2

/-- The end of `parseTokens`, src/ExpressionParser.cpp:139-144: the expression and whether an error was reported. -/
def Ops.finish (o : Ops E) (ops : List Str) (ex : List E) (bad : Bool) : Option (E × Bool) := do
  let u ← o.unaryPass [] ops ex
  let b ← o.binaryPasses binaryNames u.1 u.2
  let e ← b.2[0]?
  return (e, bad || decide (b.2.length ≠ 1))

/-- `findMatchingBracket`, src/ExpressionParser.cpp:58-74, after the opening bracket: the number of tokens before the closing one. An empty token raises an exception. -/
def closing (op cl : Char) : Int → List Str → Option Nat
  | _, [] => none
  | n, t :: ts => do
    let c ← t.head?
    let m := n + (if c = op then 1 else 0) - (if c = cl then 1 else 0)
    if m = 0 then some 0 else (closing op cl m ts).map (· + 1)

/-- The loop of `split_it`, src/ExpressionParser.cpp:83-92, over all tokens but the last: the parts that are complete, and the tokens of the current part. -/
def splitLoop : List Str → Int → Int → List Str → List (List Str) → Option (List (List Str))
  | [], _, _, _, _ => none
  | [t], _, _, current, parts => some (parts ++ [current ++ [t]])
  | t :: ts, b1, b2, current, parts => do
    let c ← t.head?
    let b1 := b1 + (if c = '(' then 1 else 0) - (if c = ')' then 1 else 0)
    let b2 := b2 + (if c = '{' then 1 else 0) - (if c = '}' then 1 else 0)
    if t = [','] ∧ b1 = 0 ∧ b2 = 0 then splitLoop ts b1 b2 [] (parts ++ [current])
    else splitLoop ts b1 b2 (current ++ [t]) parts

/-- `split_it` with a comma, src/ExpressionParser.cpp:77-95. -/
def splitIt (ts : List Str) : Option (List (List Str)) := splitLoop ts 0 0 [] []

/-- The loop of `parseTokens` over the tokens, src/ExpressionParser.cpp:109-137, with the operators, the expressions and whether an error was reported so far; the fuel bounds the number of tokens. -/
def Ops.loop (o : Ops E) : Nat → List Str → List Str → List E → Bool → Option (List Str × List E × Bool)
  | 0, _, _, _, _ => none
  | _ + 1, [], ops, ex, bad => some (ops, ex, bad)
  | fuel + 1, t :: ts, ops, ex, bad =>
    match t with
    | [] => none
    | c :: _ =>
      if c = '(' then do
        let n ← closing '(' ')' 1 ts
        let s ← o.loop fuel (ts.take n) [] [] false
        let r ← o.finish s.1 s.2.1 s.2.2
        o.loop fuel (ts.drop (n + 1)) ops (ex ++ [r.1]) (bad || r.2)
      else if c = '{' then do
        let n ← closing '{' '}' 1 ts
        let parts ← splitIt (ts.take n)
        let rs ← parts.mapM fun p => (o.loop fuel p [] [] false).bind fun s => o.finish s.1 s.2.1 s.2.2
        o.loop fuel (ts.drop (n + 1)) ops (ex ++ [o.tensor (rs.map Prod.fst)]) (bad || rs.any Prod.snd)
      else if t ∈ binaryNames ∨ t ∈ unaryNames then o.loop fuel ts (ops ++ [t]) ex bad
      else o.loop fuel ts ops (ex ++ [o.endPoint t]) bad

/-- `parseTokens`, src/ExpressionParser.cpp:104-146; `Props` shows that the fuel is enough. -/
def Ops.parseTokens (o : Ops E) (ts : List Str) : Option (E × Bool) := (o.loop (ts.length + 1) ts [] [] false).bind fun s => o.finish s.1 s.2.1 s.2.2

/-- `ExpressionParser::parse( expr )`, src/ExpressionParser.cpp:209-214. -/
def Ops.parse (o : Ops E) (s : Str) : Option (E × Bool) := o.parseTokens (split s ' ' true)

end AmpGen.Parser
