import Verif.Strings.Model
import Mathlib.Logic.Function.Basic
/-
Model of src/OptionsParser.cpp, AmpGen/OptionsParser.h, AmpGen/NamedParameter.h and `processFile` (AmpGen/Utilities.h).

`none` stands for undefined behaviour (reading the first element of an empty list) or for no answer within the given number of nested imports.
Not modelled: printing, `m_printHelp`, and the effect of the keywords `ParticleProperties`, `ParticlePropertiesList::Alias` and
`ParticlePropertiesList::Import` on the particle list, which leave the parsed lines as they are.
-/
namespace AmpGen.Options
open AmpGen.Strings (Str getlines find)

/-- `std::isblank`, src/OptionsParser.cpp:141. -/
def isBlank (c : Char) : Bool := c == ' ' || c == '\t'

/-- Locals of `makeParsedStrings`: `insideQuotes`, the word being read (`none` if `prevBlank`), `fillThisList`, `braceDepth`. -/
structure PState where
  quotes : Bool
  cur : Option Str
  out : List Str
  depth : Int

/-- Loop of `makeParsedStrings`, src/OptionsParser.cpp:139-154. -/
def parseLoop : Str → PState → PState
  | [], st => st
  | c :: s, st =>
    if !st.quotes && c == '#' then st
    else
      let st := if (!st.quotes && isBlank c) || c == '"' then { st with out := st.out ++ st.cur.toList, cur := none }
        else { st with cur := some (st.cur.getD [] ++ [c]) }
      let st := if c = '"' then { st with quotes := !st.quotes } else st
      let st := if c = '{' ∧ st.quotes = false then { st with depth := st.depth + 1 } else st
      let st := if c = '}' ∧ st.quotes = false then { st with depth := st.depth - 1 } else st
      parseLoop s st

/-- `makeParsedStrings`, src/OptionsParser.cpp:127-162: the words and the new `braceDepth`. -/
def makeParsedStrings (line : Str) (depth : Int) : List Str × Int :=
  if line = [] then ([], depth)
  else
    let st := parseLoop (' ' :: line ++ [' ']) ⟨false, none, [], depth⟩
    (st.out, st.depth)

/-- `ignoreThisLine`, src/OptionsParser.cpp:33-41. -/
def ignoreThisLine (line : Str) : Bool :=
  match line with
  | [] => true
  | c :: _ => c == '*' || c == '#'

/-- `m_parsedLines` and `m_orderedKeys`, AmpGen/OptionsParser.h:40-41. -/
structure Parser where
  parsed : Str → Option (List Str)
  ordered : List Str

/-- `find`, src/OptionsParser.cpp:168. -/
def Parser.find (p : Parser) (key : Str) : Option (List Str) := p.parsed key

/-- `getInputOrdered`, src/OptionsParser.cpp:43-48. -/
def Parser.getInputOrdered (p : Parser) : List (Option (List Str)) := p.ordered.map p.parsed

/-- `m_keywords`, src/OptionsParser.cpp:15-21. -/
def keywords : List Str :=
  ["Import".toList, "ParticleProperties".toList, "ParticlePropertiesList::Alias".toList, "ParticlePropertiesList::Import".toList]

/-- `addArg( tokens )`, src/OptionsParser.cpp:116-125, with the keyword `Import`, line 17; `imp` is `import( expandGlobals( . ) )`. -/
def addTokens (imp : Str → Parser → Option Parser) (p : Parser) : List Str → Option Parser
  | [] => none
  | key :: args =>
    if key ∈ keywords then
      if key = "Import".toList then
        match args with
        | [file] => imp file p
        | _ => some p
      else some p
    else some { parsed := Function.update p.parsed key (some (key :: args)), ordered := p.ordered ++ [key] }

/-- The lines of a file handed on by `processFile`, AmpGen/Utilities.h:114-126. -/
def fileLines (text : Str) : List Str :=
  ((getlines '\n' text).map fun l => l.filter fun c => c != '\r').filter fun l => !(l == [] || l.head? == some '#')

/-- `isCurlyBrace`, src/OptionsParser.cpp:103. -/
def isCurlyBrace (o : Str) : Bool := o == ['{'] || o == ['}']

/-- The function applied to every line by `import`, src/OptionsParser.cpp:93-107, for all lines; `currentTokens` and `braceDepth` are carried along. -/
def importLines (imp : Str → Parser → Option Parser) : List Str → List Str → Int → Parser → Option Parser
  | [], _, _, p => some p
  | line :: rest, tokens, depth, p =>
    if ignoreThisLine line then importLines imp rest tokens depth p
    else
      let parsed := makeParsedStrings line depth
      let tokens := tokens ++ parsed.1
      if parsed.1.length = 0 then importLines imp rest tokens parsed.2 p
      else if parsed.2 ≠ 0 then importLines imp rest tokens parsed.2 p
      else
        (addTokens imp p (tokens.filter fun o => !isCurlyBrace o)).bind (importLines imp rest [] parsed.2)

/-- `import`, src/OptionsParser.cpp:84-108.  `fs` gives the contents of the files that exist, `expand` is `expandGlobals`, the number bounds the depth
of nested imports. -/
def importFile (fs : Str → Option Str) (expand : Str → Str) : Nat → Str → Parser → Option Parser
  | 0, _, _ => none
  | n + 1, name, p =>
    match fs name with
    | none => some p
    | some text => importLines (fun f => importFile fs expand n (expand f)) (fileLines text) [] 0 p

/-- `addArg( arg )`, src/OptionsParser.cpp:110-114. -/
def addArg (fs : Str → Option Str) (expand : Str → Str) (n : Nat) (arg : Str) (p : Parser) : Option Parser :=
  addTokens (fun f => importFile fs expand n (expand f)) p (makeParsedStrings arg 0).1

/-- Loop of `setCommandLineArgs`, src/OptionsParser.cpp:51-76, over the arguments after the first. -/
def commandLine (fs : Str → Option Str) (expand : Str → Str) (n : Nat) : List Str → Parser → Option Parser
  | [], p => some p
  | token :: rest, p =>
    if find token ['-', '-'] 0 = none then (importFile fs expand n token p).bind (commandLine fs expand n rest)
    else
      match find token ['='] 0 with
      | some pos =>
        (addArg fs expand n (((token.drop 2).take (pos - 2)) ++ [' '] ++ token.drop (pos + 1)) p).bind (commandLine fs expand n rest)
      | none =>
        match rest with
        | [] => addArg fs expand n (token.drop 2 ++ [' ', '1']) p
        | token2 :: rest' =>
          if find token2 ['-', '-'] 0 = none then
            (addArg fs expand n (token.drop 2 ++ [' '] ++ token2) p).bind (commandLine fs expand n rest')
          else (addArg fs expand n (token.drop 2 ++ [' ', '1']) p).bind (commandLine fs expand n (token2 :: rest'))

/-- `NamedParameter`: `setVal( def )` then `setFromOptionsParser`, AmpGen/NamedParameter.h:39-77: the values.  `cast` is `lexical_cast` and `dflt` the
value-initialised `T()`. -/
def namedParameter {T : Type} (cast : Str → Option T) (dflt : T) (p : Parser) (name : Str) (defs : List T) : List T :=
  match p.find name with
  | none => defs
  | some vsl => if vsl.length < 2 then defs else (vsl.drop 1).map fun w => (cast w).getD dflt

end AmpGen.Options
