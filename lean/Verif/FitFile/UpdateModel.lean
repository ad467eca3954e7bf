import Verif.FitFile.Model
/-
Model of `writeOptions` with an input file, src/FitResult.cpp:313-360.

Simplifications: as in Verif/FitFile/Model.lean; a parameter is found by its own name only, and not by an alias.
-/
namespace AmpGen.FitFile
open AmpGen.Strings (Str split)
open AmpGen.Params (Param)

/-- The lines handed on by `processFile` if none is to be ignored, AmpGen/Utilities.h:119-124.  What follows the last newline is a line too, also if it is empty,
as the stream is good until the end of the file has been met. -/
def allLines : Str → List Str
  | [] => [[]]
  | c :: cs =>
    if c = '\n' then [] :: allLines cs
    else match allLines cs with
      | [] => [[c]]
      | l :: ls => (c :: l) :: ls

/-- The function applied to each line, src/FitResult.cpp:350-359: the lines that are written for it.  `none`: the second word is read and there is only one. -/
def updateLine (fmt : Format) (ps : List Param) (line : Str) : Option (List Str) :=
  match split line ' ' true with
  | [] => some [line]
  | key :: rest =>
    if (lookup ps key).isSome ∨ (lookup ps (key ++ "_Re".toList)).isSome ∨ (lookup ps (key ++ "_Im".toList)).isSome then
      match rest with
      | [] => none
      | w :: _ =>
        if w ≠ "=".toList then some (if (lookup ps key).isSome then (addReal fmt ps key).1 else (addComplex fmt ps key).1)
        else some [line]
    else some [line]

/-- `writeOptions( stream, input )`, src/FitResult.cpp:347-360, for the text of the input file: the text that is written.  The carriage returns are removed by
`processFile`, AmpGen/Utilities.h:121. -/
def updateOptions (fmt : Format) (ps : List Param) (text : Str) : Option Str :=
  (((allLines text).map fun l => l.filter fun c => c != '\r').mapM (updateLine fmt ps)).map fun ls => ls.flatten.flatMap fun l => l ++ ['\n']

/-- `writeOptions( output, input )`, src/FitResult.cpp:313-317, for an input that is given: the files afterwards.  The output is opened, and so emptied, first;
a file that does not exist has no lines. -/
def updateFile (fmt : Format) (ps : List Param) (fs : Str → Option Str) (output input : Str) : Option (Str → Option Str) :=
  let opened := Function.update fs output (some [])
  match opened input with
  | none => some opened
  | some text => (updateOptions fmt ps text).map fun t => Function.update opened output (some t)

end AmpGen.FitFile
