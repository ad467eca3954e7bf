import Verif.Params.Model
import Verif.Options.Model
import Verif.Enum.Model
/-
Model of src/FitResult.cpp: writing a fit result to a file, reading it, and writing it as options.

Simplifications: numbers are rational and their texts are given by a `Format`; the parameters of a fit result are the list of the values of the parameters of
its parameter set, which has no two of the same name; observables are the list of the entries of the map in its order.
-/
namespace AmpGen.FitFile
open AmpGen.Strings (Str split find)
open AmpGen.Params (Param Flag)

/-- How numbers are written and read: `%lf`, `<<` with eight digits, `<<` for integers, `std::stod` or `lexical_cast` (`none`: it throws or fails), and
`lexical_cast<int>`. -/
structure Format where
  fixed : ℚ → Str
  general : ℚ → Str
  integer : Int → Str
  stod : Str → Option ℚ
  stoi : Str → Option Int

/-- The list of names of `Flag`, src/MinuitParameter.cpp:13. -/
def flagArgs : Str := "Free, Hide, Fix, CompileTimeConstant, Blind, Invalid".toList

/-- The number of a flag, AmpGen/MinuitParameter.h:13. -/
def flagIndex : Flag → Nat
  | .free => 0
  | .hide => 1
  | .fix => 2
  | .compileTimeConstant => 3
  | .blind => 4
  | .invalid => 5

/-- The flag with a number. -/
def flagOf (n : Int) : Flag :=
  if n = 0 then .free else if n = 1 then .hide else if n = 2 then .fix else if n = 3 then .compileTimeConstant else if n = 4 then .blind else .invalid

/-- `to_string<Flag>`. -/
def flagText (f : Flag) : Str := Enum.toString flagArgs (flagIndex f)

/-- `parse<Flag>`. -/
def parseFlag (s : Str) : Flag := flagOf (Enum.parse flagArgs 5 s)

/-- A fit result, AmpGen/FitResult.h:64-76, without the number of calls and the distance to the minimum, which are not written. -/
structure Result where
  params : List Param
  chi2 : ℚ
  nBins : ℚ
  nParam : ℚ
  logL : ℚ
  status : Int
  observables : List (Str × ℚ)
  fractions : List (Str × ℚ × ℚ)
  cov : List (List ℚ)
  covMapping : Str → Option Nat

/-- `%-50s` and the like. -/
def pad (n : Nat) (s : Str) : Str := s ++ List.replicate (n - s.length) ' '

/-- The parameter with a name. -/
def lookup (ps : List Param) (name : Str) : Option Param := ps.find? fun p => p.name = name

/-- The line of a parameter, src/FitResult.cpp:157-160. -/
def paramLine (fmt : Format) (p : Param) (mean : ℚ) : Str :=
  "Parameter ".toList ++ pad 50 p.name ++ " ".toList ++ pad 7 (flagText p.flag) ++ " ".toList ++ pad 12 (fmt.fixed mean) ++ " ".toList ++ pad 12 (fmt.fixed p.err) ++
    " ".toList ++ pad 12 (fmt.fixed p.errNeg) ++ " ".toList ++ pad 12 (fmt.fixed p.errPos) ++ " ".toList ++ pad 12 (fmt.fixed p.minInit) ++ " ".toList ++
    pad 12 (fmt.fixed p.maxInit) ++ " ".toList

/-- Loop over the parameters in `writeToFile`, src/FitResult.cpp:146-161; `none`: a parameter that does not exist is used. -/
def paramLines (fmt : Format) (r : Result) : List Nat → Option (List Str)
  | [] => some []
  | i :: is => do
    let p ← r.params[i]?
    let rest ← paramLines fmt r is
    if (find p.name "_blind".toList 0).isSome then some rest
    else if p.flag = .blind then do
      let b ← lookup r.params (p.name ++ "_blind".toList)
      if b.mean = 0 then some rest else some (paramLine fmt p (p.mean + b.mean) :: rest)
    else some (paramLine fmt p (p.mean + 0) :: rest)

/-- One row of the covariance matrix, src/FitResult.cpp:169. -/
def covLine (fmt : Format) (row : List ℚ) : Str := row.flatMap fun x => fmt.general x ++ " ".toList

/-- `writeToFile`, src/FitResult.cpp:140-179: the lines of the file. -/
def writeLines (fmt : Format) (r : Result) : Option (List Str) := do
  let ps ← paramLines fmt r (List.range r.cov.length)
  let order ← (List.range r.cov.length).mapM fun i => (r.params[i]?).map fun p => p.name ++ " ".toList ++ flagText p.flag ++ " ".toList
  some (ps ++
    ["FitQuality ".toList ++ fmt.general r.chi2 ++ " ".toList ++ fmt.general r.nBins ++ " ".toList ++ fmt.general r.nParam ++ " ".toList ++ fmt.general r.logL ++
      " ".toList ++ fmt.integer r.status] ++
    r.fractions.map (fun f => "FitFraction ".toList ++ f.1 ++ " ".toList ++ fmt.general f.2.1 ++ " ".toList ++ fmt.general f.2.2) ++
    r.observables.map (fun o => "Observable ".toList ++ o.1 ++ " ".toList ++ fmt.general o.2) ++
    [[], "CovarianceMatrix".toList] ++ r.cov.map (covLine fmt) ++ ["ParamsOrder ".toList ++ order.flatten, "End Log".toList])

/-- `writeToFile`: the text of the file. -/
def write (fmt : Format) (r : Result) : Option Str := (writeLines fmt r).map fun ls => ls.flatMap fun l => l ++ ['\n']

/-- What is known while a file is read. -/
structure ReadState where
  result : Result
  j : Nat
  inCov : Bool
  covLines : List (List ℚ)

/-- `to_vector_of_doubles`, src/FitResult.cpp:75-78. -/
def toDoubles (fmt : Format) (ts : List Str) : Option (List ℚ) := ts.mapM fmt.stod

/-- `to_parameter`, src/FitResult.cpp:79-89.  There are six numbers, and `args[6]` is read: `junk` is what is found there.  The outer `none`: an exception. -/
def toParameter (fmt : Format) (junk : ℚ) (tokens : List Str) : Option (Option Param) :=
  if tokens.length ≠ 9 then some none
  else do
    let args ← toDoubles fmt (tokens.drop 3)
    let p := Param.make (tokens.getD 1 []) (parseFlag (tokens.getD 2 [])) (args.getD 0 0) (args.getD 1 0) (args.getD 5 0) (args.getD 6 junk)
    some (some (p.setResult (args.getD 0 0) (args.getD 1 0) (args.getD 2 0) (args.getD 3 0)))

/-- `m_observables[name] = value`. -/
def setObservable (name : Str) (v : ℚ) : List (Str × ℚ) → List (Str × ℚ)
  | [] => [(name, v)]
  | o :: os => if o.1 = name then (name, v) :: os else o :: setObservable name v os

/-- `setFitQuality`, src/FitResult.cpp:117-130.  Where a word is not a number the value depends on the library: `none`. -/
def setFitQuality (fmt : Format) (tokens : List Str) (r : Result) : Option Result :=
  match tokens with
  | [_, a, b, c, d, e] => do
    let a ← fmt.stod a
    let b ← fmt.stod b
    let c ← fmt.stod c
    let d ← fmt.stod d
    let e ← fmt.stoi e
    some { r with chi2 := a, nBins := b, nParam := c, logL := d, status := e }
  | _ => some r

/-- The end of the body of `readFile`, src/FitResult.cpp:105-108. -/
def collect (fmt : Format) (tokens : List Str) (s : ReadState) : Option ReadState :=
  if s.inCov then (toDoubles fmt tokens).map fun v => { s with covLines := s.covLines ++ [v] } else some s

/-- The body of `readFile` for a line with the keyword `name`, src/FitResult.cpp:96-108.  `none`: an exception, or a token that does not exist is read. -/
def readTokens (fmt : Format) (junk : ℚ) (s : ReadState) (name : Str) (tokens : List Str) : Option ReadState :=
  if name = "Parameter".toList then
    (toParameter fmt junk tokens).bind fun p? => match p? with
    | none => collect fmt tokens s
    | some p =>
      let mapping := Function.update s.result.covMapping (tokens.getD 1 []) (some s.j)
      collect fmt tokens { s with result := { s.result with params := s.result.params ++ [p], covMapping := mapping }, j := s.j + 1 }
  else if name = "FitQuality".toList then
    (setFitQuality fmt tokens s.result).bind fun r => collect fmt tokens { s with result := r }
  else if name = "FitFraction".toList then
    (tokens[1]?).bind fun n => ((tokens[2]?).bind fmt.stod).bind fun v => ((tokens[3]?).bind fmt.stod).bind fun e =>
      collect fmt tokens { s with result := { s.result with fractions := s.result.fractions ++ [(n, v, e)] } }
  else if name = "Observable".toList then
    (tokens[1]?).bind fun n => ((tokens[2]?).bind fmt.stod).bind fun v =>
      collect fmt tokens { s with result := { s.result with observables := setObservable n v s.result.observables } }
  else if name = "ParamsOrder".toList then collect fmt tokens { s with inCov := false }
  else if name = "CovarianceMatrix".toList then some { s with inCov := true }
  else collect fmt tokens s

/-- The body of `readFile` for one line, src/FitResult.cpp:94-108.  `none`: the line has no token. -/
def readLine (fmt : Format) (junk : ℚ) (s : ReadState) (line : Str) : Option ReadState :=
  match split line ' ' true with
  | [] => none
  | name :: rest => readTokens fmt junk s name (name :: rest)

/-- The initial fit result, AmpGen/FitResult.h:64-76. -/
def Result.initial : Result := ⟨[], 0, 0, 0, -999, -1, [], [], [], fun _ => none⟩

/-- `readFile`, src/FitResult.cpp:73-115, for the text of the file. -/
def read (fmt : Format) (junk : ℚ) (text : Str) : Option Result := do
  let s ← (Options.fileLines text).foldlM (readLine fmt junk) ⟨Result.initial, 0, false, []⟩
  let cov ← (List.range s.j).mapM fun i => (List.range s.j).mapM fun j => (s.covLines[i]?).bind fun row => row[j]?
  some { s.result with cov := cov }

/-- `cov( x, y )` for names, src/FitResult.cpp:294. -/
def Result.covByName (r : Result) (x y : Str) : Option ℚ := do
  let i ← r.covMapping x
  let j ← r.covMapping y
  let row ← r.cov[i]?
  row[j]?

/-- `print_param`, src/FitResult.cpp:322-326. -/
def optionWords (fmt : Format) (p : Param) : Str :=
  " ".toList ++ pad 7 (flagText p.flag) ++ " ".toList ++ pad 12 (fmt.fixed p.mean) ++ " ".toList ++ pad 12 (fmt.fixed p.err) ++
    if p.minInit ≠ 0 ∧ p.maxInit ≠ 0 then " ".toList ++ pad 12 (fmt.fixed p.minInit) ++ " ".toList ++ pad 12 (fmt.fixed p.maxInit) else []

/-- `try_add_real`, src/FitResult.cpp:327-334: the line and the key. -/
def addReal (fmt : Format) (ps : List Param) (key : Str) : List Str × List Str :=
  match lookup ps key with
  | none => ([], [])
  | some p => ([pad 50 p.name ++ optionWords fmt p], [key])

/-- `try_add_complex`, src/FitResult.cpp:335-344. -/
def addComplex (fmt : Format) (ps : List Param) (key : Str) : List Str × List Str :=
  match lookup ps (key ++ "_Re".toList), lookup ps (key ++ "_Im".toList) with
  | some re, some im => ([pad 50 key ++ optionWords fmt re ++ optionWords fmt im], [key ++ "_Re".toList, key ++ "_Im".toList])
  | _, _ => ([], [])

/-- `replaceAll`, src/Utilities.cpp:107-124, with as many steps as can be needed. -/
def replace (s pat rep : Str) : Str := (Strings.replaceAll (s.length + 1) s pat rep).getD s

/-- `writeOptions` without an input file, src/FitResult.cpp:361-373: the lines, each of which is followed by a newline. -/
def writeOptions (fmt : Format) (ps : List Param) : List Str :=
  (ps.foldl (fun (acc : List Str × List Str) p =>
    if p.name ∈ acc.2 then acc
    else
      let add := if (find p.name "_Re".toList 0).isSome ∧ (lookup ps (replace p.name "_Re".toList "_Im".toList)).isSome then
          addComplex fmt ps (replace p.name "_Re".toList [])
        else if (find p.name "_Im".toList 0).isSome ∧ (lookup ps (replace p.name "_Im".toList "_Re".toList)).isSome then
          addComplex fmt ps (replace p.name "_Re".toList [])
        else addReal fmt ps p.name
      (acc.1 ++ add.1, acc.2 ++ add.2)) ([], [])).1

end AmpGen.FitFile
