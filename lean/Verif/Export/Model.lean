import Verif.Polarised.Model
import Mathlib.Data.Int.Log
import Mathlib.Algebra.Order.Round
/-
Model of the export of an amplitude to C++ source (`generateSourceCode` of src/CoherentSum.cpp and
src/PolarisedSum.cpp), of the names of the generated functions, and of the reuse of compiled
libraries by src/CompilerWrapper.cpp.
-/
namespace AmpGen.Export

open AmpGen.Polarised (PAmps probExpr)

/-! ### Numbers in generated source -/

/-- `std::to_string(double)`, used for the parameter buffer in `compileWithParameters`,
src/CompiledExpressionBase.cpp:231: six digits after the decimal point.  Simplification: the
result is the real number the printed text denotes, ties are rounded upwards. -/
noncomputable def dec6 (x : ℝ) : ℝ := round (x * 10 ^ 6) / 10 ^ 6

/-- `mysprintf("%g", val)`, used for every constant of an expression in `Constant::to_string`,
src/Expression.cpp:57-60: six significant digits.  Simplification: as for `dec6`; the case where
rounding moves to the next power of ten prints the same number. -/
noncomputable def sig6 (x : ℝ) : ℝ :=
  round (x / 10 ^ (Int.log 10 |x| - 5)) * 10 ^ (Int.log 10 |x| - 5)

/-- Real and imaginary part of a constant are printed separately, src/Expression.cpp:68-69. -/
noncomputable def csig6 (z : ℂ) : ℂ := ⟨sig6 z.re, sig6 z.im⟩

/-! ### Export of a coherent sum -/

/-- What `CoherentSum::generateSourceCode` uses of a matrix element, src/CoherentSum.cpp:187-197:
the value of its coupling, `finalStateParity` of its decay tree, and the compiled expression as a
function of the parameter buffer and the event. -/
structure Element (X : Type) where
  coupling : ℂ
  parity : Int
  amp : List ℝ → X → ℂ

variable {X : Type}

/-- The exported function `all_amplitudes`, src/CoherentSum.cpp:187-188. -/
def allAmplitudes (es : List (Element X)) (buf : List ℝ) (x : X) : List ℂ :=
  es.map fun e => e.amp buf x

/-- The exported function `all_amplitudes_wParams`: src/CompiledExpressionBase.cpp:225-233.
Simplification: an empty buffer is written as `{0}`, which no amplitude reads. -/
noncomputable def allAmplitudesWParams (es : List (Element X)) (buf : List ℝ) (x : X) : List ℂ :=
  allAmplitudes es (buf.map dec6) x

/-- The function exported for amplitude `i`, `<descriptor>_wParams`: src/CoherentSum.cpp:195. -/
noncomputable def component (es : List (Element X)) (buf : List ℝ) (i : Nat) (x : X) : ℂ :=
  (allAmplitudesWParams es buf x).getD i 0

/-- The exported function `AMP(x, sign)`: src/CoherentSum.cpp:189-194,198.  `Expression amplitude`
starts at zero (src/Expression.cpp:203). -/
noncomputable def AMP (es : List (Element X)) (buf : List ℝ) (x : X) (sign : Int) : ℂ :=
  es.zipIdx.foldl (fun amplitude ei =>
    amplitude + (if ei.1.parity = 1 then 1 else (sign : ℂ)) *
      (csig6 ei.1.coupling * (allAmplitudesWParams es buf x).getD ei.2 0)) 0

/-- The exported function `FCN(x, sign)`: src/CoherentSum.cpp:199. -/
noncomputable def FCN (es : List (Element X)) (buf : List ℝ) (normalisation : ℝ) (x : X) (sign : Int) : ℝ :=
  Complex.normSq (AMP es buf x sign) / sig6 normalisation

/-! ### Export of a polarised sum -/

variable {P : Type}

/-- The exported array `all_amplitudes_wParams` of a polarised sum: src/PolarisedSum.cpp:342-349,
component `j` of element `i` is stored at `i * size + j`. -/
noncomputable def polAmplitudes (A : PAmps P X) (p : P) (x : X) (k : Nat) : ℂ :=
  let size := A.s1 * A.s2
  A.amp (k / size) ((A.ext (k / size) p).map dec6) x (k % size)

/-- The polarised sum with the numbers `generateSourceCode` writes as constants: couplings, entries
of the polarisation vector and final state fraction, src/PolarisedSum.cpp:360,367-369. -/
noncomputable def written (A : PAmps P X) (pol : P → Nat → ℝ) (frac : Option (P → ℝ)) : PAmps P X :=
  { A with
    coup := fun i p => csig6 (A.coup i p)
    pol := pol
    frac := frac }

/-- The exported function `FCN(x, sign)` of a polarised sum: src/PolarisedSum.cpp:351-370.  The
second argument is not used. -/
noncomputable def polFCN (A : PAmps P X) (p : P) (normalisation : ℝ) (x : X) (_sign : Int) : ℝ :=
  probExpr (written A (fun p k => sig6 (A.pol p k)) (A.frac.map fun fr p => sig6 (fr p))) p
    (polAmplitudes A p x) / sig6 normalisation

/-- Result of asking the exported library for a function. -/
inductive Call where
  | absent
  | undefinedBehaviour
  | value (v : ℝ)

/-- The exported function `FCN_extPol(x, sign, px, py, pz)`: src/PolarisedSum.cpp:372-375.  It
exists for more than one initial polarisation state.  Three polarisation expressions are passed to
`probExpression`, which reads eight of them for a spin one initial state
(src/PolarisedSum.cpp:388-397), beyond the end of the vector.  No final state fraction is passed. -/
noncomputable def polFCNExt (A : PAmps P X) (p : P) (normalisation : ℝ) (x : X) (_sign : Int)
    (px py pz : ℝ) : Call :=
  if A.s1 > 1 then
    if A.s1 = 3 then .undefinedBehaviour
    else .value (probExpr (written A (fun _ k => [px, py, pz].getD k 0) none) p (polAmplitudes A p x) /
      sig6 normalisation)
  else .absent

/-! ### Names of generated functions -/

/-- `std::isalnum` in the C locale. -/
def isAlnum (c : Char) : Bool :=
  (decide (48 ≤ c.toNat) && decide (c.toNat ≤ 57)) || (decide (65 ≤ c.toNat) && decide (c.toNat ≤ 90)) ||
  (decide (97 ≤ c.toNat) && decide (c.toNat ≤ 122))

/-- `isdigit`. -/
def isDigit (c : Char) : Bool := decide (48 ≤ c.toNat) && decide (c.toNat ≤ 57)

/-- The replacements of src/CompiledExpressionBase.cpp:39-43 applied to one character. -/
def symbolChar (c : Char) : Char :=
  let c := if c = '-' then 'm' else c
  let c := if c = '+' then 'p' else c
  let c := if c = '-' then 'm' else c
  let c := if c = '*' then 's' else c
  if !isAlnum c then '_' else c

/-- `programatic_name`, src/CompiledExpressionBase.cpp:37-47.  Simplification: names are ASCII. -/
def programaticName (s : List Char) : List Char :=
  let s := s.map symbolChar
  let s := match s with
    | c :: _ => if isDigit c then 'f' :: s else s
    | [] => s
  s.map fun c => if c = '\'' then '_' else c

/-! ### Reuse of compiled libraries -/

/-- `FNV1a_hash`, src/Utilities.cpp:241-249, for ASCII strings: arithmetic of `unsigned int`. -/
def fnv1a (s : List Char) : Nat :=
  s.foldl (fun h c => (h ^^^ c.toNat) * 16777619 % 2 ^ 32) 2166136261

/-- What compiling depends on of a `CompiledExpressionBase`: its name, the body of the generated
function, and whether a batch function and a debug function are generated
(src/CompiledExpressionBase.cpp:88-122). -/
structure Fn (Code : Type) where
  name : List Char
  code : Code
  batch : Bool
  db : Bool

/-- A shared library made from one expression. -/
structure Lib (Code : Type) where
  symbol : List Char
  code : Code
  batch : Bool
  db : Bool

/-- What the compiler makes of the source of an expression:
src/CompiledExpressionBase.cpp:88-122. -/
def Fn.lib {Code : Type} (f : Fn Code) : Lib Code :=
  { symbol := programaticName f.name, code := f.code, batch := f.batch, db := f.db }

/-- File name of a library, src/CompilerWrapper.cpp:92-94: `name_hash.so`.  Simplification: kept
as a pair, from which the text is built injectively as the hash is decimal. -/
abbrev Path := List Char × Nat

/-- The disk and the running process.  `files p = some none` is a file that is not a complete
library; `loaded` are the libraries `dlopen` has mapped in this process, which are never closed
(AmpGen/CompiledExpression.h:192-195). -/
structure World (Code : Type) where
  files : Path → Option (Option (Lib Code))
  loaded : Path → Option (Lib Code)

variable {Code : Type}

/-- `dlopen(path, RTLD_NOW)`: a library that is mapped already is returned as it is; a missing
or incomplete file gives a null handle. -/
def dlopen (w : World Code) (p : Path) : World Code × Option (Lib Code) :=
  match w.loaded p with
  | some l => (w, some l)
  | none =>
    match w.files p with
    | some (some l) => ({ w with loaded := fun q => if q = p then some l else w.loaded q }, some l)
    | _ => (w, none)

/-- The function a compiled expression calls after linking: its code, and whether the batch
function was found. -/
structure Linked (Code : Type) where
  code : Code
  batch : Bool

/-- `CompiledExpression::link`, AmpGen/CompiledExpression.h:183-195 with
AmpGen/DynamicFCN.h:55-64: a missing main symbol, in particular a null handle, stops the program
(`none`); a missing debug or batch function gives status `false`. -/
def link (w : World Code) (f : Fn Code) (p : Path) : Option (World Code × Bool × Linked Code) :=
  match dlopen w p with
  | (_, none) => none
  | (w', some l) =>
    if l.symbol = programaticName f.name then
      some (w', (!f.db || l.db) && (!f.batch || l.batch), ⟨l.code, f.batch && l.batch⟩)
    else none

/-- File name used for an expression: src/CompilerWrapper.cpp:91-94, `tmp` is the result of
`generateFilename`. -/
def path (f : Fn Code) (fname tmp : List Char) : Path := (if fname = [] then tmp else fname, fnv1a f.name)

/-- `CompilerWrapper::compile`, src/CompilerWrapper.cpp:88-107.  `force` is the option
`CompilerWrapper::ForceRebuild`; `ok` says whether the compiler wrote the library: its exit status
is not looked at (src/CompilerWrapper.cpp:193-202). -/
def compile (w : World Code) (f : Fn Code) (fname tmp : List Char) (force ok : Bool) :
    Option (World Code × Linked Code) :=
  let p := path f fname tmp
  let build (w : World Code) : Option (World Code × Linked Code) :=
    let w := if ok then { w with files := fun q => if q = p then some (some f.lib) else w.files q } else w
    (link w f p).map fun r => (r.1, r.2.2)
  if force = false ∧ w.files p ≠ none then
    match link w f p with
    | none => none
    | some (w', true, l) => some (w', l)
    | some (w', false, _) => build w'
  else build w

/-- What can happen between and during compilations: a compilation, the start of a new process, a
process that ends while the compiler writes the library, and the removal of a file. -/
inductive Op (Code : Type) where
  | compile (f : Fn Code) (fname tmp : List Char) (force ok : Bool)
  | restart
  | crash (f : Fn Code) (fname tmp : List Char)
  | remove (p : Path)

/-- One step; `none` if the program stops with a fatal error. -/
def step (w : World Code) : Op Code → Option (World Code × Option (Linked Code))
  | .compile f fname tmp force ok => (compile w f fname tmp force ok).map fun r => (r.1, some r.2)
  | .restart => some ({ w with loaded := fun _ => none }, none)
  | .crash f fname tmp =>
    some ({ files := fun q => if q = path f fname tmp then some none else w.files q, loaded := fun _ => none }, none)
  | .remove p => some ({ w with files := fun q => if q = p then none else w.files q }, none)

/-- A history of steps. -/
def run (w : World Code) : List (Op Code) → Option (World Code)
  | [] => some w
  | o :: os => (step w o).bind fun r => run r.1 os

/-- A directory without libraries and a new process. -/
def World.empty : World Code := { files := fun _ => none, loaded := fun _ => none }

end AmpGen.Export
