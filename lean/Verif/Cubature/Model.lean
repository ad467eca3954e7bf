import Mathlib.Algebra.BigOperators.Group.Finset.Basic
import Mathlib.Data.Real.Basic
import Mathlib.Data.Fintype.BigOperators
import Mathlib.Data.List.FinRange
/-
Integration over boxes, AmpGen/NumericalIntegration.h and AmpGen/simd/integrate_fp.h.

Simplifications: `double` is `ℝ`.  Sums that the code accumulates in a loop are finite sums.  The arrays of the code have a fixed size; here they
are functions of the natural numbers, and the theorems show which indices are used.  The version for four lanes at a time,
integrate_fp.h:46-104, evaluates the same points and is not modelled apart from that.
-/
namespace AmpGen.Cubature

/-- The constants of the rule, integrate_fp.h:10-44.  The tables are indexed by `dim - 2`. -/
structure Consts where
  xl2 : ℝ
  xl4 : ℝ
  xl5 : ℝ
  w2 : ℝ
  w4 : ℝ
  wp2 : ℝ
  wp4 : ℝ
  wn1 : ℕ → ℝ
  wn3 : ℕ → ℝ
  wn5 : ℕ → ℝ
  wpn1 : ℕ → ℝ
  wpn3 : ℕ → ℝ

/-- integrate_fp.h:19-22 -/
def wn1 : List ℚ := [-0.193872885230909911, -0.555606360818980835,
  -0.876695625666819078, -1.15714067977442459, -1.39694152314179743,
  -1.59609815576893754, -1.75461057765584494, -1.87247878880251983,
  -1.94970278920896201, -1.98628257887517146, -1.98221815780114818,
  -1.93750952598689219, -1.85215668343240347, -1.72615963013768225]

/-- integrate_fp.h:24-28 -/
def wn3 : List ℚ := [0.0518213686937966768, 0.0314992633236803330,
  0.0111771579535639891, -0.00914494741655235473, -0.0294670527866686986,
  -0.0497891581567850424, -0.0701112635269013768, -0.0904333688970177241,
  -0.110755474267134071, -0.131077579637250419, -0.151399685007366752,
  -0.171721790377483099, -0.192043895747599447, -0.212366001117715794]

/-- integrate_fp.h:30-34 -/
def wn5 : List ℚ := [0.871183254585174982e-01, 0.435591627292587508e-01,
  0.217795813646293754e-01, 0.108897906823146873e-01, 0.544489534115734364e-02,
  0.272244767057867193e-02, 0.136122383528933596e-02, 0.680611917644667955e-03,
  0.340305958822333977e-03, 0.170152979411166995e-03, 0.850764897055834977e-04,
  0.425382448527917472e-04, 0.212691224263958736e-04, 0.106345612131979372e-04]

/-- integrate_fp.h:36-40 -/
def wpn1 : List ℚ := [-1.33196159122085045, -2.29218106995884763,
  -3.11522633744855959, -3.80109739368998611, -4.34979423868312742,
  -4.76131687242798352, -5.03566529492455417, -5.17283950617283939,
  -5.17283950617283939, -5.03566529492455417, -4.76131687242798352,
  -4.34979423868312742, -3.80109739368998611, -3.11522633744855959]

/-- integrate_fp.h:42-46 -/
def wpn3 : List ℚ := [0.0445816186556927292, -0.0240054869684499309,
  -0.0925925925925925875, -0.161179698216735251, -0.229766803840877915,
  -0.298353909465020564, -0.366941015089163228, -0.435528120713305891,
  -0.504115226337448555, -0.572702331961591218, -0.641289437585733882,
  -0.709876543209876532, -0.778463648834019195, -0.847050754458161859]

/-- integrate_fp.h:11-13 -/
def xl2 : ℚ := 0.358568582800318073
def xl4 : ℚ := 0.948683298050513796
def xl5 : ℚ := 0.688247201611685289

/-- The constants as they stand, integrate_fp.h:11-46. -/
def literal : Consts where
  xl2 := xl2
  xl4 := xl4
  xl5 := xl5
  w2 := (980 / 6561 : ℚ)
  w4 := (200 / 19683 : ℚ)
  wp2 := (245 / 486 : ℚ)
  wp4 := (25 / 729 : ℚ)
  wn1 k := (wn1.getD k 0 : ℚ)
  wn3 k := (wn3.getD k 0 : ℚ)
  wn5 k := (wn5.getD k 0 : ℚ)
  wpn1 k := (wpn1.getD k 0 : ℚ)
  wpn3 k := (wpn3.getD k 0 : ℚ)

variable {n : ℕ}

/-- `eval`, integrate_fp.h:108-115: one coordinate moved. -/
def eval (F : (Fin n → ℝ) → ℝ) (z : Fin n → ℝ) (p : ℝ) (ind : Fin n) : ℝ := F (Function.update z ind (z ind + p))

/-- `eval_2`, integrate_fp.h:116-127: two coordinates moved, one after the other. -/
def eval2 (F : (Fin n → ℝ) → ℝ) (z : Fin n → ℝ) (p : ℝ) (ind : Fin n) (p2 : ℝ) (ind2 : Fin n) : ℝ :=
  let z' := Function.update z ind (z ind + p)
  F (Function.update z' ind2 (z' ind2 + p2))

section
variable (c : Consts) (F : (Fin n → ℝ) → ℝ) (ctr wth : Fin n → ℝ)

/-- `f2`, 146. -/
def f2 (j : Fin n) : ℝ := eval F ctr (-c.xl2 * wth j) j + eval F ctr (c.xl2 * wth j) j

/-- `f3`, 147. -/
def f3 (j : Fin n) : ℝ := eval F ctr (-c.xl4 * wth j) j + eval F ctr (c.xl4 * wth j) j

/-- `sum1`, 133. -/
def sum1 : ℝ := F ctr

/-- `sum2`, 149. -/
def sum2 : ℝ := ∑ j, f2 c F ctr wth j

/-- `sum3`, 150. -/
def sum3 : ℝ := ∑ j, f3 c F ctr wth j

/-- `sum4`, 154-160. -/
def sum4 : ℝ := ∑ j : Fin n, ∑ k : Fin n, if j < k then
    eval2 F ctr (c.xl4 * wth j) j (c.xl4 * wth k) k + eval2 F ctr (c.xl4 * wth j) j (-c.xl4 * wth k) k +
      eval2 F ctr (-c.xl4 * wth j) j (c.xl4 * wth k) k + eval2 F ctr (-c.xl4 * wth j) j (-c.xl4 * wth k) k
  else 0

/-- `sum5`, 162-166: the signs of the coordinates are the bits of a counter. -/
def sum5 : ℝ := ∑ j ∈ Finset.range (2 ^ n), F (fun k => ctr k + (if j.testBit k then 1 else -1) * c.xl5 * wth k)

/-- `rgnvol`, 131-132. -/
def rgnvol : ℝ := 2 ^ n * ∏ j, wth j

/-- `dif`, 151. -/
def dif (j : Fin n) : ℝ := |7 * f2 c F ctr wth j - f3 c F ctr wth j - 12 * sum1 F ctr|

open Classical in
/-- One turn of the loop over coordinates on `idvaxn` and `difmax`, 152-153. -/
noncomputable def axisStep (s : Fin n × ℝ) (j : Fin n) : Fin n × ℝ :=
  (if s.2 ≤ dif c F ctr wth j then j else s.1, if s.2 ≤ dif c F ctr wth j then dif c F ctr wth j else s.2)

/-- `idvaxn` after the loop. -/
noncomputable def axis [NeZero n] : Fin n := ((List.finRange n).foldl (axisStep c F ctr wth) (0, 0)).1

/-- `rgncmp`, 168. -/
def rgncmp : ℝ := rgnvol wth * (c.wpn1 (n - 2) * sum1 F ctr + c.wp2 * sum2 c F ctr wth + c.wpn3 (n - 2) * sum3 c F ctr wth +
  c.wp4 * sum4 c F ctr wth)

/-- `rgnval`, 169. -/
def rgnval : ℝ := rgnvol wth * (c.wn1 (n - 2) * sum1 F ctr + c.w2 * sum2 c F ctr wth + c.wn3 (n - 2) * sum3 c F ctr wth +
  c.w4 * sum4 c F ctr wth + c.wn5 (n - 2) * sum5 c F ctr wth)

end

/-- `integrate_fp_scalar`, 105-173. -/
noncomputable def integrateFp [NeZero n] (c : Consts) (F : (Fin n → ℝ) → ℝ) (ctr wth : Fin n → ℝ) : ℝ × ℝ × Fin n :=
  (rgnval c F ctr wth, |rgnval c F ctr wth - rgncmp c F ctr wth|, axis c F ctr wth)

/-- `integral<dim>`, NumericalIntegration.h:64-71. -/
structure Region (n : ℕ) where
  value : ℝ
  var : ℝ
  index : Fin n
  a : Fin n → ℝ
  b : Fin n → ℝ

/-- `irlcls`, NumericalIntegration.h:122, which is also `minpts`, 123. -/
def irlcls (n : ℕ) : ℕ := 2 ^ n + 2 * n * (n + 1) + 1

/-- `maxpts`, 124. -/
def maxpts : ℕ := 1000000

/-- The size of `partial_integrals`, 126. -/
def arraySize (n : ℕ) : ℕ := (1 + maxpts / irlcls n) / 2

/-- The variables of the loop, 106-137. -/
structure State (n : ℕ) where
  pi : ℕ → Region n
  isbrgn : ℕ
  isbrgs : ℕ
  /-- `current_integral` is the address of this element of the array. -/
  cur : ℕ
  ldv : Bool
  result : ℝ
  abserr : ℝ
  ifncls : ℕ
  idvax0 : Fin n

open Classical in
/-- The loop 156-163.  Its position is at most `isbrgs` at the end of each turn. -/
noncomputable def siftDown (err : ℝ) (m : ℕ) (pi : ℕ → Region n) (i : ℕ) : (ℕ → Region n) × ℕ :=
  if _h : i = 0 then (pi, i) -- not reached: the loop starts at one
  else if _h1 : 2 * i > m then (pi, i)
  else
    let t := if 2 * i < m ∧ (pi (2 * i)).var < (pi (2 * i + 1)).var then 2 * i + 1 else 2 * i
    if err ≥ (pi t).var then (pi, i) else siftDown err m (Function.update pi i (pi t)) t
termination_by m - i
decreasing_by
  split <;> omega

open Classical in
/-- The loop 167-173. -/
noncomputable def siftUp (err : ℝ) (pi : ℕ → Region n) (i : ℕ) : (ℕ → Region n) × ℕ :=
  if _h : i / 2 ≥ 1 ∧ err > (pi (i / 2)).var then siftUp err (Function.update pi i (pi (i / 2))) (i / 2) else (pi, i)
termination_by i
decreasing_by omega

/-- What a turn of the loop does. -/
inductive Turn (n : ℕ) where
  | go (s : State n)
  | stop (result : ℝ)

open Classical in
/-- The body of the loop, 140-201.  `epsrel` and `epsabs` are those of 109-110. -/
noncomputable def turn (rule : (Fin n → ℝ) → (Fin n → ℝ) → ℝ × ℝ × Fin n) (epsrel epsabs : ℝ) (s : State n) : Turn n :=
  let cur := s.pi s.cur
  let r := rule cur.a cur.b
  let rgnval := r.1
  let rgnerr := r.2.1
  let idvaxn := r.2.2
  let result := s.result + rgnval
  let abserr := s.abserr + rgnerr
  let ifncls := s.ifncls + irlcls n
  let aresult := |result|
  let tmp : Region n := ⟨rgnval, rgnerr, idvaxn, cur.a, cur.b⟩
  let moved := if s.ldv then siftDown rgnerr s.isbrgs s.pi s.isbrgn else siftUp rgnerr s.pi s.isbrgn
  let isbrgn := moved.2
  let pi := Function.update moved.1 isbrgn tmp
  if s.ldv then
    let old := pi isbrgn
    let isbrgs := s.isbrgs + 1
    let new : Region n := { pi isbrgs with a := Function.update old.a s.idvax0 (old.a s.idvax0 + 2 * old.b s.idvax0), b := old.b }
    .go { pi := Function.update pi isbrgs new, isbrgn := isbrgs, isbrgs := isbrgs, cur := isbrgs, ldv := false, result, abserr, ifncls,
          idvax0 := s.idvax0 }
  else
    let relerr := if |result| = 0 then abserr else abserr / |result|
    if (relerr < epsrel ∧ aresult < epsabs) ∨ ((relerr < epsrel ∨ abserr < epsabs) ∧ ifncls > irlcls n) then .stop result
    else if s.isbrgs ≥ arraySize n - 1 ∨ ifncls + 2 * irlcls n > maxpts then .stop result
    else
      let root := pi 1
      let b := Function.update root.b root.index (root.b root.index * 0.5)
      let a := Function.update root.a root.index (root.a root.index - b root.index)
      .go { pi := Function.update pi 1 { root with a, b }, isbrgn := 1, isbrgs := s.isbrgs, cur := 1, ldv := true,
            result := result - root.value, abserr := abserr - root.var, ifncls, idvax0 := root.index }

/-- The variables before the loop, 106-137.  `pi0` is the content of the array, zeros in the code. -/
noncomputable def start [NeZero n] (pi0 : ℕ → Region n) (xmin xmax : Fin n → ℝ) : State n :=
  { pi := Function.update pi0 0 { pi0 0 with a := fun j => (xmax j + xmin j) * 0.5, b := fun j => (xmax j - xmin j) * 0.5 }
    isbrgn := 1, isbrgs := 1, cur := 0, ldv := false, result := 0, abserr := 0, ifncls := 0, idvax0 := 0 }

/-- The loop, at most `fuel` turns; `none` if it goes on. -/
noncomputable def loop (rule : (Fin n → ℝ) → (Fin n → ℝ) → ℝ × ℝ × Fin n) (epsrel epsabs : ℝ) : ℕ → State n → Option ℝ
  | 0, _ => none
  | fuel + 1, s =>
    match turn rule epsrel epsabs s with
    | .go s' => loop rule epsrel epsabs fuel s'
    | .stop r => some r

/-- `integrate<dim>` for two dimensions or more, NumericalIntegration.h:84-206: `none` if it has not returned after that many turns. -/
noncomputable def integrate [NeZero n] (c : Consts) (F : (Fin n → ℝ) → ℝ) (pi0 : ℕ → Region n) (xmin xmax : Fin n → ℝ) (fuel : ℕ) : Option ℝ :=
  loop (integrateFp c F) 1e-10 0 fuel (start pi0 xmin xmax)

/-- `integrate<1>` of a function of a number, NumericalIntegration.h:98-104: the integral from the library, `gsl`, is computed and dropped. -/
def integrateOne (gsl : (ℝ → ℝ) → ℝ → ℝ → ℝ) (F : ℝ → ℝ) (xmin xmax : ℝ) : ℝ :=
  let _ := gsl F xmin xmax
  0

/-- `integrate<1>` of a function of an array of one number, NumericalIntegration.h:97-99. -/
def integrateOneArray (gsl : (ℝ → ℝ) → ℝ → ℝ → ℝ) (F : (Fin 1 → ℝ) → ℝ) (xmin xmax : ℝ) : ℝ := gsl (fun x => F fun _ => x) xmin xmax

end AmpGen.Cubature
