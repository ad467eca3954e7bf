import Mathlib.Data.Real.Archimedean
import Mathlib.Algebra.Order.Floor.Ring
import Mathlib.Algebra.Order.Floor.Semiring
/-
Model of projections of events onto histograms (src/Projection.cpp) and of the comparison of two samples in bins (src/Chi2Estimator.cpp).

Simplifications: numbers are real and a division by zero has no result (`none`); histograms are those of ROOT as documented: bin 0 holds what is below the range, bins
1 to n the range in equal parts, bin n + 1 what is above.  Titles, names, colours and files are left out.  The functions for `EventListSIMD`
(src/Projection.cpp:154-222) are those for `EventList` with the events of C07; `EventList::makeProjection` (src/EventList.cpp:177-206) has the same loops.
-/
namespace AmpGen.Plots

noncomputable section
open Classical

/-- An event: what functions of events see, the weight and the density with which it was generated. -/
structure Event (D : Type) where
  data : D
  weight : ℝ
  genPdf : ℝ

/-- `TH1D`. -/
@[ext] structure Hist where
  nBins : Nat
  min : ℝ
  max : ℝ
  content : Nat → ℝ

/-- `TAxis::FindBin`. -/
def findBin (nBins : Nat) (min max x : ℝ) : Nat :=
  if x < min then 0 else if x < max then 1 + ⌊(nBins : ℝ) * (x - min) / (max - min)⌋₊ else nBins + 1

/-- `TH1D::Fill`. -/
def Hist.fill (h : Hist) (x w : ℝ) : Hist :=
  { h with content := fun k => if k = findBin h.nBins h.min h.max x then h.content k + w else h.content k }

/-- `TH1D::Integral`: without the first and the last bin. -/
def Hist.integral (h : Hist) : ℝ := ((List.range h.nBins).map fun k => h.content (k + 1)).sum

/-- `TH1D::Scale`. -/
def Hist.scale (h : Hist) (c : ℝ) : Hist := { h with content := fun k => c * h.content k }

variable {D : Type}

/-- The data members of `Projection`, AmpGen/Projection.h:64-71. -/
structure Projection (D : Type) where
  func : Event D → ℝ
  nBins : Nat
  min : ℝ
  max : ℝ
  width : ℝ

/-- The constructor, src/Projection.cpp:18-32. -/
def Projection.make (fcn : Event D → ℝ) (nBins : Nat) (min max : ℝ) : Projection D := ⟨fcn, nBins, min, max, (max - min) / nBins⟩

/-- `setRange`, AmpGen/Projection.h:51-56. -/
def Projection.setRange (p : Projection D) (min max : ℝ) : Projection D := { p with min := min, max := max, width := (max - min) / p.nBins }

/-- `plot`, src/Projection.cpp:34-54. -/
def Projection.plot (p : Projection D) : Hist := ⟨p.nBins, p.min, p.max, fun _ => 0⟩

/-- A conversion to `int`: towards zero. -/
def toInt (x : ℝ) : ℤ := if 0 ≤ x then ⌊x⌋ else ⌈x⌉

/-- `binFunctor`, src/Projection.cpp:55-57. -/
def Projection.binFunctor (p : Projection D) (e : Event D) : Option ℤ := if p.width = 0 then none else some (toInt ((p.func e - p.min) / p.width))

/-- The weight in `projInternal`, src/Projection.cpp:92. -/
def fillWeight (weightFunction : Option (Event D → ℝ)) (e : Event D) : Option ℝ :=
  match weightFunction with
  | none => some (e.weight * 1)
  | some f => if e.genPdf = 0 then none else some (e.weight * (f e / e.genPdf))

/-- Whether an event is taken, src/Projection.cpp:90. -/
def taken (selection : Option (Event D → Bool)) (e : Event D) : Bool :=
  match selection with
  | none => true
  | some s => s e

/-- `Projection::projInternal`, src/Projection.cpp:79-97: the loop. -/
def fillLoop (p : Projection D) (selection : Option (Event D → Bool)) (weightFunction : Option (Event D → ℝ)) : List (Event D) → Hist → Option Hist
  | [], h => some h
  | e :: events, h =>
    if taken selection e then (fillWeight weightFunction e).bind fun w => fillLoop p selection weightFunction events (h.fill (p.func e) w)
    else fillLoop p selection weightFunction events h

/-- `Projection::projInternal`, src/Projection.cpp:79-97. -/
def Projection.proj (p : Projection D) (events : List (Event D)) (selection : Option (Event D → Bool)) (weightFunction : Option (Event D → ℝ)) : Option Hist :=
  fillLoop p selection weightFunction events p.plot

/-- `TH2D`: the content in pairs of bins. -/
structure Hist2 where
  nX : Nat
  minX : ℝ
  maxX : ℝ
  nY : Nat
  minY : ℝ
  maxY : ℝ
  content : Nat → Nat → ℝ

/-- `TH2D::Fill`. -/
def Hist2.fill (h : Hist2) (x y w : ℝ) : Hist2 :=
  { h with content := fun j k => if j = findBin h.nX h.minX h.maxX x ∧ k = findBin h.nY h.minY h.maxY y then h.content j k + w else h.content j k }

/-- `Projection2D::projInternal`, src/Projection.cpp:99-117: the loop. -/
def fillLoop2 (px py : Projection D) (selection : Option (Event D → Bool)) (weightFunction : Option (Event D → ℝ)) : List (Event D) → Hist2 → Option Hist2
  | [], h => some h
  | e :: events, h =>
    if taken selection e then
      (fillWeight weightFunction e).bind fun w => fillLoop2 px py selection weightFunction events (h.fill (px.func e) (py.func e) w)
    else fillLoop2 px py selection weightFunction events h

/-- `Projection2D::projInternal`, src/Projection.cpp:99-117, and `Projection2D::plot`, :59-69. -/
def proj2 (px py : Projection D) (events : List (Event D)) (selection : Option (Event D → Bool)) (weightFunction : Option (Event D → ℝ)) : Option Hist2 :=
  fillLoop2 px py selection weightFunction events ⟨px.nBins, px.min, px.max, py.nBins, py.min, py.max, fun _ _ => 0⟩

/-- The loop over the weights of one event, src/Projection.cpp:134. -/
def fillAll (x : ℝ) (e : Event D) : List (Event D → ℝ) → List Hist → Option (List Hist)
  | [], hs => some hs
  | _ :: _, [] => none
  | f :: fs, h :: hs => if e.genPdf = 0 then none else (fillAll x e fs hs).bind fun hs => some (h.fill x (e.weight * f e / e.genPdf) :: hs)

/-- The loop over the events, src/Projection.cpp:130-135. -/
def stackLoop (p : Projection D) (selection : Option (Event D → Bool)) (functors : List (Event D → ℝ)) : List (Event D) → List Hist → Option (List Hist)
  | [], hs => some hs
  | e :: events, hs =>
    if taken selection e then (fillAll (p.func e) e functors hs).bind fun hs => stackLoop p selection functors events hs
    else stackLoop p selection functors events hs

/-- The histograms of a stack, src/Projection.cpp:119-150; `sort` is `std::sort` with the comparison of integrals, `normSum` the argument `Norm`. -/
def stack (sort : List Hist → List Hist) (p : Projection D) (events : List (Event D)) (functors : List (Event D → ℝ)) (selection : Option (Event D → Bool))
    (normSum : ℝ) : Option (List Hist) :=
  (stackLoop p selection functors events (functors.map fun _ => p.plot)).bind fun hists =>
  let hists := sort hists
  let total : ℝ := hists.foldl (fun t h => t + h.integral) 0
  if normSum ≠ -1 then (if total = 0 then some hists else some (hists.map fun h => h.scale (normSum / total)))
  else some hists

/-- `Moment`, src/Chi2Estimator.cpp:14-34; the list of values is not used. -/
structure Moment where
  x : ℝ
  xx : ℝ
  N : Nat

/-- `Moment::Moment`, src/Chi2Estimator.cpp:19. -/
def Moment.empty : Moment := ⟨0, 0, 0⟩

/-- `Moment::add`, src/Chi2Estimator.cpp:20-26. -/
def Moment.add (m : Moment) (v : ℝ) : Moment := ⟨m.x + v, m.xx + v * v, m.N + 1⟩

/-- `Moment::rescale`, src/Chi2Estimator.cpp:27-31. -/
def Moment.rescale (m : Moment) (v : ℝ) : Moment := ⟨m.x * v, m.xx * (v * v), m.N⟩

/-- `Moment::var`, src/Chi2Estimator.cpp:33. -/
def Moment.var (m : Moment) : ℝ := if m.N = 0 then 0 else m.xx

/-- The loops that sort events into bins, src/Chi2Estimator.cpp:51-66: the moments of the bins and the sum of weights. -/
def sortInto (nBins : Nat) (bin : Event D → Nat) (w : Event D → Option ℝ) : List (Event D) → (Nat → Moment) × ℝ → Option ((Nat → Moment) × ℝ)
  | [], s => some s
  | e :: events, (m, total) =>
    (w e).bind fun v =>
    if bin e < nBins then sortInto nBins bin w events (fun b => if b = bin e then (m b).add v else m b, total + v) else none

/-- The weight of a simulated event, src/Chi2Estimator.cpp:62. -/
def mcWeight (fcn : Event D → ℝ) (e : Event D) : Option ℝ := if e.genPdf = 0 then none else some (fcn e * e.weight / e.genPdf)

/-- The loop over bins, src/Chi2Estimator.cpp:69-74. -/
def chi2Loop (data mc : Nat → Moment) (totalData totalInt : ℝ) : List Nat → ℝ → Option ℝ
  | [], acc => some acc
  | i :: rest, acc =>
    if totalInt = 0 then none
    else
      let mci := (mc i).rescale (totalData / totalInt)
      let delta := (data i).x - mci.x
      if (data i).var + mci.var = 0 then none
      else chi2Loop data mc totalData totalInt rest (acc + delta * delta / ((data i).var + mci.var))

/-- `Chi2Estimator::doChi2`, src/Chi2Estimator.cpp:40-77; `bin` is `BinDT::getBinNumber`. -/
def doChi2 (nBins : Nat) (bin : Event D → Nat) (dataEvents mcEvents : List (Event D)) (fcn : Event D → ℝ) : Option ℝ :=
  (sortInto nBins bin (fun d => some d.weight) dataEvents (fun _ => .empty, 0)).bind fun (data, totalData) =>
  (sortInto nBins bin (mcWeight fcn) mcEvents (fun _ => .empty, 0)).bind fun (mc, totalInt) =>
  chi2Loop data mc totalData totalInt (List.range nBins) 0

end

end AmpGen.Plots
