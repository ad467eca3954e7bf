import Mathlib.Data.Rat.Defs
import Mathlib.Algebra.Order.Ring.Rat
import Mathlib.Algebra.Order.Group.Unbundled.Abs
/-
Model of AmpGen/KahanSum.h.  Every floating point operation is the exact operation
followed by the rounding `fl`, which is a parameter.
-/
namespace AmpGen.Kahan

/-- `KahanSum<T>`, AmpGen/KahanSum.h:14-16. -/
structure KState where
  sum : ℚ
  cor : ℚ
deriving DecidableEq

/-- The initial state, AmpGen/KahanSum.h:15-16. -/
def KState.empty : KState := ⟨0, 0⟩

/-- `operator+=`, AmpGen/KahanSum.h:17-31 (scalar branch). -/
def KState.add (fl : ℚ → ℚ) (s : KState) (var : ℚ) : KState :=
  let t := fl (s.sum + var)
  { sum := t
    cor := fl (s.cor + if |s.sum| ≥ |var| then fl (fl (s.sum - t) + var) else fl (fl (var - t) + s.sum)) }

/-- `operator()`, AmpGen/KahanSum.h:32. -/
def KState.value (fl : ℚ → ℚ) (s : KState) : ℚ := fl (s.sum + s.cor)

/-- `operator+( const KahanSum<T>&, const T& )`, AmpGen/KahanSum.h:34-43. -/
def KState.plus (fl : ℚ → ℚ) (l : KState) (var : ℚ) : KState :=
  let y := fl (var - l.cor)
  let t := fl (l.sum + y)
  { sum := t, cor := fl (fl (t - l.sum) - y) }

/-- The accumulators of `KahanBabushkaKleinSum`, AmpGen/KahanSum.h:48-52 (`c` and `cc`
are assigned before use in every iteration). -/
structure KBKState where
  sum : ℚ
  cs : ℚ
  ccs : ℚ

/-- One iteration, AmpGen/KahanSum.h:56-69. -/
def KBKState.step (fl : ℚ → ℚ) (s : KBKState) (input : ℚ) : KBKState :=
  let t := fl (s.sum + input)
  let c := if |s.sum| ≥ |input| then fl (fl (s.sum - t) + input) else fl (fl (input - t) + s.sum)
  let t' := fl (s.cs + c)
  let cc := if |s.cs| ≥ |c| then fl (fl (s.cs - t') + c) else fl (fl (c - t') + s.cs)
  { sum := t, cs := t', ccs := fl (s.ccs + cc) }

/-- `KahanBabushkaKleinSum( container )`, AmpGen/KahanSum.h:46-72. -/
def kbkSum (fl : ℚ → ℚ) (container : List ℚ) : ℚ :=
  let s := container.foldl (KBKState.step fl) ⟨0, 0, 0⟩
  fl (fl (s.sum + s.cs) + s.ccs)

end AmpGen.Kahan
