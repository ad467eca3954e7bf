import Mathlib.Data.Real.Archimedean
/-
Model of src/DiscreteDistribution.cpp and AmpGen/DiscreteDistribution.h over the real numbers.
A stack is a list with its top first.
-/
namespace AmpGen.Discrete

open Classical

/-- `std::tuple<unsigned, unsigned, double>`, AmpGen/DiscreteDistribution.h:32. -/
abbrev Bucket := Nat × Nat × ℝ

/-- `std::pair<double, size_t>`, src/DiscreteDistribution.cpp:25. -/
abbrev Piece := ℝ × Nat

/-- The constructor's normalisation, src/DiscreteDistribution.cpp:6-9. -/
noncomputable def probabilities (weights : List ℝ) : List ℝ :=
  let sum := weights.foldl (· + ·) 0
  weights.map fun w => w / sum

/-- src/DiscreteDistribution.cpp:27-29. -/
noncomputable def splitStep (N : Nat) (st : List Piece × List Piece) (p : ℝ) : List Piece × List Piece :=
  if p < 1 / (N : ℝ) then ((p, st.1.length + st.2.length) :: st.1, st.2)
  else (st.1, (p, st.1.length + st.2.length) :: st.2)

/-- The loop making mixed buckets, src/DiscreteDistribution.cpp:33-44. -/
noncomputable def mix (N : Nat) (small large : List Piece) (i : Nat) (buckets : List Bucket) :
    List Piece × List Piece × List Bucket :=
  match small, large with
  | s :: small', l :: large' =>
    let bucket : Bucket := (s.2, l.2, s.1 + (i : ℝ) / N)
    let left_over := s.1 + l.1 - 1 / (N : ℝ)
    if left_over < 1 / (N : ℝ) then mix N ((left_over, l.2) :: small') large' (i + 1) (buckets ++ [bucket])
    else mix N small' ((left_over, l.2) :: large') (i + 1) (buckets ++ [bucket])
  | small, large => (small, large, buckets)
termination_by small.length + large.length

/-- `create_buckets`, src/DiscreteDistribution.cpp:18-60. -/
noncomputable def createBuckets (probs : List ℝ) : List Bucket :=
  let N := probs.length
  if N = 0 then [(0, 0, 0)]
  else
    let st := probs.foldl (splitStep N) ([], [])
    let m := mix N st.1 st.2 0 []
    m.2.2 ++ m.2.1.map (fun l => (l.2, l.2, 0)) ++ m.1.map (fun s => (s.2, s.2, 0))

/-- `operator()`, AmpGen/DiscreteDistribution.h:19-24, for the uniform number drawn; `none` is an access
outside the buckets. -/
noncomputable def sample (weights : List ℝ) (number : ℝ) : Option Nat :=
  let buckets := createBuckets (probabilities weights)
  let index := ⌊(buckets.length : ℝ) * number⌋₊
  (buckets[index]?).map fun b => if number < b.2.2 then b.1 else b.2.1

end AmpGen.Discrete
