import Verif.Binning.Model
/-
Model of the line search `FastDT::bestCut_ls` (src/FastDT.cpp:106-142).
-/
namespace AmpGen.Binning

variable {E : Type}

/-- The variables of the loop: `t_w1`, `s_w1`, `maxChi2`, `optPos`, `s_p1` and the events from `sourceIt` on. -/
structure Scan (E : Type) where
  tw1 : ℚ
  sw1 : ℚ
  maxChi2 : ℚ
  opt : ℚ
  sp1 : Nat
  rest : List E

/-- `parallel_accumulate` of the weights, which are read at coordinate `dim` (the order of the sum does not matter for exact numbers). -/
def weightOf (c : Config E) (l : List E) : ℚ := (l.map fun e => c.x e c.dim).foldl (· + ·) 0

/-- One pass of the loop, src/FastDT.cpp:125-140.  `ok` is the last condition on the position.  `none`: reading beyond the end of the array.  A division by zero gives zero here. -/
def cutStep (c : Config E) (ok : ℚ → Bool) (source target : List E) (index : Nat) (s : Scan E) (i : Nat) : Option (Scan E) := do
  let a ← target[i]?
  let b ← target[i + 1]?
  let tw1 := s.tw1 + c.x a c.dim
  let pos := 1 / 2 * (c.x a index + c.x b index)
  let passed := s.rest.takeWhile fun e => c.x e index ≤ pos
  let rest := s.rest.dropWhile fun e => c.x e index ≤ pos
  let sw1 := s.sw1 + weightOf c passed
  let sp1 := s.sp1 + passed.length
  let swt := weightOf c source
  let twt := weightOf c target
  let chi2 := (sw1 - tw1) * (sw1 - tw1) / (sw1 + tw1) + (swt - sw1 - twt + tw1) * (swt - sw1 - twt + tw1) / (swt - sw1 + twt - tw1)
  if chi2 > s.maxChi2 ∧ sp1 ≥ c.minEvents ∧ source.length - sp1 ≥ c.minEvents ∧ ok pos = true then some ⟨tw1, sw1, chi2, pos, sp1, rest⟩
  else some ⟨tw1, sw1, s.maxChi2, s.opt, sp1, rest⟩

/-- The loop, src/FastDT.cpp:114-141. -/
def cutScan (c : Config E) (ok : ℚ → Bool) (source target : List E) (index : Nat) : Option (Scan E) :=
  (List.range' c.minEvents (target.length - c.minEvents - c.minEvents)).foldlM (cutStep c ok source target index)
    ⟨weightOf c (target.take c.minEvents), 0, -9999, 0, 0, source⟩

/-- `bestCut_ls( source, target, index, dim, minEvents )`, src/FastDT.cpp:106-142, with `m_minStep`.  `none`: reading the first event of an empty sample, or beyond the end of the
array, also when the number of target events is less than the smallest number of events. -/
def bestCutFast (c : Config E) (minStep : Nat → ℚ) (source target : List E) (index : Nat) : Option (ℚ × ℚ) := do
  let first ← source[0]?
  if target.length < c.minEvents then none
  else
    let s ← cutScan c (fun pos => decide (pos - c.x first index > minStep index)) source target index
    pure (s.opt, s.maxChi2)

end AmpGen.Binning
