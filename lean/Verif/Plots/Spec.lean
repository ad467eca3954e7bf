import Verif.Plots.Model
/-
Specification for projections and for the comparison of samples.
-/
namespace AmpGen.Plots.Spec
open AmpGen.Plots

noncomputable section
open Classical

variable {D : Type}

/-- The number `x` is in bin `k` of `n` bins of the same width from `min` to `max`; bin 0 is below and bin `n + 1` above. -/
def InBin (n : Nat) (min max : ℝ) (k : Nat) (x : ℝ) : Prop :=
  (k = 0 ∧ x < min) ∨ (k = n + 1 ∧ max ≤ x)
    ∨ (1 ≤ k ∧ k ≤ n ∧ min + ((k : ℝ) - 1) * ((max - min) / n) ≤ x ∧ x < min + (k : ℝ) * ((max - min) / n))

/-- The sum of `w` over the events of a list with a property. -/
def sumOver (events : List (Event D)) (P : Event D → Prop) (w : Event D → ℝ) : ℝ := ((events.filter fun e => decide (P e)).map w).sum

/-- The event passes the selection, if there is one. -/
def Passes (selection : Option (Event D → Bool)) (e : Event D) : Prop := ∀ s, selection = some s → s e = true

/-- The weight of an event, times the ratio of the function and the density with which it was generated if there is a function. -/
def reweighted (f : Option (Event D → ℝ)) (e : Event D) : ℝ :=
  match f with
  | none => e.weight
  | some f => e.weight * f e / e.genPdf

/-- A histogram of `n` bins from `min` to `max` of the quantity `q`. -/
def histogram (q : Event D → ℝ) (n : Nat) (min max : ℝ) (events : List (Event D)) (selection : Option (Event D → Bool)) (f : Option (Event D → ℝ)) : Hist :=
  ⟨n, min, max, fun k => sumOver events (fun e => Passes selection e ∧ InBin n min max k (q e)) (reweighted f)⟩

/-- The comparison of two samples with weights `w` and `v` in bins: the second sample is scaled to the sum of weights of the first, and the squared difference in each
bin is divided by the sum of squared weights. -/
def chi2 (nBins : Nat) (bin : Event D → Nat) (data : List (Event D)) (w : Event D → ℝ) (mc : List (Event D)) (v : Event D → ℝ) : ℝ :=
  let k := sumOver data (fun _ => True) w / sumOver mc (fun _ => True) v
  ((List.range nBins).map fun b =>
    (sumOver data (fun e => bin e = b) w - k * sumOver mc (fun e => bin e = b) v) ^ 2
      / (sumOver data (fun e => bin e = b) (fun e => w e ^ 2) + k ^ 2 * sumOver mc (fun e => bin e = b) (fun e => v e ^ 2))).sum

end

end AmpGen.Plots.Spec
