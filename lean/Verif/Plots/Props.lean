import Verif.Plots.Lemmas
import Mathlib.Tactic.NormNum
/-
Properties of projections and of the comparison of samples: C135, C136, C137.
-/
namespace AmpGen.Plots
open Spec

noncomputable section
open Classical

variable {D : Type}

/-- A projection after calls of `setRange`. -/
def afterRanges (p : Projection D) (ranges : List (ℝ × ℝ)) : Projection D := ranges.foldl (fun p r => p.setRange r.1 r.2) p

theorem afterRanges_eq (fcn : Event D → ℝ) (n : Nat) (ranges : List (ℝ × ℝ)) : ∀ (mn mx : ℝ),
    afterRanges (Projection.make fcn n mn mx) ranges
      = Projection.make fcn n (ranges.getLast?.getD (mn, mx)).1 (ranges.getLast?.getD (mn, mx)).2 := by
  induction ranges with
  | nil => intro mn mx; rfl
  | cons r rs ih =>
    intro mn mx
    have : afterRanges (Projection.make fcn n mn mx) (r :: rs) = afterRanges (Projection.make fcn n r.1 r.2) rs := rfl
    rw [this, ih]
    cases hrs : rs with
    | nil => simp
    | cons a l => simp [List.getLast?_cons]

/-- C135: the histogram of a projection after any calls of `setRange`: it has the bins and the range set last, and bin `k` holds the sum of the weights of the events
that pass the selection and have the quantity in the bin; with a weight function they are multiplied by the function divided by the density of generation. -/
theorem projection_content (fcn : Event D → ℝ) (n : Nat) (mn mx lo hi : ℝ) (ranges : List (ℝ × ℝ)) (hlast : ranges.getLast?.getD (mn, mx) = (lo, hi))
    (hn : 0 < n) (h : lo < hi) (events : List (Event D)) (selection : Option (Event D → Bool)) (f : Option (Event D → ℝ))
    (hg : ∀ e ∈ events, f ≠ none → Passes selection e → e.genPdf ≠ 0) :
    (afterRanges (Projection.make fcn n mn mx) ranges).proj events selection f = some (histogram fcn n lo hi events selection f) := by
  rw [afterRanges_eq, hlast]
  unfold Projection.proj
  rw [fillLoop_eq _ hn h _ _ _ _ rfl rfl rfl hg]
  simp [Projection.plot, Projection.make, histogram]

/-- C135: every event that passes is in exactly one bin, so that the bins with those below and above add up to the sum of all weights. -/
theorem projection_total (fcn : Event D → ℝ) (n : Nat) (lo hi : ℝ) (hn : 0 < n) (h : lo < hi) (events : List (Event D)) (selection : Option (Event D → Bool))
    (f : Option (Event D → ℝ)) (hg : ∀ e ∈ events, f ≠ none → Passes selection e → e.genPdf ≠ 0) :
    ∃ hist, (Projection.make fcn n lo hi).proj events selection f = some hist
      ∧ ((List.range (n + 2)).map hist.content).sum = sumOver events (Passes selection) (reweighted f) := by
  refine ⟨_, projection_content fcn n lo hi lo hi [] rfl hn h events selection f hg, ?_⟩
  simp only [histogram]
  clear hg
  have key : ∀ m x, findBin n lo hi x < m → ∀ w : ℝ, ((List.range m).map fun k => if InBin n lo hi k x then w else 0).sum = w := by
    intro m x hm w
    induction m with
    | zero => omega
    | succ m ih =>
      rw [List.range_succ, List.map_append, List.sum_append]
      by_cases hlt : findBin n lo hi x < m
      · rw [ih hlt]
        have : ¬ InBin n lo hi m x := fun hb => by have := (findBin_iff hn h x m).mpr hb; omega
        simp [this]
      · have hm' : m = findBin n lo hi x := by omega
        have hz : ((List.range m).map fun k => if InBin n lo hi k x then w else 0) = (List.range m).map fun _ => (0 : ℝ) := by
          apply List.map_congr_left
          intro k hk
          have : ¬ InBin n lo hi k x := fun hb => by have := (findBin_iff hn h x k).mpr hb; have := List.mem_range.mp hk; omega
          simp [this]
        rw [hz]
        simp [(findBin_iff hn h x m).mp hm']
  have hle : ∀ x, findBin n lo hi x < n + 2 := by
    intro x
    rcases (findBin_iff hn h x _).mp rfl with ⟨h1, _⟩ | ⟨h1, _⟩ | ⟨_, h1, _⟩ <;> omega
  induction events with
  | nil => simp [sumOver_nil]
  | cons e es ih =>
    simp only [sumOver_cons]
    rw [List.sum_map_add, ih]
    congr 1
    by_cases hp : Passes selection e
    · simp only [hp, true_and, if_true]
      exact key _ _ (hle _) _
    · simp [hp]

/-- C135: the same for two quantities. -/
theorem projection2_content (fx fy : Event D → ℝ) (nx ny : Nat) (lx hx ly hy : ℝ) (hnx : 0 < nx) (hny : 0 < ny) (hx' : lx < hx) (hy' : ly < hy)
    (events : List (Event D)) (selection : Option (Event D → Bool)) (f : Option (Event D → ℝ)) (hg : ∀ e ∈ events, f ≠ none → Passes selection e → e.genPdf ≠ 0) :
    ∃ hist, proj2 (Projection.make fx nx lx hx) (Projection.make fy ny ly hy) events selection f = some hist
      ∧ hist.nX = nx ∧ hist.minX = lx ∧ hist.maxX = hx ∧ hist.nY = ny ∧ hist.minY = ly ∧ hist.maxY = hy
      ∧ ∀ j k, hist.content j k = sumOver events (fun e => Passes selection e ∧ InBin nx lx hx j (fx e) ∧ InBin ny ly hy k (fy e)) (reweighted f) := by
  refine ⟨_, fillLoop2_eq _ _ hnx hx' hny hy' _ _ _ _ hg, rfl, rfl, rfl, rfl, rfl, rfl, ?_⟩
  intro j k
  simp [Projection.make]

/-- C135: in the range, the bin number of an event (counted from zero) is that of the histogram (counted from one), after any calls of `setRange`. -/
theorem binFunctor_bin (fcn : Event D → ℝ) (n : Nat) (mn mx lo hi : ℝ) (ranges : List (ℝ × ℝ)) (hlast : ranges.getLast?.getD (mn, mx) = (lo, hi))
    (hn : 0 < n) (h : lo < hi) (e : Event D) (h1 : lo ≤ fcn e) (h2 : fcn e < hi) :
    ∃ b : Nat, (afterRanges (Projection.make fcn n mn mx) ranges).binFunctor e = some (b : ℤ) ∧ b < n ∧ InBin n lo hi (b + 1) (fcn e) := by
  rw [afterRanges_eq, hlast]
  have hn' : (0 : ℝ) < n := by exact_mod_cast hn
  have hw : 0 < (hi - lo) / n := div_pos (by linarith) hn'
  have ht : (n : ℝ) * (fcn e - lo) / (hi - lo) = (fcn e - lo) / ((hi - lo) / n) := by
    have : hi - lo ≠ 0 := by linarith
    field_simp
  have h0 : 0 ≤ (fcn e - lo) / ((hi - lo) / n) := div_nonneg (by linarith) hw.le
  have hb : ⌊(fcn e - lo) / ((hi - lo) / n)⌋₊ + 1 = findBin n lo hi (fcn e) := by
    unfold findBin
    rw [if_neg (not_lt.mpr h1), if_pos h2, ht, add_comm]
  have hin := (findBin_iff hn h _ _).mp hb
  refine ⟨⌊(fcn e - lo) / ((hi - lo) / n)⌋₊, ?_, ?_, hin⟩
  · unfold Projection.binFunctor Projection.make toInt
    simp only
    rw [if_neg hw.ne', if_pos h0, Int.natCast_floor_eq_floor h0]
  · rcases hin with ⟨h3, _⟩ | ⟨_, h3⟩ | ⟨_, h3, _⟩
    · omega
    · linarith
    · omega

/-- C135, refuted outside of the range: an event below the range, at a distance of less than one bin, is given the number of the first bin. -/
theorem binFunctor_below_counterexample : ∃ (fcn : Event Unit → ℝ) (n : Nat) (lo hi : ℝ) (e : Event Unit), 0 < n ∧ lo < hi ∧ fcn e < lo
    ∧ (Projection.make fcn n lo hi).binFunctor e = some 0 := by
  refine ⟨fun _ => -1 / 2, 1, 0, 1, ⟨(), 1, 1⟩, by norm_num, by norm_num, by norm_num, ?_⟩
  unfold Projection.binFunctor Projection.make toInt
  have h : ¬ (0 : ℝ) ≤ (-1 / 2 - 0) / ((1 - 0) / ((1 : Nat) : ℝ)) := by norm_num
  have h2 : ¬ ((1 : ℝ) - 0) / ((1 : Nat) : ℝ) = 0 := by norm_num
  simp only
  rw [if_neg h2, if_neg h]
  congr 1
  rw [Int.ceil_eq_iff]
  norm_num

/-- Two events and a change of the range. -/
example : ∃ hist, (afterRanges (Projection.make (fun e : Event ℝ => e.data) 4 0 1) [(0, 2)]).proj [⟨3 / 4, 2, 1⟩, ⟨5, 1, 1⟩] none none = some hist
    ∧ hist.content 2 = 2 ∧ hist.content 5 = 1 := by
  refine ⟨_, projection_content _ 4 0 1 0 2 [(0, 2)] (by simp) (by norm_num) (by norm_num) _ _ _ (by simp), ?_, ?_⟩ <;>
    simp [histogram, sumOver_cons, sumOver_nil, InBin, Passes, reweighted] <;> norm_num

/-- `std::sort` with the comparison of integrals: some order of the same histograms, with integrals that do not decrease. -/
def IsSort (sort : List Hist → List Hist) : Prop := ∀ hs, (sort hs).Perm hs ∧ (sort hs).Pairwise fun a b => a.integral ≤ b.integral

theorem sum_integral_scale (hs : List Hist) (c : ℝ) : ((hs.map fun h => h.scale c).map Hist.integral).sum = c * (hs.map Hist.integral).sum := by
  induction hs with
  | nil => simp
  | cons h hs ih => simp only [List.map_cons, List.sum_cons, ih, integral_scale]; ring

theorem stack_hists (p : Projection D) (hn : 0 < p.nBins) (h : p.min < p.max) (events : List (Event D)) (fs : List (Event D → ℝ)) (selection : Option (Event D → Bool))
    (hg : ∀ e ∈ events, Passes selection e → e.genPdf ≠ 0) :
    stackLoop p selection fs events (fs.map fun _ => p.plot) = some (fs.map fun f => histogram p.func p.nBins p.min p.max events selection (some f)) := by
  have := stackLoop_eq p hn h selection fs events (fun _ _ => 0) hg
  unfold Projection.plot
  rw [this]
  simp [histogram]

/-- C136: the stack of histograms of several functions of the events consists of the histogram of each function, all multiplied by the same number, which makes their
integrals add up to the norm; the smallest comes first. -/
theorem stack_normalised (sort : List Hist → List Hist) (hs : IsSort sort) (fcn : Event D → ℝ) (n : Nat) (lo hi : ℝ) (hn : 0 < n) (h : lo < hi)
    (events : List (Event D)) (fs : List (Event D → ℝ)) (selection : Option (Event D → Bool)) (hg : ∀ e ∈ events, Passes selection e → e.genPdf ≠ 0)
    (norm : ℝ) (hnorm : norm ≠ -1) (total : ℝ) (htotal : total = (fs.map fun f => (histogram fcn n lo hi events selection (some f)).integral).sum) (h0 : total ≠ 0) :
    ∃ out, stack sort (Projection.make fcn n lo hi) events fs selection norm = some out
      ∧ out.Perm (fs.map fun f => ⟨n, lo, hi, fun k => norm / total * (histogram fcn n lo hi events selection (some f)).content k⟩)
      ∧ (out.map Hist.integral).sum = norm
      ∧ (0 < total → 0 ≤ norm → out.Pairwise fun a b => a.integral ≤ b.integral) := by
  unfold stack
  rw [stack_hists _ hn h _ _ _ hg, Option.bind_some]
  obtain ⟨l, hl⟩ : ∃ l, (fs.map fun f => histogram fcn n lo hi events selection (some f)) = l := ⟨_, rfl⟩
  have hl2 : (fs.map fun f => histogram (Projection.make fcn n lo hi).func (Projection.make fcn n lo hi).nBins (Projection.make fcn n lo hi).min
      (Projection.make fcn n lo hi).max events selection (some f)) = l := hl
  rw [hl2]
  have htl : total = (l.map Hist.integral).sum := by rw [htotal, ← hl, List.map_map]; rfl
  have hts : (sort l).foldl (fun t h => t + h.integral) 0 = total := by
    rw [foldl_integral, zero_add, htl]
    exact ((hs l).1.map _).sum_eq
  simp only [hts]
  rw [if_pos hnorm, if_neg h0]
  refine ⟨_, rfl, ?_, ?_, ?_⟩
  · refine ((hs l).1.map _).trans ?_
    rw [← hl, List.map_map]
    exact List.Perm.refl _
  · rw [sum_integral_scale, ((hs l).1.map _).sum_eq, ← htl]
    field_simp
  · intro hp hnn
    rw [List.pairwise_map]
    refine (hs l).2.imp ?_
    intro a b hab
    rw [integral_scale, integral_scale]
    exact mul_le_mul_of_nonneg_left hab (div_nonneg hnn hp.le)

/-- C136: with norm −1, or when the sum of the integrals is zero, nothing is scaled. -/
theorem stack_not_scaled (sort : List Hist → List Hist) (hs : IsSort sort) (fcn : Event D → ℝ) (n : Nat) (lo hi : ℝ) (hn : 0 < n) (h : lo < hi)
    (events : List (Event D)) (fs : List (Event D → ℝ)) (selection : Option (Event D → Bool)) (hg : ∀ e ∈ events, Passes selection e → e.genPdf ≠ 0)
    (norm : ℝ) (hc : norm = -1 ∨ (fs.map fun f => (histogram fcn n lo hi events selection (some f)).integral).sum = 0) :
    ∃ out, stack sort (Projection.make fcn n lo hi) events fs selection norm = some out
      ∧ out.Perm (fs.map fun f => histogram fcn n lo hi events selection (some f)) ∧ out.Pairwise fun a b => a.integral ≤ b.integral := by
  unfold stack
  rw [stack_hists _ hn h _ _ _ hg, Option.bind_some]
  obtain ⟨l, hl⟩ : ∃ l, (fs.map fun f => histogram fcn n lo hi events selection (some f)) = l := ⟨_, rfl⟩
  have hl2 : (fs.map fun f => histogram (Projection.make fcn n lo hi).func (Projection.make fcn n lo hi).nBins (Projection.make fcn n lo hi).min
      (Projection.make fcn n lo hi).max events selection (some f)) = l := hl
  rw [hl2, hl]
  have htl : (fs.map fun f => (histogram fcn n lo hi events selection (some f)).integral).sum = (l.map Hist.integral).sum := by rw [← hl, List.map_map]; rfl
  have hts : (sort l).foldl (fun t h => t + h.integral) 0 = (l.map Hist.integral).sum := by
    rw [foldl_integral, zero_add]
    exact ((hs l).1.map _).sum_eq
  simp only [hts]
  refine ⟨sort l, ?_, (hs l).1, (hs l).2⟩
  rcases hc with hc | hc
  · have : ¬ norm ≠ -1 := by simp [hc]
    rw [if_neg this]
  · rw [htl] at hc
    rw [if_pos hc]
    split <;> rfl

/-- C136: if the functions add up to one function, the stack adds up to its histogram, in every bin, times the same number. -/
theorem stack_adds_up (sort : List Hist → List Hist) (hs : IsSort sort) (fcn : Event D → ℝ) (n : Nat) (lo hi : ℝ) (hn : 0 < n) (h : lo < hi)
    (events : List (Event D)) (fs : List (Event D → ℝ)) (g : Event D → ℝ) (hsum : ∀ e, (fs.map fun f => f e).sum = g e)
    (selection : Option (Event D → Bool)) (hg : ∀ e ∈ events, Passes selection e → e.genPdf ≠ 0)
    (norm : ℝ) (hnorm : norm ≠ -1) (h0 : (histogram fcn n lo hi events selection (some g)).integral ≠ 0) :
    ∃ out, stack sort (Projection.make fcn n lo hi) events fs selection norm = some out
      ∧ ∀ k, (out.map fun o => o.content k).sum
          = norm / (histogram fcn n lo hi events selection (some g)).integral * (histogram fcn n lo hi events selection (some g)).content k := by
  have hcont : ∀ k, (fs.map fun f => (histogram fcn n lo hi events selection (some f)).content k).sum = (histogram fcn n lo hi events selection (some g)).content k := by
    intro k
    simp only [histogram]
    clear hg h0
    induction events with
    | nil => simp [sumOver_nil]
    | cons e es ih =>
      simp only [sumOver_cons]
      rw [List.sum_map_add, ih]
      congr 1
      by_cases hp : Passes selection e ∧ InBin n lo hi k (fcn e)
      · simp only [if_pos hp, reweighted, ← hsum]
        have : ∀ l : List (Event D → ℝ), (l.map fun f => e.weight * f e / e.genPdf).sum = e.weight * (l.map fun f => f e).sum / e.genPdf := by
          intro l
          induction l with
          | nil => simp
          | cons f l ihl => simp only [List.map_cons, List.sum_cons, ihl]; ring
        exact this fs
      · simp [hp]
  have hint : (fs.map fun f => (histogram fcn n lo hi events selection (some f)).integral).sum = (histogram fcn n lo hi events selection (some g)).integral := by
    unfold Hist.integral
    have hnb : ∀ f, (histogram fcn n lo hi events selection f).nBins = n := fun _ => rfl
    simp only [hnb]
    rw [sum_sum_comm]
    congr 1
    apply List.map_congr_left
    intro k _
    exact hcont (k + 1)
  obtain ⟨out, ho, hperm, _, _⟩ := stack_normalised sort hs fcn n lo hi hn h events fs selection hg norm hnorm _ rfl (by rw [hint]; exact h0)
  refine ⟨out, ho, ?_⟩
  intro k
  rw [(hperm.map _).sum_eq, List.map_map, ← hcont k, hint, ← list_sum_mul, List.map_map]
  rfl

/-- Two functions of one event. -/
example (sort : List Hist → List Hist) (hs : IsSort sort) : ∃ out,
    stack sort (Projection.make (fun e : Event ℝ => e.data) 1 0 1) [⟨1 / 2, 1, 1⟩] [fun _ => 1, fun _ => 3] none 1 = some out ∧ (out.map Hist.integral).sum = 1 := by
  obtain ⟨out, h1, _, h3, _⟩ := stack_normalised sort hs (fun e : Event ℝ => e.data) 1 0 1 (by norm_num) (by norm_num) [⟨1 / 2, 1, 1⟩] [fun _ => 1, fun _ => 3] none
    (by simp) 1 (by norm_num) 4 (by simp [histogram, Hist.integral, sumOver_cons, sumOver_nil, InBin, Passes, reweighted]; norm_num) (by norm_num)
  exact ⟨out, h1, h3⟩

/-- The weight of a simulated event. -/
def simWeight (fcn : Event D → ℝ) (e : Event D) : ℝ := fcn e * e.weight / e.genPdf

/-- C137: the comparison has a value when in every bin the sum of squared weights is not zero, and the value is that of the definition; otherwise a division of zero by
zero takes place. -/
theorem chi2_value (nBins : Nat) (bin : Event D → Nat) (data mc : List (Event D)) (fcn : Event D → ℝ) (hd : ∀ e ∈ data, bin e < nBins)
    (hm : ∀ e ∈ mc, bin e < nBins ∧ e.genPdf ≠ 0) (h0 : sumOver mc (fun _ => True) (simWeight fcn) ≠ 0) :
    doChi2 nBins bin data mc fcn
      = if ∀ b < nBins, sumOver data (fun e => bin e = b) (fun e => e.weight ^ 2)
            + (sumOver data (fun _ => True) Event.weight / sumOver mc (fun _ => True) (simWeight fcn)) ^ 2 * sumOver mc (fun e => bin e = b) (fun e => simWeight fcn e ^ 2) ≠ 0
        then some (chi2 nBins bin data Event.weight mc (simWeight fcn)) else none := by
  unfold doChi2
  rw [sortInto_eq nBins bin _ Event.weight data _ _ (fun e he => ⟨rfl, hd e he⟩), Option.bind_some]
  simp only
  rw [sortInto_eq nBins bin _ (simWeight fcn) mc _ _ (fun e he => ⟨by unfold mcWeight simWeight; rw [if_neg (hm e he).2], (hm e he).1⟩), Option.bind_some]
  simp only [Moment.empty, zero_add]
  have hvar : ∀ (l : List (Event D)) (w : Event D → ℝ) (b : Nat) (x c : ℝ), Moment.var ⟨x, sumOver l (fun e => bin e = b) (fun e => w e ^ 2) * c,
      (l.filter fun e => decide (bin e = b)).length⟩ = sumOver l (fun e => bin e = b) (fun e => w e ^ 2) * c := by
    intro l w b x c
    unfold Moment.var
    split
    · rename_i hl
      rw [sumOver_filter_nil (P := fun e => bin e = b) (by convert hl)]; simp
    · rfl
  have hvar1 : ∀ (l : List (Event D)) (w : Event D → ℝ) (b : Nat) (x : ℝ), Moment.var ⟨x, sumOver l (fun e => bin e = b) (fun e => w e ^ 2),
      (l.filter fun e => decide (bin e = b)).length⟩ = sumOver l (fun e => bin e = b) (fun e => w e ^ 2) := by
    intro l w b x
    have := hvar l w b x 1
    simpa using this
  by_cases hall : ∀ b < nBins, sumOver data (fun e => bin e = b) (fun e => e.weight ^ 2)
            + (sumOver data (fun _ => True) Event.weight / sumOver mc (fun _ => True) (simWeight fcn)) ^ 2 * sumOver mc (fun e => bin e = b) (fun e => simWeight fcn e ^ 2) ≠ 0
  · rw [if_pos hall, chi2Loop_eq _ _ _ _ h0]
    · simp only [Moment.rescale, hvar, hvar1, chi2, zero_add]
      congr 3
      funext b
      congr 1
      · ring
      · ring
    · intro b hb
      simp only [Moment.rescale, hvar, hvar1]
      have := hall b (List.mem_range.mp hb)
      intro hz
      apply this
      rw [← hz]; ring
  · rw [if_neg hall]
    push Not at hall
    obtain ⟨b, hb, hz⟩ := hall
    apply chi2Loop_none
    refine ⟨b, List.mem_range.mpr hb, ?_⟩
    simp only [Moment.rescale, hvar, hvar1]
    rw [← hz]; ring

/-- C137: with a data event of some weight in every bin the comparison has a value. -/
theorem chi2_defined_partial (nBins : Nat) (bin : Event D → Nat) (data mc : List (Event D)) (fcn : Event D → ℝ) (hd : ∀ e ∈ data, bin e < nBins)
    (hm : ∀ e ∈ mc, bin e < nBins ∧ e.genPdf ≠ 0) (h0 : sumOver mc (fun _ => True) (simWeight fcn) ≠ 0)
    (hb : ∀ b < nBins, ∃ e ∈ data, bin e = b ∧ e.weight ≠ 0) :
    doChi2 nBins bin data mc fcn = some (chi2 nBins bin data Event.weight mc (simWeight fcn)) := by
  rw [chi2_value nBins bin data mc fcn hd hm h0, if_pos]
  intro b hlt
  obtain ⟨e, he, hbe, hw⟩ := hb b hlt
  have h1 : 0 < sumOver data (fun e => bin e = b) (fun e => e.weight ^ 2) := sumOver_pos_of_mem he hbe hw
  have h2 := mul_nonneg (sq_nonneg (sumOver data (fun _ => True) Event.weight / sumOver mc (fun _ => True) (simWeight fcn)))
    (sumOver_sq_nonneg mc (fun e => bin e = b) (simWeight fcn))
  linarith

/-- C137, refuted without that: a bin without events gives no value, whatever the other bins hold. -/
theorem chi2_empty_bin_counterexample (nBins : Nat) (bin : Event D → Nat) (data mc : List (Event D)) (fcn : Event D → ℝ) (hd : ∀ e ∈ data, bin e < nBins)
    (hm : ∀ e ∈ mc, bin e < nBins ∧ e.genPdf ≠ 0) (h0 : sumOver mc (fun _ => True) (simWeight fcn) ≠ 0)
    (b : Nat) (hb : b < nBins) (h1 : ∀ e ∈ data, bin e ≠ b) (h2 : ∀ e ∈ mc, bin e ≠ b) : doChi2 nBins bin data mc fcn = none := by
  rw [chi2_value nBins bin data mc fcn hd hm h0, if_neg]
  push Not
  refine ⟨b, hb, ?_⟩
  have hz : ∀ (l : List (Event D)) (w : Event D → ℝ), (∀ e ∈ l, bin e ≠ b) → sumOver l (fun e => bin e = b) w = 0 := by
    intro l w hl
    apply sumOver_filter_nil
    rw [List.length_eq_zero_iff, List.filter_eq_nil_iff]
    intro e he
    simpa using hl e he
  rw [hz data _ h1, hz mc _ h2]; ring

/-- C137: the value is not negative. -/
theorem chi2_nonneg (nBins : Nat) (bin : Event D → Nat) (data mc : List (Event D)) (fcn : Event D → ℝ) (hd : ∀ e ∈ data, bin e < nBins)
    (hm : ∀ e ∈ mc, bin e < nBins ∧ e.genPdf ≠ 0) (h0 : sumOver mc (fun _ => True) (simWeight fcn) ≠ 0)
    (v : ℝ) (hv : doChi2 nBins bin data mc fcn = some v) : 0 ≤ v := by
  rw [chi2_value nBins bin data mc fcn hd hm h0] at hv
  split at hv
  · rw [← Option.some.inj hv]
    unfold chi2
    apply List.sum_nonneg
    intro x hx
    obtain ⟨b, _, rfl⟩ := List.mem_map.mp hx
    exact div_nonneg (sq_nonneg _) (add_nonneg (sumOver_sq_nonneg _ _ _) (mul_nonneg (sq_nonneg _) (sumOver_sq_nonneg _ _ _)))
  · cases hv

/-- C137: the value does not depend on the normalisation of the model. -/
theorem chi2_scale (nBins : Nat) (bin : Event D → Nat) (data mc : List (Event D)) (fcn : Event D → ℝ) (hd : ∀ e ∈ data, bin e < nBins)
    (hm : ∀ e ∈ mc, bin e < nBins ∧ e.genPdf ≠ 0) (h0 : sumOver mc (fun _ => True) (simWeight fcn) ≠ 0) (c : ℝ) (hc : c ≠ 0) :
    doChi2 nBins bin data mc (fun e => c * fcn e) = doChi2 nBins bin data mc fcn := by
  have hw : simWeight (fun e => c * fcn e) = fun e : Event D => c * simWeight fcn e := by
    funext e; unfold simWeight; ring
  have hs : ∀ P : Event D → Prop, sumOver mc P (simWeight fun e => c * fcn e) = c * sumOver mc P (simWeight fcn) := by
    intro P; rw [hw, sumOver_mul]
  have hs2 : ∀ P : Event D → Prop, sumOver mc P (fun e => simWeight (fun e => c * fcn e) e ^ 2) = c ^ 2 * sumOver mc P (fun e => simWeight fcn e ^ 2) := by
    intro P
    rw [← sumOver_mul, hw]
    congr 1
    funext e; ring
  rw [chi2_value nBins bin data mc fcn hd hm h0, chi2_value nBins bin data mc _ hd hm (by rw [hs]; exact mul_ne_zero hc h0)]
  have hk : ∀ x y : ℝ, (x / (c * sumOver mc (fun _ => True) (simWeight fcn))) ^ 2 * (c ^ 2 * y) = (x / sumOver mc (fun _ => True) (simWeight fcn)) ^ 2 * y := by
    intro x y; field_simp
  have hk1 : ∀ x y : ℝ, x / (c * sumOver mc (fun _ => True) (simWeight fcn)) * (c * y) = x / sumOver mc (fun _ => True) (simWeight fcn) * y := by
    intro x y; field_simp
  simp only [hs, hs2, hk]
  congr 2
  unfold chi2
  simp only [hs, hs2, hk, hk1]

/-- C137: nor on the order of the events. -/
theorem chi2_order (nBins : Nat) (bin : Event D → Nat) (data data' mc mc' : List (Event D)) (fcn : Event D → ℝ) (hd : ∀ e ∈ data, bin e < nBins)
    (hm : ∀ e ∈ mc, bin e < nBins ∧ e.genPdf ≠ 0) (h0 : sumOver mc (fun _ => True) (simWeight fcn) ≠ 0) (h1 : data.Perm data') (h2 : mc.Perm mc') :
    doChi2 nBins bin data' mc' fcn = doChi2 nBins bin data mc fcn := by
  rw [chi2_value nBins bin data mc fcn hd hm h0, chi2_value nBins bin data' mc' fcn (fun e he => hd e (h1.mem_iff.mpr he)) (fun e he => hm e (h2.mem_iff.mpr he))
    (by rw [← sumOver_perm h2]; exact h0)]
  have ha : ∀ P (w : Event D → ℝ), sumOver data' P w = sumOver data P w := fun P w => (sumOver_perm h1 P w).symm
  have hb : ∀ P (w : Event D → ℝ), sumOver mc' P w = sumOver mc P w := fun P w => (sumOver_perm h2 P w).symm
  unfold chi2
  simp only [ha, hb]

/-- C137: the value is zero exactly when the model, scaled to the data, agrees with the data in every bin. -/
theorem chi2_zero_iff (nBins : Nat) (bin : Event D → Nat) (data mc : List (Event D)) (fcn : Event D → ℝ) (hd : ∀ e ∈ data, bin e < nBins)
    (hm : ∀ e ∈ mc, bin e < nBins ∧ e.genPdf ≠ 0) (h0 : sumOver mc (fun _ => True) (simWeight fcn) ≠ 0)
    (hb : ∀ b < nBins, ∃ e ∈ data, bin e = b ∧ e.weight ≠ 0) :
    doChi2 nBins bin data mc fcn = some 0 ↔ ∀ b < nBins, sumOver data (fun e => bin e = b) Event.weight
      = sumOver data (fun _ => True) Event.weight / sumOver mc (fun _ => True) (simWeight fcn) * sumOver mc (fun e => bin e = b) (simWeight fcn) := by
  have hdef := chi2_defined_partial nBins bin data mc fcn hd hm h0 hb
  have hall := chi2_value nBins bin data mc fcn hd hm h0
  rw [hdef] at hall
  split at hall
  · rename_i hden
    rw [hdef, Option.some.injEq]
    unfold chi2
    simp only
    constructor
    · intro hz b hlt
      have := sum_zero_terms _ (by
        intro x hx
        obtain ⟨b, _, rfl⟩ := List.mem_map.mp hx
        exact div_nonneg (sq_nonneg _) (add_nonneg (sumOver_sq_nonneg _ _ _) (mul_nonneg (sq_nonneg _) (sumOver_sq_nonneg _ _ _)))) hz _
        (List.mem_map.mpr ⟨b, List.mem_range.mpr hlt, rfl⟩)
      rcases div_eq_zero_iff.mp this with h | h
      · exact sub_eq_zero.mp (pow_eq_zero_iff (two_ne_zero) |>.mp h)
      · exact absurd h (hden b hlt)
    · intro heq
      apply List.sum_eq_zero
      intro x hx
      obtain ⟨b, hb', rfl⟩ := List.mem_map.mp hx
      rw [heq b (List.mem_range.mp hb')]
      simp
  · cases hall

/-- Two bins. -/
example : ∃ v, doChi2 2 (fun e : Event Nat => e.data) [⟨0, 1, 1⟩, ⟨1, 3, 1⟩] [⟨0, 1, 1⟩, ⟨1, 1, 1⟩] (fun _ => 1) = some v ∧ v = 1 / 5 + 1 / 13 := by
  refine ⟨_, chi2_defined_partial _ _ _ _ _ (by simp) (by simp) (by simp [sumOver_cons, sumOver_nil, simWeight]; norm_num) ?_, ?_⟩
  · intro b hb
    have : b = 0 ∨ b = 1 := by omega
    rcases this with rfl | rfl <;> simp
  · simp [chi2, sumOver_cons, sumOver_nil, simWeight, List.range_succ]; norm_num

end

end AmpGen.Plots
