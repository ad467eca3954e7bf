import Verif.Dalitz.Widths
/-
C110: running widths.
-/
namespace AmpGen.Dalitz

/-! ### Specification -/

/-- The width of a final state at a mass squared: that of a new integrator for this mass. -/
noncomputable def partialAt (s : ℝ) (w : PartialWidth) : Option ℝ :=
  (make s w.integrator.s1 w.integrator.s2 w.integrator.s3).integrateDP w.rule w.totalWidth

/-- The total width: the sum over final states whose width is a number. -/
noncomputable def widthAt (s : ℝ) (l : List PartialWidth) : ℝ := (l.filterMap (partialAt s)).sum

/-- The calls that a user can make. -/
inductive Op where
  | getWidth (s : ℝ)
  | setNorm (m : ℝ)
  | setAxis (nKnots : Nat) (min max : ℝ)
  | update (mps : Values) (mNorm : ℝ)

noncomputable def Op.run (c : Calculator) : Op → Calculator
  | .getWidth s => (c.getWidth s).1
  | .setNorm m => c.setNorm m
  | .setAxis n min max => c.setAxis n min max
  | .update mps mNorm => ((c.updateRunningWidth mps mNorm).map Prod.fst).getD c

/-! ### Lemmas -/

theorem setMother_eq (d : Integrator) (s : ℝ) : d.setMother s = make s d.s1 d.s2 d.s3 := rfl

theorem getWidth_fold (s : ℝ) (l : List PartialWidth) (acc : List PartialWidth × ℝ) :
    l.foldl (widthStep s) acc = (acc.1 ++ l.map (fun w => (w.getWidth s).1), acc.2 + widthAt s l) := by
  induction l generalizing acc with
  | nil => simp [widthAt]
  | cons w l ih =>
    rw [List.foldl_cons, ih]
    have hp : (w.getWidth s).2 = partialAt s w := rfl
    simp only [widthStep, hp]
    cases h : partialAt s w with
    | none => simp [widthAt, List.filterMap_cons, h]
    | some v => simp [widthAt, List.filterMap_cons, h, add_assoc]

theorem getWidth_eq (c : Calculator) (s : ℝ) :
    c.getWidth s = ({ c with widths := c.widths.map fun w => (w.getWidth s).1 }, widthAt s c.widths) := by
  unfold Calculator.getWidth
  simp only [getWidth_fold, List.nil_append, zero_add]

/-- Two lists of widths that differ at most in the mass that is set. -/
def Same (l l' : List PartialWidth) : Prop :=
  l.map (fun w => (w.integrator.s1, w.integrator.s2, w.integrator.s3, w.rule, w.totalWidth)) =
    l'.map fun w => (w.integrator.s1, w.integrator.s2, w.integrator.s3, w.rule, w.totalWidth)

theorem widthAt_same {l l' : List PartialWidth} (h : Same l l') (s : ℝ) : widthAt s l = widthAt s l' := by
  have e : ∀ l : List PartialWidth, l.filterMap (partialAt s) =
      (l.map fun w => (w.integrator.s1, w.integrator.s2, w.integrator.s3, w.rule, w.totalWidth)).filterMap
        fun t => (make s t.1 t.2.1 t.2.2.1).integrateDP t.2.2.2.1 t.2.2.2.2 := by
    intro l; rw [List.filterMap_map]; rfl
  unfold widthAt
  rw [e, e, h]

theorem same_refl (l : List PartialWidth) : Same l l := rfl

theorem Same.trans {l l' l'' : List PartialWidth} (h : Same l l') (h' : Same l' l'') : Same l l'' := Eq.trans h h'

theorem same_getWidth (c : Calculator) (s : ℝ) : Same (c.getWidth s).1.widths c.widths := by
  rw [getWidth_eq]
  unfold Same
  rw [List.map_map]; rfl

theorem same_setNorm (c : Calculator) (m : ℝ) : Same (c.setNorm m).widths c.widths := same_getWidth { c with norm := 1 } (m * m)

theorem same_knots (n : Nat) : ∀ (c : Calculator) (mps : Values) (i : Nat), Same (c.knots mps i n).1.widths c.widths := by
  induction n with
  | zero => intro c mps i; rfl
  | succ n ih =>
    intro c mps i
    rw [Calculator.knots]
    exact (ih _ _ _).trans (same_getWidth _ _)

theorem same_run (c : Calculator) (op : Op) : Same (op.run c).widths c.widths := by
  cases op with
  | getWidth s => exact same_getWidth c s
  | setNorm m => exact same_setNorm c m
  | setAxis n min max => rfl
  | update mps mNorm =>
    simp only [Op.run, Calculator.updateRunningWidth]
    cases (if mNorm = 0 then mps (c.name ++ "_mass") else some mNorm) with
    | none => rfl
    | some m => exact (same_knots _ _ _ _).trans (same_setNorm _ _)

theorem knotName_inj (name : String) {i j : Nat} (h : knotName name i = knotName name j) : i = j := by
  unfold knotName at h
  have h' := (String.append_right_inj _).1 h
  have h2 : Nat.toDigits 10 i = Nat.toDigits 10 j := by
    have h3 : (Nat.repr i).toList = (Nat.repr j).toList := by
      have : Nat.repr i = Nat.repr j := h'
      rw [this]
    simpa using h3
  have := congrArg (Nat.ofDigitChars 10 · 0) h2
  simpa using this

theorem knots_spec (n : Nat) : ∀ (c : Calculator) (mps : Values) (i : Nat),
    (∀ name, (∀ k, i ≤ k → k < i + n → name ≠ knotName c.name k) → (c.knots mps i n).2 name = mps name) ∧
    ∀ k, i ≤ k → k < i + n → (c.knots mps i n).2 (knotName c.name k) =
      (mps (knotName c.name k)).map fun _ => widthAt (c.min + (k : ℝ) * c.step) c.widths / c.norm := by
  induction n with
  | zero => intro c mps i; exact ⟨fun _ _ => rfl, fun k h1 h2 => by omega⟩
  | succ n ih =>
    intro c mps i
    rw [Calculator.knots]
    simp only [getWidth_eq]
    obtain ⟨h1, h2⟩ := ih { c with widths := c.widths.map fun w => (w.getWidth (c.min + (i : ℝ) * c.step)).1 }
      (if (mps (knotName c.name i)).isSome then Function.update mps (knotName c.name i) (some (widthAt (c.min + (i : ℝ) * c.step) c.widths / c.norm)) else mps) (i + 1)
    simp only at h1 h2
    have hsame : ∀ s, widthAt s (c.widths.map fun w => (w.getWidth (c.min + (i : ℝ) * c.step)).1) = widthAt s c.widths := by
      intro s
      have := same_getWidth c (c.min + (i : ℝ) * c.step)
      rw [getWidth_eq] at this
      exact widthAt_same this s
    constructor
    · intro name hn
      rw [h1 name fun k hk hk' => hn k (by omega) (by omega)]
      split
      · rw [Function.update_of_ne (hn i le_rfl (by omega))]
      · rfl
    · intro k hk hk'
      rcases Nat.eq_or_lt_of_le hk with rfl | hlt
      · rw [h1 _ fun k' hk1 _ he => by have := knotName_inj _ he; omega]
        cases hm : mps (knotName c.name i) with
        | none => simp [hm]
        | some v => simp
      · rw [h2 k (by omega) (by omega), hsame]
        have hne : knotName c.name k ≠ knotName c.name i := fun he => by have := knotName_inj _ he; omega
        congr 1
        split
        · rw [Function.update_of_ne hne]
        · rfl

/-! ### Properties -/

/-- C110: whatever calls have been made before, the width at a mass squared is the sum of the widths of the final states, each calculated for that mass. -/
theorem width_history (c : Calculator) (ops : List Op) (s : ℝ) : ((ops.foldl Op.run c).getWidth s).2 = widthAt s c.widths := by
  have h : Same (ops.foldl Op.run c).widths c.widths := by
    induction ops generalizing c with
    | nil => rfl
    | cons op ops ih => exact (ih (op.run c)).trans (same_run c op)
  rw [getWidth_eq]
  exact widthAt_same h s

/-- C110: after any calls, once the axis is set, an update of the running width sets each knot that is a parameter to the width at its place divided by the width at the mass; the
places go in equal steps from the first to the last; no other parameter changes. -/
theorem running_width_partial (c : Calculator) (ops : List Op) (n : Nat) (hn : 2 ≤ n) (min max : ℝ) (mps : Values) (m : ℝ) (hm : m ≠ 0) (_hw : widthAt (m * m) c.widths ≠ 0) :
    ∃ r, (((ops.foldl Op.run c).setAxis n min max).updateRunningWidth mps m) = some r ∧
      (∀ k, k < n → r.2 (knotName (ops.foldl Op.run c).name k) = (mps (knotName (ops.foldl Op.run c).name k)).map fun _ =>
        widthAt (min + (k : ℝ) * ((max - min) / ((n : ℝ) - 1))) c.widths / widthAt (m * m) c.widths) ∧
      (∀ name, (∀ k, k < n → name ≠ knotName (ops.foldl Op.run c).name k) → r.2 name = mps name) ∧
      min + ((n - 1 : Nat) : ℝ) * ((max - min) / ((n : ℝ) - 1)) = max := by
  have hw : ∀ s, widthAt s (ops.foldl Op.run c).widths = widthAt s c.widths := by
    intro s
    have := width_history c ops s
    rwa [getWidth_eq] at this
  generalize ops.foldl Op.run c = d at *
  have hset : (d.setAxis n min max).setNorm m = ⟨min, max, widthAt (m * m) d.widths, (max - min) / ((n : ℝ) - 1), n, d.name, d.widths.map fun w => (w.getWidth (m * m)).1⟩ := by
    unfold Calculator.setNorm
    simp only [getWidth_eq, Calculator.setAxis]
  have hs2 : ∀ s, widthAt s (d.widths.map fun w => (w.getWidth (m * m)).1) = widthAt s d.widths := by
    intro s
    have := same_getWidth d (m * m)
    rw [getWidth_eq] at this
    exact widthAt_same this s
  refine ⟨_, by unfold Calculator.updateRunningWidth; rw [if_neg hm]; rfl, ?_, ?_, ?_⟩
  · intro k hk
    show (((d.setAxis n min max).setNorm m).knots mps 0 n).2 _ = _
    rw [hset]
    obtain ⟨_, h2⟩ := knots_spec n ⟨min, max, widthAt (m * m) d.widths, (max - min) / ((n : ℝ) - 1), n, d.name, d.widths.map fun w => (w.getWidth (m * m)).1⟩ mps 0
    have := h2 k (Nat.zero_le _) (by omega)
    simp only [hs2, hw] at this
    simpa [Calculator.setAxis, hw] using this
  · intro name hname
    show (((d.setAxis n min max).setNorm m).knots mps 0 n).2 _ = _
    rw [hset]
    obtain ⟨h1, _⟩ := knots_spec n ⟨min, max, widthAt (m * m) d.widths, (max - min) / ((n : ℝ) - 1), n, d.name, d.widths.map fun w => (w.getWidth (m * m)).1⟩ mps 0
    have := h1 name fun k _ hk => hname k (by omega)
    simpa [Calculator.setAxis] using this
  · have h1 : ((n - 1 : Nat) : ℝ) = (n : ℝ) - 1 := by rw [Nat.cast_sub (by omega)]; simp
    have h2 : (n : ℝ) - 1 ≠ 0 := by
      have : (2 : ℝ) ≤ n := by exact_mod_cast hn
      linarith
    rw [h1, mul_div_cancel₀ _ h2]; ring

/-- A final state whose width is the mass squared times a constant. -/
noncomputable def sampleWidth (k : ℝ) : PartialWidth := ⟨make 1 1 1 1, fun _ => some k, fun _ => 0⟩

theorem sampleWidth_at (k s : ℝ) : widthAt s [sampleWidth k] = k / s := by
  simp [widthAt, partialAt, sampleWidth, Integrator.integrateDP, Integrator.integrateDPAt, make, Integrator.setMother]

/-- C110 fails for 999 knots given to the constructor: the places of the knots depend on what was in memory. -/
theorem knots_999_counterexample : ∃ (j j' : ℝ) (w : List PartialWidth) (mps : Values),
    ((construct "a" w 999 1 2 j).updateRunningWidth mps 1).map (fun r => r.2 (knotName "a" 1)) ≠
    ((construct "a" w 999 1 2 j').updateRunningWidth mps 1).map fun r => r.2 (knotName "a" 1) := by
  refine ⟨0, 1, [sampleWidth 1], fun _ => some 0, ?_⟩
  have key : ∀ j : ℝ, ((construct "a" [sampleWidth 1] 999 1 2 j).updateRunningWidth (fun _ => some 0) 1).map (fun r => r.2 (knotName "a" 1)) =
      some (some (1 / (1 + j))) := by
    intro j
    have hc : construct "a" [sampleWidth 1] 999 1 2 j = ⟨1, 2, 1, j, 999, "a", [sampleWidth 1]⟩ := by simp [construct]
    rw [hc]
    unfold Calculator.updateRunningWidth
    rw [if_neg one_ne_zero]
    simp only [Option.map_some]
    have hs : (⟨1, 2, 1, j, 999, "a", [sampleWidth 1]⟩ : Calculator).setNorm 1 = ⟨1, 2, widthAt (1 * 1) [sampleWidth 1], j, 999, "a", [((sampleWidth 1).getWidth (1 * 1)).1]⟩ := by
      unfold Calculator.setNorm
      simp only [getWidth_eq, List.map_cons, List.map_nil]
    rw [hs]
    obtain ⟨_, h2⟩ := knots_spec 999 ⟨1, 2, widthAt (1 * 1) [sampleWidth 1], j, 999, "a", [((sampleWidth 1).getWidth (1 * 1)).1]⟩ (fun _ => some 0) 0
    have := h2 1 (by omega) (by omega)
    simp only at this
    rw [this]
    have hw : ∀ s, widthAt s [((sampleWidth 1).getWidth (1 * 1)).1] = 1 / s := fun s => by
      rw [← sampleWidth_at 1 s]; exact widthAt_same rfl s
    simp only [hw, sampleWidth_at, Option.map_some]
    norm_num
  rw [key, key]
  norm_num

/-- C110 fails for the graph of the width with a range: it does not begin at the start of the range. -/
theorem width_graph_counterexample (w : List PartialWidth) :
    ((construct "a" w 10 1 2 0).widthGraph 2 3 4).map Prod.fst = [1, 2] := by
  simp [Calculator.widthGraph, construct, Calculator.setAxis, List.range_succ]
  norm_num

/-- C110 fails for the running mass: it does not depend on the widths. -/
theorem running_mass_counterexample (c : Calculator) (width mass min max : ℝ) (nSteps nSubtractions : Nat) (h : nSubtractions ≠ 0) :
    ∀ p ∈ c.runningMass width mass min max nSteps nSubtractions, p.2 = mass * mass := by
  intro p hp
  simp only [Calculator.runningMass, dispersive, List.mem_map] at hp
  obtain ⟨k, _, rfl⟩ := hp
  simp [h]

example : (2 : Nat) ≤ 10 ∧ (775 / 1000 : ℝ) ≠ 0 ∧ widthAt (775 / 1000 * (775 / 1000)) [sampleWidth 1] ≠ 0 := by
  rw [sampleWidth_at]; norm_num

example : widthAt 2 [sampleWidth 3, sampleWidth 5] = 4 := by
  simp [widthAt, partialAt, sampleWidth, Integrator.integrateDP, Integrator.integrateDPAt, make, Integrator.setMother]
  norm_num

end AmpGen.Dalitz
