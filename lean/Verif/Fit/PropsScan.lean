import Verif.Fit.Props
/-
C97 (the errors of one parameter), C98 (scans), C101 (fixed parameters) and C102 (the function that is minimised).
-/
namespace AmpGen.Fit
open AmpGen.Params
open AmpGen.Strings (Str)

theorem param_of_at {w : World} {a id : Nat} (h : w.at a = some id) : w.param a = some (w.heap id) := by
  unfold World.param
  rw [h]
  rfl

/-- C97.  Asking for the asymmetric errors of one parameter after a fit, whatever points the library evaluates: no value changes, that parameter gets the
errors that were found, and nothing else changes; if its limits are closer than its error, nothing changes at all. -/
theorem minos_restores (w0 w : World) (hN : w.params.Nodup) (hp : w.params = w0.params) {m : Minimiser} (hm : m.mapping = freePositions w0)
    (hn : m.nParams = m.mapping.length) (X : Nat → ℚ) (hX : ∀ a p, Varying w0 a → w.param a = some p → p.mean = X (rank w0 a))
    {a id : Nat} (ha : w.at a = some id) (pts : List (Nat → ℚ)) (low high : ℚ) :
    ∃ w', minos m w id X pts low high = some w' ∧ w'.params = w.params ∧ w'.keys = w.keys ∧ (∀ b, b ≠ a → w'.param b = w.param b) ∧
      ∀ p, w.param a = some p → w'.param a = some
        (if (p.minInit ≠ 0 ∨ p.maxInit ≠ 0) ∧ (p.mean - p.err < p.minInit ∨ p.mean + p.err > p.maxInit) then p
          else { p with errNeg := low, errPos := high }) := by
  have hpa := param_of_at ha
  set p := w.heap id with hpdef
  unfold minos
  simp only
  rw [← hpdef]
  by_cases h1 : (p.minInit ≠ 0 ∨ p.maxInit ≠ 0) ∧ p.mean - p.err < p.minInit
  · rw [if_pos h1]
    refine ⟨w, rfl, rfl, rfl, fun _ _ => rfl, fun q hq => ?_⟩
    rw [hpa] at hq
    rw [← Option.some.inj hq, if_pos ⟨h1.1, Or.inl h1.2⟩, hpa]
  rw [if_neg h1]
  by_cases h2 : (p.minInit ≠ 0 ∨ p.maxInit ≠ 0) ∧ p.mean + p.err > p.maxInit
  · rw [if_pos h2]
    refine ⟨w, rfl, rfl, rfl, fun _ _ => rfl, fun q hq => ?_⟩
    rw [hpa] at hq
    rw [← Option.some.inj hq, if_pos ⟨h2.1, Or.inr h2.2⟩, hpa]
  rw [if_neg h2]
  have h3 : ¬ ((p.minInit ≠ 0 ∨ p.maxInit ≠ 0) ∧ (p.mean - p.err < p.minInit ∨ p.mean + p.err > p.maxInit)) := by
    rintro ⟨g1, g2 | g2⟩
    · exact h1 ⟨g1, g2⟩
    · exact h2 ⟨g1, g2⟩
  obtain ⟨w1, a1, a2, a3, _, a5, a6, _⟩ := minimise_last w0 hm pts w X hN hp hX
  rw [a1]
  simp only [Option.bind_some]
  have hN1 : w1.params.Nodup := by rw [a2]; exact hN
  have ha1 : w1.at a = some id := by
    unfold World.at at ha ⊢
    rw [a2]
    exact ha
  set f : Param → Param := fun q => q.setResult p.mean q.err low high with hf
  obtain ⟨w2, b1, b2, b3, _, b5, b6, _⟩ := modifyAll_free (fun i p => { p with mean := X i }) (w := setParam w1 id f) (w0 := w0) hN1 (a2.trans hp)
  rw [hn, List.take_length, hm, b1]
  refine ⟨w2, rfl, b2.trans a2, b3.trans a3, ?_, ?_⟩
  · intro b hb
    by_cases hv : Varying w0 b
    · cases hq : w.param b with
      | none =>
        have hat : w2.at b = w.at b := by
          unfold World.at
          rw [b2]
          show w1.params[b]? = _
          rw [a2]
        unfold World.param at hq ⊢
        rw [hat]
        cases hh : w.at b with
        | none => rfl
        | some k => rw [hh] at hq; cases hq
      | some q =>
        have e : (setParam w1 id f).param b = some { q with mean := (pts.getLast?.getD X) (rank w0 b) } := by
          rw [setParam_param hN1 ha1, if_neg hb, a5 b q hv hq]
        rw [b5 b _ hv e]
        simp only
        rw [← hX b q hv hq]
    · rw [b6 b hv, setParam_param hN1 ha1, if_neg hb, a6 b hv]
  · intro q hq
    rw [hpa] at hq
    obtain rfl := Option.some.inj hq
    rw [if_neg h3]
    by_cases hv : Varying w0 a
    · have e : (setParam w1 id f).param a = some { p with errNeg := low, errPos := high } := by
        rw [setParam_param hN1 ha1, if_pos rfl, a5 a p hv hpa]
        rfl
      rw [b5 a _ hv e]
      simp only
      rw [← hX a p hv hpa]
    · rw [b6 a hv, setParam_param hN1 ha1, if_pos rfl, a6 a hv, hpa]
      rfl

/-- The hypotheses hold after a fit that starts from a new minimiser. -/
example (w : World) (hN : w.params.Nodup) (xs : List (Nat → ℚ)) (X E : Nat → ℚ) (C : Nat → Nat → ℚ) : ∃ w1 m w2 m',
    prepare w = some (w1, m) ∧ doFit m w1 xs X E C = some (w2, m') ∧ w2.params = w.params ∧ m'.mapping = freePositions w ∧ m'.nParams = m'.mapping.length ∧
    ∀ a p, Varying w a → w2.param a = some p → p.mean = X (rank w a) := by
  obtain ⟨w1, m, w2, m', h1, h2, h3, h4, h5, h6, _⟩ := fit_result w hN xs X E C
  have hm : m'.mapping = freePositions w ∧ m'.nParams = (freePositions w).length := by
    unfold prepare at h1
    simp only [Option.map_eq_some_iff, Prod.mk.injEq] at h1
    obtain ⟨_, _, _, rfl⟩ := h1
    unfold doFit at h2
    simp only [Option.bind_eq_bind, Option.bind_eq_some_iff, Option.pure_def, Option.some.injEq, Prod.mk.injEq] at h2
    obtain ⟨_, _, _, _, _, rfl⟩ := h2
    exact ⟨rfl, rfl⟩
  refine ⟨w1, m, w2, m', h1, h2, h3, hm.1, by rw [hm.1]; exact hm.2, fun a p hv hp => ?_⟩
  obtain ⟨q, hq, _⟩ := id hv
  rw [h5 a q hq hv] at hp
  rw [← Option.some.inj hp]

/-! ### Scans -/

/-- The world in which one parameter has another value. -/
def withValue (w : World) (id : Nat) (v : ℚ) : World := { w with heap := Function.update w.heap id { w.heap id with mean := v } }

theorem setParam_idem (w : World) (id : Nat) (u v : ℚ) :
    setParam (withValue w id u) id (fun p => { p with mean := v }) = withValue w id v := by
  unfold setParam withValue
  simp

theorem scanLoop_spec (FCN : World → ℚ) (w : World) (id : Nat) (offset max step : ℚ) (hs : 0 < step) (n : Nat) : ∀ (sv u : ℚ) (graph : List (ℚ × ℚ)) (turns : Nat),
    n = ⌈(max - sv) / step⌉₊ → n < turns → ∃ u', scanLoop FCN id offset max step turns sv (withValue w id u) graph =
      some (graph ++ (List.range n).map (fun k : Nat => (sv + k * step, FCN (withValue w id (sv + k * step - offset)))), withValue w id u') := by
  induction n with
  | zero =>
    intro sv u graph turns hn ht
    obtain ⟨t, rfl⟩ : ∃ t, turns = t + 1 := ⟨turns - 1, by omega⟩
    have h0 : (max - sv) / step ≤ 0 := Nat.ceil_eq_zero.mp hn.symm
    have h1 : ¬ sv < max := by
      intro h
      have : 0 < (max - sv) / step := div_pos (by linarith) hs
      linarith
    refine ⟨u, ?_⟩
    unfold scanLoop
    rw [if_neg h1]
    simp
  | succ n ih =>
    intro sv u graph turns hn ht
    obtain ⟨t, rfl⟩ : ∃ t, turns = t + 1 := ⟨turns - 1, by omega⟩
    have h1 : sv < max := by
      by_contra h
      have : (max - sv) / step ≤ 0 := div_nonpos_of_nonpos_of_nonneg (by linarith) hs.le
      rw [Nat.ceil_eq_zero.mpr this] at hn
      omega
    have h2 : n = ⌈(max - (sv + step)) / step⌉₊ := by
      have e : (max - sv) / step = (max - (sv + step)) / step + 1 := by
        field_simp
        ring
      rw [e] at hn
      have hpos : 0 < (max - sv) / step := div_pos (by linarith) hs
      by_cases h : 0 ≤ (max - (sv + step)) / step
      · rw [Nat.ceil_add_one h] at hn
        omega
      · have g1 : (max - (sv + step)) / step + 1 ≤ 1 := by linarith
        have g2 : ⌈(max - (sv + step)) / step + 1⌉₊ ≤ 1 := Nat.ceil_le.mpr (by exact_mod_cast g1)
        have g3 : ⌈(max - (sv + step)) / step⌉₊ = 0 := Nat.ceil_eq_zero.mpr (by linarith)
        omega
    obtain ⟨u', hu⟩ := ih (sv + step) (sv - offset) (graph ++ [(sv, FCN (withValue w id (sv - offset)))]) t h2 (by omega)
    refine ⟨u', ?_⟩
    unfold scanLoop
    rw [if_pos h1]
    simp only
    rw [setParam_idem, hu, List.append_assoc, List.range_succ_eq_map, List.map_cons, List.map_map]
    congr 3
    simp only [List.singleton_append, List.cons.injEq, Nat.cast_zero, zero_mul, add_zero, true_and]
    apply List.map_congr_left
    intro k _
    simp only [Function.comp, Nat.cast_succ]
    have e : sv + step + (k : ℚ) * step = sv + ((k : ℚ) + 1) * step := by ring
    rw [e]

/-- C98.  A scan with a positive step ends.  Its points are `min`, `min + step`, … below `max`, and nothing else; at each the function has been evaluated with
that value of the parameter, less the offset if it is blind, and all other parameters as they are; and afterwards everything is as before. -/
theorem scan_curve (FCN : World → ℚ) (w : World) (id : Nat) (min max step o : ℚ) (hs : 0 < step)
    (ho : if (w.heap id).flag = .blind then ∃ b, w.find ((w.heap id).name ++ "_blind".toList) = some b ∧ (w.heap b).mean = o else o = 0)
    (turns : Nat) (ht : ⌈(max - min) / step⌉₊ < turns) :
    scan FCN w id min max step turns = some
      ((List.range ⌈(max - min) / step⌉₊).map (fun k : Nat => (min + k * step, FCN (withValue w id (min + k * step - o)))), w) := by
  have e0 : withValue w id (w.heap id).mean = w := by
    unfold withValue
    simp
  obtain ⟨u', hu⟩ := scanLoop_spec FCN w id o max step hs _ min (w.heap id).mean [] turns rfl ht
  rw [e0] at hu
  have e1 : (if (w.heap id).flag = .blind then blindOffset w (w.heap id) else some 0) = some o := by
    by_cases hb : (w.heap id).flag = .blind
    · rw [if_pos hb] at ho ⊢
      obtain ⟨b, h1, h2⟩ := ho
      unfold blindOffset
      rw [h1]
      simp [h2]
    · rw [if_neg hb] at ho ⊢
      rw [ho]
  unfold scan
  simp only
  rw [e1]
  simp only [Option.bind_some]
  rw [hu]
  simp only [Option.map_some, List.nil_append]
  rw [setParam_idem, e0]

example (junk : Param) : scan (fun w => (w.heap 0).mean ^ 2) (oneFree junk) 0 0 1 (1 / 2) 5 = some ([(0, 0), (1 / 2, 1 / 4)], oneFree junk) := by
  rw [scan_curve _ _ _ _ _ _ 0 (by norm_num) (by
    rw [if_neg (by show ¬ Flag.free = Flag.blind; decide)]) 5 (by
    have : ⌈((1 : ℚ) - 0) / (1 / 2)⌉₊ = 2 := by norm_num
    rw [this]; decide)]
  have : ⌈((1 : ℚ) - 0) / (1 / 2)⌉₊ = 2 := by norm_num
  rw [this]
  simp [withValue, List.range_succ]
  norm_num

/-- C98 is false for steps that are not positive: the scan never ends. -/
theorem scan_endless_counterexample (FCN : World → ℚ) (w : World) (id : Nat) (hb : (w.heap id).flag ≠ .blind) (min max step : ℚ) (hs : step ≤ 0) (h : min < max) (turns : Nat) :
    scan FCN w id min max step turns = none := by
  have hl : ∀ (turns : Nat) (sv : ℚ) (w : World) (graph : List (ℚ × ℚ)), sv < max → scanLoop FCN id 0 max step turns sv w graph = none := by
    intro turns
    induction turns with
    | zero => intros; rfl
    | succ t ih =>
      intro sv w graph hlt
      unfold scanLoop
      rw [if_pos hlt]
      exact ih _ _ _ (by linarith)
  unfold scan
  simp only
  rw [if_neg hb]
  simp only [Option.bind_some]
  rw [hl turns min w [] h]
  rfl

example (junk : Param) : ((oneFree junk).heap 0).flag ≠ .blind ∧ (0 : ℚ) ≤ 0 ∧ (0 : ℚ) < 1 := ⟨by show ¬ Flag.free = Flag.blind; decide, le_refl _, by norm_num⟩

/-! ### The function that is minimised -/

theorem objective_eq (FCN : World → ℚ) (terms : List (World → ℚ)) (zero : ℚ) (w : World) :
    objective FCN terms zero w = FCN w - 2 * (terms.map fun t => t w).sum - zero := by
  unfold objective
  have : ∀ (ts : List (World → ℚ)) (x : ℚ), ts.foldl (fun LL t => LL - 2 * t w) x = x - 2 * (ts.map fun t => t w).sum := by
    intro ts
    induction ts with
    | nil => intro x; simp
    | cons t ts ih =>
      intro x
      rw [List.foldl_cons, ih, List.map_cons, List.sum_cons]
      ring
  rw [this]

/-- C102, partial.  If the function has no gradient, then the library minimises the function less twice the sum of all terms, up to a constant.
What is missing: functions with a gradient, and that the constant makes the start zero if this is asked for. -/
theorem fit_objective_partial (normalise : Bool) (FCN : World → ℚ) (terms : List (World → ℚ)) (zero : ℚ) (start : World) :
    ∃ c, ∀ w, (fitObjective false normalise FCN terms zero start).1 w = FCN w - 2 * (terms.map fun t => t w).sum - c :=
  ⟨zero, fun w => objective_eq FCN terms zero w⟩

/-- C102 is false for functions with a gradient: the terms are not part of what is minimised. -/
theorem fit_objective_gradient_counterexample (normalise : Bool) (FCN : World → ℚ) (terms : List (World → ℚ)) (zero : ℚ) (start : World) :
    (fitObjective true normalise FCN terms zero start).1 = FCN := rfl

/-- C102 is false for the offset: in the first fit with `Minimiser::Normalise` the function is not zero at the start, unless it was so before. -/
theorem fit_objective_normalise_counterexample (FCN : World → ℚ) (start : World) (h : FCN start ≠ 0) :
    (fitObjective false true FCN [] 0 start).1 start ≠ 0 ∧ (fitObjective false true FCN [] 0 start).2 = FCN start := by
  refine ⟨?_, rfl⟩
  show FCN start - 0 ≠ 0
  rwa [sub_zero]

example (junk : Param) : ((fun w => (w.heap 0).mean) : World → ℚ) (oneFree junk) ≠ 0 := by
  show (1 : ℚ) ≠ 0
  norm_num

/-- C98 is false where there are terms: the curve of a scan is not that of the function that is minimised, not even up to a constant. -/
theorem scan_terms_counterexample (junk : Param) : ∃ (FCN : World → ℚ) (terms : List (World → ℚ)) (graph : List (ℚ × ℚ)),
    scan FCN (oneFree junk) 0 0 2 1 3 = some (graph, oneFree junk) ∧
    ¬ ∃ c, graph.map Prod.snd = [0, 1].map fun v => (fitObjective false false FCN terms 0 (oneFree junk)).1 (withValue (oneFree junk) 0 v) + c := by
  refine ⟨fun _ => 0, [fun w => (w.heap 0).mean], [(0, 0), (1, 0)], ?_, ?_⟩
  · rw [scan_curve _ _ _ _ _ _ 0 (by norm_num) (by rw [if_neg (by show ¬ Flag.free = Flag.blind; decide)]) 3 (by
      have : ⌈((2 : ℚ) - 0) / 1⌉₊ = 2 := by norm_num
      rw [this]; decide)]
    have : ⌈((2 : ℚ) - 0) / 1⌉₊ = 2 := by norm_num
    rw [this]
    simp [List.range_succ]
  · rintro ⟨c, hc⟩
    simp [fitObjective, objective_eq, withValue] at hc
    have h2 := hc.2
    rw [← hc.1] at h2
    norm_num at h2

/-! ### Fixed parameters -/

/-- C101, partial.  A parameter that is fixed when the minimiser is made keeps its value and everything else in a fit, whatever the library evaluates. -/
theorem fixed_stays_partial (w : World) (hN : w.params.Nodup) (a id : Nat) (ha : w.at a = some id) (hf : (w.heap id).flag = .fix ∨ (w.heap id).flag = .compileTimeConstant)
    (xs : List (Nat → ℚ)) (X E : Nat → ℚ) (C : Nat → Nat → ℚ) (pts : Nat → List (Nat → ℚ)) (low high : Nat → ℚ) :
    ∃ w1 m w2 m', prepare w = some (w1, m) ∧ doFitMinos m w1 xs X E C pts low high = some (w2, m') ∧ w2.param a = w.param a := by
  obtain ⟨w1, m, w2, m', h1, h2, _, _, _, h6⟩ := run_minos_partial w hN xs X E C pts low high
  refine ⟨w1, m, w2, m', h1, h2, h6 a ?_⟩
  rintro ⟨p, hp, hv⟩
  rw [param_of_at ha] at hp
  rw [← Option.some.inj hp] at hv
  rcases hf with h | h <;> rw [h] at hv <;> rcases hv with h | h <;> cases h

example (junk : Param) : (((World.empty junk).run [.add ['x'] .fix 1 1 0 0]).1.heap 0).flag = .fix := rfl

/-- C101 is false for parameters that are fixed after the minimiser has been made: the fit changes them. -/
theorem fixed_stays_counterexample (junk : Param) : ∃ w1 m w2 m', prepare (oneFree junk) = some (w1, m) ∧
    ((setFlag w1 0 .fix).param 0).map Param.flag = some .fix ∧ ((setFlag w1 0 .fix).param 0).map Param.mean = some 1 ∧
    doFit m (setFlag w1 0 .fix) [] (fun _ => 7) (fun _ => 1) (fun _ _ => 1) = some (w2, m') ∧ (w2.param 0).map Param.mean = some 7 :=
  ⟨_, _, _, _, rfl, rfl, rfl, rfl, rfl⟩

/-- C101, the constructor without a flag: the value of the parameter is what was in memory, whatever value it is given. -/
theorem constructor_counterexample (memory : Param) (name : Str) (mean step mi ma : ℚ) : (makeFree memory name mean step mi ma).mean = memory.meanInit := rfl

end AmpGen.Fit
