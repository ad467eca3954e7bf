import Verif.FitFile.Lemmas
/-
C39 (fit results survive being written and read).
-/
namespace AmpGen.FitFile
open AmpGen.Strings (Str)
open AmpGen.Params (Param Flag)

/-- C39.  For every faithful number format and every fit result without blind parameters: the file can be read, whatever is found behind the end of the list of
numbers, and gives the same parameters in order, with names, flags, values and errors, the same covariance matrix, by position and by name, and the
same fit quality, fit fractions and observables, all numbers rounded as the format does.

Missing: the limits of parameters, and blind parameters, see the counterexamples. -/
theorem fit_result_round_trip_partial {fmt : Format} {fix gen : ℚ → ℚ} (hf : Faithful fmt fix gen) {r : Result} (hr : Writable r) (hb : NotBlind r) (junk : ℚ) :
    ∃ text r', write fmt r = some text ∧ read fmt junk text = some r' ∧
      r'.params.length = r.params.length ∧
      (∀ i, ∀ h : i < r.params.length, ∀ h' : i < r'.params.length, r'.params[i].name = r.params[i].name ∧ r'.params[i].flag = r.params[i].flag ∧
        r'.params[i].mean = fix r.params[i].mean ∧ r'.params[i].err = fix r.params[i].err ∧ r'.params[i].errPos = fix r.params[i].errPos ∧
        r'.params[i].errNeg = fix r.params[i].errNeg) ∧
      r'.cov = r.cov.map (fun row => row.map gen) ∧
      (∀ i j, ∀ hi : i < r.params.length, ∀ hj : j < r.params.length,
        r'.covByName r.params[i].name r.params[j].name = (r.cov[i]?.bind fun row => row[j]?).map gen) ∧
      r'.chi2 = gen r.chi2 ∧ r'.nBins = gen r.nBins ∧ r'.nParam = gen r.nParam ∧ r'.logL = gen r.logL ∧ r'.status = r.status ∧
      r'.fractions = r.fractions.map (fun f => (f.1, gen f.2.1, gen f.2.2)) ∧ r'.observables = r.observables.map (fun o => (o.1, gen o.2)) := by
  have hp : paramLines fmt r (List.range r.cov.length) = some (r.params.map fun p => paramLine fmt p p.mean) := by
    rw [hr.rows, paramLines_eq fmt hb _ (fun i hi => List.mem_range.1 hi), filterMap_range]
  obtain ⟨text, h1, h2⟩ := write_eq hf hr hr.names hp
  obtain ⟨mapping, h3, h4, _⟩ := read_eq hf hr junk hr.names hr.distinct le_rfl h2
  have hcov : ((r.cov.take r.params.length).map fun row => (row.take r.params.length).map gen) = r.cov.map fun row => row.map gen := by
    rw [← hr.rows, List.take_length]
    apply List.map_congr_left
    intro row hrow
    rw [hr.rows, ← hr.columns row hrow, List.take_length]
  rw [hcov] at h3
  refine ⟨text, _, h1, h3, by simp, ?_, rfl, ?_, rfl, rfl, rfl, rfl, rfl, rfl, rfl⟩
  · intro i hi _
    simp [readBack]
  · intro i j hi hj
    unfold Result.covByName
    simp only [h4 i hi, h4 j hj, Option.bind_eq_bind, Option.bind_some, List.getElem?_map]
    cases r.cov[i]? with
    | none => rfl
    | some row => simp

/-! A faithful format. -/

/-- A number, in unary. -/
def unary (x : ℚ) : Str := (if x < 0 then ['-'] else []) ++ List.replicate x.num.natAbs 'n' ++ List.replicate x.den 'd'

/-- An integer, in unary. -/
def unaryInt (n : Int) : Str := (if n < 0 then ['-'] else []) ++ List.replicate n.natAbs 'n' ++ ['d']

theorem unary_injective {x y : ℚ} (h : unary x = unary y) : x = y := by
  have h1 := congrArg (List.count '-') h
  have h2 := congrArg (List.count 'n') h
  have h3 := congrArg (List.count 'd') h
  simp only [unary, List.count_append, List.count_replicate] at h1 h2 h3
  apply Rat.ext
  · by_cases hx : x < 0 <;> by_cases hy : y < 0 <;> simp [hx, hy] at h1 h2 <;> have hx' := hx <;> have hy' := hy <;>
      rw [← Rat.num_neg] at hx' hy' <;> omega
  · by_cases hx : x < 0 <;> by_cases hy : y < 0 <;> simp [hx, hy] at h3 <;> exact h3

theorem unaryInt_injective {x y : Int} (h : unaryInt x = unaryInt y) : x = y := by
  have h1 := congrArg (List.count '-') h
  have h2 := congrArg (List.count 'n') h
  simp only [unaryInt, List.count_append, List.count_replicate] at h1 h2
  by_cases hx : x < 0 <;> by_cases hy : y < 0 <;> simp [hx, hy] at h1 h2 <;> omega

open Classical in
/-- Numbers in unary. -/
noncomputable def demoFormat : Format where
  fixed := unary
  general := unary
  integer := unaryInt
  stod w := if h : ∃ x, unary x = w then some h.choose else none
  stoi w := if h : ∃ x, unaryInt x = w then some h.choose else none

theorem unary_chars (x : ℚ) : ∀ c ∈ unary x, c = '-' ∨ c = 'n' ∨ c = 'd' := by
  intro c hc
  unfold unary at hc
  rcases List.mem_append.1 hc with hc | hc
  · rcases List.mem_append.1 hc with hc | hc
    · left
      split at hc
      · simpa using hc
      · simp at hc
    · right; left; exact List.eq_of_mem_replicate hc
  · right; right; exact List.eq_of_mem_replicate hc

theorem demo_faithful : Faithful demoFormat id id := by
  have hw : ∀ x, Word (unary x) := by
    intro x
    refine ⟨?_, ?_⟩
    · unfold unary
      have := x.den_nz
      simp [this]
    · intro c hc
      rcases unary_chars x c hc with rfl | rfl | rfl <;> decide
  have hs : ∀ x, demoFormat.stod (unary x) = some x := by
    intro x
    unfold demoFormat
    simp only
    have h : ∃ y, unary y = unary x := ⟨x, rfl⟩
    rw [dif_pos h, unary_injective h.choose_spec]
  refine ⟨hw, hw, ?_, ?_, hs, hs, ?_, ?_⟩
  · intro n
    refine ⟨by simp [demoFormat, unaryInt], ?_⟩
    intro c hc
    have : c = '-' ∨ c = 'n' ∨ c = 'd' := by
      simp only [demoFormat, unaryInt, List.mem_append] at hc
      rcases hc with (hc | hc) | hc
      · left
        split at hc
        · simpa using hc
        · simp at hc
      · right; left; exact List.eq_of_mem_replicate hc
      · right; right; simpa using hc
    rcases this with rfl | rfl | rfl <;> decide
  · intro x h
    have : '#' ∈ unary x := List.mem_of_mem_head? h
    rcases unary_chars x _ this with h | h | h <;> exact absurd h (by decide)
  · intro n
    unfold demoFormat
    simp only
    have h : ∃ y, unaryInt y = unaryInt n := ⟨n, rfl⟩
    rw [dif_pos h, unaryInt_injective h.choose_spec]
  · intro k hk
    unfold demoFormat
    simp only
    rw [dif_neg]
    rintro ⟨x, rfl⟩
    have hc := unary_chars x
    have : (∃ c ∈ unary x, ¬ (c = '-' ∨ c = 'n' ∨ c = 'd')) := by
      simp only [keywords, List.mem_cons, List.not_mem_nil, or_false] at hk
      rcases hk with hk | hk | hk | hk | hk | hk <;> rw [hk] <;> decide
    obtain ⟨c, hm, hn⟩ := this
    exact hn (hc c hm)

/-- Two parameters with limits 0 and 1, and their covariance matrix. -/
def demoResult : Result where
  params := [⟨.free, "a".toList, 1, 1, 0, 1, 1, 1, -1, 1, 0⟩, ⟨.fix, "b".toList, 2, 1, 0, 1, 2, 1, -1, 1, 1⟩]
  chi2 := 10
  nBins := 5
  nParam := 1
  logL := -7
  status := 0
  observables := [("f".toList, 3)]
  fractions := [("g".toList, 1, 2)]
  cov := [[1, 2], [2, 5]]
  covMapping := fun _ => none

theorem demo_writable : Writable demoResult :=
  ⟨rfl, by decide, by
    intro p hp
    simp only [demoResult, List.mem_cons, List.not_mem_nil, or_false] at hp
    rcases hp with rfl | rfl <;> exact ⟨by decide, by decide⟩, by decide, by
    intro p hp
    simp only [demoResult, List.mem_singleton] at hp
    subst hp
    exact ⟨by decide, by decide⟩, by
    intro p hp
    simp only [demoResult, List.mem_singleton] at hp
    subst hp
    exact ⟨by decide, by decide⟩, by decide⟩

theorem demo_not_blind : NotBlind demoResult := by
  intro p hp
  simp only [demoResult, List.mem_cons, List.not_mem_nil, or_false] at hp
  rcases hp with rfl | rfl <;> exact ⟨by decide, fun h => absurd h.length_le (by decide)⟩

example (junk : ℚ) : ∃ text r', write demoFormat demoResult = some text ∧ read demoFormat junk text = some r' ∧
    r'.covByName "b".toList "b".toList = some 5 := by
  obtain ⟨text, r', h1, h2, _, _, _, h3, _⟩ := fit_result_round_trip_partial demo_faithful demo_writable demo_not_blind junk
  exact ⟨text, r', h1, h2, (h3 1 1 (by decide) (by decide)).trans (by decide)⟩

/-- C39 is false for limits: of every parameter, the upper limit that was written is read as the lower limit, and the upper limit is whatever is found behind
the end of the list of numbers. -/
theorem fit_result_limits_counterexample {fmt : Format} {fix gen : ℚ → ℚ} (hf : Faithful fmt fix gen) {r : Result} (hr : Writable r) (hb : NotBlind r) (junk : ℚ) :
    ∃ text r', write fmt r = some text ∧ read fmt junk text = some r' ∧ r'.params.length = r.params.length ∧
      ∀ i, ∀ h : i < r.params.length, ∀ h' : i < r'.params.length, r'.params[i].minInit = fix r.params[i].maxInit ∧ r'.params[i].maxInit = junk := by
  have hp : paramLines fmt r (List.range r.cov.length) = some (r.params.map fun p => paramLine fmt p p.mean) := by
    rw [hr.rows, paramLines_eq fmt hb _ (fun i hi => List.mem_range.1 hi), filterMap_range]
  obtain ⟨text, h1, h2⟩ := write_eq hf hr hr.names hp
  obtain ⟨mapping, h3, _⟩ := read_eq hf hr junk hr.names hr.distinct le_rfl h2
  refine ⟨text, _, h1, h3, by simp, ?_⟩
  intro i hi _
  simp [readBack]

example (junk : ℚ) : ∃ text r', write demoFormat demoResult = some text ∧ read demoFormat junk text = some r' ∧ r'.params.map (·.minInit) = [1, 1] := by
  obtain ⟨text, r', h1, h2, h3, h4⟩ := fit_result_limits_counterexample demo_faithful demo_writable demo_not_blind junk
  have hl : r'.params.length = 2 := h3
  refine ⟨text, r', h1, h2, List.ext_getElem (by simp [hl]) ?_⟩
  intro i hi hi'
  rw [List.getElem_map]
  have h := (h4 i hi' (by rw [hl]; exact hi')).1
  rw [h]
  match i, hi' with
  | 0, _ => rfl
  | 1, _ => rfl

/-- A blinding offset and a parameter. -/
def blindResult : Result :=
  { demoResult with params := [⟨.free, "x_blind".toList, 1, 1, 0, 1, 1, 1, -1, 1, 0⟩, ⟨.free, "b".toList, 2, 1, 0, 1, 2, 1, -1, 1, 1⟩] }

/-- C39 is false with blind parameters: a blinding offset is not written as a parameter, but its row and column of the covariance matrix are, so that the
variances of all parameters after it are wrong.  Here the variance of `b` is 5, and that of the offset is read for it. -/
theorem fit_result_blind_counterexample {fmt : Format} {fix gen : ℚ → ℚ} (hf : Faithful fmt fix gen) (junk : ℚ) : Writable blindResult ∧
    ∃ text r', write fmt blindResult = some text ∧ read fmt junk text = some r' ∧
      r'.covByName "b".toList "b".toList = some (gen 1) ∧ (blindResult.cov[1]?.bind fun row => row[1]?) = some 5 ∧
      (blindResult.params[1]?.map (·.name)) = some "b".toList := by
  have hw : Writable blindResult := by
    refine ⟨rfl, demo_writable.columns, ?_, by decide, demo_writable.fractions, demo_writable.observables, demo_writable.distinctObservables⟩
    intro p hp
    simp only [blindResult, List.mem_cons, List.not_mem_nil, or_false] at hp
    rcases hp with rfl | rfl <;> exact ⟨by decide, by decide⟩
  refine ⟨hw, ?_⟩
  let b : Param := ⟨.free, "b".toList, 2, 1, 0, 1, 2, 1, -1, 1, 1⟩
  have hb : Word b.name := ⟨by decide, by decide⟩
  have hp : paramLines fmt blindResult (List.range blindResult.cov.length) = some ([b].map fun p => paramLine fmt p p.mean) := by
    have e : List.range blindResult.cov.length = [0, 1] := rfl
    rw [e]
    have h1 : (Strings.find "x_blind".toList "_blind".toList 0).isSome = true := by decide
    have h2 : (Strings.find "b".toList "_blind".toList 0).isSome = false := by decide
    simp only [paramLines, blindResult, List.getElem?_cons_zero, List.getElem?_cons_succ, Option.bind_eq_bind, Option.bind_some, h1, h2, if_true, if_false]
    simp [b]
  obtain ⟨text, h1, h2⟩ := write_eq hf hw (ws := [b]) (by intro p hp; rw [List.mem_singleton] at hp; exact hp ▸ hb) hp
  obtain ⟨mapping, h3, h4, _⟩ := read_eq hf hw junk (ws := [b]) (by intro p hp; rw [List.mem_singleton] at hp; exact hp ▸ hb) (by decide) (by decide) h2
  refine ⟨text, _, h1, h3, ?_, rfl, rfl⟩
  have h5 := h4 0 (by decide)
  unfold Result.covByName
  have h6 : mapping "b".toList = some 0 := h5
  simp only [h6]
  rfl

end AmpGen.FitFile
