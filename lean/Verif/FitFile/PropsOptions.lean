import Verif.FitFile.LemmasOptions
import Verif.FitFile.Props
/-
C61 (options written from a fit result can be loaded again).
-/
namespace AmpGen.FitFile
open AmpGen.Strings (Str split find getlines)
open AmpGen.Params (Param Flag World loadFromStream)

/-- C61.  For every list of parameters with different names that are not parts of complex ones and have no limits or two limits that are not zero: a file with
the options that are written for them is parsed, and loading it gives exactly these parameters, in order, with the same names and flags, and with the
fitted value and error and the limits as declared value, step and limits, rounded as the format does.

Missing: a limit that is zero and complex parameters, see the counterexamples. -/
theorem options_round_trip_partial {fmt : Format} {fix gen : ℚ → ℚ} (hf : Faithful fmt fix gen) (hb : ∀ x, Bare (fmt.fixed x)) {ps : List Param}
    (hp : ∀ p ∈ ps, Simple p) (hd : (ps.map (·.name)).Nodup) {fs : Str → Option Str} {expand : Str → Str} {file : Str}
    (hfile : fs file = some ((writeOptions fmt ps).flatMap fun l => l ++ ['\n'])) (junk : Param) :
    ∃ n, ∀ m, n ≤ m → ∃ q lines, Options.importFile fs expand m file ⟨fun _ => none, []⟩ = some q ∧ q.getInputOrdered = lines.map some ∧
      let w := loadFromStream fmt.stod parseFlag (fun _ => none) (World.empty junk) lines
      w.params.length = ps.length ∧ ∀ i, ∀ h : i < ps.length, ∃ p', w.param i = some p' ∧ p'.name = ps[i].name ∧ p'.flag = ps[i].flag ∧
        p'.mean = fix ps[i].mean ∧ p'.err = fix ps[i].err ∧ p'.meanInit = fix ps[i].mean ∧ p'.stepInit = fix ps[i].err ∧
        p'.minInit = (if ps[i].minInit = 0 then 0 else fix ps[i].minInit) ∧ p'.maxInit = (if ps[i].maxInit = 0 then 0 else fix ps[i].maxInit) := by
  have hw := writeOptions_real (fmt := fmt) ps hp hd
  rw [hw] at hfile
  have hclean : ∀ l ∈ ps.map (optionLine fmt), Clean l := by
    intro l hl
    obtain ⟨p, hpp, rfl⟩ := List.mem_map.1 hl
    unfold optionLine
    rw [clean_append]
    exact ⟨clean_pad (hp p hpp).name.clean 50, clean_option hb p⟩
  have hcr : '\r' ∉ (ps.map (optionLine fmt)).flatMap fun l => l ++ ['\n'] := by
    intro hc
    obtain ⟨l, hl, hc⟩ := List.mem_flatMap.1 hc
    rcases List.mem_append.1 hc with hc | hc
    · exact (hclean l hl _ hc).2 rfl
    · simp at hc
  have hst : Options.Statements (getlines '\n' ((ps.map (optionLine fmt)).flatMap fun l => l ++ ['\n'])) (ps.map fun p => p.name :: wordsOf fmt p) := by
    rw [getlines_all _ fun l hl hc => (hclean l hl _ hc).1 rfl]
    exact statements_real hb ps hp
  obtain ⟨n, hn⟩ := Options.options_last_wins_partial hfile hcr hst (settings_real fs expand ps hp)
  refine ⟨n, fun m hm => ?_⟩
  obtain ⟨q, h1, h2, h3⟩ := hn m hm ⟨fun _ => none, []⟩
  refine ⟨q, ps.map fun p => p.name :: wordsOf fmt p, h1, ?_, ?_⟩
  · rw [h3]
    simp only [List.nil_append, List.map_map]
    apply List.map_congr_left
    intro p hpp
    simp only [Function.comp, List.head?_cons, Option.getD_some]
    rw [h2]
    have : Options.lastSet (ps.map fun p => p.name :: wordsOf fmt p) p.name = some (p.name :: wordsOf fmt p) := by
      unfold Options.lastSet
      rw [← List.map_reverse, List.find?_map]
      have hl : lookup ps.reverse p.name = some p := lookup_self (by rw [List.map_reverse, List.nodup_reverse]; exact hd) (by simpa using hpp)
      have e : ((fun e : List Str => decide (e.head? = some p.name)) ∘ fun p : Param => p.name :: wordsOf fmt p) = fun q : Param => decide (q.name = p.name) := by
        funext q
        simp
      rw [e]
      unfold lookup at hl
      rw [hl]
      rfl
    rw [this]
    rfl
  · have hflat : (ps.map fun p => [rounded fix p]).flatten = ps.map (rounded fix) := by
      clear hd hw hfile hclean hcr hst hn h1 h2 h3 hp
      induction ps with
      | nil => rfl
      | cons p ps ih => rw [List.map_cons, List.flatten_cons, ih]; rfl
    have hdec : List.Forall₂ (Params.Declares fmt.stod parseFlag) (ps.map fun p => p.name :: wordsOf fmt p) (ps.map fun p => [rounded fix p]) := by
      clear hd hw hfile hclean hcr hst hn h1 h2 h3 hflat
      induction ps with
      | nil => exact .nil
      | cons p ps ih => exact .cons (declares_real hf (hp p (by simp))) (ih fun q hq => hp q (by simp [hq]))
    have hnames : ((ps.map (rounded fix)).map (·.name)) = ps.map (·.name) := by
      rw [List.map_map]; rfl
    have hload := Params.load_parameters_partial fmt.stod parseFlag (fun _ => none) junk _ _ hdec (by
      rw [hflat, hnames, aliases_none, List.append_nil]; exact hd) (by
      rw [hflat, hnames, aliases_none, List.append_nil, List.filterMap_eq_nil_iff.2 fun _ _ => rfl]
      exact List.nodup_nil)
    simp only [hflat, aliases_none] at hload
    have hnil : (List.filterMap (fun _ : Str => (none : Option Str)) ((ps.map (rounded fix)).map (·.name) ++ [])) = [] := by simp
    rw [hnil] at hload
    simp only [List.append_nil, List.map_nil] at hload
    have hpar := hload.1
    simp only
    refine ⟨?_, ?_⟩
    · set w := loadFromStream fmt.stod parseFlag (fun _ => none) (World.empty junk) (ps.map fun p => p.name :: wordsOf fmt p)
      have hiff : ∀ a, a < w.params.length ↔ a < ps.length := by
        intro a
        have := congrArg Option.isSome (hpar a)
        unfold World.param World.at at this
        rw [Option.isSome_map, Bool.eq_iff_iff] at this
        simpa using this
      have h1 := hiff w.params.length
      have h2 := hiff ps.length
      omega
    · intro i hi
      refine ⟨rounded fix ps[i], ?_, rfl, rfl, rfl, rfl, rfl, rfl, rfl, rfl⟩
      rw [hpar i]
      simp [hi]

/-- The words of the unary format. -/
theorem unary_bare (x : ℚ) : Bare (unary x) := by
  refine ⟨(demo_faithful.fixedWord x).nonempty, ?_⟩
  intro c hc
  rcases unary_chars x c hc with rfl | rfl | rfl <;> decide

/-- A parameter with limits and one without. -/
def demoParams : List Param := [⟨.free, "a".toList, 1, 1, -1, 3, 1, 1, -1, 1, 0⟩, ⟨.fix, "b".toList, 2, 1, 0, 0, 2, 1, -1, 1, 1⟩]

theorem demo_simple : ∀ p ∈ demoParams, Simple p := by
  have h : ∀ pat : Str, pat.length = 3 → ∀ w : Str, w.length = 1 → ¬ pat <:+: w := by
    intro pat hp w hw h
    have := h.length_le
    omega
  intro p hp
  simp only [demoParams, List.mem_cons, List.not_mem_nil, or_false] at hp
  rcases hp with rfl | rfl <;>
    exact ⟨⟨by decide, by decide⟩, by decide, by decide, h _ rfl _ rfl, h _ rfl _ rfl, by decide, by decide⟩

example (junk : Param) : ∃ m q lines,
    Options.importFile (fun _ => some ((writeOptions demoFormat demoParams).flatMap fun l => l ++ ['\n'])) id m "f".toList ⟨fun _ => none, []⟩ = some q ∧
    q.getInputOrdered = lines.map some ∧
    ((loadFromStream demoFormat.stod parseFlag (fun _ => none) (World.empty junk) lines).param 0).map (·.maxInit) = some 3 := by
  obtain ⟨n, hn⟩ := options_round_trip_partial demo_faithful unary_bare demo_simple (by decide) (fs := fun _ => some ((writeOptions demoFormat demoParams).flatMap fun l => l ++ ['\n']))
    (expand := id) (file := "f".toList) rfl junk
  obtain ⟨q, lines, h1, h2, _, h3⟩ := hn n le_rfl
  obtain ⟨p', h4, _, _, _, _, _, _, _, h5⟩ := h3 0 (by decide)
  refine ⟨n, q, lines, h1, h2, ?_⟩
  rw [h4]
  exact congrArg some (h5.trans (by decide +kernel))

/-- C61 is false for a limit that is zero: both limits are left out, and a parameter with the limits 0 and 5 is loaded without limits. -/
theorem options_zero_limit_counterexample {fmt : Format} {fix gen : ℚ → ℚ} (hf : Faithful fmt fix gen) (hb : ∀ x, Bare (fmt.fixed x)) (junk : Param) :
    let p : Param := ⟨.free, "a".toList, 1, 1, 0, 5, 1, 1, -1, 1, 0⟩
    ∃ line words, writeOptions fmt [p] = [line] ∧ Options.makeParsedStrings line 0 = (words, 0) ∧
      ∃ p', (loadFromStream fmt.stod parseFlag (fun _ => none) (World.empty junk) [words]).param 0 = some p' ∧ p'.minInit = 0 ∧ p'.maxInit = 0 := by
  intro p
  have hl := line_real hb (p := p) ⟨by decide, by decide⟩
  refine ⟨optionLine fmt p, p.name :: wordsOf fmt p, ?_, ?_, ?_⟩
  · have h1 : find p.name "_Re".toList 0 = none := by decide
    have h2 : find p.name "_Im".toList 0 = none := by decide
    unfold writeOptions
    simp only [List.foldl_cons, List.foldl_nil, h1, h2]
    simp [addReal, lookup, optionLine]
  · have := Options.makeParsedStrings_line hl 0
    rcases this with h | h
    · simpa using h
    · exact absurd h (hl.head (by simp)).2
  · have hw : wordsOf fmt p = [flagText p.flag, fmt.fixed p.mean, fmt.fixed p.err] := by
      unfold wordsOf
      rw [if_neg (by simp [p])]
    have hdec : Params.Declares fmt.stod parseFlag (p.name :: wordsOf fmt p) [Params.declared p.name p.flag (fix p.mean) (fix p.err) 0 0] := by
      rw [hw]
      have := Params.Declares.real (flag := parseFlag) (f := flagText p.flag) (name := p.name) (hf.readFixed p.mean) (hf.readFixed p.err) (by rw [flag_round_trip]; decide)
      rw [flag_round_trip] at this
      exact this
    have hal : Params.aliases [p.name :: wordsOf fmt p] = [] := aliases_none (ps := [p])
    have hload := Params.load_parameters_partial fmt.stod parseFlag (fun _ => none) junk [p.name :: wordsOf fmt p] _ (.cons hdec .nil) (by rw [hal]; simp) (by simp)
    exact ⟨_, hload.1 0, rfl, rfl⟩

example (junk : Param) : ∃ line words, writeOptions demoFormat [⟨.free, "a".toList, 1, 1, 0, 5, 1, 1, -1, 1, 0⟩] = [line] ∧
    Options.makeParsedStrings line 0 = (words, 0) := by
  obtain ⟨line, words, h1, h2, _⟩ := options_zero_limit_counterexample demo_faithful unary_bare junk
  exact ⟨line, words, h1, h2⟩

/-- C61 is false for a complex parameter with limits for its real part only: the line has nine words, which is no declaration, and neither part is loaded. -/
theorem options_complex_counterexample {fmt : Format} (hb : ∀ x, Bare (fmt.fixed x)) (junk : Param) :
    let re : Param := ⟨.free, "c_Re".toList, 1, 1, 1, 5, 1, 1, -1, 1, 0⟩
    let im : Param := ⟨.free, "c_Im".toList, 1, 1, 0, 0, 1, 1, -1, 1, 1⟩
    ∃ line words, writeOptions fmt [re, im] = [line] ∧ Options.makeParsedStrings line 0 = (words, 0) ∧ words.length = 9 ∧
      (loadFromStream fmt.stod parseFlag (fun _ => none) (World.empty junk) [words]).params = [] := by
  intro re im
  obtain ⟨s, h1, h2⟩ := line_option hb re
  obtain ⟨s', h3, h4⟩ := line_option hb im
  have hwr : wordsOf fmt re = [flagText re.flag, fmt.fixed re.mean, fmt.fixed re.err, fmt.fixed re.minInit, fmt.fixed re.maxInit] := by
    unfold wordsOf
    rw [if_pos (by simp [re])]
  have hwi : wordsOf fmt im = [flagText im.flag, fmt.fixed im.mean, fmt.fixed im.err] := by
    unfold wordsOf
    rw [if_neg (by simp [im])]
  have hline : Options.Line (pad 50 "c".toList ++ optionWords fmt re ++ optionWords fmt im) ("c".toList :: (wordsOf fmt re ++ wordsOf fmt im)) 0 := by
    rw [hwr]
    have hopt : optionWords fmt re = ' ' :: (pad 7 (flagText re.flag) ++ ' ' :: (pad 12 (fmt.fixed re.mean) ++ ' ' :: (pad 12 (fmt.fixed re.err) ++ ' ' ::
        (pad 12 (fmt.fixed re.minInit) ++ ' ' :: pad 12 (fmt.fixed re.maxInit))))) := by
      unfold optionWords
      rw [if_pos (by simp [re])]
      simp
    have e : pad 50 "c".toList ++ optionWords fmt re ++ optionWords fmt im = pad 50 "c".toList ++ ' ' :: (pad 7 (flagText re.flag) ++ ' ' ::
        (pad 12 (fmt.fixed re.mean) ++ ' ' :: (pad 12 (fmt.fixed re.err) ++ ' ' :: (pad 12 (fmt.fixed re.minInit) ++ ' ' :: (pad 12 (fmt.fixed re.maxInit) ++ ' ' :: s'))))) := by
      rw [hopt, h3]
      simp
    rw [e]
    exact line_pad ⟨by decide, by decide⟩ 50 (line_pad (flag_bare _) 7 (line_pad (hb _) 12 (line_pad (hb _) 12 (line_pad (hb _) 12 (line_pad (hb _) 12 h4)))))
  refine ⟨pad 50 "c".toList ++ optionWords fmt re ++ optionWords fmt im, "c".toList :: (wordsOf fmt re ++ wordsOf fmt im), ?_, ?_, ?_, ?_⟩
  · have r1 : find re.name "_Re".toList 0 = some 1 := by decide
    have r2 : replace re.name "_Re".toList "_Im".toList = im.name := by decide
    have r3 : replace re.name "_Re".toList [] = "c".toList := by decide
    have l1 : lookup [re, im] im.name = some im := by simp [lookup, re, im]
    have l2 : lookup [re, im] re.name = some re := by simp [lookup]
    have ha : addComplex fmt [re, im] "c".toList = ([pad 50 "c".toList ++ optionWords fmt re ++ optionWords fmt im], [re.name, im.name]) := by
      unfold addComplex
      have e1 : "c".toList ++ "_Re".toList = re.name := by decide
      have e2 : "c".toList ++ "_Im".toList = im.name := by decide
      rw [e1, e2, l1, l2]
    unfold writeOptions
    simp only [List.foldl_cons, List.foldl_nil, r1, r2, r3, l1, ha]
    simp
  · have := Options.makeParsedStrings_line hline 0
    rcases this with h | h
    · simpa using h
    · exact absurd h (hline.head (by simp)).2
  · rw [hwr, hwi]; rfl
  · rw [hwr, hwi]
    have : flagText re.flag ≠ ['='] := flag_not_alias _
    simp only [loadFromStream, List.foldl_cons, List.foldl_nil, List.cons_append, List.nil_append, Params.tryParameter, Params.tryAlias, if_neg this]
    rfl

example (junk : Param) : ∃ line words, writeOptions demoFormat [⟨.free, "c_Re".toList, 1, 1, 1, 5, 1, 1, -1, 1, 0⟩, ⟨.free, "c_Im".toList, 1, 1, 0, 0, 1, 1, -1, 1, 1⟩] = [line] ∧
    Options.makeParsedStrings line 0 = (words, 0) := by
  obtain ⟨line, words, h1, h2, _⟩ := options_complex_counterexample (fmt := demoFormat) unary_bare junk
  exact ⟨line, words, h1, h2⟩

end AmpGen.FitFile
