import Verif.FitFile.Lemmas
import Verif.Options.Props
import Verif.Params.Props
/-
Lemmas about fit results written as options.
-/
namespace AmpGen.FitFile
open AmpGen.Strings (Str split find getlines)
open AmpGen.Params (Param Flag declared Declares)

theorem Bare.plain {w : Str} (h : Bare w) : Options.Plain w := by
  refine ⟨h.nonempty, ?_, ?_, ?_⟩
  · intro c hc
    have := h.chars c hc
    simp [Options.isBlank, this.1, this.2.2.2.1]
  · intro hc; exact (h.chars _ hc).2.2.2.2.1 rfl
  · intro hc; exact (h.chars _ hc).2.2.2.2.2.1 rfl

theorem Bare.net {w : Str} (h : Bare w) : Options.net w = 0 := by
  unfold Options.net
  rw [List.count_eq_zero_of_not_mem fun hc => (h.chars _ hc).2.2.2.2.2.2.1 rfl, List.count_eq_zero_of_not_mem fun hc => (h.chars _ hc).2.2.2.2.2.2.2 rfl]
  rfl

theorem Bare.clean {w : Str} (h : Bare w) : Clean w := fun c hc => ⟨(h.chars c hc).2.1, (h.chars c hc).2.2.1⟩

theorem Bare.brace {w : Str} (h : Bare w) : w ≠ ['{'] ∧ w ≠ ['}'] := by
  constructor
  · rintro rfl; exact (h.chars '{' (by simp)).2.2.2.2.2.2.1 rfl
  · rintro rfl; exact (h.chars '}' (by simp)).2.2.2.2.2.2.2 rfl

theorem line_blanks {s : Str} {ts : List Str} (h : Options.Line s ts 0) (k : Nat) : Options.Line (List.replicate k ' ' ++ s) ts 0 := by
  induction k with
  | zero => exact h
  | succ k ih => rw [List.replicate_succ]; exact .blank (by decide) ih

theorem line_pad {w : Str} (hw : Bare w) (n : Nat) {s : Str} {ts : List Str} (h : Options.Line s ts 0) :
    Options.Line (pad n w ++ ' ' :: s) (w :: ts) 0 := by
  unfold pad
  have e : w ++ List.replicate (n - w.length) ' ' ++ ' ' :: s = w ++ ' ' :: (List.replicate (n - w.length) ' ' ++ s) := by
    rw [List.append_assoc]
    congr 1
    rw [← List.singleton_append, ← List.append_assoc, ← List.replicate_succ', List.replicate_succ, List.cons_append]
  rw [e]
  have := Options.Line.word hw.plain (c := ' ') (by decide) (line_blanks h (n - w.length))
  rw [hw.net] at this
  exact this

theorem line_pad_last {w : Str} (hw : Bare w) (n : Nat) : Options.Line (pad n w) [w] 0 := by
  unfold pad
  cases hk : n - w.length with
  | zero =>
    have := Options.Line.last hw.plain
    rw [hw.net] at this
    simpa using this
  | succ k =>
    have h0 : Options.Line (List.replicate k ' ') [] 0 := by
      have := line_blanks Options.Line.nil k
      simpa using this
    have := Options.Line.word hw.plain (c := ' ') (by decide) h0
    rw [hw.net] at this
    exact this

theorem flag_bare (f : Flag) : Bare (flagText f) := by
  have h := (Enum.enum_round_trip_partial flag_declared (by decide) 5).1
  unfold flagText
  cases f
  · rw [(h (flagIndex .free) _ rfl).1]; exact ⟨by decide, by decide⟩
  · rw [(h (flagIndex .hide) _ rfl).1]; exact ⟨by decide, by decide⟩
  · rw [(h (flagIndex .fix) _ rfl).1]; exact ⟨by decide, by decide⟩
  · rw [(h (flagIndex .compileTimeConstant) _ rfl).1]; exact ⟨by decide, by decide⟩
  · rw [(h (flagIndex .blind) _ rfl).1]; exact ⟨by decide, by decide⟩
  · rw [(h (flagIndex .invalid) _ rfl).1]; exact ⟨by decide, by decide⟩

/-- The words of a parameter after its name. -/
def wordsOf (fmt : Format) (p : Param) : List Str :=
  if p.minInit ≠ 0 ∧ p.maxInit ≠ 0 then [flagText p.flag, fmt.fixed p.mean, fmt.fixed p.err, fmt.fixed p.minInit, fmt.fixed p.maxInit]
  else [flagText p.flag, fmt.fixed p.mean, fmt.fixed p.err]

variable {fmt : Format}

theorem wordsOf_bare (hb : ∀ x, Bare (fmt.fixed x)) (p : Param) : ∀ w ∈ wordsOf fmt p, Bare w := by
  intro w hw
  unfold wordsOf at hw
  split at hw <;> simp only [List.mem_cons, List.not_mem_nil, or_false] at hw
  · rcases hw with rfl | rfl | rfl | rfl | rfl
    · exact flag_bare _
    all_goals exact hb _
  · rcases hw with rfl | rfl | rfl
    · exact flag_bare _
    all_goals exact hb _

theorem line_option (hb : ∀ x, Bare (fmt.fixed x)) (p : Param) : ∃ s, optionWords fmt p = ' ' :: s ∧ Options.Line s (wordsOf fmt p) 0 := by
  unfold optionWords wordsOf
  split
  · refine ⟨_, ?_, line_pad (flag_bare p.flag) 7 (line_pad (hb p.mean) 12 (line_pad (hb p.err) 12 (line_pad (hb p.minInit) 12 (line_pad_last (hb p.maxInit) 12))))⟩
    simp
  · refine ⟨_, ?_, line_pad (flag_bare p.flag) 7 (line_pad (hb p.mean) 12 (line_pad_last (hb p.err) 12))⟩
    simp

theorem clean_option (hb : ∀ x, Bare (fmt.fixed x)) (p : Param) : Clean (optionWords fmt p) := by
  have hx : ∀ x, Clean (pad 12 (fmt.fixed x)) := fun x => clean_pad (hb x).clean 12
  have hf := clean_pad (flag_bare p.flag).clean 7
  unfold optionWords
  split <;> simp only [clean_append]
  · exact ⟨⟨⟨⟨⟨⟨clean_space, hf⟩, clean_space⟩, hx _⟩, clean_space⟩, hx _⟩, ⟨⟨⟨clean_space, hx _⟩, clean_space⟩, hx _⟩⟩
  · refine ⟨⟨⟨⟨⟨⟨clean_space, hf⟩, clean_space⟩, hx _⟩, clean_space⟩, hx _⟩, ?_⟩
    intro c hc
    simp at hc

/-- The line of a parameter. -/
def optionLine (fmt : Format) (p : Param) : Str := pad 50 p.name ++ optionWords fmt p

theorem line_real (hb : ∀ x, Bare (fmt.fixed x)) {p : Param} (hp : Bare p.name) : Options.Line (optionLine fmt p) (p.name :: wordsOf fmt p) 0 := by
  obtain ⟨s, h1, h2⟩ := line_option hb p
  unfold optionLine
  rw [h1]
  exact line_pad hp 50 h2

theorem statements_real (hb : ∀ x, Bare (fmt.fixed x)) (ps : List Param) (hp : ∀ p ∈ ps, Simple p) :
    Options.Statements (ps.map (optionLine fmt)) (ps.map fun p => p.name :: wordsOf fmt p) := by
  induction ps with
  | nil => exact .nil
  | cons p ps ih =>
    have hs := hp p (by simp)
    have hl := line_real hb hs.name
    have hstar : (optionLine fmt p).head? ≠ some '*' := by
      have := hs.star
      unfold optionLine pad
      cases hn : p.name with
      | nil => exact absurd hn hs.name.nonempty
      | cons c w => rw [hn] at this; simpa using this
    have hfil : (p.name :: wordsOf fmt p).filter (fun w => w ≠ ['{'] ∧ w ≠ ['}']) = p.name :: wordsOf fmt p := by
      rw [List.filter_eq_self]
      intro w hw
      rcases List.mem_cons.1 hw with rfl | hw
      · simpa using hs.name.brace
      · simpa using (wordsOf_bare hb p w hw).brace
    have := Options.Statements.block (Options.Block.last (d := 0) ⟨hl, by simp, hstar⟩ (by simp)) (ih fun q hq => hp q (by simp [hq]))
    rw [hfil] at this
    exact this

theorem settings_real (fs : Str → Option Str) (expand : Str → Str) (ps : List Param) (hp : ∀ p ∈ ps, Simple p) :
    Options.Settings fs expand (ps.map fun p => p.name :: wordsOf fmt p) (ps.map fun p => p.name :: wordsOf fmt p) := by
  induction ps with
  | nil => exact .nil
  | cons p ps ih => exact .set (hp p (by simp)).keyword (ih fun q hq => hp q (by simp [hq]))

theorem lookup_self {ps : List Param} (hd : (ps.map (·.name)).Nodup) {p : Param} (hp : p ∈ ps) : lookup ps p.name = some p := by
  unfold lookup
  induction ps with
  | nil => simp at hp
  | cons q ps ih =>
    rw [List.map_cons, List.nodup_cons] at hd
    rcases List.mem_cons.1 hp with rfl | hp
    · simp
    · have : q.name ≠ p.name := fun h => hd.1 (h ▸ List.mem_map_of_mem hp)
      rw [List.find?_cons_of_neg (by simpa using this)]
      exact ih hd.2 hp

theorem writeOptions_real (ps : List Param) (hp : ∀ p ∈ ps, Simple p) (hd : (ps.map (·.name)).Nodup) :
    writeOptions fmt ps = ps.map (optionLine fmt) := by
  unfold writeOptions
  have key : ∀ (qs : List Param) (acc : List Str × List Str), (∀ q ∈ qs, q ∈ ps) → (acc.2 ++ qs.map (·.name)).Nodup →
      (qs.foldl (fun (acc : List Str × List Str) p =>
        if p.name ∈ acc.2 then acc
        else
          let add := if (find p.name "_Re".toList 0).isSome ∧ (lookup ps (replace p.name "_Re".toList "_Im".toList)).isSome then
              addComplex fmt ps (replace p.name "_Re".toList [])
            else if (find p.name "_Im".toList 0).isSome ∧ (lookup ps (replace p.name "_Im".toList "_Re".toList)).isSome then
              addComplex fmt ps (replace p.name "_Re".toList [])
            else addReal fmt ps p.name
          (acc.1 ++ add.1, acc.2 ++ add.2)) acc).1 = acc.1 ++ qs.map (optionLine fmt) := by
    intro qs
    induction qs with
    | nil => intro acc _ _; simp
    | cons q qs ih =>
      intro acc hm hn
      have hq := hm q (by simp)
      have hs := hp q hq
      have hnot : q.name ∉ acc.2 := by
        intro h
        rw [List.map_cons, List.nodup_append] at hn
        exact hn.2.2 _ h _ (by simp) rfl
      rw [List.foldl_cons, if_neg hnot]
      have h1 : ¬ ((find q.name "_Re".toList 0).isSome ∧ (lookup ps (replace q.name "_Re".toList "_Im".toList)).isSome) := by
        rw [find_none_of hs.real]; simp
      have h2 : ¬ ((find q.name "_Im".toList 0).isSome ∧ (lookup ps (replace q.name "_Im".toList "_Re".toList)).isSome) := by
        rw [find_none_of hs.imaginary]; simp
      have h3 : addReal fmt ps q.name = ([optionLine fmt q], [q.name]) := by
        unfold addReal
        rw [lookup_self hd hq]
        rfl
      simp only
      rw [if_neg h1, if_neg h2, h3]
      rw [ih (acc.1 ++ [optionLine fmt q], acc.2 ++ [q.name]) (fun q' hq' => hm q' (by simp [hq'])) (by simpa using hn)]
      simp
  have := key ps ([], []) (fun q hq => hq) (by simpa using hd)
  rw [this]
  simp

/-- The parameter that is declared. -/
def rounded (fix : ℚ → ℚ) (p : Param) : Param :=
  declared p.name p.flag (fix p.mean) (fix p.err) (if p.minInit = 0 then 0 else fix p.minInit) (if p.maxInit = 0 then 0 else fix p.maxInit)

theorem declares_real {fix gen : ℚ → ℚ} (hf : Faithful fmt fix gen) {p : Param} (hp : Simple p) :
    Declares fmt.stod parseFlag (p.name :: wordsOf fmt p) [rounded fix p] := by
  have hflag : parseFlag (flagText p.flag) ≠ .invalid := by rw [flag_round_trip]; exact hp.flag
  have e := flag_round_trip p.flag
  unfold wordsOf rounded
  by_cases h : p.minInit = 0
  · have h' := hp.limits.1 h
    rw [if_neg (by simp [h]), if_pos h, if_pos h']
    have := Declares.real (name := p.name) (hf.readFixed p.mean) (hf.readFixed p.err) hflag
    rw [e] at this
    exact this
  · have h' : p.maxInit ≠ 0 := fun h' => h (hp.limits.2 h')
    rw [if_pos ⟨h, h'⟩, if_neg h, if_neg h']
    have := Declares.limits (name := p.name) (hf.readFixed p.mean) (hf.readFixed p.err) (hf.readFixed p.minInit) (hf.readFixed p.maxInit) hflag
    rw [e] at this
    exact this

theorem flag_not_alias (f : Flag) : flagText f ≠ ['='] := by
  have h := (Enum.enum_round_trip_partial flag_declared (by decide) 5).1
  unfold flagText
  cases f
  · rw [(h (flagIndex .free) _ rfl).1]; decide
  · rw [(h (flagIndex .hide) _ rfl).1]; decide
  · rw [(h (flagIndex .fix) _ rfl).1]; decide
  · rw [(h (flagIndex .compileTimeConstant) _ rfl).1]; decide
  · rw [(h (flagIndex .blind) _ rfl).1]; decide
  · rw [(h (flagIndex .invalid) _ rfl).1]; decide

theorem aliases_none {ps : List Param} : Params.aliases (ps.map fun p => p.name :: wordsOf fmt p) = [] := by
  unfold Params.aliases
  rw [List.filterMap_eq_nil_iff]
  intro l hl
  obtain ⟨p, _, rfl⟩ := List.mem_map.1 hl
  unfold wordsOf
  by_cases h : p.minInit ≠ 0 ∧ p.maxInit ≠ 0
  · rw [if_pos h]; exact if_neg (flag_not_alias p.flag)
  · rw [if_neg h]; exact if_neg (flag_not_alias p.flag)

end AmpGen.FitFile
