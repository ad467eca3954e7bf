import Verif.FitFile.UpdateModel
import Verif.FitFile.UpdateSpec
import Verif.FitFile.PropsOptions
/-
C164 (an options file is updated with the result of a fit).
-/
namespace AmpGen.FitFile
open AmpGen.Strings (Str split)
open AmpGen.Params (Param)

theorem blankItem_iff (w : Str) : Strings.isBlankItem w = true ↔ w = [' '] ∨ w = [] ∨ w = ['\n'] ∨ w = ['\t'] := by
  simp [Strings.isBlankItem, or_assoc]

theorem split_item {w : Str} (h1 : w ≠ []) (h2 : ' ' ∉ w) (h3 : w ≠ ['\t']) (h4 : w ≠ ['\n']) : Strings.isBlankItem w = false := by
  rw [← Bool.not_eq_true, blankItem_iff]
  rintro (rfl | rfl | rfl | rfl) <;> simp_all

theorem split_words {s : Str} {ws : List Str} (h : WordsOf s ws) : split s ' ' true = ws := by
  induction h with
  | nil => exact split_nil
  | blank _ ih =>
    rw [← ih]
    exact split_blanks 1 _
  | last h1 h2 h3 h4 =>
    unfold split
    rw [Strings.getlines_single h2 h1]
    simp [split_item h1 h2 h3 h4]
  | word h1 h2 h3 h4 _ ih =>
    rw [← ih]
    unfold split
    rw [Strings.getlines_append h2]
    simp [split_item h1 h2 h3 h4]
  | tab _ ih =>
    rw [← ih]
    unfold split
    have := Strings.getlines_append (d := ' ') (w := ['\t']) (by decide)
    rw [show ∀ s : Str, '\t' :: ' ' :: s = ['\t'] ++ ' ' :: s from fun _ => rfl, this]
    simp [Strings.isBlankItem]
  | tabLast => decide +kernel

/-- Every line has words. -/
theorem words_exist (s : Str) : '\n' ∉ s → WordsOf s (split s ' ' true) := by
  induction hn : s.length using Nat.strong_induction_on generalizing s with
  | _ n ih =>
    intro hnl
    cases hs : s with
    | nil => rw [split_nil]; exact .nil
    | cons c cs =>
      rw [← hs]
      by_cases hb : ' ' ∈ s
      · obtain ⟨w, rest, rfl, hw⟩ : ∃ w rest, s = w ++ ' ' :: rest ∧ ' ' ∉ w := by
          refine ⟨s.takeWhile (· != ' '), (s.dropWhile (· != ' ')).drop 1, ?_, fun h => by
            have := List.mem_takeWhile_imp h
            simp at this⟩
          cases hdw : s.dropWhile (· != ' ') with
          | nil =>
            have := List.dropWhile_eq_nil_iff.1 hdw ' ' hb
            simp at this
          | cons x xs =>
            have hx : x = ' ' := by
              have := List.head?_dropWhile_not (· != ' ') s
              rw [hdw] at this
              simpa using this
            subst hx
            have := List.takeWhile_append_dropWhile (p := (· != ' ')) (l := s)
            rw [hdw] at this
            simpa using this.symm
        have hr := ih rest.length (by simp at hn; omega) rest rfl (fun h => hnl (by simp [h]))
        by_cases h0 : w = []
        · subst h0
          have := split_blanks 1 rest
          rw [show ([] : Str) ++ ' ' :: rest = List.replicate 1 ' ' ++ rest from rfl, this]
          exact .blank hr
        · by_cases ht : w = ['\t']
          · subst ht
            have e : split (['\t'] ++ ' ' :: rest) ' ' true = split rest ' ' true := by
              unfold split
              rw [Strings.getlines_append (d := ' ') (w := ['\t']) (by decide)]
              simp [Strings.isBlankItem]
            rw [e]
            exact .tab hr
          · have hn' : w ≠ ['\n'] := by rintro rfl; exact hnl (by simp)
            have := WordsOf.word h0 hw ht hn' hr
            rwa [split_words this]
      · by_cases ht : s = ['\t']
        · rw [ht, split_words .tabLast]; exact .tabLast
        · have := WordsOf.last (w := s) (by simp [hs]) hb ht (by rintro rfl; exact hnl (by simp))
          rwa [split_words this]

theorem allLines_line {l : Str} (h : '\n' ∉ l) (rest : Str) : allLines (l ++ '\n' :: rest) = l :: allLines rest := by
  induction l with
  | nil => simp [allLines]
  | cons c l ih =>
    rw [List.cons_append, allLines, if_neg (by rintro rfl; exact h (by simp)), ih fun hc => h (by simp [hc])]

theorem allLines_last {l : Str} (h : '\n' ∉ l) : allLines l = [l] := by
  induction l with
  | nil => rfl
  | cons c l ih => rw [allLines, if_neg (by rintro rfl; exact h (by simp)), ih fun hc => h (by simp [hc])]

theorem allLines_all (ls : List Str) {last : Str} (h : ∀ l ∈ ls ++ [last], '\n' ∉ l) : allLines (ls.flatMap (fun l => l ++ ['\n']) ++ last) = ls ++ [last] := by
  induction ls with
  | nil => exact allLines_last (h last (by simp))
  | cons l ls ih =>
    rw [List.flatMap_cons, List.append_assoc, List.append_assoc]
    show allLines (l ++ '\n' :: _) = _
    rw [allLines_line (h l (by simp))]
    show l :: allLines (ls.flatMap (fun l => l ++ ['\n']) ++ last) = _
    rw [ih fun x hx => h x (by simp at hx ⊢; tauto), List.cons_append]

/-- Words, each after a blank and padded. -/
def padded (ws : List (Nat × Str)) : Str := ws.flatMap fun w => ' ' :: pad w.1 w.2

theorem split_pad_last {w : Str} (h : Word w) (n : Nat) : split (pad n w) ' ' true = [w] := by
  unfold pad
  cases n - w.length with
  | zero => simpa using split_word h
  | succ k =>
    have := split_cons h (List.replicate k ' ')
    have e := split_blanks k []
    rw [List.append_nil, split_nil] at e
    rw [List.replicate_succ, this, e]

theorem split_padded {w : Str} (h : Word w) (n : Nat) (ws : List (Nat × Str)) (hws : ∀ v ∈ ws, Word v.2) :
    split (pad n w ++ padded ws) ' ' true = w :: ws.map (·.2) := by
  induction ws generalizing w n with
  | nil => simpa [padded] using split_pad_last h n
  | cons v ws ih =>
    show split (pad n w ++ ' ' :: (pad v.1 v.2 ++ padded ws)) ' ' true = _
    rw [split_pad h, ih (hws v (by simp)) _ fun x hx => hws x (by simp [hx])]
    rfl

variable {fmt : Format} {ps : List Param}

theorem option_padded (hw : ∀ x, Word (fmt.fixed x)) (p : Param) :
    ∃ ws : List (Nat × Str), optionWords fmt p = padded ws ∧ ws.map (·.2) = declaration fmt p ∧ ∀ v ∈ ws, Word v.2 := by
  unfold optionWords declaration
  split
  · refine ⟨[(7, flagText p.flag), (12, fmt.fixed p.mean), (12, fmt.fixed p.err), (12, fmt.fixed p.minInit), (12, fmt.fixed p.maxInit)], by simp [padded], rfl, ?_⟩
    simp [hw, flag_word]
  · refine ⟨[(7, flagText p.flag), (12, fmt.fixed p.mean), (12, fmt.fixed p.err)], by simp [padded], rfl, ?_⟩
    simp [hw, flag_word]

theorem clean_word {w : Str} (h : Word w) : '\n' ∉ w ∧ '\r' ∉ w := ⟨fun hc => (h.chars _ hc).2.1 rfl, fun hc => (h.chars _ hc).2.2.1 rfl⟩

theorem clean_padded {w : Str} (h : Word w) (n : Nat) (ws : List (Nat × Str)) (hws : ∀ v ∈ ws, Word v.2) :
    '\n' ∉ pad n w ++ padded ws ∧ '\r' ∉ pad n w ++ padded ws := by
  have hp : ∀ n {w : Str}, Word w → '\n' ∉ pad n w ∧ '\r' ∉ pad n w := by
    intro n w h
    have := clean_word h
    unfold pad
    simp [List.mem_append, List.mem_replicate, this.1, this.2]
  have hq : '\n' ∉ padded ws ∧ '\r' ∉ padded ws := by
    induction ws with
    | nil => simp [padded]
    | cons v ws ih =>
      have h1 := hp v.1 (hws v (by simp))
      have h2 := ih fun x hx => hws x (by simp [hx])
      have e : padded (v :: ws) = ' ' :: (pad v.1 v.2 ++ padded ws) := rfl
      rw [e]
      simp [h1.1, h1.2, h2.1, h2.2]
  simp [(hp n h).1, (hp n h).2, hq.1, hq.2]

theorem lookup_none (key : Str) (h : ∀ p ∈ ps, p.name ≠ key) : lookup ps key = none := by
  unfold lookup
  rw [List.find?_eq_none]
  intro p hp
  simpa using h p hp

/-- The line of a declaration: what is written, and that it is clean. -/
theorem declared_line (hw : ∀ x, Word (fmt.fixed x)) (hn : ∀ p ∈ ps, Word p.name) (hd : (ps.map (·.name)).Nodup) {key : Str} (hk : key ≠ [])
    {words : List Str} (h : Declared fmt ps key words) :
    ∃ out w ws, words = key :: w :: ws ∧ w ≠ "=".toList ∧ split out ' ' true = words ∧ ('\n' ∉ out ∧ '\r' ∉ out) ∧
      ∀ line w' ws', split line ' ' true = key :: w' :: ws' → w' ≠ "=".toList → updateLine fmt ps line = some [out] := by
  have hflag : ∀ f, flagText f ≠ "=".toList := by
    have h := (Enum.enum_round_trip_partial flag_declared (by decide) 5).1
    unfold flagText
    intro f
    cases f
    · rw [(h (flagIndex .free) _ rfl).1]; decide
    · rw [(h (flagIndex .hide) _ rfl).1]; decide
    · rw [(h (flagIndex .fix) _ rfl).1]; decide
    · rw [(h (flagIndex .compileTimeConstant) _ rfl).1]; decide
    · rw [(h (flagIndex .blind) _ rfl).1]; decide
    · rw [(h (flagIndex .invalid) _ rfl).1]; decide
  have hdec : ∀ p, ∃ rest, declaration fmt p = flagText p.flag :: rest := by
    intro p
    unfold declaration
    split <;> exact ⟨_, rfl⟩
  cases h with
  | real hp =>
    rename_i p
    obtain ⟨ws, h1, h2, h3⟩ := option_padded hw p
    obtain ⟨rest, hr⟩ := hdec p
    have hl : lookup ps p.name = some p := lookup_self hd hp
    refine ⟨pad 50 p.name ++ optionWords fmt p, flagText p.flag, rest, by rw [hr], hflag _, ?_, ?_, ?_⟩
    · rw [h1, split_padded (hn p hp) 50 ws h3, h2]
    · rw [h1]; exact clean_padded (hn p hp) 50 ws h3
    · intro line w' ws' hs hne
      unfold updateLine
      rw [hs]
      simp only [hl, Option.isSome_some, true_or, if_true, addReal]
      exact if_pos hne
  | complex hre him e1 e2 hno =>
    rename_i re im
    obtain ⟨ws, h1, h2, h3⟩ := option_padded hw re
    obtain ⟨vs, g1, g2, g3⟩ := option_padded hw im
    obtain ⟨rest, hr⟩ := hdec re
    have hl := lookup_none key hno
    have hl1 : lookup ps (key ++ "_Re".toList) = some re := by rw [← e1]; exact lookup_self hd hre
    have hl2 : lookup ps (key ++ "_Im".toList) = some im := by rw [← e2]; exact lookup_self hd him
    have hkw : Word key := ⟨hk, fun c hc => (hn re hre).chars c (by rw [e1]; simp [hc])⟩
    have hws : ∀ v ∈ ws ++ vs, Word v.2 := by
      intro v hv
      rcases List.mem_append.1 hv with hv | hv
      · exact h3 v hv
      · exact g3 v hv
    have e : pad 50 key ++ optionWords fmt re ++ optionWords fmt im = pad 50 key ++ padded (ws ++ vs) := by
      rw [h1, g1, List.append_assoc]
      unfold padded
      rw [List.flatMap_append]
    refine ⟨pad 50 key ++ optionWords fmt re ++ optionWords fmt im, flagText re.flag, rest ++ declaration fmt im, by rw [hr]; rfl, hflag _, ?_, ?_, ?_⟩
    · rw [e, split_padded hkw 50 _ hws, List.map_append, h2, g2]
    · rw [e]; exact clean_padded hkw 50 _ hws
    · intro line w' ws' hs hne
      unfold updateLine
      rw [hs]
      simp only [hl, hl1, hl2, Option.isSome_some, Option.isSome_none, addComplex]
      rw [if_pos (by simp)]
      exact if_pos hne

theorem kept_line {line : Str} (h : Kept ps line) (fmt : Format) : updateLine fmt ps line = some [line] := by
  cases h with
  | empty h => unfold updateLine; rw [split_words h]
  | other h hno =>
    rename_i key ws
    unfold updateLine
    rw [split_words h]
    simp only [lookup_none key fun p hp => (hno p hp).1, lookup_none (key ++ "_Re".toList) fun p hp => (hno p hp).2.1,
      lookup_none (key ++ "_Im".toList) fun p hp => (hno p hp).2.2]
    simp
  | equality h =>
    unfold updateLine
    rw [split_words h]
    simp

theorem words_key {line key : Str} {ws : List Str} (h : WordsOf line (key :: ws)) : key ≠ [] := by
  have := split_words h
  intro hk
  subst hk
  have hm : [] ∈ split line ' ' true := by rw [this]; simp
  unfold split at hm
  rw [List.mem_filter] at hm
  simp [Strings.isBlankItem] at hm

/-- What is written for a line that can be updated: one line, for which the same is written again. -/
theorem updated_line (hw : ∀ x, Word (fmt.fixed x)) (hn : ∀ p ∈ ps, Word p.name) (hd : (ps.map (·.name)).Nodup) {line : Str}
    (hl : '\n' ∉ line ∧ '\r' ∉ line) (h : Updatable fmt ps line) :
    ∃ out, updateLine fmt ps line = some [out] ∧ Becomes fmt ps line out ∧ ('\n' ∉ out ∧ '\r' ∉ out) ∧ updateLine fmt ps out = some [out] := by
  rcases h with h | ⟨key, w, ws, words, h1, h2, h3⟩
  · have := kept_line h fmt
    exact ⟨line, this, .kept h, hl, this⟩
  · obtain ⟨out, v, vs, e1, e2, e3, e4, e5⟩ := declared_line hw hn hd (words_key h1) h3
    refine ⟨out, e5 line w ws (split_words h1) h2, .updated h1 h2 h3 ?_, e4, e5 out v vs (by rw [e3, e1]) e2⟩
    have := words_exist out e4.1
    rwa [e3] at this

theorem update_lines (hw : ∀ x, Word (fmt.fixed x)) (hn : ∀ p ∈ ps, Word p.name) (hd : (ps.map (·.name)).Nodup) (ls : List Str)
    (hl : ∀ l ∈ ls, '\n' ∉ l ∧ '\r' ∉ l) (hu : ∀ l ∈ ls, Updatable fmt ps l) :
    ∃ outs : List Str, (ls.map fun l => l.filter fun c => c != '\r').mapM (updateLine fmt ps) = some (outs.map fun o => [o]) ∧
      List.Forall₂ (Becomes fmt ps) ls outs ∧ (∀ o ∈ outs, ('\n' ∉ o ∧ '\r' ∉ o) ∧ updateLine fmt ps o = some [o]) := by
  induction ls with
  | nil => exact ⟨[], rfl, .nil, by simp⟩
  | cons l ls ih =>
    obtain ⟨outs, h1, h2, h3⟩ := ih (fun x hx => hl x (by simp [hx])) fun x hx => hu x (by simp [hx])
    obtain ⟨o, g1, g2, g3, g4⟩ := updated_line hw hn hd (hl l (by simp)) (hu l (by simp))
    refine ⟨o :: outs, ?_, .cons g2 h2, ?_⟩
    · have hf : l.filter (fun c => c != '\r') = l := by
        rw [List.filter_eq_self]
        intro c hc
        have : c ≠ '\r' := by rintro rfl; exact (hl l (by simp)).2 hc
        simpa using this
      rw [List.map_cons, List.mapM_cons, hf, g1, h1]
      rfl
    · intro x hx
      rcases List.mem_cons.1 hx with rfl | hx
      · exact ⟨g3, g4⟩
      · exact h3 x hx

theorem flatten_single (outs : List Str) : (outs.map fun o => [o]).flatten = outs := by
  induction outs with
  | nil => rfl
  | cons o outs ih => rw [List.map_cons, List.flatten_cons, ih]; rfl

/-- C164.  For all parameters with different names, and all input files whose lines are not about parameters, are equalities, or declare a parameter or a complex
parameter with both parts: each line becomes one line of the output, in the same order; a line that is no declaration is kept as it is, and a declaration has the
current values afterwards.  No other file changes, and updating the output again changes nothing but adding an empty line at its end.

Missing: other lines and an output that is the input, see the counterexamples. -/
theorem update_options_partial (hw : ∀ x, Word (fmt.fixed x)) (hn : ∀ p ∈ ps, Word p.name) (hd : (ps.map (·.name)).Nodup) {ls : List Str} {last : Str}
    (hl : ∀ l ∈ ls ++ [last], '\n' ∉ l ∧ '\r' ∉ l) (hu : ∀ l ∈ ls ++ [last], Updatable fmt ps l) {fs : Str → Option Str} {output input : Str}
    (ho : output ≠ input) (hi : fs input = some (ls.flatMap (fun l => l ++ ['\n']) ++ last)) :
    ∃ (outs : List Str) (fs' : Str → Option Str), updateFile fmt ps fs output input = some fs' ∧ List.Forall₂ (Becomes fmt ps) (ls ++ [last]) outs ∧
      fs' output = some (outs.flatMap fun l => l ++ ['\n']) ∧ (∀ f, f ≠ output → fs' f = fs f) ∧
      ∀ second, second ≠ output → ∃ fs'', updateFile fmt ps fs' second output = some fs'' ∧
        fs'' second = some ((outs ++ [[]]).flatMap fun l => l ++ ['\n']) := by
  obtain ⟨outs, h1, h2, h3⟩ := update_lines hw hn hd _ hl hu
  refine ⟨outs, Function.update (Function.update fs output (some [])) output (some (outs.flatMap fun l => l ++ ['\n'])), ?_, h2, ?_, ?_, ?_⟩
  · unfold updateFile
    simp only [Function.update_of_ne ho.symm, hi]
    unfold updateOptions
    rw [allLines_all ls fun l hx => (hl l hx).1, h1]
    simp only [Option.map_some, flatten_single]
  · simp
  · intro f hf
    rw [Function.update_of_ne hf, Function.update_of_ne hf]
  · intro second hs
    refine ⟨Function.update (Function.update (Function.update (Function.update fs output (some [])) output (some (outs.flatMap fun l => l ++ ['\n']))) second (some []))
      second (some ((outs ++ [[]]).flatMap fun l => l ++ ['\n'])), ?_, Function.update_self ..⟩
    · unfold updateFile
      simp only [Function.update_of_ne hs.symm, Function.update_self]
      have e : outs.flatMap (fun l => l ++ ['\n']) = outs.flatMap (fun l => l ++ ['\n']) ++ [] := by simp
      unfold updateOptions
      rw [e, allLines_all outs fun l hx => by
        rcases List.mem_append.1 hx with hx | hx
        · exact (h3 l hx).1.1
        · simp at hx; simp [hx]]
      have hm : ∀ xs : List Str, (∀ x ∈ xs, ('\n' ∉ x ∧ '\r' ∉ x) ∧ updateLine fmt ps x = some [x]) →
          (xs.map fun l => l.filter fun c => c != '\r').mapM (updateLine fmt ps) = some (xs.map fun o => [o]) := by
        intro xs hx
        induction xs with
        | nil => rfl
        | cons x xs ih =>
          have hf : x.filter (fun c => c != '\r') = x := by
            rw [List.filter_eq_self]
            intro c hc
            have : c ≠ '\r' := by rintro rfl; exact (hx x (by simp)).1.2 hc
            simpa using this
          rw [List.map_cons, List.mapM_cons, hf, (hx x (by simp)).2, ih fun y hy => hx y (by simp [hy])]
          rfl
      rw [hm (outs ++ [[]]) fun x hx => by
        rcases List.mem_append.1 hx with hx | hx
        · exact h3 x hx
        · simp only [List.mem_singleton] at hx
          subst hx
          refine ⟨by simp, ?_⟩
          unfold updateLine
          rw [split_nil]]
      simp only [Option.map_some, flatten_single]

/-- A real and a complex parameter. -/
def updateParams : List Param := [⟨.free, "a".toList, 1, 1, -1, 3, 1, 1, -1, 1, 0⟩, ⟨.fix, "c_Re".toList, 2, 1, 0, 0, 2, 1, -1, 1, 1⟩,
  ⟨.fix, "c_Im".toList, 1, 1, 0, 0, 2, 1, -1, 1, 2⟩]

/-- A comment, a declaration of each parameter and an equality, without a newline at the end. -/
example : ∃ (outs : List Str) (fs' : Str → Option Str), updateFile demoFormat updateParams (fun _ => some "# x\na Fix 7 1\nc Free 1 0 Free 0 0\na = c_Re".toList)
      "o".toList "i".toList = some fs' ∧ outs.length = 4 ∧ fs' "o".toList = some (outs.flatMap fun l => l ++ ['\n']) := by
  have hname : ∀ p ∈ updateParams, Word p.name := by
    intro p hp
    simp only [updateParams, List.mem_cons, List.not_mem_nil, or_false] at hp
    rcases hp with rfl | rfl | rfl <;> exact ⟨by decide, by decide⟩
  obtain ⟨outs, fs', h1, h2, h3, _⟩ := update_options_partial (fmt := demoFormat) (ps := updateParams) demo_faithful.fixedWord hname (by decide)
    (ls := ["# x".toList, "a Fix 7 1".toList, "c Free 1 0 Free 0 0".toList]) (last := "a = c_Re".toList) (by decide) (by
      intro l hl
      simp only [List.mem_append, List.mem_cons, List.not_mem_nil, or_false] at hl
      have hw : ∀ s : Str, '\n' ∉ s → ∀ ws, split s ' ' true = ws → WordsOf s ws := fun s h ws e => e ▸ words_exist s h
      rcases hl with (rfl | rfl | rfl) | rfl
      · exact .inl (.other (hw _ (by decide) ["#".toList, "x".toList] (by decide +kernel)) (by decide))
      · exact .inr ⟨_, _, _, _, hw _ (by decide) ["a".toList, "Fix".toList, "7".toList, "1".toList] (by decide +kernel), by decide,
          .real (p := updateParams[0]) (by simp [updateParams])⟩
      · exact .inr ⟨_, _, _, _, hw _ (by decide) ["c".toList, "Free".toList, "1".toList, "0".toList, "Free".toList, "0".toList, "0".toList] (by decide +kernel), by decide,
          .complex (re := updateParams[1]) (im := updateParams[2]) (by simp [updateParams]) (by simp [updateParams]) (by decide) (by decide) (by decide)⟩
      · exact .inl (.equality (hw _ (by decide) ["a".toList, "=".toList, "c_Re".toList] (by decide +kernel))))
    (fs := fun _ => some "# x\na Fix 7 1\nc Free 1 0 Free 0 0\na = c_Re".toList) (output := "o".toList) (input := "i".toList) (by decide) (by decide +kernel)
  exact ⟨outs, fs', h1, by rw [← h2.length_eq]; rfl, h3⟩

/-- C164 is false in general.  If the output is the input, all lines are lost, for every file.  An empty line is added at the end of a file that ends with a
newline.  The line of a complex parameter of which only one part exists is dropped.  A line with the name of a parameter alone makes the program read a word that
does not exist.  A declaration with tabs, which the options parser reads as words, keeps its old values.  A parameter that the input does not mention is not
written. -/
theorem update_options_counterexample (fmt : Format) :
    (∀ ps fs file, ∃ fs', updateFile fmt ps fs file file = some fs' ∧ fs' file = some "\n".toList) ∧
    updateOptions fmt [] "x 1\n".toList = some "x 1\n\n".toList ∧
    updateOptions fmt [⟨.free, "c_Re".toList, 1, 1, 0, 0, 1, 1, -1, 1, 0⟩] "c Free 1 0 Free 0 0".toList = some [] ∧
    updateOptions fmt [⟨.free, "a".toList, 1, 1, 0, 0, 1, 1, -1, 1, 0⟩] "a".toList = none ∧
    (updateOptions fmt [⟨.free, "a".toList, 1, 1, 0, 0, 1, 1, -1, 1, 0⟩] "a\tFree 5 1".toList = some "a\tFree 5 1\n".toList ∧
      (Options.makeParsedStrings "a\tFree 5 1".toList 0).1 = ["a".toList, "Free".toList, "5".toList, "1".toList]) ∧
    updateOptions fmt [⟨.free, "a".toList, 1, 1, 0, 0, 1, 1, -1, 1, 0⟩] [] = some "\n".toList := by
  have hone : ∀ (ps : List Param) (line : Str), '\n' ∉ line → line.filter (fun c => c != '\r') = line →
      updateOptions fmt ps line = (updateLine fmt ps line).map fun ls => ls.flatMap fun l => l ++ ['\n'] := by
    intro ps line h1 h2
    unfold updateOptions
    rw [allLines_last h1]
    simp only [List.map_cons, List.map_nil, h2, List.mapM_cons, List.mapM_nil]
    cases updateLine fmt ps line <;> simp
  have hempty : ∀ ps, updateOptions fmt ps [] = some "\n".toList := by
    intro ps
    rw [hone ps [] (by simp) rfl]
    unfold updateLine
    rw [split_nil]
    rfl
  refine ⟨?_, ?_, ?_, ?_, ⟨?_, by decide +kernel⟩, hempty _⟩
  · intro ps fs file
    refine ⟨Function.update (Function.update fs file (some [])) file (some "\n".toList), ?_, Function.update_self ..⟩
    unfold updateFile
    simp only [Function.update_self, hempty]
    rfl
  · have h1 : allLines "x 1\n".toList = ["x 1".toList, []] := by decide
    have h2 : split "x 1".toList ' ' true = ["x".toList, "1".toList] := by decide +kernel
    have e1 : updateLine fmt [] "x 1".toList = some ["x 1".toList] := by unfold updateLine; rw [h2]; rfl
    have e2 : updateLine fmt [] [] = some [[]] := by unfold updateLine; rw [split_nil]
    unfold updateOptions
    rw [h1]
    show ((["x 1".toList, []] : List Str).mapM (updateLine fmt [])).map _ = _
    rw [List.mapM_cons, e1, List.mapM_cons, e2]
    rfl
  · have h2 : split "c Free 1 0 Free 0 0".toList ' ' true = ["c".toList, "Free".toList, "1".toList, "0".toList, "Free".toList, "0".toList, "0".toList] := by decide +kernel
    rw [hone _ _ (by decide) (by decide)]
    unfold updateLine
    rw [h2]
    simp [lookup, addComplex]
  · have h2 : split "a".toList ' ' true = ["a".toList] := by decide +kernel
    rw [hone _ _ (by decide) (by decide)]
    unfold updateLine
    rw [h2]
    simp [lookup]
  · have h2 : split "a\tFree 5 1".toList ' ' true = ["a\tFree".toList, "5".toList, "1".toList] := by decide +kernel
    rw [hone _ _ (by decide) (by decide)]
    unfold updateLine
    rw [h2]
    simp [lookup]

end AmpGen.FitFile
