import Verif.Params.Lemmas
import Verif.Options.Props
/-
C24, C47, C57: parameter sets, the minimiser's bookkeeping and parameters declared in option files.
-/
namespace AmpGen.Params
open AmpGen.Strings (Str)

/-- C24.  After any history of edits that starts from an empty set, does not unregister parameters and in which no addition was refused: looking up a
name gives exactly the parameter of the set that carries it, names are unique, and the list has the parameters in the order of addition.

Missing: refused additions and removals, see the counterexamples. -/
theorem parameter_set_partial (junk : Param) (ops : List Op) (hu : ∀ id, Op.unregister id ∉ ops)
    (hr : Out.refused ∉ ((World.empty junk).run ops).2) :
    let w := ((World.empty junk).run ops).1
    (∀ n id, w.find n = some id ↔ (∃ a, w.at a = some id) ∧ w.name id = n) ∧
    (∀ a b id id', w.at a = some id → w.at b = some id' → w.name id = w.name id' → a = b) ∧
    w.params = addedIn ((World.empty junk).run ops).2 := by
  obtain ⟨h1, h2⟩ := run_inv ops (empty_inv junk) hu hr
  refine ⟨fun n id => ?_, ?_, h2⟩
  · refine (h1.key n id).trans (and_congr_left fun _ => ?_)
    exact List.mem_iff_getElem?
  · intro a b id id' ha hb he
    have e1 := List.getElem?_map (f := (((World.empty junk).run ops).1).name) (l := (((World.empty junk).run ops).1).params) (i := a)
    have e2 := List.getElem?_map (f := (((World.empty junk).run ops).1).name) (l := (((World.empty junk).run ops).1).params) (i := b)
    rw [show (((World.empty junk).run ops).1).params[a]? = some id from ha] at e1
    rw [show (((World.empty junk).run ops).1).params[b]? = some id' from hb] at e2
    obtain ⟨l1, g1⟩ := List.getElem?_eq_some_iff.mp e1
    obtain ⟨l2, g2⟩ := List.getElem?_eq_some_iff.mp e2
    exact (List.Nodup.getElem_inj_iff h1.nodup).mp (g1.trans (he.trans g2.symm))

/-- Two additions, a renaming, an addition under the old name and a lookup that adds nothing. -/
def demoOps : List Op :=
  [.add ['x'] .free 1 0 0 0, .add ['y'] .fix 2 0 0 0, .rename ['x'] ['z'], .addOrGet ['x'] .blind 3 0 0 0, .addOrGet ['y'] .free 4 0 0 0]

example (junk : Param) : ((World.empty junk).run demoOps).2 = [.added 0, .added 1, .renamed true, .added 2, .got 1] ∧
    ((World.empty junk).run demoOps).1.find ['z'] = some 0 ∧ ((World.empty junk).run demoOps).1.find ['x'] = some 2 := by
  have hu : ∀ id, Op.unregister id ∉ demoOps := by intro id; simp [demoOps]
  have hout : ((World.empty junk).run demoOps).2 = [.added 0, .added 1, .renamed true, .added 2, .got 1] := rfl
  have := parameter_set_partial junk demoOps hu (by rw [hout]; decide)
  exact ⟨hout, (this.1 _ _).mpr ⟨⟨0, rfl⟩, rfl⟩, (this.1 _ _).mpr ⟨⟨2, rfl⟩, rfl⟩⟩

/-- C24.  In every history, refused additions and removals included, looking up a name never gives a parameter of another name. -/
theorem parameter_lookup_name (junk : Param) (ops : List Op) (n : Str) (id : Nat) (h : ((World.empty junk).run ops).1.find n = some id) :
    ((World.empty junk).run ops).1.name id = n :=
  (run_keyInv ops (w := World.empty junk) (fun _ _ h => by cases h) n id h).1

example (junk : Param) : ((World.empty junk).run (demoOps ++ [.unregister 0, .addPtr 0])).1.find ['z'] = some 0 := rfl

/-- C24 is false for refused additions: adding a second parameter of the same name is refused, but the parameter is in the list afterwards. -/
theorem parameter_set_duplicate_counterexample (junk : Param) :
    let r := (World.empty junk).run [.add ['x'] .free 1 0 0 0, .add ['x'] .free 2 0 0 0]
    r.2 = [.added 0, .refused] ∧ r.1.at 1 = some 1 ∧ r.1.name 0 = r.1.name 1 ∧ r.1.find ['x'] = some 0 :=
  ⟨rfl, rfl, rfl, rfl⟩

/-- C24 is false for removals: an unregistered parameter is still found by name, and adding a new one of that name is refused. -/
theorem parameter_set_unregister_counterexample (junk : Param) :
    let r := (World.empty junk).run [.add ['x'] .free 1 0 0 0, .unregister 0, .add ['x'] .free 2 0 0 0]
    r.2 = [.added 0, .unregistered true, .refused] ∧ r.1.find ['x'] = some 0 ∧ 0 ∉ r.1.params :=
  ⟨rfl, rfl, (by decide : 0 ∉ [1])⟩

/-- C24, renaming.  It succeeds exactly if the old name is in use and the new one is not; then the new name finds what the old one found, the old one
finds nothing, all other names find what they did, and the list is unchanged.  Otherwise nothing changes. -/
theorem parameter_rename (w : World) (a b : Str) :
    ((w.rename a b).2 = true ↔ w.find a ≠ none ∧ w.find b = none) ∧ (w.rename a b).1.params = w.params ∧
    ((w.rename a b).2 = false → (w.rename a b).1 = w) ∧
    ((w.rename a b).2 = true → (w.rename a b).1.find b = w.find a ∧ (w.rename a b).1.find a = none ∧
      ∀ n, n ≠ a → n ≠ b → (w.rename a b).1.find n = w.find n) := by
  unfold World.rename
  cases hf : w.find a with
  | none => simp
  | some id =>
    simp only
    by_cases h1 : a = b
    · subst h1
      rw [if_pos rfl]
      simp [hf]
    · rw [if_neg h1]
      by_cases h2 : (w.find b).isSome
      · rw [if_pos h2]
        have : w.find b ≠ none := Option.isSome_iff_ne_none.mp h2
        simp [this]
      · rw [if_neg h2]
        have h3 : w.find b = none := by simpa using h2
        refine ⟨by simp [h3], rfl, by simp, fun _ => ⟨?_, ?_, ?_⟩⟩
        · unfold World.find; simp
        · unfold World.find; simp only; rw [Function.update_of_ne h1, Function.update_self]
        · intro n hna hnb
          unfold World.find; simp only; rw [Function.update_of_ne hnb, Function.update_of_ne hna]

example (junk : Param) : (((World.empty junk).run [.add ['x'] .free 1 0 0 0]).1.rename ['x'] ['y']).2 = true := rfl

/-- C57.  If the names declared by the lines, the names of the expressions they define and the names of the conjugate parameters added for them are all
different, then loading the lines into an empty set gives exactly the declared parameters with the declared flags, values, steps and limits, in the order
of the lines, followed by the expressions and the conjugate parameters, and each is found by its name.

Missing: lines that declare a name twice, see the counterexample. -/
theorem load_parameters_partial (num : Str → Option ℚ) (flag : Str → Flag) (conj : Str → Option Str) (junk : Param) (lines : List (List Str))
    (pss : List (List Param)) (hd : List.Forall₂ (Declares num flag) lines pss) (hn : (pss.flatten.map (·.name) ++ aliases lines).Nodup)
    (hc : ((pss.flatten.map (·.name) ++ aliases lines).filterMap fun n => match conj n with
      | none => none
      | some m => if m ∈ pss.flatten.map (·.name) ++ aliases lines then none else some m).Nodup) :
    let w := loadFromStream num flag conj (World.empty junk) lines
    let all := pss.flatten ++ ((aliases lines) ++ ((pss.flatten.map (·.name) ++ aliases lines).filterMap fun n => match conj n with
      | none => none
      | some m => if m ∈ pss.flatten.map (·.name) ++ aliases lines then none else some m)).map Param.expression
    (∀ a, w.param a = all[a]?) ∧ ∀ n, (w.find n).map w.heap = all.find? fun p => p.name = n := by
  have hexp : ∀ l : List Str, (l.map Param.expression).map (·.name) = l := by
    intro l
    rw [List.map_map]
    exact List.map_id l
  unfold loadFromStream
  simp only
  rw [tryParameters hd, tryAliases, ← List.foldl_append]
  set ps := pss.flatten ++ (aliases lines).map Param.expression with hps
  have hnames : ps.map (·.name) = pss.flatten.map (·.name) ++ aliases lines := by
    rw [hps, List.map_append, hexp]
  rw [← hnames] at hn hc ⊢
  obtain ⟨h1, h2⟩ := addObjects_spec ps (empty_inv junk) (by simpa [World.all, World.empty] using hn)
  set w := ps.foldl World.addObject (World.empty junk) with hw
  have h2 : w.all = ps := h2
  have hconj : conjugates conj w = (ps.map (·.name)).filterMap fun n => match conj n with
      | none => none
      | some m => if m ∈ ps.map (·.name) then none else some m := by
    unfold conjugates
    have e : ps.map (·.name) = w.params.map w.name := by
      rw [← h2]; unfold World.all; rw [List.map_map]; rfl
    rw [e, List.filterMap_map]
    apply List.filterMap_congr
    intro id _
    simp only [Function.comp, World.name]
    cases conj (w.heap id).name with
    | none => rfl
    | some m =>
      simp only
      have : (w.find m).isSome ↔ m ∈ w.params.map fun id => (w.heap id).name := by
        rw [Option.isSome_iff_exists, List.mem_map]
        constructor
        · rintro ⟨i, hi⟩
          exact ⟨i, (h1.key m i).mp hi⟩
        · rintro ⟨i, hi⟩
          exact ⟨i, (h1.key m i).mpr hi⟩
      by_cases hb : (w.find m).isSome
      · rw [if_pos hb]
        exact (if_pos (this.mp hb)).symm
      · rw [if_neg hb]
        exact (if_neg (fun h => hb (this.mpr h))).symm
  rw [hconj]
  set cs := (ps.map (·.name)).filterMap fun n => match conj n with
      | none => none
      | some m => if m ∈ ps.map (·.name) then none else some m with hcs
  have hfold : ∀ (l : List Str) (w : World), l.foldl (fun w name => w.addObject (.expression name)) w = (l.map Param.expression).foldl World.addObject w := by
    intro l w
    rw [List.foldl_map]
  rw [hfold]
  obtain ⟨h3, h4⟩ := addObjects_spec (cs.map Param.expression) h1 (by
    rw [h2, List.map_append, hexp, List.nodup_append]
    refine ⟨hn, hc, ?_⟩
    intro a ha b hb
    rintro rfl
    rw [hcs, List.mem_filterMap] at hb
    obtain ⟨n, _, hb⟩ := hb
    split at hb
    · cases hb
    · split at hb
      · cases hb
      · rename_i hna
        cases hb
        exact hna ha)
  have hall : (List.foldl World.addObject w (cs.map Param.expression)).all = pss.flatten ++ (aliases lines ++ cs).map Param.expression := by
    rw [h4, h2, hps, List.map_append, List.append_assoc]
  refine ⟨fun a => ?_, fun n => ?_⟩
  · rw [← hall]
    unfold World.all World.param World.at
    rw [List.getElem?_map]
  · rw [find_all h3, hall]

/-- Numbers of one digit. -/
def demoNum (s : Str) : Option ℚ := if s = ['1'] then some 1 else if s = ['2'] then some 2 else if s = ['0'] then some 0 else none

/-- The flags `F` and `X`. -/
def demoFlag (s : Str) : Flag := if s = ['F'] then .free else if s = ['X'] then .fix else .invalid

example (junk : Param) :
    let w := loadFromStream demoNum demoFlag (fun n => if n = ['x'] then some ['c'] else none) (World.empty junk)
      [[['x'], ['F'], ['1'], ['0']], [['a'], ['='], ['x']], [['z'], ['X'], ['2'], ['0'], ['F'], ['1'], ['1']]]
    (w.find ['z', '_', 'I', 'm']).map w.heap = some (declared ['z', '_', 'I', 'm'] .free 1 1 0 0) ∧ w.param 3 = some (.expression ['a']) ∧
      w.param 4 = some (.expression ['c']) := by
  have hd : List.Forall₂ (Declares demoNum demoFlag)
      [[['x'], ['F'], ['1'], ['0']], [['a'], ['='], ['x']], [['z'], ['X'], ['2'], ['0'], ['F'], ['1'], ['1']]]
      [[declared ['x'] .free 1 0 0 0], [], [declared (['z'] ++ "_Re".toList) .fix 2 0 0 0, declared (['z'] ++ "_Im".toList) .free 1 1 0 0]] :=
    .cons (.real rfl rfl (by decide)) (.cons (.other (by decide)) (.cons (.complex rfl rfl rfl rfl (by decide) (by decide)) .nil))
  obtain ⟨h1, h2⟩ := load_parameters_partial demoNum demoFlag (fun n => if n = ['x'] then some ['c'] else none) junk _ _ hd (by decide) (by decide)
  exact ⟨(h2 _).trans (by decide +kernel), (h1 3).trans (by decide +kernel), (h1 4).trans (by decide +kernel)⟩

/-- C57 is false for a parameter that is set twice, as when an option file's value is overridden on the command line: the last setting is loaded twice, the
second time being refused, and the list has two parameters of that name, of which only the first is found. -/
theorem load_parameters_counterexample (junk : Param) : ∃ m q lines,
    Options.commandLine (fun _ => none) id m ["--x".toList, "F 1 0".toList, "--x".toList, "F 2 0".toList] ⟨fun _ => none, []⟩ = some q ∧
    q.getInputOrdered = lines.map some ∧
    let w := loadFromStream demoNum demoFlag (fun _ => none) (World.empty junk) lines
    w.params.length = 2 ∧ w.param 0 = some (declared ['x'] .free 2 0 0 0) ∧ w.param 1 = some (declared ['x'] .free 2 0 0 0) ∧ w.find ['x'] = w.at 0 := by
  have hp : ∀ c : Char, Options.isBlank c = false → c ≠ '#' → c ≠ '"' → Options.Plain [c] :=
    fun c h1 h2 h3 => ⟨by simp, by simpa using h1, by simpa using h2.symm, by simpa using h3.symm⟩
  have hl : ∀ c : Char, Options.Plain [c] → Options.Line ['F', ' ', c, ' ', '0'] [['F'], [c], ['0']] (Options.net ['F'] + (Options.net [c] + Options.net ['0'])) := by
    intro c hc
    exact .word (hp 'F' (by decide) (by decide) (by decide)) (c := ' ') (by decide)
      (.word hc (c := ' ') (by decide) (.last (hp '0' (by decide) (by decide) (by decide))))
  have hx := hp 'x' (by decide) (by decide) (by decide)
  have hcmd : Options.Commands (fun _ => none) id ["--x".toList, "F 1 0".toList, "--x".toList, "F 2 0".toList]
      [[['x'], ['F'], ['1'], ['0']], [['x'], ['F'], ['2'], ['0']]] :=
    .pair (key := ['x']) (words := ['F', ' ', '1', ' ', '0']) hx (by decide) (by decide) (by decide) (hl '1' (hp '1' (by decide) (by decide) (by decide)))
      (.pair (key := ['x']) (words := ['F', ' ', '2', ' ', '0']) hx (by decide) (by decide) (by decide) (hl '2' (hp '2' (by decide) (by decide) (by decide))) .nil)
  obtain ⟨n, hn⟩ := Options.command_line_last_wins hcmd
  obtain ⟨q, h1, h2, h3⟩ := hn n le_rfl ⟨fun _ => none, []⟩
  have hq : q.find ['x'] = some [['x'], ['F'], ['2'], ['0']] := (h2 _).trans (by decide)
  refine ⟨n, q, [[['x'], ['F'], ['2'], ['0']], [['x'], ['F'], ['2'], ['0']]], h1, ?_, rfl, rfl, rfl, rfl⟩
  rw [h3]
  show [q.find ['x'], q.find ['x']] = _
  rw [hq]
  rfl

/-- The hypotheses of the fit theorems: no object is twice in the list. -/
theorem run_nodup (junk : Param) (ops : List Op) (hu : ∀ id, Op.unregister id ∉ ops) (hr : Out.refused ∉ ((World.empty junk).run ops).2) :
    ((World.empty junk).run ops).1.params.Nodup :=
  List.Nodup.of_map _ (run_inv ops (empty_inv junk) hu hr).1.nodup

/-- C47.  Preparing a fit and evaluating the function at any point sets the free and blind parameters, and only those, to the coordinates of the point, taken
in the order of the list; nothing else about them changes except the index the minimiser gives them. -/
theorem fit_evaluation (w : World) (hN : w.params.Nodup) (x : Nat → ℚ) : ∃ w1 m w2, prepare w = some (w1, m) ∧ evaluate m w1 x = some w2 ∧
    w2.params = w.params ∧ w2.keys = w.keys ∧
    (∀ a p, w.param a = some p → Varying w a → w2.param a = some { p with mean := x (rank w a), index := rank w a }) ∧
    (∀ a, ¬ Varying w a → w2.param a = w.param a) ∧ (∀ id, id ∉ w.params → w2.heap id = w.heap id) := by
  obtain ⟨w1, a1, a2, a3, a4, a5, a6, a7⟩ := modifyAll_free (fun i p => { p with index := i }) hN (rfl : w.params = w.params)
  obtain ⟨w2, b1, b2, b3, b4, b5, b6, b7⟩ := modifyAll_free (fun i p => { p with mean := x i }) (w := w1) (w0 := w) (by rw [a2]; exact hN) a2
  refine ⟨w1, ⟨freePositions w, (freePositions w).length, List.replicate ((freePositions w).length * (freePositions w).length) 0⟩, w2, ?_, b1, b2.trans a2, b3.trans a3, ?_, ?_, ?_⟩
  · unfold prepare
    simp only
    rw [a1]
    rfl
  · intro a p hp hv
    exact b5 a _ hv (a5 a p hv hp)
  · intro a hv
    rw [b6 a hv, a6 a hv]
  · intro id hid
    rw [b7 id (by rw [a2]; exact hid), a7 id hid]

theorem minimise_spec (w0 : World) {m : Minimiser} (hm : m.mapping = freePositions w0) (xs : List (Nat → ℚ)) : ∀ w : World, w.params.Nodup → w.params = w0.params →
    ∃ w', minimise m w xs = some w' ∧ w'.params = w.params ∧ w'.keys = w.keys ∧
      (∀ a p, Varying w0 a → w.param a = some p → ∃ y, w'.param a = some { p with mean := y }) ∧
      (∀ a, ¬ Varying w0 a → w'.param a = w.param a) ∧ (∀ id, id ∉ w.params → w'.heap id = w.heap id) := by
  induction xs with
  | nil => exact fun w _ _ => ⟨w, rfl, rfl, rfl, fun a p _ hp => ⟨p.mean, hp⟩, fun _ _ => rfl, fun _ _ => rfl⟩
  | cons x xs ih =>
    intro w hN hp
    obtain ⟨w1, a1, a2, a3, a4, a5, a6, a7⟩ := modifyAll_free (fun i p => { p with mean := x i }) hN hp
    obtain ⟨w2, b1, b2, b3, b5, b6, b7⟩ := ih w1 (by rw [a2]; exact hN) (a2.trans hp)
    refine ⟨w2, ?_, b2.trans a2, b3.trans a3, ?_, ?_, ?_⟩
    · unfold minimise evaluate
      rw [hm, a1]
      exact b1
    · intro a p hv hpar
      obtain ⟨y, hy⟩ := b5 a _ hv (a5 a p hv hpar)
      exact ⟨y, hy⟩
    · intro a hv
      rw [b6 a hv, a6 a hv]
    · intro id hid
      rw [b7 id (by rw [a2]; exact hid), a7 id hid]

/-- C47.  After a fit, however the library moves through the parameter space and whatever it reports: every free or blind parameter has the value and error
reported for it and keeps everything else; all other parameters are unchanged; the covariance matrix has the reported entries; the full covariance matrix has
the reported covariance where both parameters vary and zero elsewhere. -/
theorem fit_result (w : World) (hN : w.params.Nodup) (xs : List (Nat → ℚ)) (X E : Nat → ℚ) (C : Nat → Nat → ℚ) : ∃ w1 m w2 m',
    prepare w = some (w1, m) ∧ doFit m w1 xs X E C = some (w2, m') ∧ w2.params = w.params ∧ w2.keys = w.keys ∧
    (∀ a p, w.param a = some p → Varying w a → w2.param a =
      some { p with mean := X (rank w a), err := E (rank w a), errPos := E (rank w a), errNeg := E (rank w a), index := rank w a }) ∧
    (∀ a, ¬ Varying w a → w2.param a = w.param a) ∧ (∀ id, id ∉ w.params → w2.heap id = w.heap id) ∧
    (∀ i j, m'.covMatrix i j = if i < rank w w.params.length ∧ j < rank w w.params.length then some (C i j) else none) ∧
    (∀ poison a b, (Varying w a ∧ Varying w b → m'.covMatrixFull poison a b = C (rank w a) (rank w b)) ∧
      (¬ (Varying w a ∧ Varying w b) → m'.covMatrixFull poison a b = 0)) := by
  obtain ⟨w1, a1, a2, a3, a4, a5, a6, a7⟩ := modifyAll_free (fun i p => { p with index := i }) hN (rfl : w.params = w.params)
  obtain ⟨w3, b1, b2, b3, b5, b6, b7⟩ := minimise_spec w
    (m := ⟨freePositions w, (freePositions w).length, List.replicate ((freePositions w).length * (freePositions w).length) 0⟩) rfl xs w1 (by rw [a2]; exact hN) a2
  obtain ⟨w2, c1, c2, c3, c4, c5, c6, c7⟩ := modifyAll_free (fun i p => p.setResult (X i) (E i) (E i) (E i)) (w := w3) (w0 := w) (by rw [b2, a2]; exact hN) (b2.trans a2)
  set n := (freePositions w).length with hnlen
  obtain ⟨d1, d2⟩ := outer_set n C (List.range n) (fun i hi => List.mem_range.mp hi) (List.replicate (n * n) 0) (by simp)
  have hrank : rank w w.params.length = n := by rw [rank_eq]; rfl
  refine ⟨w1, ⟨freePositions w, n, List.replicate (n * n) 0⟩, w2,
    ⟨freePositions w, n, (List.range n).foldl (fun cov i => (List.range n).foldl (fun cov j => cov.set (i + n * j) (C i j)) cov) (List.replicate (n * n) 0)⟩, ?_, ?_, c2.trans (b2.trans a2), c3.trans (b3.trans a3), ?_, ?_, ?_, ?_, ?_⟩
  · unfold prepare
    simp only
    rw [a1]
    rfl
  · unfold doFit
    rw [b1]
    simp only [Option.bind_eq_bind, Option.bind_some]
    rw [hnlen, List.take_length, c1]
    rfl
  · intro a p hp hv
    obtain ⟨y, hy⟩ := b5 a _ hv (a5 a p hv hp)
    exact c5 a _ hv hy
  · intro a hv
    rw [c6 a hv, b6 a hv, a6 a hv]
  · intro id hid
    rw [c7 id (by rw [b2, a2]; exact hid), b7 id (by rw [a2]; exact hid), a7 id hid]
  · intro i j
    rw [hrank]
    unfold Minimiser.covMatrix
    simp only
    by_cases h : i < n ∧ j < n
    · rw [if_pos h, if_pos h, Nat.mul_comm j n, d2 i j h.1 h.2, if_pos (List.mem_range.mpr h.1)]
    · rw [if_neg h, if_neg h]
  · intro poison a b
    have hw := outer_write (fun i => (freePositions w).getD i 0) (fun a b => C (rank w a) (rank w b))
      (fun i j => (((List.range n).foldl (fun cov i => (List.range n).foldl (fun cov j => cov.set (i + n * j) (C i j)) cov) (List.replicate (n * n) 0)).getD (i + j * n) poison))
      (List.range n) (List.range n) (by
        intro i hi j hj
        rw [List.mem_range] at hi hj
        have hr : ∀ k, k < n → rank w ((freePositions w).getD k 0) = k := by
          intro k hk
          apply rank_of_getElem
          rw [List.getD_eq_getElem?_getD, List.getElem?_eq_getElem hk]
          rfl
        rw [hr i hi, hr j hj, List.getD_eq_getElem?_getD, Nat.mul_comm j n, d2 i j hi hj, if_pos (List.mem_range.mpr hi)]
        rfl) (fun _ _ => 0) a b
    have hmem : ∀ c, c ∈ (List.range n).map (fun i => (freePositions w).getD i 0) ↔ Varying w c := by
      intro c
      rw [hnlen, map_getD_range, freePositions_mem]
    unfold Minimiser.covMatrixFull
    simp only
    exact ⟨fun h => hw.trans (if_pos ⟨(hmem a).mpr h.1, (hmem b).mpr h.2⟩), fun h => hw.trans (if_neg fun h' => h ⟨(hmem a).mp h'.1, (hmem b).mp h'.2⟩)⟩

/-- C47.  The gradient test leaves all parameters as they are. -/
theorem gradient_test_restores (w : World) (hN : w.params.Nodup) : ∃ w1 m, prepare w = some (w1, m) ∧ gradientTest m w1 = some w1 := by
  obtain ⟨w1, a1, a2, _⟩ := modifyAll_free (fun i p => { p with index := i }) hN (rfl : w.params = w.params)
  refine ⟨w1, _, by unfold prepare; simp only; rw [a1]; rfl, ?_⟩
  unfold gradientTest
  simp only
  have : ∀ ms : List Nat, (∀ m ∈ ms, m < w1.params.length) → ms.foldlM gradientStep w1 = some w1 := by
    intro ms
    induction ms with
    | nil => intro _; rfl
    | cons m ms ih =>
      intro hlt
      rw [List.foldlM_cons, gradientStep_id (id := w1.params[m]'(hlt m List.mem_cons_self)) (List.getElem?_eq_getElem (hlt m List.mem_cons_self))]
      exact ih (fun x hx => hlt x (List.mem_cons_of_mem _ hx))
  exact this _ (fun m hm => by rw [a2]; exact freePositions_lt m hm)

/-- A set with a fixed parameter between two that vary. -/
example (junk : Param) :
    let w := ((World.empty junk).run [.add ['x'] .free 1 0 0 0, .add ['y'] .fix 2 0 0 0, .add ['z'] .blind 3 0 0 0]).1
    w.params.Nodup ∧ Varying w 0 ∧ ¬ Varying w 1 ∧ Varying w 2 ∧ rank w 2 = 1 := by
  refine ⟨run_nodup junk _ (by simp) (by
    have : ((World.empty junk).run [.add ['x'] .free 1 0 0 0, .add ['y'] .fix 2 0 0 0, .add ['z'] .blind 3 0 0 0]).2 = [.added 0, .added 1, .added 2] := rfl
    rw [this]; decide), ⟨_, rfl, Or.inl rfl⟩, ?_, ⟨_, rfl, Or.inr rfl⟩, ?_⟩
  · rintro ⟨p, hp, hf⟩
    have : p.flag = .fix := by
      have e : p = declared ['y'] .fix 2 0 0 0 := (Option.some.inj hp).symm
      rw [e]; rfl
    rw [this] at hf
    rcases hf with h | h <;> cases h
  · rw [rank_eq]; rfl

end AmpGen.Params
