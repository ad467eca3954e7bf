import Verif.Binning.LemmasB
import Verif.Binning.LemmasC
import Mathlib.Data.List.Sort
import Mathlib.Tactic.NormNum
/-
C18, C19, C48: adaptive binnings.
-/
namespace AmpGen.Binning
open AmpGen.Strings

variable {E : Type} {c : Config E}

/-- A concrete binning in one coordinate: events are pairs of a position and a weight, sorted by insertion. -/
def demo (minEvents maxDepth : Nat) : Config (ℚ × ℚ) where
  dim := 1
  minEvents := minEvents
  maxDepth := maxDepth
  ordering := [0]
  x := fun e i => if i = 0 then e.1 else e.2
  sort := fun i l => l.insertionSort fun a b => (if i = 0 then a.1 else a.2) ≤ (if i = 0 then b.1 else b.2)
  byVariance := fun _ => [0]

theorem demo_good (minEvents maxDepth : Nat) (h : 0 < minEvents) : Good (demo minEvents maxDepth) where
  dim := Nat.one_pos
  minEvents := h
  ordering := List.Perm.refl [0]
  variance := fun _ => List.Perm.refl [0]
  perm := fun i l => List.perm_insertionSort _ l
  sorted := fun i l => by
    haveI : Std.Total (fun a b : ℚ × ℚ => (if i = 0 then a.1 else a.2) ≤ (if i = 0 then b.1 else b.2)) := ⟨fun a b => le_total _ _⟩
    haveI : IsTrans (ℚ × ℚ) (fun a b : ℚ × ℚ => (if i = 0 then a.1 else a.2) ≤ (if i = 0 then b.1 else b.2)) := ⟨fun a b c => le_trans⟩
    exact List.pairwise_insertionSort _ l

/-! ### C18 -/

/-- C18.  Building an adaptive binning of a sample of at least two events succeeds and puts every event of the sample in exactly one bin; every
point whatsoever is assigned the number of an existing bin; if the sample has at least the minimum number of events so has every bin; and if no
two events of the sample agree in a coordinate, every event of the sample is assigned the bin it was put in.

Missing: events that agree in a coordinate, see `binning_partition_counterexample`. -/
theorem binning_partition_partial (g : Good c) {evts : List E} (h : 2 ≤ evts.length) :
    ∃ t bins, build c evts = some (t, bins) ∧ bins.flatten.Perm evts ∧ (∀ y, t.getBinNumber y < bins.length) ∧
      (c.minEvents ≤ evts.length → ∀ b ∈ bins, c.minEvents ≤ b.length) ∧
      (Distinct c evts → ∀ i b, bins[i]? = some b → ∀ e ∈ b, t.getBinNumber (c.x e) = i) := by
  obtain ⟨q, hq, hQ⟩ := refreshQueue_spec g h 0
  obtain ⟨t, new, h1, h2, h3, h4, h5⟩ := makeNodes_spec g (c.maxDepth + 1) evts q [] hQ
  refine ⟨t, new, ?_, h2, fun y => (h3 y).2, h4, fun hd i b hb e he => ?_⟩
  · unfold build
    rw [hq]
    exact h1
  · rw [h5 hd i b hb e he]; simp

/-- A sample of five events in bins of at least one: the hypotheses hold, and there are four bins. -/
example : Good (demo 1 3) ∧ Distinct (demo 1 3) [(3, 1), (1, 1), (4, 1), (2, 1), (10, 1)] ∧
    (build (demo 1 3) [(3, 1), (1, 1), (4, 1), (2, 1), (10, 1)]).map (fun p => p.2.map fun b => b.map Prod.fst) =
      some [[1], [2], [3], [4], [10]] := by
  refine ⟨demo_good 1 3 (by decide), ?_, by decide +kernel⟩
  unfold Distinct demo
  refine List.Pairwise.imp (R := fun a b => a.1 ≠ b.1) ?_ (by decide +kernel)
  intro a b hab i hi
  have : i = 0 := Nat.lt_one_iff.mp hi
  subst this
  exact hab

/-- C18 fails for events that agree: of two equal events one is put in each of two bins, but both are assigned the second bin, so that no event
of the sample is assigned the first. -/
theorem binning_partition_counterexample : ∃ (c : Config (ℚ × ℚ)) (evts : List (ℚ × ℚ)) (t : Tree) (bins : List (List (ℚ × ℚ))), Good c ∧
    2 ≤ evts.length ∧ build c evts = some (t, bins) ∧ (∃ b, bins[0]? = some b ∧ b ≠ [] ∧ ∀ e ∈ b, t.getBinNumber (c.x e) ≠ 0) ∧
      ∀ e ∈ evts, t.getBinNumber (c.x e) ≠ 0 := by
  refine ⟨demo 1 3, [(5, 1), (5, 1)], .node 0 5 (.leaf 1 999) (.leaf 0 999), [[(5, 1)], [(5, 1)]], demo_good 1 3 (by decide), by decide,
    ?_, ⟨[(5, 1)], rfl, by decide, ?_⟩, ?_⟩
  · decide +kernel
  · decide +kernel
  · decide +kernel

/-- C18, binnings of two samples.  Whatever the line search returns, building a binning of a source sample of at least two events and a target
sample puts every event of each sample in exactly one bin, assigns every point the number of an existing bin, puts a source event in every bin, and
every event of either sample is assigned the bin it was put in. -/
theorem binning_two_samples (g : Good c) (cut : List E → List E → Nat → ℚ) {source target : List E} (h : 2 ≤ source.length) :
    ∃ t bins, build2 c cut source target = some (t, bins) ∧ (bins.map Prod.fst).flatten.Perm source ∧
      (bins.map Prod.snd).flatten.Perm target ∧ (∀ y, t.getBinNumber y < bins.length) ∧ (∀ b ∈ bins, b.1 ≠ []) ∧
      (∀ i b, bins[i]? = some b → ∀ e ∈ b.1 ++ b.2, t.getBinNumber (c.x e) = i) := by
  obtain ⟨q, hq, hQ⟩ := refreshQueue_spec g h 0
  obtain ⟨t, new, h1, h2, h2', h3, h4, h5⟩ := makeNodes2_spec g cut (c.maxDepth + 1) source target q [] hQ
  refine ⟨t, new, ?_, h2, h2', fun y => (h3 y).2, h4 ?_, fun i b hb e he => ?_⟩
  · unfold build2
    rw [hq]
    exact h1
  · intro h0; rw [h0] at h; simp at h
  · rw [h5 i b hb e he]; simp

/-- Two samples that are divided, with repeated positions. -/
example : Good (demo 1 3) ∧
    (build2 (demo 1 3) (bestCut (demo 1 3)) [(1, 1), (1, 1), (2, 1), (5, 1)] [(1, 1), (2, 1), (2, 1), (6, 1), (7, 1)]).map (fun p => p.2.length) =
      some 3 := by
  refine ⟨demo_good 1 3 (by decide), ?_⟩
  decide +kernel

/-- C18 fails for the population of the bins of two samples: with a minimum of two events, the line search finds no cut, the cut is made at zero
all the same, and a bin receives a single source event and no target event. -/
theorem binning_two_samples_counterexample : ∃ (c : Config (ℚ × ℚ)) (source target : List (ℚ × ℚ)) (t : Tree)
    (bins : List (List (ℚ × ℚ) × List (ℚ × ℚ))), Good c ∧ c.minEvents = 2 ∧ 2 * c.minEvents ≤ source.length ∧ 2 * c.minEvents ≤ target.length ∧
      build2 c (bestCut c) source target = some (t, bins) ∧ ∃ b ∈ bins, b.1.length < c.minEvents ∧ b.2.length < c.minEvents := by
  refine ⟨demo 2 3, [(-1, 1), (5, 1), (5, 1), (5, 1)], [(1, 1), (2, 1), (3, 1), (4, 1)], .node 0 0 (.leaf 1 999) (.leaf 0 999),
    [([(-1, 1)], []), ([(5, 1), (5, 1), (5, 1)], [(1, 1), (2, 1), (3, 1), (4, 1)])], demo_good 2 3 (by decide), rfl, by decide, by decide, by decide +kernel,
    ([(-1, 1)], []), by decide, by decide, by decide⟩

/-! ### C19 -/

/-- C19.  Provided that different addresses are printed differently, that printed words contain no blanks and ends of lines, and that integers and
the cut values of the tree are read back as they were, a tree whose nodes have different addresses is read back from what was written as
nodes which, from the first one, lead every event to the same end node; the end nodes are those of the tree. -/
theorem binning_serialisation {fmt : Format} (t : ATree) (ht : t.addrs.Nodup) (hinj : ∀ a b, fmt.ptr a = fmt.ptr b → a = b)
    (hp : ∀ a, Token (fmt.ptr a)) (hn : ∀ n, Token (fmt.nat n)) (hi : ∀ n, fmt.stoi (fmt.nat n) = some n)
    (hv : ∀ v ∈ t.values, Token (fmt.num v) ∧ fmt.stod (fmt.num v) = some v) :
    ∃ L, readFromStream fmt (serialize fmt t) = some L ∧ (∀ y p, Reaches L.heap y L.top p ↔ t.erase.route y = p) ∧ L.endNodes = t.ends := by
  have hg : getlines '\n' (serialize fmt t) = t.lines fmt ++ [['e', 'n', 'd']] :=
    getlines_lines _ _ (lines_eol hp hn t (fun v h => (hv v h).1)) (by decide) (by decide)
  have hr : readLines fmt (getlines '\n' (serialize fmt t)) ⟨[], fun _ => none, [], []⟩ =
      some ((t.records fmt).foldl store ⟨[], fun _ => none, [], []⟩) := by
    rw [hg, readLines_tree hp hn hi t _ _ hv, readLines, if_pos rfl]
  have hnd : ((t.records fmt).map Prod.fst).Nodup := by
    rw [records_keys]
    exact ht.map (fun a b h => hinj a b h)
  have heap := foldl_store_heap (t.records fmt) ⟨[], fun _ => none, [], []⟩ hnd
  have hall : (((t.records fmt).foldl store ⟨[], fun _ => none, [], []⟩).keys.all fun a =>
      match ((t.records fmt).foldl store ⟨[], fun _ => none, [], []⟩).heap a with
      | some (.node _ _ l r) => (((t.records fmt).foldl store ⟨[], fun _ => none, [], []⟩).heap l).isSome &&
          (((t.records fmt).foldl store ⟨[], fun _ => none, [], []⟩).heap r).isSome
      | _ => true) = true := by
    rw [List.all_eq_true]
    intro k hk
    rw [foldl_store_keys, List.nil_append, List.mem_map] at hk
    obtain ⟨⟨k', rec⟩, hm, rfl⟩ := hk
    rw [heap _ hm]
    cases rec with
    | leaf vox bin => rfl
    | node i v a b =>
      obtain ⟨⟨q, hq⟩, ⟨q', hq'⟩⟩ := (records_closed fmt t).2 _ i v a b hm
      simp only
      rw [heap _ hq, heap _ hq']
      rfl
  refine ⟨(t.records fmt).foldl store ⟨[], fun _ => none, [], []⟩, ?_, ?_, ?_⟩
  · unfold readFromStream
    rw [hr]
    exact if_pos hall
  · intro y p
    have htop : ((t.records fmt).foldl store ⟨[], fun _ => none, [], []⟩).top = fmt.ptr t.addr := by
      cases t with
      | leaf a vox bin => rfl
      | node a index value l r =>
        rw [ATree.records, List.foldl_cons, foldl_store_top _ _ (by exact (hp a).nonempty)]
        rfl
    rw [htop]
    exact reaches_iff y t p heap
  · rw [foldl_store_endNodes]; rfl

/-- Words of one letter repeated, for the example. -/
def unary (n : Nat) : Str := List.replicate (n + 1) 'x'

theorem unary_token (n : Nat) : Token (unary n) := by
  refine ⟨by simp [unary], ?_, ?_, ?_⟩
  · intro h; have := List.eq_of_mem_replicate h; exact absurd this (by decide)
  · intro h; have := List.eq_of_mem_replicate h; exact absurd this (by decide)
  · intro h
    have : 'x' ∈ unary n := by simp [unary]
    rw [h] at this
    exact absurd this (by decide)

/-- A format that prints integers in unary, and the cut values 5 and 7. -/
def unaryFormat : Format where
  ptr := unary
  nat := unary
  num := fun q => unary q.num.natAbs
  stoi := fun w => some (w.length - 1)
  stod := fun w => some ((w.length - 1 : Nat) : ℚ)

/-- A tree with two cuts meets the hypotheses. -/
example : ∃ L, readFromStream unaryFormat (serialize unaryFormat (.node 3 0 5 (.leaf 9 1 999) (.node 4 1 7 (.leaf 2 2 999) (.leaf 8 0 999)))) = some L ∧
    Reaches L.heap (fun i => if i = 0 then 1 else 8) L.top (2, 999) := by
  obtain ⟨L, h1, h2, _⟩ := binning_serialisation (fmt := unaryFormat) (.node 3 0 5 (.leaf 9 1 999) (.node 4 1 7 (.leaf 2 2 999) (.leaf 8 0 999)))
    (by decide) (fun a b h => by
      have := congrArg List.length h
      simpa [unaryFormat, unary] using this) unary_token unary_token (fun n => by simp [unaryFormat, unary]) (by
      intro v hv
      refine ⟨unary_token _, ?_⟩
      simp only [ATree.values, List.append_nil, List.nil_append, List.mem_cons, List.not_mem_nil, or_false] at hv
      rcases hv with rfl | rfl <;> decide +kernel)
  exact ⟨L, h1, (h2 _ _).mpr (by norm_num [ATree.erase, Tree.route])⟩

/-! ### C48 -/

/-- C48.  A fast decision tree built from at least twice the minimum number of events puts every event in exactly one bin, each with at least the
minimum number of events; and the search for the bin of any point ends after at most as many turns as there are nodes, visits addresses in
strictly decreasing order, hence none twice, and returns the number of an existing bin.

Missing: smaller samples, see `fast_binning_counterexample`. -/
theorem fast_binning_partial (g : Good c) {evts : List E} (h : 2 * c.minEvents ≤ evts.length) :
    ∃ s, fastBuild c evts = some s ∧ s.bins.flatten.Perm evts ∧ (∀ b ∈ s.bins, c.minEvents ≤ b.length) ∧
      ∀ y, ∃ k visited, findNode s.nodes y s.nodes.length = some (k, visited) ∧ k < s.bins.length ∧ visited.Pairwise (· > ·) := by
  have hmin := g.minEvents
  obtain ⟨q, hq, hQ⟩ := refreshQueue_spec g (evts := evts) (by omega) 1
  obtain ⟨a, t, nn, nb, h1, h2, h3, h4, h5, h6⟩ := fastNodes_spec g (c.maxDepth + 1) evts q ⟨[], []⟩ hQ
  simp only [List.nil_append] at *
  obtain ⟨hne, ha⟩ := h6 (by omega) h
  refine ⟨⟨nn, nb⟩, ?_, h3, h5 (by omega), ?_⟩
  · unfold fastBuild
    rw [hq]
    simp only [Option.bind_eq_bind, Option.bind_some, h1, Option.pure_def]
  · intro y
    have hlen : 0 < nn.length := List.length_pos_iff.mpr hne
    obtain ⟨path, p1, p2, _⟩ := findLoop_spec y h2 (fuel := nn.length) (visited := []) (by omega) (by omega) (by simp) List.Pairwise.nil
    refine ⟨_, path, ?_, (h4 y).2, p2⟩
    unfold findNode
    rw [← ha]
    exact p1

/-- Five events in bins of at least two. -/
example : Good (demo 2 3) ∧ 2 * (demo 2 3).minEvents ≤ [((3 : ℚ), (1 : ℚ)), (1, 1), (4, 1), (2, 1), (10, 1)].length ∧
    (fastBuild (demo 2 3) [(3, 1), (1, 1), (4, 1), (2, 1), (10, 1)]).map (fun s => s.bins.length) = some 2 := by
  refine ⟨demo_good 2 3 (by decide), by decide, by decide +kernel⟩

/-- C48 fails for a sample too small to be divided: there is one bin and no node, and the search for the bin reads outside the array. -/
theorem fast_binning_counterexample : ∃ (c : Config (ℚ × ℚ)) (evts : List (ℚ × ℚ)) (s : FState (List (ℚ × ℚ))), Good c ∧ fastBuild c evts = some s ∧
    s.bins.length = 1 ∧ ∀ y fuel, findNode s.nodes y fuel = none := by
  refine ⟨demo 2 3, [(1, 1), (2, 1), (3, 1)], ⟨[], [[(1, 1), (2, 1), (3, 1)]]⟩, demo_good 2 3 (by decide), rfl, rfl, ?_⟩
  intro y fuel
  cases fuel with
  | zero => rfl
  | succ n => rfl

/-- C48, the bin of a training event: of three evenly spaced events the middle one is put in the second bin but assigned the first. -/
theorem fast_binning_placement_counterexample : ∃ (c : Config (ℚ × ℚ)) (evts : List (ℚ × ℚ)) (s : FState (List (ℚ × ℚ))), Good c ∧
    Distinct c evts ∧ fastBuild c evts = some s ∧ ∃ e b, s.bins[1]? = some b ∧ e ∈ b ∧ (∀ b', s.bins[0]? = some b' → e ∉ b') ∧
      (findNode s.nodes (c.x e) 5).map Prod.fst = some 0 := by
  refine ⟨demo 1 0, [(1, 1), (2, 1), (3, 1)], ⟨[⟨1, -1, -2, 2⟩], [[(1, 1)], [(2, 1), (3, 1)]]⟩, demo_good 1 0 (by decide), ?_, by decide +kernel,
    (2, 1), [(2, 1), (3, 1)], rfl, by decide, ?_, by decide +kernel⟩
  · unfold Distinct demo
    refine List.Pairwise.imp (R := fun a b => a.1 ≠ b.1) ?_ (by decide +kernel)
    intro a b hab i hi
    have : i = 0 := Nat.lt_one_iff.mp hi
    subst this
    exact hab
  · intro b' hb'
    have : b' = [(1, 1)] := by simpa using hb'.symm
    rw [this]
    decide +kernel

/-- C48, two samples.  Whatever coordinates are picked and whatever the line search returns, the tree puts every event of each sample in exactly one
bin; if it has a node, the search for the bin of any point ends after at most as many turns as there are nodes, visits addresses in strictly
decreasing order, returns the number of an existing bin and, for an event of either sample, the bin that event was put in. -/
theorem fast_binning_two_samples (g : Good c) (pick : Nat → List E → List E → Nat) (cut : List E → List E → Nat → Option ℚ)
    (source target : List E) :
    ((fastBuild2 c pick cut source target).bins.map Prod.fst).flatten.Perm source ∧
    ((fastBuild2 c pick cut source target).bins.map Prod.snd).flatten.Perm target ∧
    ((fastBuild2 c pick cut source target).nodes ≠ [] →
      (∀ y, ∃ k visited, findNode (fastBuild2 c pick cut source target).nodes y (fastBuild2 c pick cut source target).nodes.length = some (k, visited) ∧
        k < (fastBuild2 c pick cut source target).bins.length ∧ visited.Pairwise (· > ·)) ∧
      ∀ i b, (fastBuild2 c pick cut source target).bins[i]? = some b → ∀ e ∈ b.1 ++ b.2,
        (findNode (fastBuild2 c pick cut source target).nodes (c.x e) (fastBuild2 c pick cut source target).nodes.length).map Prod.fst = some i) := by
  obtain ⟨a, t, nn, nb, h1, h2, h3, h3', h4, h5, h6⟩ := fastNodes2_spec g pick cut c.maxDepth source target ⟨[], []⟩
  simp only [List.nil_append] at *
  have e : fastBuild2 c pick cut source target = ⟨nn, nb⟩ := by unfold fastBuild2; rw [h1]
  rw [e]
  refine ⟨h3, h3', fun hne => ?_⟩
  have hlen : 0 < nn.length := List.length_pos_iff.mpr hne
  have ha := h6 hne
  have key : ∀ y, ∃ path, findNode nn y nn.length = some (t.route y, path) ∧ path.Pairwise (· > ·) := by
    intro y
    obtain ⟨path, p1, p2, _⟩ := findLoop_spec y h2 (fuel := nn.length) (visited := []) (by omega) (by omega) (by simp) List.Pairwise.nil
    refine ⟨path, ?_, p2⟩
    unfold findNode
    rw [← ha]
    exact p1
  refine ⟨fun y => ?_, fun i b hb e he => ?_⟩
  · obtain ⟨path, p1, p2⟩ := key y
    exact ⟨_, path, p1, (h4 y).2, p2⟩
  · obtain ⟨path, p1, _⟩ := key (c.x e)
    simp only
    rw [p1, h5 i b hb e he]
    simp

/-- Two samples divided at 2 and then at 1. -/
example : (fastBuild2 (demo 1 5) (fun _ _ _ => 0) (fun s _ _ => if s.length = 3 then some 2 else some 1) [(1, 1), (2, 1), (3, 1)]
    [(1, 1), (2, 1), (3, 1)]).nodes.length = 2 := by
  decide +kernel

end AmpGen.Binning
