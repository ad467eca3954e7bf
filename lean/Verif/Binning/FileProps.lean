import Verif.Binning.FileModel
import Verif.FitFile.Props
import Mathlib.Data.Rat.Floor
import Mathlib.Tactic.NormNum
/-
C167: decision trees in files.
-/
namespace AmpGen.FastTree
open AmpGen.Binning (FNode findNode findLoop)
open AmpGen.Strings (Str split)
open AmpGen.FitFile (Format Faithful Word)

theorem nodeLine_split {fmt : Format} {fix gen : ℚ → ℚ} (hf : Faithful fmt fix gen) (n : FNode) :
    readNode fmt (nodeLine fmt n) = some { n with cut := gen n.cut } := by
  unfold readNode nodeLine
  rw [FitFile.split_cons (hf.integerWord _), FitFile.split_cons (hf.integerWord _), FitFile.split_cons (hf.integerWord _), FitFile.split_word (hf.generalWord _)]
  simp [hf.readInteger, hf.readGeneral]

theorem nodeLine_clean {fmt : Format} {fix gen : ℚ → ℚ} (hf : Faithful fmt fix gen) (n : FNode) : '\n' ∉ nodeLine fmt n ∧ nodeLine fmt n ≠ [] := by
  have hi : ∀ k, '\n' ∉ fmt.integer k := fun k hc => ((hf.integerWord k).chars _ hc).2.1 rfl
  have hg : ∀ k, '\n' ∉ fmt.general k := fun k hc => ((hf.generalWord k).chars _ hc).2.1 rfl
  unfold nodeLine
  constructor
  · simp [hi, hg]
  · simp

theorem getline_line {l : Str} (h : '\n' ∉ l) (rest tmp : Str) : In.getline ⟨l ++ '\n' :: rest, false, tmp⟩ = ⟨rest, false, l⟩ := by
  unfold In.getline
  simp [Strings.dropWhile_append_delim h, Strings.takeWhile_append_delim h]

theorem getline_last {l : Str} (h : '\n' ∉ l) (tmp : Str) : In.getline ⟨l, false, tmp⟩ = ⟨[], true, l⟩ := by
  have : l.dropWhile (· != '\n') = [] := by
    rw [List.dropWhile_eq_nil_iff]
    intro x hx
    simp only [bne_iff_ne, ne_eq]
    rintro rfl
    exact h hx
  unfold In.getline
  simp [this]

theorem readLoop_succ (fmt : Format) (turns : Nat) (s : In) (nodes : List FNode) : readLoop fmt (turns + 1) s nodes =
    if s.getline.line = [] then .done nodes s.getline.text
    else match readNode fmt s.getline.line with
      | none => .fatal
      | some n => readLoop fmt turns s.getline (nodes ++ [n]) := rfl

theorem readLoop_lines {fmt : Format} {fix gen : ℚ → ℚ} (hf : Faithful fmt fix gen) (rest : Str) : ∀ (nodes before : List FNode) (turns : Nat) (tmp : Str),
    ∃ tmp', readLoop fmt (nodes.length + turns) ⟨serialise fmt nodes ++ rest, false, tmp⟩ before =
      readLoop fmt turns ⟨rest, false, tmp'⟩ (before ++ nodes.map fun n => { n with cut := gen n.cut })
  | [], before, turns, tmp => ⟨tmp, by simp [serialise]⟩
  | n :: ns, before, turns, tmp => by
    obtain ⟨h1, h2⟩ := nodeLine_clean hf n
    obtain ⟨t, ht⟩ := readLoop_lines hf rest ns (before ++ [{ n with cut := gen n.cut }]) turns (nodeLine fmt n)
    refine ⟨t, ?_⟩
    have e : (n :: ns).length + turns = (ns.length + turns) + 1 := by simp; omega
    have e2 : serialise fmt (n :: ns) ++ rest = nodeLine fmt n ++ '\n' :: (serialise fmt ns ++ rest) := by simp [serialise]
    rw [e, e2, readLoop_succ, getline_line h1]
    simp only [h2, if_false, nodeLine_split hf]
    rw [ht]
    simp

theorem findLoop_map (nodes : List FNode) (gen : ℚ → ℚ) (evt : Nat → ℚ)
    (h : ∀ n ∈ nodes, (evt (n.index - 1) > gen n.cut ↔ evt (n.index - 1) > n.cut)) : ∀ (fuel : Nat) (address : Int) (visited : List Int),
    findLoop (nodes.map fun n => { n with cut := gen n.cut }) evt fuel address visited = findLoop nodes evt fuel address visited
  | 0, _, _ => rfl
  | fuel + 1, address, visited => by
    unfold findLoop
    rw [List.getElem?_map]
    cases hn : nodes[address.toNat]? with
    | none => rfl
    | some n =>
      have := h n (List.mem_of_getElem? hn)
      simp only [Option.map_some, List.length_map, this, findLoop_map nodes gen evt h fuel]

/-- C167.  A decision tree that has been written to a file, followed by nothing or by an empty line, is read back with the same nodes in the same order, up to
the digits that are written for the cuts: reading ends, has read the nodes and no more, and leaves what follows the empty line, so that another tree can follow.
An event for which no cut lies between the number and the written digits is in the same bin as before.

Missing: other events, and files whose last line does not end, see `tree_file_counterexample`. -/
theorem tree_file_partial {fmt : Format} {fix gen : ℚ → ℚ} (hf : Faithful fmt fix gen) (nodes : List FNode) {after rest : Str}
    (ha : (after = [] ∧ rest = []) ∨ after = '\n' :: rest) {turns : Nat} (ht : nodes.length < turns) :
    ∃ read, readTree fmt turns (serialise fmt nodes ++ after) = .done read rest ∧
      read.map (fun n => (n.index, n.left, n.right)) = nodes.map (fun n => (n.index, n.left, n.right)) ∧
      read.map (·.cut) = nodes.map (fun n => gen n.cut) ∧
      ∀ evt : Nat → ℚ, (∀ n ∈ nodes, (evt (n.index - 1) > gen n.cut ↔ evt (n.index - 1) > n.cut)) →
        ∀ fuel, findNode read evt fuel = findNode nodes evt fuel := by
  refine ⟨nodes.map fun n => { n with cut := gen n.cut }, ?_, by simp [Function.comp_def], by simp [Function.comp_def], ?_⟩
  · obtain ⟨k, rfl⟩ : ∃ k, turns = nodes.length + (k + 1) := ⟨turns - nodes.length - 1, by omega⟩
    obtain ⟨tmp, h⟩ := readLoop_lines hf after nodes [] (k + 1) []
    unfold readTree
    rw [h]
    unfold readLoop
    rcases ha with ⟨rfl, rfl⟩ | rfl
    · rw [getline_last (by simp)]
      simp
    · rw [show '\n' :: rest = [] ++ '\n' :: rest from rfl, getline_line (by simp)]
      simp
  · intro evt h fuel
    unfold findNode
    rw [List.length_map, findLoop_map nodes gen evt h]

/-- The hypotheses are met by two trees of two nodes and of one node in the same file. -/
example : Faithful FitFile.demoFormat id id ∧
    ∃ read, readTree FitFile.demoFormat 5 (serialise FitFile.demoFormat [⟨1, -1, -2, 1 / 2⟩, ⟨2, 0, -3, 2⟩] ++ '\n' :: serialise FitFile.demoFormat [⟨1, -1, -2, 7⟩]) =
      .done read (serialise FitFile.demoFormat [⟨1, -1, -2, 7⟩]) ∧ ∀ evt fuel, findNode read evt fuel = findNode [⟨1, -1, -2, 1 / 2⟩, ⟨2, 0, -3, 2⟩] evt fuel := by
  refine ⟨FitFile.demo_faithful, ?_⟩
  obtain ⟨read, h1, _, _, h4⟩ := tree_file_partial FitFile.demo_faithful [⟨1, -1, -2, 1 / 2⟩, ⟨2, 0, -3, 2⟩]
    (after := '\n' :: serialise FitFile.demoFormat [⟨1, -1, -2, 7⟩]) (Or.inr rfl) (turns := 5) (by simp)
  exact ⟨read, h1, fun evt fuel => h4 evt (fun _ _ => Iff.rfl) fuel⟩

/-- C167.  A line of a file that has not exactly four words ends the program, wherever it is. -/
theorem tree_file_rejects {fmt : Format} {fix gen : ℚ → ℚ} (hf : Faithful fmt fix gen) (nodes : List FNode) {line rest : Str} (hn : '\n' ∉ line) (h0 : line ≠ [])
    (hw : (split line ' ' true).length ≠ 4) {turns : Nat} (ht : nodes.length < turns) :
    readTree fmt turns (serialise fmt nodes ++ (line ++ '\n' :: rest)) = .fatal := by
  obtain ⟨k, rfl⟩ : ∃ k, turns = nodes.length + (k + 1) := ⟨turns - nodes.length - 1, by omega⟩
  obtain ⟨tmp, h⟩ := readLoop_lines hf (line ++ '\n' :: rest) nodes [] (k + 1) []
  have hr : readNode fmt line = none := by
    unfold readNode
    split
    · next heq => rw [heq] at hw; exact absurd rfl hw
    · rfl
  unfold readTree
  rw [h]
  unfold readLoop
  rw [getline_line hn]
  simp [h0, hr]

/-- The hypotheses are met by a line with three words. -/
example : '\n' ∉ "1 2 3".toList ∧ "1 2 3".toList ≠ [] ∧ (split "1 2 3".toList ' ' true).length ≠ 4 := by decide +kernel

/-- Numbers with six decimals, in unary. -/
noncomputable def sixFormat : Format := { FitFile.demoFormat with general := fun x => FitFile.unary (⌊x * 1000000⌋ / 1000000) }

theorem six_faithful : Faithful sixFormat id (fun x => (⌊x * 1000000⌋ : ℚ) / 1000000) := by
  have h := FitFile.demo_faithful
  exact ⟨h.1, fun x => h.2 _, h.3, fun x => h.4 _, h.5, fun x => h.6 _, h.7, h.8⟩

/-- C167.  With a file whose last line does not end, the last node is read again and again, for every number of turns; and with six digits for the cuts an event
can be in another bin after writing and reading. -/
theorem tree_file_counterexample :
    (∀ (fmt : Format) (fix gen : ℚ → ℚ), Faithful fmt fix gen → ∀ (n : FNode) (turns : Nat),
      readTree fmt turns (nodeLine fmt n) = .running (List.replicate turns { n with cut := gen n.cut })) ∧
    ∃ (fmt : Format) (fix gen : ℚ → ℚ) (nodes read : List FNode) (evt : Nat → ℚ), Faithful fmt fix gen ∧
      readTree fmt 2 (serialise fmt nodes) = .done read [] ∧ (findNode nodes evt 1).map Prod.fst = some 0 ∧ (findNode read evt 1).map Prod.fst = some 1 := by
  constructor
  · intro fmt fix gen hf n turns
    obtain ⟨h1, h2⟩ := nodeLine_clean hf n
    have loop : ∀ (turns : Nat) (before : List FNode), readLoop fmt turns ⟨[], true, nodeLine fmt n⟩ before =
        .running (before ++ List.replicate turns { n with cut := gen n.cut }) := by
      intro turns
      induction turns with
      | zero => intro before; simp [readLoop]
      | succ k ih =>
        intro before
        unfold readLoop
        simp only [In.getline, if_true, h2, if_false, nodeLine_split hf]
        rw [ih]
        simp [List.replicate_succ]
    unfold readTree
    cases turns with
    | zero => simp [readLoop]
    | succ k =>
      unfold readLoop
      rw [getline_last h1]
      simp only [h2, if_false, nodeLine_split hf]
      rw [loop]
      simp [List.replicate_succ]
  · obtain ⟨read, h1, h2, h3, _⟩ := tree_file_partial six_faithful [⟨1, -1, -2, 1 / 3⟩] (after := []) (rest := []) (Or.inl ⟨rfl, rfl⟩) (turns := 2) (by simp)
    have hr : read = [⟨1, -1, -2, (⌊(1 / 3 : ℚ) * 1000000⌋ : ℚ) / 1000000⟩] := by
      obtain ⟨n, rfl⟩ : ∃ n, read = [n] := List.length_eq_one_iff.1 (by simpa using congrArg List.length h2)
      simp only [List.map_cons, List.map_nil, List.cons.injEq, Prod.mk.injEq, and_true] at h2 h3
      cases n
      simp_all
    refine ⟨sixFormat, id, _, [⟨1, -1, -2, 1 / 3⟩], read, fun _ => 1 / 3, six_faithful, by simpa using h1, by simp [findNode, findLoop], ?_⟩
    have hf : ⌊(1 / 3 : ℚ) * 1000000⌋ = 333333 := by rw [Int.floor_eq_iff]; norm_num
    rw [hr, hf]
    norm_num [findNode, findLoop]

end AmpGen.FastTree
