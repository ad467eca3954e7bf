import Verif.Binning.Spec
import Verif.Strings.Props
import Mathlib.Data.List.Nodup
/-
Writing a tree and reading it back.
-/
namespace AmpGen.Binning
open AmpGen.Strings

/-- What the lines of a tree say. -/
def ATree.records (fmt : Format) : ATree → List (Str × Rec)
  | .leaf a vox bin => [(fmt.ptr a, .leaf vox bin)]
  | .node a index value l r => (fmt.ptr a, .node index value (fmt.ptr l.addr) (fmt.ptr r.addr)) :: (l.records fmt ++ r.records fmt)

/-- Effect of one line. -/
def store (s : Loaded) (p : Str × Rec) : Loaded :=
  { top := if s.top = [] then p.1 else s.top, heap := Function.update s.heap p.1 (some p.2), keys := s.keys ++ [p.1],
    endNodes := s.endNodes ++ (match p.2 with | .leaf vox bin => [(vox, bin)] | _ => []) }

theorem split_line {fmt : Format} {ws : List Str} (h : ∀ w ∈ ws, Token w) : split (line ws) ' ' true = ws :=
  split_join_roundtrip ' ' ws true (fun w hw => (h w hw).blank) (fun w hw => ⟨(h w hw).nonempty, fun e => (h w hw).blank (by rw [e]; simp),
    fun e => (h w hw).eol (by rw [e]; simp), (h w hw).tab⟩)

theorem line_mem {c : Char} : ∀ {ws : List Str}, c ∈ line ws → c = ' ' ∨ ∃ w ∈ ws, c ∈ w := by
  intro ws
  induction ws with
  | nil => intro h; simp [line] at h
  | cons w ws ih =>
    intro h
    cases ws with
    | nil => right; exact ⟨w, by simp, by simpa [line] using h⟩
    | cons w' ws' =>
      have e : line (w :: w' :: ws') = w ++ ' ' :: line (w' :: ws') := by simp [line, List.intercalate, List.intersperse]
      rw [e] at h
      rcases List.mem_append.mp h with h | h
      · right; exact ⟨w, by simp, h⟩
      · rcases List.mem_cons.mp h with h | h
        · left; exact h
        · rcases ih h with h | ⟨v, hv, hc⟩
          · left; exact h
          · right; exact ⟨v, List.mem_cons_of_mem _ hv, hc⟩

theorem line_blank {w w' : Str} {ws : List Str} : ' ' ∈ line (w :: w' :: ws) := by
  have e : line (w :: w' :: ws) = w ++ ' ' :: line (w' :: ws) := by simp [line, List.intercalate, List.intersperse]
  rw [e]; simp

theorem line_ne_end {w w' : Str} {ws : List Str} : line (w :: w' :: ws) ≠ ['e', 'n', 'd'] := by
  intro h
  have := line_blank (w := w) (w' := w') (ws := ws)
  rw [h] at this
  simp at this

theorem readLines_tree {fmt : Format} (hp : ∀ a, Token (fmt.ptr a)) (hn : ∀ n, Token (fmt.nat n)) (hi : ∀ n, fmt.stoi (fmt.nat n) = some n) :
    ∀ (t : ATree) (rest : List Str) (s : Loaded), (∀ v ∈ t.values, Token (fmt.num v) ∧ fmt.stod (fmt.num v) = some v) →
    readLines fmt (t.lines fmt ++ rest) s = readLines fmt rest ((t.records fmt).foldl store s) := by
  intro t
  induction t with
  | leaf a vox bin =>
    intro rest s _
    rw [ATree.lines, List.singleton_append, readLines, if_neg line_ne_end]
    have : readLine fmt s (line [fmt.ptr a, fmt.nat vox, fmt.nat bin]) = some (store s (fmt.ptr a, .leaf vox bin)) := by
      unfold readLine
      rw [split_line (fmt := fmt) (by
        intro w hw
        simp only [List.mem_cons, List.not_mem_nil, or_false] at hw
        rcases hw with rfl | rfl | rfl
        · exact hp _
        · exact hn _
        · exact hn _)]
      simp only [hi]
      unfold store
      split <;> rfl
    rw [this]
    rfl
  | node a index value l r ihl ihr =>
    intro rest s hv
    rw [ATree.lines, List.cons_append, readLines, if_neg line_ne_end]
    obtain ⟨hvt, hvd⟩ := hv value (by simp [ATree.values])
    have : readLine fmt s (line [fmt.ptr a, fmt.nat index, fmt.num value, fmt.ptr l.addr, fmt.ptr r.addr]) =
        some (store s (fmt.ptr a, .node index value (fmt.ptr l.addr) (fmt.ptr r.addr))) := by
      unfold readLine
      rw [split_line (fmt := fmt) (by
        intro w hw
        simp only [List.mem_cons, List.not_mem_nil, or_false] at hw
        rcases hw with rfl | rfl | rfl | rfl | rfl
        · exact hp _
        · exact hn _
        · exact hvt
        · exact hp _
        · exact hp _)]
      simp only [hi, hvd]
      unfold store
      split <;> simp
    rw [this, Option.bind_some, List.append_assoc, ihl _ _ (fun v h => hv v (by simp [ATree.values, h])),
      ihr _ _ (fun v h => hv v (by simp [ATree.values, h])), ATree.records, List.foldl_cons, List.foldl_append]

theorem lines_eol {fmt : Format} (hp : ∀ a, Token (fmt.ptr a)) (hn : ∀ n, Token (fmt.nat n)) : ∀ (t : ATree),
    (∀ v ∈ t.values, Token (fmt.num v)) → ∀ l ∈ t.lines fmt, '\n' ∉ l := by
  have key : ∀ ws : List Str, (∀ w ∈ ws, Token w) → '\n' ∉ line ws := by
    intro ws h hm
    rcases line_mem hm with h' | ⟨w, hw, hc⟩
    · exact absurd h' (by decide)
    · exact (h w hw).eol hc
  intro t
  induction t with
  | leaf a vox bin =>
    intro _ l hl
    rw [ATree.lines, List.mem_singleton] at hl
    rw [hl]
    apply key
    intro w hw
    simp only [List.mem_cons, List.not_mem_nil, or_false] at hw
    rcases hw with rfl | rfl | rfl
    · exact hp _
    · exact hn _
    · exact hn _
  | node a index value l r ihl ihr =>
    intro hv m hm
    rw [ATree.lines] at hm
    rcases List.mem_cons.mp hm with rfl | hm
    · apply key
      intro w hw
      simp only [List.mem_cons, List.not_mem_nil, or_false] at hw
      rcases hw with rfl | rfl | rfl | rfl | rfl
      · exact hp _
      · exact hn _
      · exact hv _ (by simp [ATree.values])
      · exact hp _
      · exact hp _
    · rcases List.mem_append.mp hm with h | h
      · exact ihl (fun v h => hv v (by simp [ATree.values, h])) m h
      · exact ihr (fun v h => hv v (by simp [ATree.values, h])) m h

theorem getlines_lines : ∀ (ls : List Str) (last : Str), (∀ l ∈ ls, '\n' ∉ l) → '\n' ∉ last → last ≠ [] →
    getlines '\n' ((ls.flatMap fun l => l ++ ['\n']) ++ last) = ls ++ [last] := by
  intro ls last h hl hne
  induction ls with
  | nil => simpa using getlines_single hl hne
  | cons l ls ih =>
    rw [List.flatMap_cons, List.append_assoc, List.append_assoc, List.singleton_append, getlines_append (h l (by simp)),
      ih (fun m hm => h m (List.mem_cons_of_mem _ hm)), List.cons_append]

theorem foldl_store_keys : ∀ (recs : List (Str × Rec)) (s : Loaded), (recs.foldl store s).keys = s.keys ++ recs.map Prod.fst := by
  intro recs
  induction recs with
  | nil => intro s; simp
  | cons p recs ih => intro s; rw [List.foldl_cons, ih]; simp [store]

theorem foldl_store_frame : ∀ (recs : List (Str × Rec)) (s : Loaded) (k : Str), k ∉ recs.map Prod.fst →
    (recs.foldl store s).heap k = s.heap k := by
  intro recs
  induction recs with
  | nil => intro s k _; rfl
  | cons p recs ih =>
    intro s k hk
    simp only [List.map_cons, List.mem_cons, not_or] at hk
    rw [List.foldl_cons, ih _ _ hk.2]
    exact Function.update_of_ne hk.1 _ _

theorem foldl_store_heap : ∀ (recs : List (Str × Rec)) (s : Loaded), (recs.map Prod.fst).Nodup → ∀ p ∈ recs,
    (recs.foldl store s).heap p.1 = some p.2 := by
  intro recs
  induction recs with
  | nil => intro s _ p hp; simp at hp
  | cons q recs ih =>
    intro s hnd p hp
    rw [List.map_cons, List.nodup_cons] at hnd
    rw [List.foldl_cons]
    rcases List.mem_cons.mp hp with rfl | hp
    · rw [foldl_store_frame _ _ _ hnd.1]
      exact Function.update_self _ _ _
    · exact ih _ hnd.2 p hp

theorem records_keys (fmt : Format) : ∀ t : ATree, (t.records fmt).map Prod.fst = t.addrs.map fmt.ptr := by
  intro t
  induction t with
  | leaf a vox bin => rfl
  | node a index value l r ihl ihr => simp [ATree.records, ATree.addrs, ihl, ihr]

theorem records_closed (fmt : Format) : ∀ t : ATree, (∃ r, (fmt.ptr t.addr, r) ∈ t.records fmt) ∧
    ∀ k i v a b, (k, Rec.node i v a b) ∈ t.records fmt → (∃ r, (a, r) ∈ t.records fmt) ∧ ∃ r, (b, r) ∈ t.records fmt := by
  intro t
  induction t with
  | leaf a vox bin =>
    refine ⟨⟨_, List.mem_singleton.mpr rfl⟩, ?_⟩
    intro k i v a b h
    simp [ATree.records] at h
  | node a index value l r ihl ihr =>
    refine ⟨⟨_, List.mem_cons_self⟩, ?_⟩
    have inl : ∀ p ∈ l.records fmt, p ∈ (ATree.node a index value l r).records fmt := fun p hp =>
      List.mem_cons_of_mem _ (List.mem_append_left _ hp)
    have inr : ∀ p ∈ r.records fmt, p ∈ (ATree.node a index value l r).records fmt := fun p hp =>
      List.mem_cons_of_mem _ (List.mem_append_right _ hp)
    intro k i v x y h
    rw [ATree.records] at h
    rcases List.mem_cons.mp h with h | h
    · simp only [Prod.mk.injEq, Rec.node.injEq] at h
      obtain ⟨_, _, _, rfl, rfl⟩ := h
      obtain ⟨q, hq⟩ := ihl.1
      obtain ⟨q', hq'⟩ := ihr.1
      exact ⟨⟨q, inl _ hq⟩, ⟨q', inr _ hq'⟩⟩
    · rcases List.mem_append.mp h with h | h
      · obtain ⟨⟨q, hq⟩, ⟨q', hq'⟩⟩ := ihl.2 k i v x y h
        exact ⟨⟨q, inl _ hq⟩, ⟨q', inl _ hq'⟩⟩
      · obtain ⟨⟨q, hq⟩, ⟨q', hq'⟩⟩ := ihr.2 k i v x y h
        exact ⟨⟨q, inr _ hq⟩, ⟨q', inr _ hq'⟩⟩

theorem foldl_store_endNodes (fmt : Format) : ∀ (t : ATree) (s : Loaded),
    ((t.records fmt).foldl store s).endNodes = s.endNodes ++ t.ends := by
  intro t
  induction t with
  | leaf a vox bin => intro s; rfl
  | node a index value l r ihl ihr =>
    intro s
    rw [ATree.records, List.foldl_cons, List.foldl_append, ihr, ihl, ATree.ends]
    simp [store]

theorem foldl_store_top : ∀ (recs : List (Str × Rec)) (s : Loaded), s.top ≠ [] → (recs.foldl store s).top = s.top := by
  intro recs
  induction recs with
  | nil => intro s _; rfl
  | cons p recs ih =>
    intro s h
    have e : (store s p).top = s.top := if_neg h
    rw [List.foldl_cons, ih _ (by rw [e]; exact h), e]

theorem reaches_iff {fmt : Format} {heap : Str → Option Rec} (y : Nat → ℚ) : ∀ (t : ATree) (p : Nat × Nat),
    (∀ q ∈ t.records fmt, heap q.1 = some q.2) → (Reaches heap y (fmt.ptr t.addr) p ↔ t.erase.route y = p) := by
  intro t
  induction t with
  | leaf a vox bin =>
    intro p h
    have h0 := h (fmt.ptr a, .leaf vox bin) (by simp [ATree.records])
    simp only [ATree.addr, ATree.erase, Tree.route] at *
    constructor
    · intro hr
      cases hr with
      | leaf h1 => rw [h0] at h1; cases h1; rfl
      | right h1 => rw [h0] at h1; cases h1
      | left h1 => rw [h0] at h1; cases h1
    · rintro rfl; exact .leaf h0
  | node a index value l r ihl ihr =>
    intro p h
    have h0 := h (fmt.ptr a, .node index value (fmt.ptr l.addr) (fmt.ptr r.addr)) (by simp [ATree.records])
    have hl := ihl p (fun q hq => h q (List.mem_cons_of_mem _ (List.mem_append_left _ hq)))
    have hr := ihr p (fun q hq => h q (List.mem_cons_of_mem _ (List.mem_append_right _ hq)))
    simp only [ATree.addr, ATree.erase, Tree.route] at *
    constructor
    · intro hreach
      cases hreach with
      | leaf h1 => rw [h0] at h1; cases h1
      | right h1 hc h2 => rw [h0] at h1; cases h1; rw [if_pos hc]; exact hr.mp h2
      | left h1 hc h2 => rw [h0] at h1; cases h1; rw [if_neg hc]; exact hl.mp h2
    · intro hroute
      by_cases hc : y index < value
      · rw [if_pos hc] at hroute; exact .right h0 hc (hr.mpr hroute)
      · rw [if_neg hc] at hroute; exact .left h0 hc (hl.mpr hroute)

end AmpGen.Binning
