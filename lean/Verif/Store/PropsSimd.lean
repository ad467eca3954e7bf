import Verif.Store.LemmasSimd
import Verif.Store.Props
import Mathlib.Algebra.BigOperators.Group.List.Basic
import Mathlib.Algebra.BigOperators.Ring.List
import Mathlib.Data.Rat.Defs
/-
Property theorems about event lists in blocks (C07).  `poison` is the result of an
out of bounds read; the theorems hold whatever it is.
-/
namespace AmpGen.Store

set_option linter.unusedSectionVars false

variable {K : Type} [Zero K] [One K] [DecidableEq K]

theorem blocks_eq {W n : Nat} (hW : W ∣ 2 ^ 32) (hn : n + W ≤ 2 ^ 32) :
    alignedSize W n / W = (n + (W - 1)) / W := by
  have hW0 : 0 < W := Nat.pos_of_dvd_of_pos hW (by positivity)
  rw [alignedSize_eq hW hn, Nat.mul_div_cancel_left _ hW0]

theorem blocks_cover {W n : Nat} (hW : W ∣ 2 ^ 32) (hn : n + W ≤ 2 ^ 32) :
    0 < W ∧ n ≤ alignedSize W n / W * W ∧ alignedSize W n / W * W < n + W := by
  have hW0 : 0 < W := Nat.pos_of_dvd_of_pos hW (by positivity)
  rw [blocks_eq hW hn]
  have h1 := Nat.div_add_mod' (n + (W - 1)) W
  have h2 := Nat.mod_lt (n + (W - 1)) hW0
  exact ⟨hW0, by omega, by omega⟩

/-- The event held by lane `k` of block `b` after packing the list `evs`. -/
def packed (evs : List (Event K)) (d : Event K) (p : Nat) : Event K :=
  if p < evs.length then evs.getD p d
  else { evs.getD (evs.length - 1) d with genPdf := 1 }

theorem ofEventList_at {W nF : Nat} [NeZero (1 : K)] (poison : K) (d : Event K) (evs : List (Event K))
    (hW : W ∣ 2 ^ 32) (hn : evs.length + W ≤ 2 ^ 32) (hsize : ∀ e ∈ evs, e.data.length = nF) :
    Valid (Simd.ofEventList W poison nF evs) (alignedSize W evs.length / W) nF ∧
    (Simd.ofEventList W poison nF evs).data.nEntries = evs.length ∧
    ∀ p, p < alignedSize W evs.length / W * W →
      (Simd.ofEventList W poison nF evs).at W poison p = packed evs d p := by
  obtain ⟨hW0, hc1, hc2⟩ := blocks_cover hW hn
  generalize hB : alignedSize W evs.length / W = nB at hc1 hc2 ⊢
  have hne : ∀ b, b < nB → b * W < evs.length := by
    intro b hb
    have : (b + 1) * W ≤ nB * W := Nat.mul_le_mul_right _ hb
    rw [Nat.add_mul, Nat.one_mul] at this
    omega
  have hgather0 : ∀ b, b < nB → ∀ fn : Event K → K,
      (∀ e : Event K, fn { e with genPdf := 1 } = fn e) →
      gather W poison evs fn (b * W) 0 =
        (List.range W).map (fun k => fn (packed evs d (b * W + k))) := by
    intro b hb fn hfn
    unfold gather
    apply List.map_congr_left
    intro k hk
    rw [if_pos rfl]
    unfold packed
    split
    · rename_i h
      simp [List.getD_eq_getElem?_getD, h]
    · have h : evs.length - 1 < evs.length := by have := hne b hb; omega
      rw [hfn]
      simp [List.getD_eq_getElem?_getD, h]
  have hgather1 : ∀ b, b < nB → gather W poison evs (fun e => e.genPdf) (b * W) 1 =
        (List.range W).map (fun k => (packed evs d (b * W + k)).genPdf) := by
    intro b hb
    unfold gather
    apply List.map_congr_left
    intro k hk
    rw [if_neg one_ne_zero]
    unfold packed
    split
    · rename_i h
      simp [List.getD_eq_getElem?_getD, h]
    · rfl
  have hlen : ∀ p, 0 < evs.length → (packed evs d p).data.length = nF := by
    intro p h0
    unfold packed
    split
    · rename_i h
      have : evs.getD p d ∈ evs := by
        simp [List.getD_eq_getElem?_getD, h]
      exact hsize _ this
    · have h : evs.length - 1 < evs.length := by omega
      have : evs.getD (evs.length - 1) d ∈ evs := by
        simp [List.getD_eq_getElem?_getD, h]
      exact hsize (evs.getD (evs.length - 1) d) this
  have hmake := Valid.make (K := K) W evs.length nF hW0
  rw [hB] at hmake
  obtain ⟨hv, hat⟩ := at_foldBlocks (poison := poison) hmake hW0 (fun b k => packed evs d (b * W + k))
    (fun b j => gather W poison evs (fun e => e.get poison j) (b * W) 0)
    (fun b => gather W poison evs (fun e => e.weight) (b * W) 0)
    (fun b => gather W poison evs (fun e => e.genPdf) (b * W) 1) nB (Nat.le_refl _)
    (fun b hb k _ => hlen _ (by have := hne b hb; omega))
    (fun b hb j _ => hgather0 b hb _ (fun _ => rfl))
    (fun b hb => hgather0 b hb _ (fun _ => rfl)) (fun b hb => hgather1 b hb)
  have hdef : Simd.ofEventList W poison nF evs = (List.range nB).foldl (fun s b =>
      s.setBlock b (fun j => gather W poison evs (fun e => e.get poison j) (b * W) 0)
        (gather W poison evs (fun e => e.weight) (b * W) 0)
        (gather W poison evs (fun e => e.genPdf) (b * W) 1)) (Simd.make W evs.length nF) := by
    unfold Simd.ofEventList; rw [hB]
  have hent : ∀ (l : List Nat) (s : Simd K), (l.foldl (fun s b =>
      s.setBlock b (fun j => gather W poison evs (fun e => e.get poison j) (b * W) 0)
        (gather W poison evs (fun e => e.weight) (b * W) 0)
        (gather W poison evs (fun e => e.genPdf) (b * W) 1)) s).data.nEntries = s.data.nEntries := by
    have hst : ∀ (fs : List Nat) (vs : List (List K)) (s : Store (List K)) (b : Nat),
        (s.storeItems .aoS b fs vs).nEntries = s.nEntries := by
      intro fs
      induction fs with
      | nil => intro vs s b; cases vs <;> rfl
      | cons f fs ih =>
        intro vs s b
        cases vs with
        | nil => rfl
        | cons v vs => simp only [Store.storeItems]; rw [ih]; rfl
    intro l
    induction l with
    | nil => intro s; rfl
    | cons b l ih =>
      intro s
      simp only [List.foldl_cons]
      rw [ih]
      exact hst _ _ _ _
  rw [hdef]
  refine ⟨hv, ?_, ?_⟩
  · rw [hent]; rfl
  · intro p hp
    have hpb : p / W < nB := Nat.div_lt_of_lt_mul (by rw [Nat.mul_comm]; exact hp)
    rw [hat p hpb, if_pos hpb]
    show packed evs d (p / W * W + p % W) = _
    rw [Nat.div_add_mod']

/-- C07 (round trip).  Reading event `i` of a packed list returns event `i`. -/
theorem simd_roundtrip {W nF : Nat} [NeZero (1 : K)] (poison : K) (evs : List (Event K))
    (hW : W ∣ 2 ^ 32) (hn : evs.length + W ≤ 2 ^ 32) (hsize : ∀ e ∈ evs, e.data.length = nF)
    (i : Nat) (hi : i < evs.length) :
    (Simd.ofEventList W poison nF evs).at W poison i = evs[i] := by
  obtain ⟨hW0, hc1, hc2⟩ := blocks_cover hW hn
  rw [(ofEventList_at poison evs[i] evs hW hn hsize).2.2 i (by omega)]
  simp [packed, hi]

/-- C07 (sums).  If the events fill whole blocks, the sum of any function over all
lanes of all blocks is its sum over the events.  Partial: `simd_padding` and
`simd_padding_counterexample` show what happens otherwise. -/
theorem simd_block_sums_partial {W nF : Nat} [NeZero (1 : K)] {M : Type} [AddCommMonoid M]
    (poison : K) (evs : List (Event K)) (hW : W ∣ 2 ^ 32) (hn : evs.length + W ≤ 2 ^ 32)
    (hsize : ∀ e ∈ evs, e.data.length = nF) (hfull : W ∣ evs.length) (g : Event K → M) :
    ((List.range (alignedSize W evs.length)).map
      (fun p => g ((Simd.ofEventList W poison nF evs).at W poison p))).sum = (evs.map g).sum := by
  have hlen : alignedSize W evs.length = evs.length := by
    have hW0 : 0 < W := (blocks_cover hW hn).1
    obtain ⟨c1, c2, c3⟩ := aligned_size_correct hW hn
    obtain ⟨k, hk⟩ := hfull
    obtain ⟨l, hl⟩ := c3
    rw [hl, hk] at c1 c2
    have h1 : k ≤ l := Nat.le_of_mul_le_mul_left c1 hW0
    have h2 : l < k + 1 := Nat.lt_of_mul_lt_mul_left (a := W) (by rw [Nat.mul_add, Nat.mul_one]; exact c2)
    rw [hl, hk, show l = k by omega]
  rw [hlen]
  congr 1
  apply List.ext_getElem
  · simp
  · intro i h1 h2
    have hi : i < evs.length := by simpa using h1
    simp only [List.getElem_map, List.getElem_range]
    rw [simd_roundtrip poison evs hW hn hsize i hi]

/-- What the padding lanes hold: a copy of the last event, with its weight. -/
theorem simd_padding {W nF : Nat} [NeZero (1 : K)] (poison : K) (evs : List (Event K))
    (hW : W ∣ 2 ^ 32) (hn : evs.length + W ≤ 2 ^ 32) (hsize : ∀ e ∈ evs, e.data.length = nF)
    (p : Nat) (hp : p < alignedSize W evs.length) (h : evs.length ≤ p) (hne : evs ≠ []) :
    (Simd.ofEventList W poison nF evs).at W poison p = { evs.getLast hne with genPdf := 1 } := by
  have hdiv : alignedSize W evs.length / W * W = alignedSize W evs.length :=
    Nat.div_mul_cancel (aligned_size_correct hW hn).2.2
  rw [(ofEventList_at poison (evs.getLast hne) evs hW hn hsize).2.2 p (by omega)]
  have hl : evs.length - 1 < evs.length := by
    have := List.length_pos_iff.mpr hne; omega
  simp [packed, Nat.not_lt.mpr h, List.getD_eq_getElem?_getD, hl, List.getLast_eq_getElem]

/-- The claim about padding is false of the constructor from an event list: three
events of weight one in blocks of four lanes have a total weight of four. -/
theorem simd_padding_counterexample :
    ∃ (evs : List (Event ℚ)), (∀ e ∈ evs, e.data.length = 1) ∧ evs.length = 3 ∧
      (evs.map Event.weight).sum = 3 ∧
      ((List.range (alignedSize 4 evs.length)).map
        (fun p => ((Simd.ofEventList 4 0 1 evs).at 4 0 p).weight)).sum = 4 := by
  refine ⟨[⟨[5], 1, 1⟩, ⟨[6], 1, 1⟩, ⟨[7], 1, 1⟩], by simp, rfl, by norm_num, ?_⟩
  decide +kernel

/-! ### Reading from a tree -/

/-- An event as it is stored in `nF` fields. -/
def stored (nF : Nat) (poison : K) (e : Event K) : Event K :=
  { e with data := (List.range nF).map (e.get poison) }

theorem stored_of_length {nF : Nat} (poison : K) {e : Event K} (h : e.data.length = nF) :
    stored nF poison e = e := by
  have : (List.range nF).map (e.get poison) = e.data := by
    apply List.ext_getElem
    · simp [h]
    · intro i h1 h2
      simp [Event.get, List.getD_eq_getElem?_getD, h2]
  simp [stored, this]

/-- The buffers of the successive blocks. -/
def bufferAt (W : Nat) (poison : K) (tree : List (Event K)) : Nat → List (Event K)
  | 0 => nextBuffer W poison tree (List.replicate W Event.dflt) 0
  | b + 1 => nextBuffer W poison tree (bufferAt W poison tree b) (b + 1)

theorem bufferAt_length (W : Nat) (poison : K) (tree : List (Event K)) (b : Nat) :
    (bufferAt W poison tree b).length = W := by
  cases b <;> simp [bufferAt, nextBuffer]

theorem bufferAt_in {W : Nat} (poison : K) (tree : List (Event K)) (d : Event K) (b k : Nat)
    (hk : k < W) (h : b * W + k < tree.length) :
    (bufferAt W poison tree b).getD k d = tree[b * W + k] := by
  have h' : tree[k + b * W]? = some tree[b * W + k] := by
    rw [Nat.add_comm k]; exact List.getElem?_eq_getElem h
  cases b <;>
    simp only [bufferAt, nextBuffer, List.getD_eq_getElem?_getD, List.getElem?_map,
      List.getElem?_range hk, Option.map_some, Option.getD_some] <;> rw [h']

theorem bufferAt_out {W : Nat} (poison : K) (tree : List (Event K)) (d : Event K) (b k : Nat)
    (hk : k < W) (h : tree.length ≤ b * W + k) :
    ((bufferAt W poison tree b).getD k d).weight = 0 := by
  have h' : tree[k + b * W]? = none := List.getElem?_eq_none (by omega)
  cases b <;>
    simp only [bufferAt, nextBuffer, List.getD_eq_getElem?_getD, List.getElem?_map,
      List.getElem?_range hk, Option.map_some, Option.getD_some] <;> rw [h']

theorem loadFromTree_at {W nF : Nat} (poison : K) (d : Event K) (tree : List (Event K))
    (hW : W ∣ 2 ^ 32) (hn : tree.length + W ≤ 2 ^ 32) (p : Nat)
    (hp : p < alignedSize W tree.length / W * W) :
    (Simd.loadFromTree W poison nF tree).at W poison p =
      stored nF poison ((bufferAt W poison tree (p / W)).getD (p % W) d) := by
  obtain ⟨hW0, hc1, hc2⟩ := blocks_cover hW hn
  have hmake := Valid.make (K := K) W tree.length nF hW0
  have hdef : Simd.loadFromTree W poison nF tree =
      (loadLoop W poison nF tree (alignedSize W tree.length / W)).1 := rfl
  rw [hdef]
  clear hdef
  generalize hB : alignedSize W tree.length / W = nB at hc1 hc2 hp hmake ⊢
  -- the buffer is threaded through the loop
  have hloop : ∀ m, loadLoop W poison nF tree m =
      ((List.range m).foldl (fun s b => s.setBlock b
        (fun j => gather W poison (bufferAt W poison tree b) (fun e => e.get poison j) 0 0)
        (gather W poison (bufferAt W poison tree b) (fun e => e.weight) 0 0)
        (gather W poison (bufferAt W poison tree b) (fun e => e.genPdf) 0 0))
        (Simd.make W tree.length nF),
       match m with
       | 0 => List.replicate W Event.dflt
       | m + 1 => bufferAt W poison tree m) := by
    intro m
    induction m with
    | zero => rfl
    | succ m ih =>
      unfold loadLoop at ih ⊢
      rw [List.range_succ, List.foldl_append, List.foldl_append, ih]
      simp only [List.foldl_cons, List.foldl_nil]
      cases m with
      | zero => rfl
      | succ m => rfl
  rw [hloop nB]
  have hb := fun b => bufferAt_length W poison tree b
  obtain ⟨-, hat⟩ := at_foldBlocks (poison := poison) hmake hW0
    (fun b k => stored nF poison ((bufferAt W poison tree b).getD k d))
    (fun b j => gather W poison (bufferAt W poison tree b) (fun e => e.get poison j) 0 0)
    (fun b => gather W poison (bufferAt W poison tree b) (fun e => e.weight) 0 0)
    (fun b => gather W poison (bufferAt W poison tree b) (fun e => e.genPdf) 0 0) nB (Nat.le_refl _)
    (fun b _ k _ => by simp [stored])
    (fun b _ j hj => by
      rw [gather_full W poison _ _ (hb b) d]
      apply List.map_congr_left
      intro k _
      simp [stored, Event.get, List.getD_eq_getElem?_getD, hj])
    (fun b _ => gather_full W poison _ _ (hb b) d)
    (fun b _ => gather_full W poison _ _ (hb b) d)
  have hpb : p / W < nB := Nat.div_lt_of_lt_mul (by rw [Nat.mul_comm]; exact hp)
  rw [hat p hpb, if_pos hpb]

/-- C07 (round trip, reading from a tree). -/
theorem load_roundtrip {W nF : Nat} (poison : K) (tree : List (Event K))
    (hW : W ∣ 2 ^ 32) (hn : tree.length + W ≤ 2 ^ 32) (hsize : ∀ e ∈ tree, e.data.length = nF)
    (i : Nat) (hi : i < tree.length) :
    (Simd.loadFromTree W poison nF tree).at W poison i = tree[i] := by
  obtain ⟨hW0, hc1, hc2⟩ := blocks_cover hW hn
  have hdm := Nat.div_add_mod' i W
  rw [loadFromTree_at poison tree[i] tree hW hn i (by omega),
    bufferAt_in poison tree _ (i / W) (i % W) (Nat.mod_lt _ hW0) (by omega)]
  simp only [hdm]
  exact stored_of_length poison (hsize _ (List.getElem_mem hi))

/-- C07 (padding, reading from a tree).  Padding lanes carry weight zero, so weighted
sums over all lanes are weighted sums over the events. -/
theorem load_block_sums {R : Type} [Semiring R] [DecidableEq R] {W nF : Nat} (poison : R)
    (tree : List (Event R)) (hW : W ∣ 2 ^ 32) (hn : tree.length + W ≤ 2 ^ 32)
    (hsize : ∀ e ∈ tree, e.data.length = nF) (g : Event R → R) :
    ((List.range (alignedSize W tree.length)).map (fun p =>
      ((Simd.loadFromTree W poison nF tree).at W poison p).weight *
        g ((Simd.loadFromTree W poison nF tree).at W poison p))).sum =
    (tree.map (fun e => e.weight * g e)).sum := by
  obtain ⟨hW0, hc1, hc2⟩ := blocks_cover hW hn
  have hdiv : alignedSize W tree.length / W * W = alignedSize W tree.length :=
    Nat.div_mul_cancel (aligned_size_correct hW hn).2.2
  rw [hdiv] at hc1 hc2
  obtain ⟨k, hk⟩ := Nat.exists_eq_add_of_le hc1
  have hzero : ∀ p, tree.length ≤ p → p < alignedSize W tree.length →
      ((Simd.loadFromTree W poison nF tree).at W poison p).weight = 0 := by
    intro p h1 h2
    rw [loadFromTree_at poison ⟨[], 0, 0⟩ tree hW hn p (by omega)]
    show ((bufferAt W poison tree (p / W)).getD (p % W) _).weight = 0
    exact bufferAt_out poison tree _ _ _ (Nat.mod_lt _ hW0) (by rw [Nat.div_add_mod']; exact h1)
  have hhead : (List.range tree.length).map (fun p =>
      ((Simd.loadFromTree W poison nF tree).at W poison p).weight *
        g ((Simd.loadFromTree W poison nF tree).at W poison p)) =
      tree.map (fun e => e.weight * g e) := by
    apply List.ext_getElem
    · simp
    · intro i h1 h2
      have hi : i < tree.length := by simpa using h1
      simp only [List.getElem_map, List.getElem_range]
      rw [load_roundtrip poison tree hW hn hsize i hi]
  generalize hA : alignedSize W tree.length = A at hk hzero ⊢
  rw [hk, List.range_add, List.map_append, List.sum_append, hhead, List.map_map]
  have : ((List.range k).map ((fun p =>
      ((Simd.loadFromTree W poison nF tree).at W poison p).weight *
        g ((Simd.loadFromTree W poison nF tree).at W poison p)) ∘ fun x => tree.length + x)).sum = 0 := by
    apply List.sum_eq_zero
    intro x hx
    obtain ⟨j, hj, rfl⟩ := List.mem_map.mp hx
    have hj := List.mem_range.mp hj
    simp only [Function.comp]
    rw [hzero _ (by omega) (by omega), zero_mul]
  rw [this, add_zero]

/-- With fewer events than lanes the coordinates of the padding are read out of
bounds: they depend on `poison`. -/
theorem load_out_of_bounds_counterexample :
    ∃ (tree : List (Event ℚ)) (x y : ℚ) (p : Nat), (∀ e ∈ tree, e.data.length = 1) ∧
      (Simd.loadFromTree 4 x 1 tree).at 4 x p ≠ (Simd.loadFromTree 4 y 1 tree).at 4 y p ∧
      p < alignedSize 4 tree.length := by
  refine ⟨[⟨[5], 1, 1⟩], 0, 1, 2, by simp, ?_, ?_⟩ <;> decide +kernel

/-! ### Transforming events in place -/

/-- C07 (iteration).  `transform( f )` on a packed list applies `f` to every event. -/
theorem simd_transform {W nF : Nat} [NeZero (1 : K)] (poison : K) (evs : List (Event K))
    (hW : W ∣ 2 ^ 32) (hn : evs.length + W ≤ 2 ^ 32) (hsize : ∀ e ∈ evs, e.data.length = nF)
    (f : Event K → Event K) (hf : ∀ e, e.data.length = nF → (f e).data.length = nF)
    (i : Nat) (hi : i < evs.length) :
    ((Simd.ofEventList W poison nF evs).transform W poison f).at W poison i = f evs[i] := by
  obtain ⟨hW0, hc1, hc2⟩ := blocks_cover hW hn
  obtain ⟨hv, hent, hat⟩ := ofEventList_at poison evs[i] evs hW hn hsize
  have hib : i / W < alignedSize W evs.length / W :=
    Nat.div_lt_of_lt_mul (by rw [Nat.mul_comm]; omega)
  generalize alignedSize W evs.length / W = nB at hc1 hc2 hv hat hib
  obtain ⟨-, hh⟩ := transformLoop_at (poison := poison) hW0 f hf evs[i] evs.length 0
    ((Simd.ofEventList W poison nF evs).scatter W poison 0) _ hv (by simp [Simd.scatter]) (by omega)
    (by
      intro _ k hk
      rw [scatter_getD _ _ _ hk]
      exact at_length hv _)
    (by
      intro k _ _ hk
      exact scatter_getD _ _ _ hk _)
  unfold Simd.transform
  rw [hent, hh i hib, if_neg (by simp), if_pos (by omega),
    simd_roundtrip poison evs hW hn hsize i hi]

/-- When the events fill whole blocks, the iterator reads one block past the end:
the buffer it loads last depends on `poison`. -/
theorem simd_iterator_past_end_counterexample :
    ∃ (evs : List (Event ℚ)) (x y : ℚ), (∀ e ∈ evs, e.data.length = 1) ∧
      (Simd.ofEventList 4 x 1 evs).scatter 4 x evs.length ≠
        (Simd.ofEventList 4 y 1 evs).scatter 4 y evs.length := by
  refine ⟨[⟨[5], 1, 1⟩, ⟨[6], 1, 1⟩, ⟨[7], 1, 1⟩, ⟨[8], 1, 1⟩], 0, 1, by simp, ?_⟩
  decide +kernel

/-- The hypotheses, for five events of two coordinates in blocks of four. -/
def demoEvents : List (Event ℚ) :=
  [⟨[1, 2], 1, 3⟩, ⟨[3, 4], 2, 1⟩, ⟨[5, 6], 3, 1⟩, ⟨[7, 8], 4, 1⟩, ⟨[9, 10], 5, 1⟩]

example : (4 : Nat) ∣ 2 ^ 32 ∧ demoEvents.length + 4 ≤ 2 ^ 32 ∧
    (∀ e ∈ demoEvents, e.data.length = 2) ∧
    (Simd.ofEventList 4 0 2 demoEvents).at 4 0 4 = ⟨[9, 10], 5, 1⟩ := by decide +kernel

end AmpGen.Store
