import Verif.Store.Simd
import Verif.Store.Lemmas
/-
Lemmas about event lists in blocks.
-/
namespace AmpGen.Store

set_option linter.unusedSectionVars false

variable {K : Type} [Zero K] [One K] [DecidableEq K]

/-- The list has room for `nB` blocks of `nF` fields. -/
structure Valid (s : Simd K) (nB nF : Nat) : Prop where
  shape : Shape s.data nB nF s.data.index
  w : nB ≤ s.weights.length
  g : nB ≤ s.genPDF.length

theorem Valid.setBlock {s : Simd K} {nB nF} (h : Valid s nB nF) (b : Nat) (field : Nat → List K)
    (w g : List K) : Valid (s.setBlock b field w g) nB nF := by
  have h1 := Shape.storeItems .aoS b (List.range s.data.nFields)
    ((List.range s.data.nFields).map field) h.shape
  refine ⟨⟨h1.1, h1.2.1, rfl, h1.2.2.2⟩, ?_, ?_⟩
  · simpa [Simd.setBlock] using h.w
  · simpa [Simd.setBlock] using h.g

theorem lane_map (poison : K) (W q : Nat) (hq : q < W) (f : Nat → K) :
    lane poison (some ((List.range W).map f)) q = f q := by
  simp [lane, List.getD_eq_getElem?_getD, hq]

/-- Reading any position after a block has been assigned. -/
theorem at_setBlock {W nB nF : Nat} {poison : K} {s : Simd K} (hv : Valid s nB nF) (hW : 0 < W)
    {b pos : Nat} (hb : b < nB) (hp : pos / W < nB) (L : Nat → Event K)
    (hL : ∀ k, k < W → (L k).data.length = nF)
    (field : Nat → List K) (w g : List K)
    (hfield : ∀ j, j < nF → field j = (List.range W).map (fun k => (L k).get poison j))
    (hw : w = (List.range W).map (fun k => (L k).weight))
    (hg : g = (List.range W).map (fun k => (L k).genPdf)) :
    (s.setBlock b field w g).at W poison pos =
      if pos / W = b then L (pos % W) else s.at W poison pos := by
  have hq : pos % W < W := Nat.mod_lt _ hW
  have hnf : s.data.nFields = nF := hv.shape.2.1
  have hnf' : (s.setBlock b field w g).data.nFields = nF := (hv.setBlock b field w g).shape.2.1
  have hread : ∀ i, i < nF → (s.setBlock b field w g).data.read .aoS (pos / W) i =
      if pos / W = b then some (field i) else s.data.read .aoS (pos / W) i := by
    intro i hi
    obtain ⟨r1, r2⟩ := read_storeItems .aoS hb hp hi (List.range nF) (s := s.data)
      ((List.range nF).map field) hv.shape (by simp) List.nodup_range (by simp)
    have e : (s.setBlock b field w g).data =
        s.data.storeItems .aoS b (List.range nF) ((List.range nF).map field) := by
      simp only [Simd.setBlock, hnf]
    rw [e]
    split
    · rename_i hpb
      rw [r1 i hpb (by simp [hi])]
      simp [hi]
    · rename_i hpb
      exact r2 (Or.inl hpb)
  have hw' : (s.setBlock b field w g).weights[pos / W]? =
      if pos / W = b then some w else s.weights[pos / W]? := by
    simp only [Simd.setBlock, List.getElem?_set]
    have := hv.w
    by_cases h : b = pos / W
    · rw [if_pos h, if_pos (by omega), if_pos h.symm]
    · rw [if_neg h, if_neg (Ne.symm h)]
  have hg' : (s.setBlock b field w g).genPDF[pos / W]? =
      if pos / W = b then some g else s.genPDF[pos / W]? := by
    simp only [Simd.setBlock, List.getElem?_set]
    have := hv.g
    by_cases h : b = pos / W
    · rw [if_pos h, if_pos (by omega), if_pos h.symm]
    · rw [if_neg h, if_neg (Ne.symm h)]
  by_cases h : pos / W = b
  · rw [if_pos h]
    unfold Simd.at
    have ew : lane poison (some w) (pos % W) = (L (pos % W)).weight := by
      rw [hw]; exact lane_map poison W _ hq _
    have eg : lane poison (some g) (pos % W) = (L (pos % W)).genPdf := by
      rw [hg]; exact lane_map poison W _ hq _
    rw [hw', hg', if_pos h, if_pos h, ew, eg, hnf']
    have hd : (List.range nF).map (fun i =>
        lane poison ((s.setBlock b field w g).data.read .aoS (pos / W) i) (pos % W)) =
        (L (pos % W)).data := by
      apply List.ext_getElem
      · simp [hL _ hq]
      · intro i h1 h2
        have hi : i < nF := by simpa using h1
        simp only [List.getElem_map, List.getElem_range]
        rw [hread i hi, if_pos h, hfield i hi, lane_map poison W _ hq]
        simp [Event.get, List.getD_eq_getElem?_getD, h2]
    rw [hd]
  · rw [if_neg h]
    unfold Simd.at
    rw [hw', hg', if_neg h, if_neg h, hnf', hnf]
    congr 1
    apply List.map_congr_left
    intro i hi
    rw [hread i (by simpa using hi), if_neg h]

theorem gather_full (W : Nat) (poison : K) (buffer : List (Event K)) (fn : Event K → K)
    (hlen : buffer.length = W) (d : Event K) :
    gather W poison buffer fn 0 0 = (List.range W).map (fun k => fn (buffer.getD k d)) := by
  unfold gather
  apply List.map_congr_left
  intro k hk
  have hk : k < W := by simpa using hk
  rw [if_pos rfl, if_pos (by omega)]
  have : buffer[0 + k]? = some (buffer[k]'(by omega)) := by
    rw [Nat.zero_add]; exact List.getElem?_eq_getElem _
  rw [this]
  simp [List.getD_eq_getElem?_getD, hlen, hk]

theorem Valid.gatherBlock {W : Nat} {poison : K} {s : Simd K} {nB nF} (h : Valid s nB nF)
    (buffer : List (Event K)) (b : Nat) : Valid (s.gatherBlock W poison buffer b) nB nF :=
  h.setBlock _ _ _ _

theorem at_gatherBlock {W nB nF : Nat} {poison : K} {s : Simd K} (hv : Valid s nB nF) (hW : 0 < W)
    {b pos : Nat} (hb : b < nB) (hp : pos / W < nB) (buffer : List (Event K)) (d : Event K)
    (hlen : buffer.length = W) (hL : ∀ k, k < W → (buffer.getD k d).data.length = nF) :
    (s.gatherBlock W poison buffer b).at W poison pos =
      if pos / W = b then buffer.getD (pos % W) d else s.at W poison pos :=
  at_setBlock hv hW hb hp (fun k => buffer.getD k d) hL _ _ _
    (fun _ _ => gather_full W poison buffer _ hlen d) (gather_full W poison buffer _ hlen d)
    (gather_full W poison buffer _ hlen d)

theorem Valid.make (W n nF : Nat) (hW : 0 < W) :
    Valid (Simd.make W n nF : Simd K) (alignedSize W n / W) nF := by
  refine ⟨⟨rfl, rfl, rfl, by simp [Simd.make]⟩, ?_, ?_⟩ <;>
    simp only [Simd.make, List.length_replicate] <;>
    exact Nat.le_mul_of_pos_right _ hW

/-- Assigning the blocks `0 … m - 1` one after the other. -/
theorem at_foldBlocks {W nB nF : Nat} {poison : K} {s : Simd K} (hv : Valid s nB nF) (hW : 0 < W)
    (L : Nat → Nat → Event K) (field : Nat → Nat → List K) (w g : Nat → List K) (m : Nat)
    (hm : m ≤ nB)
    (hL : ∀ b, b < m → ∀ k, k < W → (L b k).data.length = nF)
    (hfield : ∀ b, b < m → ∀ j, j < nF →
      field b j = (List.range W).map (fun k => (L b k).get poison j))
    (hw : ∀ b, b < m → w b = (List.range W).map (fun k => (L b k).weight))
    (hg : ∀ b, b < m → g b = (List.range W).map (fun k => (L b k).genPdf)) :
    Valid ((List.range m).foldl (fun s b => s.setBlock b (field b) (w b) (g b)) s) nB nF ∧
    ∀ pos, pos / W < nB →
      ((List.range m).foldl (fun s b => s.setBlock b (field b) (w b) (g b)) s).at W poison pos =
        if pos / W < m then L (pos / W) (pos % W) else s.at W poison pos := by
  induction m with
  | zero => exact ⟨hv, by simp⟩
  | succ m ih =>
    obtain ⟨v, h⟩ := ih (by omega) (fun b hb => hL b (by omega)) (fun b hb => hfield b (by omega))
      (fun b hb => hw b (by omega)) (fun b hb => hg b (by omega))
    rw [List.range_succ, List.foldl_append]
    simp only [List.foldl_cons, List.foldl_nil]
    refine ⟨v.setBlock _ _ _ _, ?_⟩
    intro pos hp
    rw [at_setBlock v hW (b := m) (by omega) hp (L m) (hL m (by omega)) _ _ _ (hfield m (by omega))
      (hw m (by omega)) (hg m (by omega)), h pos hp]
    by_cases h1 : pos / W = m
    · rw [if_pos h1, if_pos (by omega), h1]
    · rw [if_neg h1]
      by_cases h2 : pos / W < m
      · rw [if_pos h2, if_pos (by omega)]
      · rw [if_neg h2, if_neg (by omega)]

/-! ### Iteration -/

theorem scatter_getD {W : Nat} {poison : K} (s : Simd K) (pos k : Nat) (hk : k < W) (d : Event K) :
    (s.scatter W poison pos).getD k d = s.at W poison (pos / W * W + k) := by
  have h1 : (pos / W * W + k) / W = pos / W := by
    rw [Nat.mul_comm, Nat.mul_add_div (by omega), Nat.div_eq_of_lt hk, Nat.add_zero]
  have h2 : (pos / W * W + k) % W = k := by
    rw [Nat.mul_comm, Nat.mul_add_mod, Nat.mod_eq_of_lt hk]
  unfold Simd.scatter Simd.at
  rw [h1, h2]
  simp [List.getD_eq_getElem?_getD, hk]

theorem at_length {W : Nat} {poison : K} {s : Simd K} {nB nF} (hv : Valid s nB nF) (pos : Nat) :
    (s.at W poison pos).data.length = nF := by
  simp [Simd.at, hv.shape.2.1]

theorem modify_getD (l : List (Event K)) (i k : Nat) (f : Event K → Event K) (d : Event K)
    (hi : i < l.length) :
    (l.modify i f).getD k d = if k = i then f (l.getD k d) else l.getD k d := by
  simp only [List.getD_eq_getElem?_getD, List.getElem?_modify]
  by_cases h : i = k
  · subst h
    simp [hi]
  · simp [h, Ne.symm h]

theorem transformLoop_at {W nB nF : Nat} {poison : K} (hW : 0 < W) (fcn : Event K → Event K)
    (hf : ∀ e, e.data.length = nF → (fcn e).data.length = nF) (d : Event K) (m : Nat) :
    ∀ (pos : Nat) (buffer : List (Event K)) (s : Simd K), Valid s nB nF →
    buffer.length = W → pos + m ≤ nB * W →
    (pos / W < nB → ∀ k, k < W → (buffer.getD k d).data.length = nF) →
    (∀ k, pos / W < nB → pos % W ≤ k → k < W → buffer.getD k d = s.at W poison (pos / W * W + k)) →
    Valid (s.transformLoop W poison fcn m pos buffer) nB nF ∧
    ∀ i, i / W < nB → (s.transformLoop W poison fcn m pos buffer).at W poison i =
      if i / W = pos / W ∧ i % W < pos % W then buffer.getD (i % W) d
      else if pos ≤ i ∧ i < pos + m then fcn (s.at W poison i) else s.at W poison i := by
  induction m with
  | zero =>
    intro pos buffer s hv hlen hpos hbl hbuf
    unfold Simd.transformLoop
    have e0 : ∀ i, ¬ (pos ≤ i ∧ i < pos + 0) := by intro i; omega
    split
    · rename_i hp
      have hpB : pos / W < nB := by
        rcases Nat.lt_or_ge (pos / W) nB with h | h
        · exact h
        · exfalso
          have h1 := Nat.div_add_mod pos W
          have h2 : W * nB ≤ W * (pos / W) := Nat.mul_le_mul_left _ h
          have h3 : W * nB = nB * W := Nat.mul_comm _ _
          omega
      refine ⟨hv.gatherBlock _ _, fun i hi => ?_⟩
      rw [at_gatherBlock hv hW hpB hi buffer d hlen (hbl hpB), if_neg (e0 i)]
      by_cases h : i / W = pos / W
      · rw [if_pos h]
        by_cases h2 : i % W < pos % W
        · rw [if_pos ⟨h, h2⟩]
        · rw [if_neg (by omega), hbuf _ hpB (by omega) (Nat.mod_lt _ hW), ← h, Nat.div_add_mod']
      · rw [if_neg h, if_neg (fun hh => h hh.1)]
    · rename_i hp
      refine ⟨hv, fun i hi => ?_⟩
      rw [if_neg (by omega), if_neg (e0 i)]
  | succ m ih =>
    intro pos buffer s hv hlen hpos hbl hbuf
    unfold Simd.transformLoop
    simp only
    have hq : pos % W < W := Nat.mod_lt _ hW
    have hdm := Nat.div_add_mod pos W
    have hpB : pos / W < nB := Nat.div_lt_of_lt_mul (by rw [Nat.mul_comm]; omega)
    have hmod : ∀ k, (buffer.modify (pos % W) fcn).getD k d =
        if k = pos % W then fcn (buffer.getD k d) else buffer.getD k d :=
      fun k => modify_getD buffer (pos % W) k fcn d (by omega)
    have hmodlen : ∀ k, k < W → ((buffer.modify (pos % W) fcn).getD k d).data.length = nF := by
      intro k hk
      rw [hmod]
      split
      · exact hf _ (hbl hpB k hk)
      · exact hbl hpB k hk
    split
    · rename_i hend
      have hv' := hv.gatherBlock (W := W) (poison := poison) (buffer.modify (pos % W) fcn)
        ((pos + 1 - 1) / W)
      have hdiv : (pos + 1) / W = pos / W + 1 := by
        rw [Nat.succ_div]
        rw [if_pos (Nat.dvd_of_mod_eq_zero hend)]
      have hlast : pos % W = W - 1 := by
        have h1 := Nat.div_add_mod (pos + 1) W
        rw [hdiv, hend, Nat.mul_add] at h1
        omega
      obtain ⟨hvv, hh⟩ := ih (pos + 1) (Simd.scatter W poison (s.gatherBlock W poison
          (buffer.modify (pos % W) fcn) ((pos + 1 - 1) / W)) (pos + 1)) _ hv'
        (by simp [Simd.scatter]) (by omega)
        (by
          intro _ k hk
          rw [scatter_getD _ _ _ hk]
          exact at_length hv' _)
        (by
          intro k _ _ hk
          exact scatter_getD _ _ _ hk d)
      refine ⟨hvv, fun i hi => ?_⟩
      rw [hh i hi, hend, if_neg (by omega),
        at_gatherBlock hv hW (by simpa using hpB) hi _ d (by simpa using hlen) hmodlen]
      simp only [Nat.add_sub_cancel]
      have hdi := Nat.div_add_mod i W
      have hqi : i % W < W := Nat.mod_lt _ hW
      by_cases h : i / W = pos / W
      · -- the block that has just been written
        rw [if_pos h]
        rw [h] at hdi
        rw [if_neg (by omega), hmod]
        by_cases h2 : i % W < pos % W
        · rw [if_neg (by omega), if_pos ⟨h, h2⟩]
        · have h3 : i % W = pos % W := by omega
          rw [if_pos h3, if_neg (by omega), if_pos (by omega), hbuf _ hpB (by omega) hqi, ← h,
            Nat.div_add_mod']
      · have hn : ¬ (i / W = pos / W ∧ i % W < pos % W) := fun hh => h hh.1
        rw [if_neg h, if_neg hn]
        have : (pos + 1 ≤ i ∧ i < pos + 1 + m) ↔ (pos ≤ i ∧ i < pos + (m + 1)) := by
          constructor
          · intro h; omega
          · rintro ⟨h1, h2⟩
            refine ⟨?_, by omega⟩
            rcases Nat.lt_or_ge pos i with h3 | h3
            · exact h3
            · have : i = pos := by omega
              exact absurd (by rw [this]) h
        simp only [this]
    · rename_i hend
      have hdiv : (pos + 1) / W = pos / W := by
        rw [Nat.succ_div, if_neg (fun h => hend (Nat.mod_eq_zero_of_dvd h)), Nat.add_zero]
      have hmd : (pos + 1) % W = pos % W + 1 := by
        have h1 := Nat.div_add_mod (pos + 1) W
        rw [hdiv] at h1
        omega
      obtain ⟨hvv, hh⟩ := ih (pos + 1) (buffer.modify (pos % W) fcn) s hv (by simpa using hlen)
        (by omega) (fun _ => hmodlen)
        (by
          intro k h1 h2 h3
          rw [hmod, if_neg (by omega), hdiv]
          exact hbuf k hpB (by omega) h3)
      refine ⟨hvv, fun i hi => ?_⟩
      rw [hh i hi, hdiv, hmd]
      have hdi := Nat.div_add_mod i W
      have hqi : i % W < W := Nat.mod_lt _ hW
      by_cases h : i / W = pos / W
      · rw [h] at hdi
        by_cases h2 : i % W < pos % W
        · rw [if_pos ⟨h, by omega⟩, if_pos ⟨h, h2⟩, hmod, if_neg (by omega)]
        · by_cases h3 : i % W = pos % W
          · rw [if_pos ⟨h, by omega⟩, if_neg (by omega), if_pos (by omega), hmod, if_pos h3,
              hbuf _ hpB (by omega) hqi, ← h, Nat.div_add_mod']
          · have hn1 : ¬ (i / W = pos / W ∧ i % W < pos % W + 1) := by omega
            have hn2 : ¬ (i / W = pos / W ∧ i % W < pos % W) := by omega
            rw [if_neg hn1, if_neg hn2]
            have : (pos + 1 ≤ i ∧ i < pos + 1 + m) ↔ (pos ≤ i ∧ i < pos + (m + 1)) := by
              constructor <;> intro h <;> omega
            simp only [this]
      · have hn1 : ¬ (i / W = pos / W ∧ i % W < pos % W + 1) := fun hh => h hh.1
        have hn2 : ¬ (i / W = pos / W ∧ i % W < pos % W) := fun hh => h hh.1
        rw [if_neg hn1, if_neg hn2]
        have : (pos + 1 ≤ i ∧ i < pos + 1 + m) ↔ (pos ≤ i ∧ i < pos + (m + 1)) := by
          constructor
          · intro h; omega
          · rintro ⟨h1, h2⟩
            refine ⟨?_, by omega⟩
            rcases Nat.lt_or_ge pos i with h3 | h3
            · exact h3
            · have : i = pos := by omega
              exact absurd (by rw [this]) h
        simp only [this]

end AmpGen.Store
