import Verif.Store.Lemmas
/-
Property theorems about the function cache (C06).
-/
namespace AmpGen.Store

variable {V : Type}

/-- C06 (sizes).  Storage for `n` entries in blocks of `W` lanes is rounded up to
whole blocks, for every `n` below the 32 bit limit, including 0. -/
theorem aligned_size_correct {W n : Nat} (hW : W ∣ 2 ^ 32) (hn : n + W ≤ 2 ^ 32) :
    n ≤ alignedSize W n ∧ alignedSize W n < n + W ∧ W ∣ alignedSize W n := by
  have hW0 : 0 < W := Nat.pos_of_dvd_of_pos hW (by positivity)
  rw [alignedSize_eq hW hn]
  have h1 := Nat.div_add_mod (n + (W - 1)) W
  have h2 := Nat.mod_lt (n + (W - 1)) hW0
  exact ⟨by omega, by omega, Dvd.intro _ rfl⟩

example : (4 : Nat) ∣ 2 ^ 32 ∧ 1001 + 4 ≤ 2 ^ 32 ∧ alignedSize 4 1001 = 1004 := by decide +kernel

/-- Beyond that limit no storage is allocated: `2 ^ 32` events need no block. -/
theorem aligned_size_counterexample : alignedSize 4 (2 ^ 32) = 0 := by decide +kernel

/-- C06 (layout).  In both layouts different (block, field) pairs have different
cells, all inside the buffer. -/
theorem cells_bijective (a : Alignment) (nB nF : Nat) :
    (∀ b f, b < nB → f < nF → cell a nB nF b f < nB * nF) ∧
    (∀ b f b' f', b < nB → f < nF → b' < nB → f' < nF →
      cell a nB nF b f = cell a nB nF b' f' → b = b' ∧ f = f') ∧
    (∀ p, p < nB * nF → ∃ b f, b < nB ∧ f < nF ∧ cell a nB nF b f = p) := by
  refine ⟨fun b f => cell_lt a, fun b f b' f' => cell_inj a, ?_⟩
  intro p hp
  have hB : 0 < nB := Nat.pos_of_ne_zero (by rintro rfl; simp at hp)
  have hF : 0 < nF := Nat.pos_of_ne_zero (by rintro rfl; simp at hp)
  cases a
  · refine ⟨p % nB, p / nB, Nat.mod_lt _ hB, ?_, ?_⟩
    · exact Nat.div_lt_of_lt_mul hp
    · show p / nB * nB + p % nB = p
      rw [Nat.mul_comm]; exact Nat.div_add_mod p nB
  · refine ⟨p / nF, p % nF, ?_, Nat.mod_lt _ hF, ?_⟩
    · exact Nat.div_lt_of_lt_mul (by rwa [Nat.mul_comm])
    · show p / nF * nF + p % nF = p
      rw [Nat.mul_comm]; exact Nat.div_add_mod p nF

/-- C06 (registration).  Whatever is registered, the fields of different functors are
disjoint and inside the allocated fields, a functor owns as many fields as its first
registration asked for, and registering more functors moves none of them. -/
theorem functor_fields (fs later : List (String × Nat)) (name : String) (k : Nat)
    (hk : sizeOf fs name = some k) :
    ∃ l, (fs.foldl Store.addFunctor (Store.empty : Store V)).index.lookup name = some l ∧
      l.length = k ∧ l.Nodup ∧
      (∀ f ∈ l, f < (fs.foldl Store.addFunctor (Store.empty : Store V)).nFields) ∧
      (later.foldl Store.addFunctor (fs.foldl Store.addFunctor (Store.empty : Store V))).index.lookup
        name = some l ∧
      (∀ name' l', (later.foldl Store.addFunctor
          (fs.foldl Store.addFunctor (Store.empty : Store V))).index.lookup name' = some l' →
        name' ≠ name → ∀ f ∈ l', f ∉ l) := by
  have hi : Indexed (fs.foldl Store.addFunctor (Store.empty : Store V)).index
      (fs.foldl Store.addFunctor (Store.empty : Store V)).nFields := Indexed.addFunctors fs .nil
  obtain ⟨l, hl, hlen⟩ := addFunctors_lookup (V := V) fs (s := Store.empty) rfl hk
  refine ⟨l, hl, hlen, (hi.range hl).2, (hi.range hl).1, addFunctors_keeps later hl, ?_⟩
  intro name' l' hl' hne f hf hf'
  exact hne ((Indexed.addFunctors later hi).disjoint hl' (addFunctors_keeps later hl) hf hf')

example : sizeOf [("f", 2), ("g", 4), ("f", 7)] "f" = some 2 := by decide +kernel

/-- C06 (history).  After allocation for any set of functors and any sequence of
updates, each of which may visit the blocks in any order, every functor reads back,
for every block and component, the value stored by its own last update. -/
theorem cache_history [Inhabited V] (a : Alignment) (W n : Nat) (fs : List (String × Nat))
    (us : List (Update V))
    (hus : ∀ u ∈ us, ∃ k, sizeOf fs u.name = some k ∧
      u.order.Perm (List.range (alignedSize W n / W)) ∧
      ∀ b, b < alignedSize W n / W → (u.fcn b).length = k) :
    ∃ s, runUpdates a ((Store.empty : Store V).allocate W n fs) us = some s ∧
      ∀ name k, sizeOf fs name = some k → ∃ l, s.index.lookup name = some l ∧ l.length = k ∧
        ∀ c f, l[c]? = some f → ∀ b, b < alignedSize W n / W →
          s.read a b f = expected default us name b c := by
  obtain ⟨nF, idx, hsh, hidx, hix⟩ := Shape.allocate (V := V) W n fs
  have hlook : ∀ name k, sizeOf fs name = some k → ∃ l, idx.lookup name = some l ∧ l.length = k := by
    intro name k hk
    rw [hix]
    exact addFunctors_lookup fs rfl hk
  have hst : ((Store.empty : Store V).allocate W n fs).store =
      List.replicate (alignedSize W n / W *
        (fs.foldl Store.addFunctor (Store.empty : Store V)).nFields) default := by
    have hv : ∀ m, vecResize ([] : List V) m = List.replicate m default := by
      intro m; simp [vecResize]
    rw [← hv]
    show vecResize (fs.foldl Store.addFunctor (Store.empty : Store V)).store _ = _
    rw [foldl_addFunctor_store]
    rfl
  generalize hS : (Store.empty : Store V).allocate W n fs = S0 at hsh hst ⊢
  generalize hB : alignedSize W n / W = nB at hus hsh hst ⊢
  -- generalise over the table held so far
  have key : ∀ (us : List (Update V)) (s : Store V) (T : String → Nat → Nat → Option V),
      Shape s (nB) nF idx →
      (∀ u ∈ us, ∃ k, sizeOf fs u.name = some k ∧
        u.order.Perm (List.range (nB)) ∧
        ∀ b, b < nB → (u.fcn b).length = k) →
      (∀ name l c f b, idx.lookup name = some l → l[c]? = some f → b < nB →
        s.read a b f = T name b c) →
      ∃ s', runUpdates a s us = some s' ∧ Shape s' (nB) nF idx ∧
        ∀ name l c f b, idx.lookup name = some l → l[c]? = some f → b < nB →
          s'.read a b f = match us.reverse.find? (fun u => u.name == name) with
            | some u => (u.fcn b)[c]?
            | none => T name b c := by
    intro us
    induction us with
    | nil => intro s T hs _ hT; exact ⟨s, rfl, hs, by simpa using hT⟩
    | cons u us ih =>
      intro s T hs hu hT
      obtain ⟨k, hk, hperm, hlen⟩ := hu u (by simp)
      obtain ⟨lu, hlu, hluk⟩ := hlook _ _ hk
      obtain ⟨hrange, hnd⟩ := hidx.range hlu
      have hmem : ∀ b, b ∈ u.order ↔ b < nB := by
        intro b; rw [hperm.mem_iff, List.mem_range]
      obtain ⟨hs2, hr⟩ := fold_storeItems a lu u.fcn hrange hnd u.order hs
        (hperm.nodup_iff.mpr List.nodup_range)
        (fun b hb => ⟨(hmem b).mp hb, by rw [hlen b ((hmem b).mp hb), hluk]⟩)
      obtain ⟨s', hrun, hs', hfin⟩ := ih _ (fun name b c => if name = u.name then (u.fcn b)[c]?
        else T name b c) hs2 (fun v hv => hu v (by simp [hv])) (by
          intro name l c f b hl hf hb
          have hfl : f ∈ l := List.mem_of_getElem? hf
          have hfn : f < nF := (hidx.range hl).1 f hfl
          obtain ⟨r1, r2⟩ := hr b f hb hfn
          by_cases hname : name = u.name
          · subst hname
            rw [hlu] at hl
            cases hl
            rw [if_pos rfl]
            exact r1 c ((hmem b).mpr hb) hf
          · rw [if_neg hname, r2 (Or.inr ?_)]
            · exact hT name l c f b hl hf hb
            · intro hm
              exact hname (hidx.disjoint hl hlu hfl hm))
      refine ⟨s', ?_, hs', ?_⟩
      · unfold runUpdates Store.update
        rw [hs.2.2.1, hlu]
        exact hrun
      · intro name l c f b hl hf hb
        rw [hfin name l c f b hl hf hb, List.reverse_cons, List.find?_append]
        cases us.reverse.find? (fun u => u.name == name) with
        | some w => simp
        | none =>
          by_cases hname : name = u.name
          · subst hname; simp
          · have : (u.name == name) = false := by simpa using Ne.symm hname
            simp [this, hname]
  obtain ⟨s', hrun, hs', hfin⟩ := key us _ (fun _ _ _ => some default) hsh hus (by
    intro name l c f b hl hf hb
    have hfn : f < nF := (hidx.range hl).1 f (List.mem_of_getElem? hf)
    obtain ⟨v, hv⟩ := hsh.read_some a hb hfn
    rw [hv]
    unfold Store.read at hv
    rw [hst] at hv
    rw [List.getElem?_replicate] at hv
    split at hv
    · exact hv.symm
    · cases hv)
  refine ⟨s', hrun, ?_⟩
  intro name k hk
  obtain ⟨l, hl, hlk⟩ := hlook name k hk
  refine ⟨l, by rw [hs'.2.2.1]; exact hl, hlk, ?_⟩
  intro c f hf b hb
  rw [hfin name l c f b hl hf hb]
  rfl

/-- The compiled batch loop over blocks stores exactly what the loop over single
events stores: pointer offsets and strides agree with the layout. -/
theorem batch_update_eq (a : Alignment) (s : Store V) (name : String) (fcn : Nat → List V)
    (order : List Nat) : s.updateBatch a name fcn order = s.update a name fcn order := by
  have step : ∀ (fs : List Nat) (vs : List V) (s : Store V) (b : Nat),
      (s.storeItems a b fs vs) = { s with store := (writeRaw s.store (fieldStagger a s.nFields * b)
        (fs.map (fun o => o * stagger a s.nBlocks)) vs) } := by
    intro fs
    induction fs with
    | nil => intro vs s b; simp [Store.storeItems, writeRaw]
    | cons f fs ih =>
      intro vs s b
      cases vs with
      | nil => simp [Store.storeItems, writeRaw]
      | cons v vs =>
        simp only [Store.storeItems, List.map_cons, writeRaw]
        rw [ih]
        have hc : cell a s.nBlocks s.nFields b f =
            fieldStagger a s.nFields * b + f * stagger a s.nBlocks := by
          cases a
          · show f * s.nBlocks + b = 1 * b + f * s.nBlocks
            omega
          · show b * s.nFields + f = s.nFields * b + f * 1
            rw [Nat.mul_comm]; omega
        simp only [Store.write, hc]
  unfold Store.updateBatch Store.update
  congr 1
  funext fs
  induction order generalizing s with
  | nil => rfl
  | cons b order ih =>
    simp only [List.foldl_cons]
    rw [← ih (s.storeItems a b fs (fcn b)), step]

/-- The same for functions that return one value. -/
theorem batch_value_update_eq (a : Alignment) (s : Store V) (name : String) (fcn : Nat → V)
    (order : List Nat) (f0 : Nat) (h : s.index.lookup name = some [f0]) :
    s.updateBatchValue a name fcn order = s.update a name (fun b => [fcn b]) order := by
  rw [← batch_update_eq]
  unfold Store.updateBatchValue Store.updateBatch
  rw [h]
  simp only [Option.bind_some, List.head?_cons, Option.map_some, List.map_cons, List.map_nil]
  congr 2
  generalize s.store = l
  induction order generalizing l with
  | nil => rfl
  | cons b order ih =>
    simp only [List.foldl_cons, writeRaw]
    rw [Nat.add_comm]
    exact ih _

/-- Growing a cache keeps the stored values in the field-by-field layout. -/
theorem soA_grow_keeps [Inhabited V] (W : Nat) (s : Store V) (entries : Nat)
    (fs : List (String × Nat)) (hb : alignedSize W entries / W = s.nBlocks)
    (hlen : s.store.length = s.nBlocks * s.nFields)
    (b f : Nat) (hbb : b < s.nBlocks) (hf : f < s.nFields) :
    (s.allocate W entries fs).read .soA b f = s.read .soA b f := by
  have hn : s.nFields ≤ (fs.foldl Store.addFunctor s).nFields := by
    clear hlen hf hb hbb
    induction fs generalizing s with
    | nil => exact Nat.le_refl _
    | cons g fs ih =>
      refine Nat.le_trans ?_ (ih (s.addFunctor g))
      unfold Store.addFunctor
      split
      · exact Nat.le_refl _
      · exact Nat.le_add_right _ _
  have hc : f * s.nBlocks + b < s.store.length := by rw [hlen]; exact cell_lt .soA hbb hf
  unfold Store.read Store.allocate Store.resize
  simp only [hb, foldl_addFunctor_store, vecResize, cell]
  have hle : s.nBlocks * s.nFields ≤ s.nBlocks * (fs.foldl Store.addFunctor s).nFields :=
    Nat.mul_le_mul_left _ hn
  rw [List.take_of_length_le (by omega), List.getElem?_append_left hc]

/-- In the event-by-event layout it does not: after adding a second functor the
first one reads back a value stored for another event. -/
theorem aoS_grow_counterexample :
    ∃ (s : Store Nat) (fs : List (String × Nat)) (b f : Nat), b < s.nBlocks ∧ f < s.nFields ∧
      s.store.length = s.nBlocks * s.nFields ∧
      (s.allocate 1 s.nEntries fs).read .aoS b f ≠ s.read .aoS b f :=
  ⟨⟨2, 2, 1, [10, 20], [("f", [0])]⟩, [("g", 1)], 1, 0, by decide +kernel⟩

/-- A concrete history: two functors, three updates in different orders. -/
def demoUpdates : List (Update Nat) :=
  [⟨"f", fun b => [b, b + 10], [0, 1, 2]⟩, ⟨"g", fun b => [b + 100], [2, 0, 1]⟩,
    ⟨"f", fun b => [b + 1000, b + 2000], [1, 2, 0]⟩]

example : (runUpdates .aoS ((Store.empty : Store Nat).allocate 4 9 [("f", 2), ("g", 1)])
      demoUpdates).map (fun s => (s.read .aoS 2 1, s.read .aoS 2 2)) =
    some (some 2002, some 102) := by decide +kernel

example : ∀ u ∈ demoUpdates, ∃ k, sizeOf [("f", 2), ("g", 1)] u.name = some k ∧
      u.order.Perm (List.range (alignedSize 4 9 / 4)) ∧
      ∀ b, b < alignedSize 4 9 / 4 → (u.fcn b).length = k := by
  have h : alignedSize 4 9 / 4 = 3 := by decide +kernel
  rw [h]
  intro u hu
  simp only [demoUpdates, List.mem_cons, List.not_mem_nil, or_false] at hu
  rcases hu with rfl | rfl | rfl
  · exact ⟨2, by decide +kernel, by decide, fun b _ => rfl⟩
  · exact ⟨1, by decide +kernel, by decide, fun b _ => rfl⟩
  · exact ⟨2, by decide +kernel, by decide, fun b _ => rfl⟩

end AmpGen.Store
