import Verif.EventType.PropsSym
/-
Ordering of the particles of an event by their identifiers.
-/
namespace AmpGen.EventType
open AmpGen.Strings AmpGen.Kinematics Spec

/-! ### `matches` -/

theorem used_inner (c2 : List Int) (sgn : Int) (x : Int) (used : List Bool) : ∀ m,
    ((List.range m).foldl (fun (used : List Bool) (j : Nat) => if x = sgn * c2.getD j 0 ∧ used.getD j false = false then used.set j true else used) used).length = used.length ∧
    ∀ k < used.length, ((List.range m).foldl (fun (used : List Bool) (j : Nat) => if x = sgn * c2.getD j 0 ∧ used.getD j false = false then used.set j true else used) used).getD k false =
      (used.getD k false || decide (k < m ∧ x = sgn * c2.getD k 0))
  | 0 => by simp
  | m + 1 => by
    obtain ⟨h1, h2⟩ := used_inner c2 sgn x used m
    rw [List.range_succ, List.foldl_append, List.foldl_cons, List.foldl_nil]
    obtain ⟨u, hu⟩ : ∃ u, (List.range m).foldl (fun (used : List Bool) (j : Nat) => if x = sgn * c2.getD j 0 ∧ used.getD j false = false then used.set j true else used) used = u := ⟨_, rfl⟩
    rw [hu] at h1 h2 ⊢
    constructor
    · split
      · simpa using h1
      · exact h1
    · intro k hk
      by_cases hkm : k = m
      · subst hkm
        have h3 := h2 k hk
        by_cases hx : x = sgn * c2.getD k 0
        · by_cases hf : u.getD k false = false
          · rw [if_pos ⟨hx, hf⟩]
            rw [List.getD_eq_getElem _ _ (by simp; omega), List.getElem_set_self]
            simp only [Nat.lt_succ_self, hx, and_self, decide_true, Bool.or_true]
          · rw [if_neg (fun h => hf h.2)]
            have : u.getD k false = true := by simpa using hf
            rw [this]
            simp only [Nat.lt_succ_self, hx, and_self, decide_true, Bool.or_true]
        · rw [if_neg (fun h => hx h.1), h3]
          simp only [hx, and_false]
      · have h3 := h2 k hk
        have e1 : (if x = sgn * c2.getD m 0 ∧ u.getD m false = false then u.set m true else u).getD k false = u.getD k false := by
          split
          · rw [List.getD_eq_getElem _ _ (by simp; omega), List.getElem_set_of_ne (fun h => hkm h.symm), List.getD_eq_getElem _ _ (by omega)]
          · rfl
        rw [e1, h3]
        have : (k < m ∧ x = sgn * c2.getD k 0) ↔ (k < m + 1 ∧ x = sgn * c2.getD k 0) := by
          constructor
          · rintro ⟨a, b⟩; exact ⟨by omega, b⟩
          · rintro ⟨a, b⟩; exact ⟨by omega, b⟩
        rw [decide_eq_decide.2 this]

theorem used_outer (c1 c2 : List Int) (sgn : Int) (used : List Bool) (hl : used.length = c2.length) : ∀ m,
    ((List.range m).foldl (fun (used : List Bool) (i : Nat) =>
      (List.range c2.length).foldl (fun (used : List Bool) (j : Nat) =>
        if c1.getD i 0 = sgn * c2.getD j 0 ∧ used.getD j false = false then used.set j true else used) used) used).length = used.length ∧
    ∀ k < used.length, (((List.range m).foldl (fun (used : List Bool) (i : Nat) =>
      (List.range c2.length).foldl (fun (used : List Bool) (j : Nat) =>
        if c1.getD i 0 = sgn * c2.getD j 0 ∧ used.getD j false = false then used.set j true else used) used) used).getD k false = true ↔
      (used.getD k false = true ∨ ∃ i < m, c1.getD i 0 = sgn * c2.getD k 0))
  | 0 => by simp
  | m + 1 => by
    obtain ⟨h1, h2⟩ := used_outer c1 c2 sgn used hl m
    rw [List.range_succ, List.foldl_append, List.foldl_cons, List.foldl_nil]
    obtain ⟨u, hu⟩ : ∃ u, (List.range m).foldl (fun (used : List Bool) (i : Nat) =>
      (List.range c2.length).foldl (fun (used : List Bool) (j : Nat) =>
        if c1.getD i 0 = sgn * c2.getD j 0 ∧ used.getD j false = false then used.set j true else used) used) used = u := ⟨_, rfl⟩
    rw [hu] at h1 h2 ⊢
    obtain ⟨h3, h4⟩ := used_inner c2 sgn (c1.getD m 0) u c2.length
    refine ⟨h3.trans h1, fun k hk => ?_⟩
    rw [h4 k (by omega), Bool.or_eq_true, decide_eq_true_eq, h2 k hk]
    constructor
    · rintro ((h | ⟨i, hi, h⟩) | ⟨_, h⟩)
      · exact Or.inl h
      · exact Or.inr ⟨i, by omega, h⟩
      · exact Or.inr ⟨m, by omega, h⟩
    · rintro (h | ⟨i, hi, h⟩)
      · exact Or.inl (Or.inl h)
      · by_cases him : i = m
        · subst him
          exact Or.inr ⟨by omega, h⟩
        · exact Or.inl (Or.inr ⟨i, by omega, h⟩)

theorem mem_iff_getD {l : List Int} {x : Int} : x ∈ l ↔ ∃ i < l.length, l.getD i 0 = x := by
  constructor
  · intro h
    obtain ⟨i, hi, rfl⟩ := List.getElem_of_mem h
    exact ⟨i, hi, List.getD_eq_getElem _ _ hi⟩
  · rintro ⟨i, hi, rfl⟩
    rw [List.getD_eq_getElem _ _ hi]
    exact List.getElem_mem hi

theorem matches_iff (c1 c2 : List Int) (sgn : Int) (hl : c1.length = c2.length) : matches_ c1 c2 sgn = true ↔ ∀ x ∈ c2, sgn * x ∈ c1 := by
  obtain ⟨h1, h2⟩ := used_outer c1 c2 sgn (List.replicate c1.length false) (by simp [hl]) c1.length
  unfold matches_
  simp only
  obtain ⟨u, hu⟩ : ∃ u, (List.range c1.length).foldl (fun (used : List Bool) (i : Nat) =>
      (List.range c2.length).foldl (fun (used : List Bool) (j : Nat) =>
        if c1.getD i 0 = sgn * c2.getD j 0 ∧ used.getD j false = false then used.set j true else used) used) (List.replicate c1.length false) = u := ⟨_, rfl⟩
  rw [hu] at h1 h2 ⊢
  rw [List.length_replicate] at h1 h2
  have h3 : ∀ k < c1.length, (List.replicate c1.length false).getD k false = false := by
    intro k hk
    rw [List.getD_eq_getElem _ _ (by simpa using hk), List.getElem_replicate]
  rw [List.all_eq_true]
  constructor
  · intro h x hx
    obtain ⟨k, hk, rfl⟩ := mem_iff_getD.1 hx
    have hku : k < u.length := by omega
    have := h _ (List.getElem_mem hku)
    rw [id, ← List.getD_eq_getElem u false hku] at this
    rcases (h2 k (by omega)).1 this with h' | ⟨i, hi, h'⟩
    · rw [h3 k (by omega)] at h'; exact absurd h' (by decide)
    · exact mem_iff_getD.2 ⟨i, hi, h'⟩
  · intro h b hb
    obtain ⟨k, hk, rfl⟩ := List.getElem_of_mem hb
    rw [id, ← List.getD_eq_getElem u false hk]
    apply (h2 k (by omega)).2
    obtain ⟨i, hi, h'⟩ := mem_iff_getD.1 (h _ (mem_iff_getD.2 ⟨k, by omega, rfl⟩))
    exact Or.inr ⟨i, hi, h'⟩

/-! ### The addresses -/

theorem eq_map_getD (l : List Int) : l = (List.range l.length).map fun i => l.getD i 0 := by
  apply List.ext_getElem
  · simp
  · intro i h1 h2
    rw [List.getElem_map, List.getElem_range, List.getD_eq_getElem _ _ h1]

theorem count_eq_filter (l : List Int) (v : Int) : l.count v = ((List.range l.length).filter fun i => decide (l.getD i 0 = v)).length := by
  conv_lhs => rw [eq_map_getD l]
  rw [List.count, List.countP_map, List.countP_eq_length_filter]
  congr 1

/-- What holds after `m` turns. -/
structure Addressed (ids actual : List Int) (sgn : Int) (m : Nat) (new : List Nat) : Prop where
  len : new.length = ids.length
  right : ∀ j < ids.length, new.getD j 0 = 999 ∨ (new.getD j 0 < m ∧ actual.getD j 0 = sgn * ids.getD (new.getD j 0) 0)
  all : ∀ i < m, ∃ j < ids.length, new.getD j 0 = i
  once : ∀ j < ids.length, ∀ j' < ids.length, new.getD j 0 = new.getD j' 0 → new.getD j 0 ≠ 999 → j = j'

theorem newAddresses_loop (ids actual : List Int) (sgn : Int) (hs : sgn * sgn = 1) (hn : ids.length ≤ 999) (hp : actual.Perm (ids.map fun x => sgn * x)) : ∀ m, m ≤ ids.length →
    Addressed ids actual sgn m ((List.range m).foldl (fun (new : List Nat) (i : Nat) =>
      match (List.range actual.length).find? fun j => decide (actual.getD j 0 = sgn * ids.getD i 0 ∧ new.getD j 0 = 999) with
      | some j => new.set j i
      | none => new) (List.replicate ids.length 999))
  | 0, _ => by
    have h : ∀ j < ids.length, (List.replicate ids.length 999).getD j 0 = 999 := by
      intro j hj
      rw [List.getD_eq_getElem _ _ (by simpa using hj), List.getElem_replicate]
    refine ⟨by simp, fun j hj => Or.inl (h j hj), fun i hi => by omega, fun j hj _ _ _ hne => absurd (h j hj) hne⟩
  | m + 1, hm => by
    have ih := newAddresses_loop ids actual sgn hs hn hp m (by omega)
    rw [List.range_succ, List.foldl_append, List.foldl_cons, List.foldl_nil]
    obtain ⟨new, hnew⟩ : ∃ new, (List.range m).foldl (fun (new : List Nat) (i : Nat) =>
      match (List.range actual.length).find? fun j => decide (actual.getD j 0 = sgn * ids.getD i 0 ∧ new.getD j 0 = 999) with
      | some j => new.set j i
      | none => new) (List.replicate ids.length 999) = new := ⟨_, rfl⟩
    rw [hnew] at ih ⊢
    have hlen : actual.length = ids.length := by rw [hp.length_eq, List.length_map]
    have hcancel : ∀ a b : Int, sgn * a = sgn * b → a = b := by
      intro a b h
      have := congrArg (fun x => sgn * x) h
      simp only [← mul_assoc, hs, one_mul] at this
      exact this
    -- there is a free address
    have hfree : ∃ j < actual.length, actual.getD j 0 = sgn * ids.getD m 0 ∧ new.getD j 0 = 999 := by
      by_contra hno
      let J := (List.range actual.length).filter fun j => decide (actual.getD j 0 = sgn * ids.getD m 0)
      let I := (List.range m).filter fun i => decide (ids.getD i 0 = ids.getD m 0)
      have hJ : J.length = ids.count (ids.getD m 0) := by
        rw [← count_eq_filter, hp.count_eq]
        exact List.count_map_of_injective _ _ (fun a b h => hcancel a b h) _
      have hI : I.length + 1 ≤ ids.count (ids.getD m 0) := by
        rw [count_eq_filter]
        have h1 : I ++ [m] = (List.range (m + 1)).filter fun i => decide (ids.getD i 0 = ids.getD m 0) := by
          rw [List.range_succ, List.filter_append]
          simp [I]
        have h2 : ((List.range (m + 1)).filter fun i => decide (ids.getD i 0 = ids.getD m 0)).Sublist ((List.range ids.length).filter fun i => decide (ids.getD i 0 = ids.getD m 0)) :=
          (List.range_sublist.2 (by omega)).filter _
        have h3 := h2.length_le
        rw [← h1, List.length_append] at h3
        simpa using h3
      have hsub : (J.map fun j => new.getD j 0) ⊆ I := by
        intro x hx
        obtain ⟨j, hj, rfl⟩ := List.mem_map.1 hx
        obtain ⟨hj1, hj2⟩ := List.mem_filter.1 hj
        have hjl : j < ids.length := by rw [← hlen]; exact List.mem_range.1 hj1
        have hj2 : actual.getD j 0 = sgn * ids.getD m 0 := by simpa using hj2
        rcases ih.right j hjl with h | ⟨h1, h2⟩
        · exact absurd ⟨j, by omega, hj2, h⟩ hno
        · apply List.mem_filter.2
          refine ⟨List.mem_range.2 h1, ?_⟩
          rw [decide_eq_true_eq]
          exact (hcancel _ _ (hj2.symm.trans h2)).symm
      have hnd : (J.map fun j => new.getD j 0).Nodup := by
        apply List.Nodup.map_on _ (List.nodup_range.filter _)
        intro j hj j' hj' hjj
        obtain ⟨hj1, hj2⟩ := List.mem_filter.1 hj
        obtain ⟨hj1', _⟩ := List.mem_filter.1 hj'
        have hjl : j < ids.length := by rw [← hlen]; exact List.mem_range.1 hj1
        have hjl' : j' < ids.length := by rw [← hlen]; exact List.mem_range.1 hj1'
        refine ih.once j hjl j' hjl' hjj ?_
        intro h
        exact hno ⟨j, by omega, by simpa using hj2, h⟩
      have := (hnd.subperm hsub).length_le
      rw [List.length_map] at this
      omega
    have hsome : ∃ j, (List.range actual.length).find? (fun j => decide (actual.getD j 0 = sgn * ids.getD m 0 ∧ new.getD j 0 = 999)) = some j := by
      rw [← Option.isSome_iff_exists, List.find?_isSome]
      obtain ⟨j, hj, h⟩ := hfree
      exact ⟨j, List.mem_range.2 hj, by simpa using h⟩
    obtain ⟨j, hj⟩ := hsome
    rw [hj]
    have hj1 : j < ids.length := by rw [← hlen]; exact List.mem_range.1 (List.mem_of_find?_eq_some hj)
    have hj2 : actual.getD j 0 = sgn * ids.getD m 0 ∧ new.getD j 0 = 999 := by simpa using List.find?_some hj
    have hset : ∀ k < ids.length, (new.set j m).getD k 0 = if k = j then m else new.getD k 0 := by
      intro k hk
      rw [List.getD_eq_getElem _ _ (by simp [ih.len]; omega)]
      by_cases hkj : k = j
      · subst hkj
        rw [if_pos rfl, List.getElem_set_self]
      · rw [if_neg hkj, List.getElem_set_of_ne (fun h => hkj h.symm), List.getD_eq_getElem _ _ (by rw [ih.len]; exact hk)]
    show Addressed ids actual sgn (m + 1) (new.set j m)
    refine ⟨by rw [List.length_set, ih.len], ?_, ?_, ?_⟩
    · intro k hk
      rw [hset k hk]
      by_cases hkj : k = j
      · rw [if_pos hkj, hkj]
        exact Or.inr ⟨by omega, hj2.1⟩
      · rw [if_neg hkj]
        rcases ih.right k hk with h | ⟨h1, h2⟩
        · exact Or.inl h
        · exact Or.inr ⟨by omega, h2⟩
    · intro i hi
      by_cases him : i = m
      · exact ⟨j, hj1, by rw [hset j hj1, if_pos rfl, him]⟩
      · obtain ⟨k, hk, h⟩ := ih.all i (by omega)
        refine ⟨k, hk, ?_⟩
        rw [hset k hk, if_neg, h]
        rintro rfl
        rw [hj2.2] at h
        omega
    · intro k hk k' hk' hkk hne
      rw [hset k hk] at hkk hne
      rw [hset k' hk'] at hkk
      have lt : ∀ q < ids.length, new.getD q 0 ≠ 999 → new.getD q 0 < m := fun q hq h => by
        rcases ih.right q hq with h' | ⟨h1, _⟩
        · exact absurd h' h
        · exact h1
      by_cases c : k = j
      · by_cases c' : k' = j
        · rw [c, c']
        · rw [if_pos c, if_neg c'] at hkk
          rw [if_pos c] at hne
          have := lt k' hk' (by rw [← hkk]; exact hne)
          omega
      · rw [if_neg c] at hkk hne
        by_cases c' : k' = j
        · rw [if_pos c'] at hkk
          have := lt k hk hne
          omega
        · rw [if_neg c'] at hkk
          exact ih.once k hk k' hk' hkk hne

theorem newAddresses_spec (ids actual : List Int) (sgn : Int) (hs : sgn * sgn = 1) (hn : ids.length ≤ 999) (hp : actual.Perm (ids.map fun x => sgn * x)) :
    (newAddresses ids actual sgn).Perm (List.range ids.length) ∧ ∀ j < ids.length, actual.getD j 0 = sgn * ids.getD ((newAddresses ids actual sgn).getD j 0) 0 := by
  have h := newAddresses_loop ids actual sgn hs hn hp ids.length (Nat.le_refl _)
  change Addressed ids actual sgn ids.length (newAddresses ids actual sgn) at h
  obtain ⟨new, hnew⟩ : ∃ new, newAddresses ids actual sgn = new := ⟨_, rfl⟩
  rw [hnew] at h ⊢
  have hsub : List.range ids.length ⊆ new := by
    intro i hi
    obtain ⟨j, hj, rfl⟩ := h.all i (List.mem_range.1 hi)
    rw [List.getD_eq_getElem _ _ (by rw [h.len]; exact hj)]
    exact List.getElem_mem _
  have hperm : (List.range ids.length).Perm new := (List.nodup_range.subperm hsub).perm_of_length_le (by rw [h.len, List.length_range])
  refine ⟨hperm.symm, fun j hj => ?_⟩
  have hmem : new.getD j 0 ∈ new := by
    rw [List.getD_eq_getElem _ _ (by rw [h.len]; exact hj)]
    exact List.getElem_mem _
  have hlt : new.getD j 0 < ids.length := List.mem_range.1 (hperm.mem_iff.2 hmem)
  rcases h.right j hj with h' | ⟨_, h'⟩
  · omega
  · exact h'

/-! ### The properties -/

theorem order_spec (ids actual : List Int) (sgn : Int) (hs : sgn * sgn = 1) (hn : ids.length ≤ 999) (hp : actual.Perm (ids.map fun x => sgn * x)) (e : Event) (he : 4 * ids.length ≤ e.size) :
    (∀ a ∈ newAddresses ids actual sgn, 4 * a + 4 ≤ e.size) ∧ Ordered ids (actual.map fun x => sgn * x) e (e.reorder (newAddresses ids actual sgn)) (newAddresses ids actual sgn) := by
  obtain ⟨h1, h2⟩ := newAddresses_spec ids actual sgn hs hn hp
  have hlen : (newAddresses ids actual sgn).length = ids.length := by rw [h1.length_eq, List.length_range]
  have hla : actual.length = ids.length := by rw [hp.length_eq, List.length_map]
  refine ⟨?_, h1, ?_, ?_, ?_, reorder_size _ _⟩
  · intro a ha
    have := List.mem_range.1 (h1.mem_iff.1 ha)
    omega
  · intro j hj
    have h3 := h2 j hj
    rw [List.getD_eq_getElem (actual.map fun x => sgn * x) _ (by simpa using by omega), List.getElem_map, ← List.getD_eq_getElem actual 0 (by omega), h3, ← mul_assoc, hs, one_mul]
  · intro j hj
    rw [List.getD_eq_getElem _ _ (by omega)]
    exact momentum_reorder e _ (h1.nodup_iff.2 List.nodup_range) j (by omega)
  · intro k hk
    apply momentum_reorder_other
    intro hm
    have := List.mem_range.1 (h1.mem_iff.1 hm)
    omega

/-- **C71.** An event whose particles are those of the event type in any order is ordered: the momentum of each particle goes to a position with its identifier, every position gets one particle, and true is returned. -/
theorem ordering_particles (ids actual : List Int) (e : Event) (hn : ids.length ≤ 999) (he : 4 * ids.length ≤ e.size) (hp : actual.Perm ids) :
    ∃ out address, automaticOrdering ids e actual = some (out, true) ∧ Ordered ids actual e out address := by
  have hp' : actual.Perm (ids.map fun x => 1 * x) := by simpa using hp
  obtain ⟨h1, h2⟩ := order_spec ids actual 1 (by decide) hn hp' e he
  refine ⟨_, newAddresses ids actual 1, ?_, by simpa using h2⟩
  unfold automaticOrdering
  have hm : matches_ ids actual 1 = true := (matches_iff ids actual 1 hp.length_eq.symm).2 fun x hx => by
    rw [one_mul]; exact hp.mem_iff.1 hx
  simp only
  rw [if_pos hm, if_pos h1]

/-- **C71, the conjugate process.** An event whose particles are the antiparticles of those of the event type in any order is ordered in the same way when one of its particles is not in the event type. Missing: without such a particle (see `ordering_counterexample`). -/
theorem ordering_antiparticles_partial (ids actual : List Int) (e : Event) (hn : ids.length ≤ 999) (he : 4 * ids.length ≤ e.size) (hp : actual.Perm (ids.map fun x => -x))
    (hx : ∃ x ∈ actual, x ∉ ids) :
    ∃ out address, automaticOrdering ids e actual = some (out, true) ∧ Ordered ids (actual.map fun x => -x) e out address := by
  have hlen : ids.length = actual.length := by rw [hp.length_eq, List.length_map]
  have hp' : actual.Perm (ids.map fun x => -1 * x) := by simpa using hp
  obtain ⟨h1, h2⟩ := order_spec ids actual (-1) (by decide) hn hp' e he
  refine ⟨_, newAddresses ids actual (-1), ?_, by simpa using h2⟩
  unfold automaticOrdering
  have hm : ¬ matches_ ids actual 1 = true := fun h => by
    obtain ⟨x, hx1, hx2⟩ := hx
    have := (matches_iff ids actual 1 hlen).1 h x hx1
    rw [one_mul] at this
    exact hx2 this
  have hm' : matches_ ids actual (-1) = true := (matches_iff ids actual (-1) hlen).2 fun x hx => by
    obtain ⟨y, hy, rfl⟩ := List.mem_map.1 (hp.mem_iff.1 hx)
    simpa using hy
  simp only
  rw [if_neg hm, if_pos hm', if_pos h1]

/-- **C71.** An event with a particle that is not in the event type, and one whose antiparticle is not in it, is left as it is and false is returned. -/
theorem ordering_rejects (ids actual : List Int) (e : Event) (hl : actual.length = ids.length) (h1 : ∃ x ∈ actual, x ∉ ids) (h2 : ∃ x ∈ actual, -x ∉ ids) :
    automaticOrdering ids e actual = some (e, false) := by
  unfold automaticOrdering
  have hm : ¬ matches_ ids actual 1 = true := fun h => by
    obtain ⟨x, hx1, hx2⟩ := h1
    have := (matches_iff ids actual 1 hl.symm).1 h x hx1
    rw [one_mul] at this
    exact hx2 this
  have hm' : ¬ matches_ ids actual (-1) = true := fun h => by
    obtain ⟨x, hx1, hx2⟩ := h2
    have := (matches_iff ids actual (-1) hl.symm).1 h x hx1
    rw [neg_one_mul] at this
    exact hx2 this
  simp only
  rw [if_neg hm, if_neg hm']

/-- **C71, the general claim is false.** Three pions of total charge +1, and an event of the conjugate process: it is taken for the process itself as every one of its identifiers occurs in the event type, and one of its particles is written outside of the event. -/
theorem ordering_counterexample : ∃ (ids actual : List Int), actual.Perm (ids.map fun x => -x) ∧ ∀ e : Event, e.size = 4 * ids.length → automaticOrdering ids e actual = none := by
  refine ⟨[211, 211, -211], [-211, -211, 211], by decide, fun e he => ?_⟩
  unfold automaticOrdering
  have hm : matches_ [211, 211, -211] [-211, -211, 211] 1 = true := by decide +kernel
  have hn : newAddresses [211, 211, -211] [-211, -211, 211] 1 = [2, 999, 0] := by decide +kernel
  simp only
  rw [if_pos hm, hn, if_neg]
  intro h
  have := h 999 (by simp)
  rw [he] at this
  simp at this

/-- A decay and its conjugate. -/
example : [211, 211, -321, -211].Perm [(-321 : Int), 211, 211, -211] ∧ [-211, 321, -211, 211].Perm ([(-321 : Int), 211, 211, -211].map fun x => -x) ∧
    (∃ x ∈ [(-211 : Int), 321, -211, 211], x ∉ [(-321 : Int), 211, 211, -211]) := by decide

example : (∃ x ∈ [(11 : Int), 12], x ∉ [(211 : Int), 12]) ∧ (∃ x ∈ [(11 : Int), 12], -x ∉ [(211 : Int), 12]) := by decide

end AmpGen.EventType
