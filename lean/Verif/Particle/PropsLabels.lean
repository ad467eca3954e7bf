import Verif.Particle.Samples
import Mathlib.Data.List.GetD
import Mathlib.Data.List.Perm.Subperm
import Mathlib.Data.List.Count
/-
The positions of the final state of a decay in the events.
-/
namespace AmpGen.Particle
open AmpGen.Strings AmpGen.Particle.Spec

theorem assignOne_some {ext : List Str} {used : List Bool} {name : Str} {i : Nat} (h : assignOne ext used name = some i) :
    i < ext.length ∧ used.getD i false = false ∧ ext[i]? = some name := by
  unfold assignOne at h
  have h1 := List.find?_some h
  have h2 := List.mem_of_find?_eq_some h
  simp at h1 h2
  exact ⟨h2, by simpa using h1.1, h1.2⟩

theorem assignOne_none {ext : List Str} {used : List Bool} {name : Str} (h : assignOne ext used name = none) (i : Nat) (he : ext[i]? = some name) : used.getD i false = true := by
  unfold assignOne at h
  have hl : i < ext.length := by
    rcases Nat.lt_or_ge i ext.length with h | h
    · exact h
    · rw [List.getElem?_eq_none h] at he; simp at he
  have := List.find?_eq_none.1 h i (List.mem_range.2 hl)
  simp [he] at this
  simpa using this

theorem getD_set (used : List Bool) (i j : Nat) (hi : i < used.length) : (used.set i true).getD j false = if i = j then true else used.getD j false := by
  rw [List.getD_eq_getElem?_getD, List.getD_eq_getElem?_getD, List.getElem?_set]
  by_cases h : i = j
  · subst h; simp [hi]
  · simp [h]

/-- What the assignment does, from any state of the loop. -/
theorem assign_spec (ext : List Str) (hext : ext.length ≤ 999) : ∀ (names : List Str) (used : List Bool), used.length = ext.length →
    (assign ext names used).1.length = names.length ∧ (assign ext names used).2.length = ext.length ∧
    (∀ i, i < ext.length → ((assign ext names used).2.getD i false = true ↔ used.getD i false = true ∨ i ∈ (assign ext names used).1)) ∧
    (∀ (k i : Nat), (assign ext names used).1[k]? = some i → (i < ext.length ∧ used.getD i false = false ∧ ext[i]? = names[k]?) ∨
      (i = 999 ∧ ∀ j, ext[j]? = names[k]? → j < ext.length → used.getD j false = true ∨ ∃ l, l < k ∧ (assign ext names used).1[l]? = some j)) ∧
    (∀ (k l i : Nat), (assign ext names used).1[k]? = some i → (assign ext names used).1[l]? = some i → i < ext.length → k = l)
  | [], used, hu => by
    refine ⟨rfl, hu, ?_, ?_, ?_⟩ <;> simp [assign]
  | name :: names, used, hu => by
    cases ha : assignOne ext used name with
    | some i =>
      obtain ⟨h1, h2, h3⟩ := assignOne_some ha
      obtain ⟨a, b, c, d, e⟩ := assign_spec ext hext names (used.set i true) (by rw [List.length_set, hu])
      have hset := fun j => getD_set used i j (by omega)
      simp only [assign, ha]
      obtain ⟨r, hr⟩ : ∃ r, assign ext names (used.set i true) = r := ⟨_, rfl⟩
      rw [hr] at a b c d e ⊢
      have hnew : ∀ (k j : Nat), r.1[k]? = some j → j < ext.length → j ≠ i := by
        intro k j hk hj he
        rcases d k j hk with hd | hd
        · have := hd.2.1
          rw [hset, if_pos he.symm] at this
          simp at this
        · omega
      refine ⟨by simp [a], b, ?_, ?_, ?_⟩
      · intro j hj
        rw [c j hj, hset, List.mem_cons]
        by_cases hij : i = j
        · subst hij; simp
        · rw [if_neg hij]
          have hji : j ≠ i := fun h => hij h.symm
          simp [hji]
      · intro k j hk
        cases k with
        | zero =>
          simp at hk
          subst hk
          exact Or.inl ⟨h1, h2, by simpa using h3⟩
        | succ k =>
          simp only [List.getElem?_cons_succ] at hk ⊢
          rcases d k j hk with hd | hd
          · refine Or.inl ⟨hd.1, ?_, hd.2.2⟩
            have := hd.2.1
            rw [hset, if_neg (fun h => hnew k j hk hd.1 h.symm)] at this
            exact this
          · refine Or.inr ⟨hd.1, fun m hm hml => ?_⟩
            rcases hd.2 m hm hml with h | ⟨l, hl, hl'⟩
            · rw [hset] at h
              by_cases him : i = m
              · exact Or.inr ⟨0, by omega, by simp [him]⟩
              · rw [if_neg him] at h; exact Or.inl h
            · exact Or.inr ⟨l + 1, by omega, by simpa using hl'⟩
      · intro k l j hk hl hj
        cases k with
        | zero =>
          cases l with
          | zero => rfl
          | succ l => exact absurd (by simpa using hk.symm) (hnew l j (by simpa using hl) hj)
        | succ k =>
          cases l with
          | zero => exact absurd (by simpa using hl.symm) (hnew k j (by simpa using hk) hj)
          | succ l => rw [e k l j (by simpa using hk) (by simpa using hl) hj]
    | none =>
      obtain ⟨a, b, c, d, e⟩ := assign_spec ext hext names used hu
      simp only [assign, ha]
      obtain ⟨r, hr⟩ : ∃ r, assign ext names used = r := ⟨_, rfl⟩
      rw [hr] at a b c d e ⊢
      refine ⟨by simp [a], b, ?_, ?_, ?_⟩
      · intro j hj
        rw [c j hj, List.mem_cons]
        have : j ≠ 999 := by omega
        simp [this]
      · intro k j hk
        cases k with
        | zero =>
          simp at hk
          subst hk
          refine Or.inr ⟨rfl, fun m hm _ => Or.inl (assignOne_none ha m (by simpa using hm))⟩
        | succ k =>
          simp only [List.getElem?_cons_succ] at hk ⊢
          rcases d k j hk with hd | hd
          · exact Or.inl hd
          · refine Or.inr ⟨hd.1, fun m hm hml => ?_⟩
            rcases hd.2 m hm hml with h | ⟨l, hl, hl'⟩
            · exact Or.inl h
            · exact Or.inr ⟨l + 1, by omega, by simpa using hl'⟩
      · intro k l j hk hl hj
        cases k with
        | zero => simp at hk; omega
        | succ k =>
          cases l with
          | zero => simp at hl; omega
          | succ l => rw [e k l j (by simpa using hk) (by simpa using hl) hj]

/-- The number of used particles with a name. -/
def usedCount (ext : List Str) (used : List Bool) (n : Str) : Nat := (ext.zip used).countP fun p => decide (p.1 = n) && p.2

theorem usedCount_set : ∀ (ext : List Str) (used : List Bool) (i : Nat) (m n : Str), used.length = ext.length → ext[i]? = some m → used.getD i false = false →
    usedCount ext (used.set i true) n = usedCount ext used n + if m = n then 1 else 0
  | [], _, _, _, _, _, he, _ => by simp at he
  | e :: ext, [], _, _, _, hu, _, _ => by simp at hu
  | e :: ext, u :: used, 0, m, n, hu, he, hf => by
    simp at he hf
    subst he hf
    unfold usedCount
    rw [List.set_cons_zero, List.zip_cons_cons, List.zip_cons_cons, List.countP_cons, List.countP_cons]
    simp
  | e :: ext, u :: used, i + 1, m, n, hu, he, hf => by
    have ih := usedCount_set ext used i m n (by simpa using hu) (by simpa using he) (by simpa using hf)
    unfold usedCount at *
    rw [List.set_cons_succ, List.zip_cons_cons, List.zip_cons_cons, List.countP_cons, List.countP_cons, ih]
    omega

theorem usedCount_le : ∀ (ext : List Str) (used : List Bool) (n : Str), used.length = ext.length → usedCount ext used n ≤ ext.count n ∧
    (usedCount ext used n = ext.count n ↔ ∀ i, ext[i]? = some n → used.getD i false = true)
  | [], used, n, hu => by simp [usedCount]
  | e :: ext, [], _, hu => by simp at hu
  | e :: ext, u :: used, n, hu => by
    obtain ⟨h1, h2⟩ := usedCount_le ext used n (by simpa using hu)
    have hstep : usedCount (e :: ext) (u :: used) n = usedCount ext used n + if (decide (e = n) && u) = true then 1 else 0 := by
      unfold usedCount; rw [List.zip_cons_cons, List.countP_cons]
    rw [hstep, List.count_cons]
    have hall : (∀ i, (e :: ext)[i]? = some n → (u :: used).getD i false = true) ↔ (e = n → u = true) ∧ ∀ i, ext[i]? = some n → used.getD i false = true := by
      constructor
      · intro h
        exact ⟨fun he => by simpa using h 0 (by simp [he]), fun i hi => by simpa using h (i + 1) (by simpa using hi)⟩
      · rintro ⟨ha, hb⟩ i hi
        cases i with
        | zero => simpa using ha (by simpa using hi)
        | succ i => simpa using hb i (by simpa using hi)
    rw [hall, ← h2]
    by_cases hen : e = n
    · subst hen
      cases u <;> simp <;> omega
    · have hne : (e == n) = false := by simpa using hen
      simp [hen]
      exact h1

theorem assign_count (ext : List Str) : ∀ (names : List Str) (used : List Bool) (n : Str), used.length = ext.length →
    (assign ext names used).2.length = ext.length ∧ usedCount ext (assign ext names used).2 n = min (ext.count n) (usedCount ext used n + names.count n)
  | [], used, n, hu => by
    have := (usedCount_le ext used n hu).1
    refine ⟨hu, ?_⟩
    simp only [assign, List.count_nil]
    omega
  | name :: names, used, n, hu => by
    cases ha : assignOne ext used name with
    | some i =>
      obtain ⟨h1, h2, h3⟩ := assignOne_some ha
      obtain ⟨g1, g2⟩ := assign_count ext names (used.set i true) n (by rw [List.length_set, hu])
      simp only [assign, ha]
      refine ⟨g1, ?_⟩
      rw [g2, usedCount_set ext used i name n hu h3 h2, List.count_cons]
      have hle : usedCount ext (used.set i true) n ≤ ext.count n := (usedCount_le ext _ n (by rw [List.length_set, hu])).1
      rw [usedCount_set ext used i name n hu h3 h2] at hle
      by_cases hn : name = n
      · subst hn; simp; omega
      · simp [hn]
    | none =>
      obtain ⟨g1, g2⟩ := assign_count ext names used n hu
      simp only [assign, ha]
      refine ⟨g1, ?_⟩
      rw [g2, List.count_cons]
      by_cases hn : name = n
      · subst hn
        have := (usedCount_le ext used name hu).2.2 (fun i hi => assignOne_none ha i hi)
        simp only [beq_self_eq_true, if_true]
        omega
      · simp [hn]

theorem usedCount_none (ext : List Str) (n : Str) : usedCount ext (List.replicate ext.length false) n = 0 := by
  unfold usedCount
  rw [List.countP_eq_zero]
  intro p hp
  have := (List.of_mem_zip (a := p.1) (b := p.2) hp).2
  have := (List.mem_replicate.1 this).2
  simp [this]

/-- **C21**: every particle of the final state of the tree receives either the position of a particle of the events with the same name, which no other particle of the tree receives, or no position (999), and this only
if all particles of the events with its name are given to particles of the tree before it. Up to 999 particles in the events. -/
theorem label_assignment (externals names : List Str) (hext : externals.length ≤ 999) :
    (labels externals names).1.length = names.length ∧
    (∀ (k i : Nat), (labels externals names).1[k]? = some i →
      (i < externals.length ∧ externals[i]? = names[k]?) ∨ (i = 999 ∧ ∀ j, j < externals.length → externals[j]? = names[k]? → ∃ l, l < k ∧ (labels externals names).1[l]? = some j)) ∧
    (∀ (k l i : Nat), (labels externals names).1[k]? = some i → (labels externals names).1[l]? = some i → i < externals.length → k = l) := by
  obtain ⟨a, _, _, d, e⟩ := assign_spec externals hext names (List.replicate externals.length false) (by simp)
  refine ⟨a, ?_, e⟩
  intro k i hk
  rcases d k i hk with hd | hd
  · exact Or.inl ⟨hd.1, hd.2.2⟩
  · refine Or.inr ⟨hd.1, fun j hj he => ?_⟩
    rcases hd.2 j he hj with h | h
    · rw [List.getD_eq_getElem?_getD, List.getElem?_replicate, if_pos hj] at h
      simp at h
    · exact h

/-- Identical pions in two resonances. -/
example : labels ["K+".toList, "K-".toList, "pi+".toList, "pi+".toList] ["pi+".toList, "K-".toList, "K+".toList, "pi+".toList] = ([2, 1, 0, 3], true) := by decide +kernel

/-- **C21**: the tree is reported as good if and only if every particle of the events is given to one of the tree, which is the case if and only if the particles of the events are among those of the tree. -/
theorem label_good (externals names : List Str) (hext : externals.length ≤ 999) :
    ((labels externals names).2 = true ↔ ∀ i, i < externals.length → i ∈ (labels externals names).1) ∧
    ((labels externals names).2 = true ↔ externals.Subperm names) := by
  obtain ⟨_, b, c, _, _⟩ := assign_spec externals hext names (List.replicate externals.length false) (by simp)
  have hgood : (labels externals names).2 = true ↔ ∀ i, i < externals.length → (assign externals names (List.replicate externals.length false)).2.getD i false = true := by
    unfold labels
    simp only
    rw [List.all_eq_true]
    constructor
    · intro h i hi
      rw [List.getD_eq_getElem _ _ (by omega)]
      exact h _ (List.getElem_mem _)
    · intro h x hx
      obtain ⟨i, hi, rfl⟩ := List.getElem_of_mem hx
      have := h i (by omega)
      rwa [List.getD_eq_getElem _ _ hi] at this
  constructor
  · rw [hgood]
    refine forall_congr' fun i => forall_congr' fun hi => ?_
    rw [c i hi]
    have : (List.replicate externals.length false).getD i false = false := by
      rw [List.getD_eq_getElem?_getD, List.getElem?_replicate, if_pos hi]; rfl
    rw [this]
    simp [labels]
  · rw [hgood, List.subperm_ext_iff]
    have hcount := fun n => (assign_count externals names (List.replicate externals.length false) n (by simp)).2
    have hle := fun n => usedCount_le externals (assign externals names (List.replicate externals.length false)).2 n b
    constructor
    · intro h n _
      have h1 := (hle n).2.2 (fun i hi => h i (by
        rcases Nat.lt_or_ge i externals.length with h | h
        · exact h
        · rw [List.getElem?_eq_none h] at hi; simp at hi))
      rw [hcount n, usedCount_none] at h1
      omega
    · intro h i hi
      have hm := h externals[i] (List.getElem_mem hi)
      refine (hle externals[i]).2.1 ?_ i (List.getElem?_eq_getElem hi)
      rw [hcount, usedCount_none]
      omega

example : (labels ["K+".toList, "pi-".toList] ["pi-".toList, "pi+".toList]).2 = false ∧ (labels ["K+".toList, "pi-".toList] ["pi-".toList, "K+".toList]).2 = true := by decide +kernel

/-- **C21 (partial)**: if the tree has exactly the particles of the events in its final state, all receive different positions and the tree is reported as good; the tree is reported as not good if a particle of the
events is missing from it. Trees with more particles than the events are missing: see the counterexample. -/
theorem label_matching_partial (externals names : List Str) (hext : externals.length ≤ 999) :
    (names.Perm externals → (labels externals names).2 = true ∧ (labels externals names).1.Perm (List.range externals.length)) ∧
    (names.length ≤ externals.length → (labels externals names).2 = true → names.Perm externals) := by
  obtain ⟨l1, l2, l3⟩ := label_assignment externals names hext
  obtain ⟨g1, g2⟩ := label_good externals names hext
  refine ⟨?_, ?_⟩
  · intro hp
    have hgood := g2.2 hp.symm.subperm
    refine ⟨hgood, ?_⟩
    have hsub : (List.range externals.length).Subperm (labels externals names).1 := by
      refine List.nodup_range.subperm ?_
      intro i hi
      exact g1.1 hgood i (List.mem_range.1 hi)
    exact (hsub.perm_of_length_le (by rw [l1, hp.length_eq, List.length_range])).symm
  · intro hl hgood
    exact ((g2.1 hgood).perm_of_length_le hl).symm

example : (["pi-".toList, "K+".toList, "K+".toList] : List Str).Perm ["K+".toList, "pi-".toList, "K+".toList] := List.Perm.swap _ _ _

/-- **C21**, counterexample: a tree with a particle that the events do not have is reported as good, with no position for this particle. -/
theorem label_matching_counterexample : ∃ externals names : List Str, (labels externals names).2 = true ∧ 999 ∈ (labels externals names).1 :=
  ⟨["K+".toList, "pi-".toList], ["K+".toList, "pi-".toList, "pi0".toList], by decide +kernel⟩

end AmpGen.Particle
