import Verif.EventType.LemmasSym
/-
Symmetrisation of identical particles.
-/
namespace AmpGen.EventType
open AmpGen.Strings AmpGen.Kinematics Spec Equiv

/-! ### The groups -/

/-- The positions of a name. -/
def positionsOf (names : List Str) (n : Str) : List Nat := (List.range names.length).filter fun i => decide (names[i]? = some n)

theorem mem_positionsOf {names : List Str} {n : Str} {i : Nat} : i ∈ positionsOf names n ↔ names[i]? = some n := by
  unfold positionsOf
  rw [List.mem_filter, List.mem_range, decide_eq_true_eq]
  constructor
  · exact fun h => h.2
  · intro h
    exact ⟨(List.getElem?_eq_some_iff.1 h).1, h⟩

theorem mem_groups {names : List Str} {g : List Nat} : g ∈ groups names ↔ (∃ n ∈ names, g = positionsOf names n) ∧ g.length ≠ 1 := by
  unfold groups
  rw [List.mem_filter, List.mem_map]
  simp only [List.mem_insertionSort, List.mem_dedup, decide_eq_true_eq]
  constructor
  · rintro ⟨⟨n, hn, rfl⟩, hl⟩
    exact ⟨⟨n, hn, rfl⟩, hl⟩
  · rintro ⟨⟨n, hn, rfl⟩, hl⟩
    exact ⟨⟨n, hn, rfl⟩, hl⟩

theorem groups_disjoint (names : List Str) : DisjointGroups (groups names) := by
  constructor
  · intro g hg
    obtain ⟨⟨n, _, rfl⟩, _⟩ := mem_groups.1 hg
    exact List.nodup_range.filter _
  · unfold groups
    apply List.Pairwise.filter
    rw [List.pairwise_map]
    have hnd : (names.dedup.insertionSort (fun a b => (a < b) = true ∨ a = b)).Nodup := (List.perm_insertionSort _ _).nodup_iff.2 (List.nodup_dedup names)
    apply List.Pairwise.imp _ hnd
    intro a b hab i hia hib
    have h1 := mem_positionsOf.1 hia
    have h2 := mem_positionsOf.1 hib
    rw [h1] at h2
    exact hab (by simpa using h2)

/-- In each group two or more particles: two positions of the same name are in a group. -/
theorem in_group {names : List Str} {i j : Nat} (hij : i ≠ j) (hi : i < names.length) (h : names[i]? = names[j]?) : positionsOf names names[i] ∈ groups names ∧ i ∈ positionsOf names names[i] ∧ j ∈ positionsOf names names[i] := by
  have h1 : i ∈ positionsOf names names[i] := mem_positionsOf.2 (List.getElem?_eq_getElem hi)
  have h2 : j ∈ positionsOf names names[i] := mem_positionsOf.2 (by rw [← h]; exact List.getElem?_eq_getElem hi)
  refine ⟨mem_groups.2 ⟨⟨_, List.getElem_mem hi, rfl⟩, ?_⟩, h1, h2⟩
  intro hl
  obtain ⟨x, hx⟩ := List.length_eq_one_iff.1 hl
  rw [hx, List.mem_singleton] at h1 h2
  exact hij (h1.trans h2.symm)

theorem keeps_of_allPerm (names : List Str) (draws : Nat → Nat → Nat) (hb : Bounded draws (groups names) 0) : KeepsNames names (allPerm draws (groups names) 0) := by
  have hd := groups_disjoint names
  have hfix := allPerm_fixes draws (groups names) 0 hd hb
  have hmem := allPerm_mem draws (groups names) 0 hd hb
  constructor
  · intro i
    by_cases h : ∃ g ∈ groups names, i ∈ g
    · obtain ⟨g, hg, hi⟩ := h
      have h1 := hmem g hg i hi
      obtain ⟨⟨n, _, rfl⟩, _⟩ := mem_groups.1 hg
      rw [mem_positionsOf.1 hi, mem_positionsOf.1 h1]
    · rw [hfix i fun g hg hi => h ⟨g, hg, hi⟩]
  · intro i hi
    apply hfix
    intro g hg hig
    obtain ⟨⟨n, _, rfl⟩, _⟩ := mem_groups.1 hg
    have := mem_positionsOf.1 hig
    have := (List.getElem?_eq_some_iff.1 this).1
    omega

theorem allPerm_of_keeps (names : List Str) (σ : Perm Nat) (h : KeepsNames names σ) : ∃ draws, Bounded draws (groups names) 0 ∧ allPerm draws (groups names) 0 = σ := by
  apply allPerm_exists (groups names) 0 (groups_disjoint names) σ
  · intro g hg p
    obtain ⟨⟨n, _, rfl⟩, _⟩ := mem_groups.1 hg
    rw [mem_positionsOf, mem_positionsOf, h.1 p]
  · intro p hp
    by_cases hl : p < names.length
    · by_contra hne
      have := in_group (i := p) (j := σ p) (fun h => hne h.symm) hl (h.1 p).symm
      exact hp _ this.1 this.2.1
    · exact h.2 p (by omega)

/-- The random numbers are within the ranges of their distributions: in the turn `i` for the group `k` between zero and `i`. -/
def InRange (names : List Str) (draws : Nat → Nat → Nat) : Prop := ∀ k i, draws k i ≤ i

theorem InRange.bounded {names : List Str} {draws : Nat → Nat → Nat} (h : InRange names draws) : Bounded draws (groups names) 0 := fun k _ i _ => h (0 + k) i

/-! ### The properties -/

/-- **C70.** Symmetrisation moves the momenta by a permutation of identical particles, whatever the random numbers are: the particle at `i` goes to `σ i`, which is a particle of the same name; nothing else is changed. The permutation does not depend on the event. -/
theorem symmetriser_permutes (names : List Str) (draws : Nat → Nat → Nat) (hd : ∀ k i, draws k i ≤ i) :
    ∃ σ : Perm Nat, KeepsNames names σ ∧ ∀ e : Event, (symmetriser names draws e).size = e.size ∧ ∀ i, momentum (symmetriser names draws e) (σ i) = momentum e i := by
  have hb : Bounded draws (groups names) 0 := InRange.bounded (names := names) hd
  refine ⟨allPerm draws (groups names) 0, keeps_of_allPerm names draws hb, fun e => ?_⟩
  have := symmetrise_spec draws (groups names) 0 e (groups_disjoint names) hb
  exact ⟨this.2, this.1⟩

/-- An event whose particles all have different momenta. -/
noncomputable def distinctEvent (n : Nat) : Event := ⟨n, fun p => (p : ℝ)⟩

theorem distinctEvent_inj (n i j : Nat) (h : momentum (distinctEvent n) i = momentum (distinctEvent n) j) : i = j := by
  have := congrArg P4.x h
  simp only [momentum, distinctEvent] at this
  have h2 : 4 * i + 0 = 4 * j + 0 := by exact_mod_cast this
  omega

/-- **C70.** Every permutation of identical particles has exactly one sequence of random numbers, so that all of them have the same probability when the random numbers are uniform: there are random numbers with the permutation, and any two such sequences agree in all numbers that are used, which are `length` many for each group of identical particles. -/
theorem symmetriser_uniform (names : List Str) (σ : Perm Nat) (hσ : KeepsNames names σ) :
    (∃ draws : Nat → Nat → Nat, (∀ k i, draws k i ≤ i) ∧ ∀ (e : Event) (i : Nat), momentum (symmetriser names draws e) (σ i) = momentum e i) ∧
    ∀ draws draws' : Nat → Nat → Nat, (∀ k i, draws k i ≤ i) → (∀ k i, draws' k i ≤ i) →
      (∀ (e : Event) (i : Nat), momentum (symmetriser names draws e) (σ i) = momentum e i) → (∀ (e : Event) (i : Nat), momentum (symmetriser names draws' e) (σ i) = momentum e i) →
      ∀ (k : Nat) (hk : k < (groups names).length), ∀ i < (groups names)[k].length, draws k i = draws' k i := by
  constructor
  · obtain ⟨draws, hb, hp⟩ := allPerm_of_keeps names σ hσ
    let draws' : Nat → Nat → Nat := fun k i => min (draws k i) i
    have hb' : Bounded draws' (groups names) 0 := fun k hk i hi => Nat.min_le_right _ _
    have heq : allPerm draws' (groups names) 0 = allPerm draws (groups names) 0 := by
      have key : ∀ (gs : List (List Nat)) (n : Nat), Bounded draws gs n → allPerm draws' gs n = allPerm draws gs n := by
        intro gs
        induction gs with
        | nil => intro n _; rfl
        | cons g gs ih =>
          intro n h
          obtain ⟨h1, h2⟩ := bounded_cons h
          unfold allPerm
          rw [ih _ h2]
          congr 1
          exact fy_congr _ _ _ fun i hi => Nat.min_eq_left (h1 i hi)
      exact key _ _ hb
    refine ⟨draws', fun k i => Nat.min_le_right _ _, fun e i => ?_⟩
    have := (symmetrise_spec draws' (groups names) 0 e (groups_disjoint names) hb').1 i
    rw [heq, hp] at this
    exact this
  · intro draws draws' hd hd' h h' k hk i hi
    have hb : Bounded draws (groups names) 0 := InRange.bounded (names := names) hd
    have hb' : Bounded draws' (groups names) 0 := InRange.bounded (names := names) hd'
    have key : ∀ d : Nat → Nat → Nat, Bounded d (groups names) 0 → (∀ (e : Event) (i : Nat), momentum (symmetriser names d e) (σ i) = momentum e i) → allPerm d (groups names) 0 = σ := by
      intro d hbd hh
      ext p
      have h1 := hh (distinctEvent 0) (σ.symm (allPerm d (groups names) 0 p))
      have h2 := (symmetrise_spec d (groups names) 0 (distinctEvent 0) (groups_disjoint names) hbd).1 p
      rw [apply_symm_apply] at h1
      have h3 := distinctEvent_inj 0 _ _ (h1.symm.trans h2)
      exact (symm_apply_eq σ).1 h3
    have := allPerm_unique draws draws' (groups names) 0 (groups_disjoint names) hb hb' ((key draws hb h).trans (key draws' hb' h').symm) k hk i hi
    simpa using this

/-- **C70.** The groups: two or more positions each, all positions of one name, in increasing order; every name that occurs twice has a group. -/
theorem symmetriser_groups (names : List Str) (g : List Nat) (hg : g ∈ groups names) :
    2 ≤ g.length ∧ ∃ n ∈ names, (∀ i, i ∈ g ↔ names[i]? = some n) ∧ g.Nodup := by
  obtain ⟨⟨n, hn, rfl⟩, hl⟩ := mem_groups.1 hg
  refine ⟨?_, n, hn, fun i => mem_positionsOf, List.nodup_range.filter _⟩
  have : 0 < (positionsOf names n).length := by
    obtain ⟨i, hi⟩ := List.mem_iff_getElem?.1 hn
    exact List.length_pos_of_mem (mem_positionsOf.2 hi)
  omega

/-- The decay of three pions, two of them identical, and a kaon. -/
def pions : List Str := ["K-".toList, "pi+".toList, "pi-".toList, "pi+".toList]

example : groups pions = [[1, 3]] := by decide +kernel

/-- The exchange of the two pions is such a permutation. -/
example : KeepsNames pions (swap 1 3) := by
  constructor
  · intro i
    by_cases h1 : i = 1
    · subst h1; rw [swap_apply_left]; rfl
    · by_cases h3 : i = 3
      · subst h3; rw [swap_apply_right]; rfl
      · rw [swap_apply_of_ne_of_ne h1 h3]
  · intro i hi
    have : 4 ≤ i := hi
    rw [swap_apply_of_ne_of_ne (by omega) (by omega)]

example : ∀ k i : Nat, (fun _ _ => 0 : Nat → Nat → Nat) k i ≤ i := fun _ i => Nat.zero_le i

end AmpGen.EventType
