import Verif.PolStates.Model
import Mathlib.Data.List.Sort
import Mathlib.Data.List.NodupEquivFin
import Mathlib.Tactic.IntervalCases
/-
C170: setting polarisations.
-/
namespace AmpGen.PolStates

/-- A projection of a spin: twice the projection of a fermion is odd, and no projection is larger than the spin. -/
def Projection (twoSpin state : Int) : Prop :=
  if twoSpin % 2 = 1 then state % 2 = 1 ∧ -twoSpin ≤ state ∧ state ≤ twoSpin else -twoSpin ≤ 2 * state ∧ 2 * state ≤ twoSpin

instance (twoSpin state : Int) : Decidable (Projection twoSpin state) := by unfold Projection; infer_instance

theorem fermion_iff {t : Int} (h : 0 ≤ t) : isFermion t = true ↔ t % 2 = 1 := by
  unfold isFermion
  rw [decide_eq_true_iff, Int.tmod_eq_emod_of_nonneg h]

theorem checked_projection {t s : Int} (h : 0 ≤ t) (hp : Projection t s) : checked t s = s := by
  have hf := fermion_iff h
  unfold Projection at hp
  unfold checked
  rw [Int.tdiv_eq_ediv_of_nonneg h]
  by_cases ho : t % 2 = 1
  · simp only [hf.2 ho, true_and, not_true_eq_false, false_and, if_false]
    rw [if_pos ho] at hp
    rw [if_neg]
    omega
  · have hn : isFermion t = false := by simpa using fun c => ho (hf.1 c)
    rw [if_neg ho] at hp
    simp only [hn]
    rw [if_neg (by simp), if_neg]
    rintro ⟨_, h2⟩
    omega

/-- A state larger than the spin, or zero for a fermion, whose states are twice the projection. -/
def TooLarge (twoSpin state : Int) : Prop := if twoSpin % 2 = 1 then state > twoSpin ∨ state = 0 else 2 * state > twoSpin

theorem checked_refused {t s : Int} (h : 0 ≤ t) (ht : TooLarge t s) : checked t s = 999 := by
  have hf := fermion_iff h
  unfold TooLarge at ht
  unfold checked
  rw [Int.tdiv_eq_ediv_of_nonneg h]
  by_cases ho : t % 2 = 1
  · rw [if_pos ho] at ht
    rw [if_pos ⟨hf.2 ho, ht⟩]
  · have hn : isFermion t = false := by simpa using fun c => ho (hf.1 c)
    rw [if_neg ho] at ht
    simp only [hn]
    rw [if_neg (by simp), if_pos ⟨by simp, by omega⟩]

theorem assign_spec (states : List Int) : ∀ (fs : List (Nat × Nat)) (i : Nat) (ls : List Leaf), (fs.map Prod.snd).Nodup → i + fs.length ≤ states.length →
    ∃ ls', assign states i fs ls = some ls' ∧ ls'.length = ls.length ∧ (∀ k, k ∉ fs.map Prod.snd → ls'[k]? = ls[k]?) ∧
      ∀ m idx j, fs[m]? = some (idx, j) → ∃ s, states[i + m]? = some s ∧ ls'[j]? = ls[j]?.map fun l => { l with pol := checked l.twoSpin s }
  | [], i, ls, _, _ => ⟨ls, rfl, rfl, fun _ _ => rfl, by simp⟩
  | (x, j) :: fs, i, ls, hn, hl => by
    simp only [List.map_cons, List.nodup_cons] at hn
    simp only [List.length_cons] at hl
    obtain ⟨s, hs⟩ : ∃ s, states[i]? = some s := ⟨states[i]'(by omega), List.getElem?_eq_getElem _⟩
    obtain ⟨ls', h1, h2, h3, h4⟩ := assign_spec states fs (i + 1) (ls.modify j fun l => { l with pol := checked l.twoSpin s }) hn.2 (by omega)
    refine ⟨ls', by simp [assign, hs, h1], by simpa using h2, ?_, ?_⟩
    · intro k hk
      simp only [List.map_cons, List.mem_cons, not_or] at hk
      rw [h3 k hk.2, List.getElem?_modify]
      have hjk : j ≠ k := fun e => hk.1 e.symm
      simp [hjk]
    · intro m idx k hm
      cases m with
      | zero =>
        simp only [List.getElem?_cons_zero, Option.some.injEq, Prod.mk.injEq] at hm
        obtain ⟨_, rfl⟩ := hm
        refine ⟨s, by simpa using hs, ?_⟩
        rw [h3 j hn.1, List.getElem?_modify]
        simp
      | succ m =>
        rw [List.getElem?_cons_succ] at hm
        obtain ⟨s', e1, e2⟩ := h4 m idx k hm
        refine ⟨s', by rw [← e1]; congr 1; omega, ?_⟩
        have : k ≠ j := by
          rintro rfl
          exact hn.1 (List.mem_map.2 ⟨_, List.mem_of_getElem? hm, rfl⟩)
        rw [e2, List.getElem?_modify]
        simp [this.symm]

theorem setStates_spec {sort : List (Nat × Nat) → List (Nat × Nat)} (hsp : ∀ l, (sort l).Perm l) (hss : ∀ l, (sort l).Pairwise fun a b => a.1 ≤ b.1)
    {ls : List Leaf} {states : List Int} (hi : (ls.map (·.index)).Perm (List.range ls.length)) (hl : states.length = ls.length + 1) (twoSpin : Int) :
    ∃ s0 ls', setStates sort twoSpin ls states = some (checked twoSpin s0, ls') ∧ states[0]? = some s0 ∧ ls'.length = ls.length ∧
      ∀ (k : Nat) (l : Leaf), ls[k]? = some l → ∃ s, states[l.index + 1]? = some s ∧ ls'[k]? = some { l with pol := checked l.twoSpin s } := by
  let fs := ls.zipIdx.map fun l => (l.1.index, l.2)
  have hperm : (sort fs).Perm fs := hsp fs
  have hsnd : fs.map Prod.snd = List.range ls.length := by
    simp [fs, Function.comp_def, List.zipIdx_map_snd, List.range_eq_range']
  have hfst : fs.map Prod.fst = ls.map (·.index) := by
    apply List.ext_getElem <;> simp [fs]
  have hlen : (sort fs).length = ls.length := by rw [hperm.length_eq]; simp [fs]
  have hsf : (sort fs).map Prod.fst = List.range ls.length := by
    apply List.Perm.eq_of_pairwise (le := (· ≤ ·)) (fun a b _ _ => Nat.le_antisymm)
    · exact List.pairwise_map.2 (hss fs)
    · exact List.pairwise_le_range
    · exact (hperm.map _).trans (hfst ▸ hi)
  have hnd : ((sort fs).map Prod.snd).Nodup := by
    rw [(hperm.map _).nodup_iff, hsnd]
    exact List.nodup_range
  obtain ⟨s0, hs0⟩ : ∃ s, states[0]? = some s := ⟨states[0]'(by omega), List.getElem?_eq_getElem _⟩
  obtain ⟨ls', h1, h2, _, h4⟩ := assign_spec states (sort fs) 1 ls hnd (by omega)
  refine ⟨s0, ls', by simp only [setStates, hs0, Option.bind_eq_bind, Option.bind_some]; rw [h1]; rfl, ?_, h2, ?_⟩
  · exact hs0
  · intro k l hk
    have hmem : (l.index, k) ∈ sort fs := by
      rw [hperm.mem_iff]
      refine List.mem_map.2 ⟨(l, k), ?_, rfl⟩
      rw [List.mem_zipIdx_iff_getElem?]
      exact hk
    obtain ⟨m, hm⟩ := List.mem_iff_getElem?.1 hmem
    have hm' : m = l.index := by
      have := congrArg (fun x => x[m]?) hsf
      simp only [List.getElem?_map, hm, Option.map_some] at this
      have hmr := List.getElem?_eq_some_iff.1 this.symm
      obtain ⟨hq, he⟩ := hmr
      simpa using he
    subst hm'
    obtain ⟨s, e1, e2⟩ := h4 l.index l.index k hm
    have e1' : states[l.index + 1]? = some s := by rw [← e1]; congr 1; omega
    refine ⟨s, e1', ?_⟩
    rw [e2, hk, Option.map_some]

/-- C170.  In a decay chain whose stable particles have the places from zero to `n - 1` in the event, in any order, setting the polarisations from a list of
`n + 1` projections gives the head the first one, and the particle at each place the one that follows for this place, however the decay chain is arranged.
Nothing else changes.

Missing: states that are no projections of the spin, see `polarisation_counterexample`. -/
theorem polarisation_partial {sort : List (Nat × Nat) → List (Nat × Nat)} (hsp : ∀ l, (sort l).Perm l) (hss : ∀ l, (sort l).Pairwise fun a b => a.1 ≤ b.1)
    {twoSpin : Int} {ls : List Leaf} {states : List Int} (hi : (ls.map (·.index)).Perm (List.range ls.length)) (hl : states.length = ls.length + 1)
    (h0 : 0 ≤ twoSpin) (hh : ∀ s, states[0]? = some s → Projection twoSpin s)
    (hp : ∀ l ∈ ls, 0 ≤ l.twoSpin ∧ ∀ s, states[l.index + 1]? = some s → Projection l.twoSpin s) :
    ∃ head ls', setStates sort twoSpin ls states = some (head, ls') ∧ states[0]? = some head ∧ ls'.length = ls.length ∧
      ∀ (k : Nat) (l : Leaf), ls[k]? = some l → ∃ s, states[l.index + 1]? = some s ∧ ls'[k]? = some { l with pol := s } := by
  obtain ⟨s0, ls', h1, h2, h3, h4⟩ := setStates_spec hsp hss hi hl twoSpin
  refine ⟨_, ls', h1, by rw [checked_projection h0 (hh s0 h2)]; exact h2, h3, ?_⟩
  intro k l hk
  obtain ⟨s, e1, e2⟩ := h4 k l hk
  obtain ⟨a, b⟩ := hp l (List.mem_of_getElem? hk)
  exact ⟨s, e1, by rw [e2, checked_projection a (b s e1)]⟩

/-- The hypotheses are met by the decay of a vector to an electron at the second place, a vector at the third and a scalar at the first. -/
example : ((([⟨1, 1, 0⟩, ⟨2, 2, 0⟩, ⟨0, 0, 0⟩] : List Leaf).map (·.index)).Perm (List.range 3)) ∧ Projection 2 (-1) ∧
    (∀ l ∈ ([⟨1, 1, 0⟩, ⟨2, 2, 0⟩, ⟨0, 0, 0⟩] : List Leaf), 0 ≤ l.twoSpin ∧ ∀ s, ([-1, 0, 1, -1] : List Int)[l.index + 1]? = some s → Projection l.twoSpin s) ∧
    setStates (fun l => l.insertionSort fun a b => a.1 ≤ b.1) 2 [⟨1, 1, 0⟩, ⟨2, 2, 0⟩, ⟨0, 0, 0⟩] [-1, 0, 1, -1] =
      some (-1, [⟨1, 1, 1⟩, ⟨2, 2, -1⟩, ⟨0, 0, 0⟩]) := by
  refine ⟨by decide, by decide, ?_, by decide⟩
  intro l hl
  simp only [List.mem_cons, List.not_mem_nil, or_false] at hl
  rcases hl with rfl | rfl | rfl <;> refine ⟨by decide, fun s hs => ?_⟩ <;> simp at hs <;> subst hs <;> decide

/-- C170.  A state that is larger than the spin, or zero for a fermion, is refused: the particle has the state 999 then, which stands for none. -/
theorem polarisation_refused {sort : List (Nat × Nat) → List (Nat × Nat)} (hsp : ∀ l, (sort l).Perm l) (hss : ∀ l, (sort l).Pairwise fun a b => a.1 ≤ b.1)
    {twoSpin : Int} {ls : List Leaf} {states : List Int} (hi : (ls.map (·.index)).Perm (List.range ls.length)) (hl : states.length = ls.length + 1) :
    ∃ head ls', setStates sort twoSpin ls states = some (head, ls') ∧
      (∀ s, states[0]? = some s → 0 ≤ twoSpin → TooLarge twoSpin s → head = 999) ∧
      ∀ (k : Nat) (l : Leaf) (s : Int), ls[k]? = some l → states[l.index + 1]? = some s → 0 ≤ l.twoSpin → TooLarge l.twoSpin s →
        ls'[k]? = some { l with pol := 999 } := by
  obtain ⟨s0, ls', h1, h2, h3, h4⟩ := setStates_spec hsp hss hi hl twoSpin
  refine ⟨_, ls', h1, ?_, ?_⟩
  · intro s hs h0 ht
    rw [h2] at hs
    cases hs
    exact checked_refused h0 ht
  · intro k l s hk hs h0 ht
    obtain ⟨s', e1, e2⟩ := h4 k l hk
    rw [hs] at e1
    cases e1
    rw [e2, checked_refused h0 ht]

/-- The hypotheses are met by a scalar with the state 1, a fermion with 0 and a vector with 2. -/
example : TooLarge 0 1 ∧ TooLarge 1 0 ∧ TooLarge 2 2 ∧ ¬ TooLarge 2 1 := by unfold TooLarge; norm_num

/-- C170.  The polarisations a particle has according to its properties are projections of its spin and all different, and are accepted; there are as many as
the spin has projections for spins zero, one half, one and two, unless it is a photon. -/
theorem polarisation_lists (photon : Bool) {twoSpin : Int} (h : twoSpin = 0 ∨ twoSpin = 1 ∨ twoSpin = 2 ∨ twoSpin = 4) :
    (polarisations photon twoSpin).Nodup ∧ (∀ s ∈ polarisations photon twoSpin, Projection twoSpin s ∧ checked twoSpin s = s) ∧
    (photon = false → ∀ s, Projection twoSpin s → s ∈ polarisations photon twoSpin) := by
  refine ⟨?_, ?_, ?_⟩
  · rcases h with rfl | rfl | rfl | rfl <;> cases photon <;> decide
  · intro s hs
    have hp : Projection twoSpin s := by
      revert s
      rcases h with rfl | rfl | rfl | rfl <;> cases photon <;> decide
    exact ⟨hp, checked_projection (by omega) hp⟩
  · rintro rfl s hs
    unfold Projection at hs
    rcases h with rfl | rfl | rfl | rfl <;> simp [polarisations] at hs ⊢ <;> omega

/-- C170.  States below the smallest projection are accepted, as are even states of fermions; with a list that is too short, an element beyond its end is read. -/
theorem polarisation_counterexample :
    (¬ Projection 2 (-5) ∧ checked 2 (-5) = -5) ∧ (¬ Projection 3 2 ∧ checked 3 2 = 2) ∧
    ∀ sort : List (Nat × Nat) → List (Nat × Nat), (∀ l, (sort l).Perm l) → setStates sort 2 [⟨0, 0, 0⟩] [1] = none := by
  refine ⟨⟨by unfold Projection; norm_num, by decide⟩, ⟨by unfold Projection; norm_num, by decide⟩, ?_⟩
  intro sort hs
  have : sort [(0, 0)] = [(0, 0)] := List.perm_singleton.1 (hs _)
  simp [setStates, assign, this]

end AmpGen.PolStates
