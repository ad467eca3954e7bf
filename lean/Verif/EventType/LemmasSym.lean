import Verif.EventType.Spec
import Verif.Kinematics.Props
import Mathlib.Algebra.Group.End
import Mathlib.Logic.Equiv.Basic
import Mathlib.Data.List.Nodup
import Mathlib.Data.List.GetD
namespace AmpGen.EventType
open AmpGen.Strings AmpGen.Kinematics Spec Equiv

theorem perm_apply_inv (ρ : Perm Nat) (p : Nat) : ρ (ρ⁻¹ p) = p := ρ.apply_symm_apply p

/-! ### The Fisher–Yates shuffle of one group -/

/-- The permutation of positions after `m` turns. -/
def fy (g : List Nat) (d : Nat → Nat) : Nat → Perm Nat
  | 0 => 1
  | m + 1 => fy g d m * swap (g.getD m 0) (g.getD (d m) 0)

variable {g : List Nat}

theorem getD_mem {x : Nat} (hx : x < g.length) : g.getD x 0 ∈ g := by
  rw [List.getD_eq_getElem _ _ hx]
  exact List.getElem_mem hx

theorem getD_inj (hg : g.Nodup) {x y : Nat} (hx : x < g.length) (hy : y < g.length) (h : g.getD x 0 = g.getD y 0) : x = y := by
  rw [List.getD_eq_getElem _ _ hx, List.getD_eq_getElem _ _ hy] at h
  exact (hg.getElem_inj_iff).1 h

theorem fy_fixes (hg : g.Nodup) (d : Nat → Nat) : ∀ m, m ≤ g.length → (∀ i < m, d i ≤ i) → ∀ p, (∀ x < m, p ≠ g.getD x 0) → fy g d m p = p
  | 0, _, _, p, _ => rfl
  | m + 1, hm, hd, p, hp => by
    unfold fy
    rw [Perm.mul_apply, swap_apply_of_ne_of_ne (hp m (by omega)) (hp (d m) (by have := hd m (by omega); omega))]
    exact fy_fixes hg d m (by omega) (fun i hi => hd i (by omega)) p fun x hx => hp x (by omega)

theorem fy_congr (d d' : Nat → Nat) : ∀ m, (∀ i < m, d i = d' i) → fy g d m = fy g d' m
  | 0, _ => rfl
  | m + 1, h => by
    unfold fy
    rw [fy_congr d d' m fun i hi => h i (by omega), h m (by omega)]

theorem fy_unique (hg : g.Nodup) (d d' : Nat → Nat) : ∀ m, m ≤ g.length → (∀ i < m, d i ≤ i) → (∀ i < m, d' i ≤ i) → fy g d m = fy g d' m → ∀ i < m, d i = d' i
  | 0, _, _, _, _ => fun i hi => by omega
  | m + 1, hm, hd, hd', h => by
    have key : ∀ e : Nat → Nat, (∀ i < m + 1, e i ≤ i) → fy g e (m + 1) (g.getD (e m) 0) = g.getD m 0 := by
      intro e he
      unfold fy
      rw [Perm.mul_apply, swap_apply_right]
      apply fy_fixes hg e m (by omega) fun i hi => he i (by omega)
      intro x hx hxm
      have := getD_inj hg (by omega) (by omega) hxm
      omega
    have h1 := key d hd
    have h2 := key d' hd'
    rw [← h] at h2
    have h3 := (fy g d (m + 1)).injective (h1.trans h2.symm)
    have hb := hd m (by omega)
    have hb' := hd' m (by omega)
    have h4 : d m = d' m := getD_inj hg (by omega) (by omega) h3
    have h5 : fy g d m = fy g d' m := by
      unfold fy at h
      rw [h4] at h
      exact mul_right_cancel h
    have ih := fy_unique hg d d' m (by omega) (fun i hi => hd i (by omega)) (fun i hi => hd' i (by omega)) h5
    intro i hi
    by_cases him : i = m
    · rw [him]; exact h4
    · exact ih i (by omega)

theorem fy_exists (hg : g.Nodup) : ∀ m, m ≤ g.length → ∀ ρ : Perm Nat, (∀ p, (∀ x < m, p ≠ g.getD x 0) → ρ p = p) → ∃ d : Nat → Nat, (∀ i < m, d i ≤ i) ∧ fy g d m = ρ
  | 0, _, ρ, h => ⟨fun _ => 0, fun i hi => by omega, by ext p; simp [fy, h p (fun x hx => by omega)]⟩
  | m + 1, hm, ρ, h => by
    obtain ⟨p, hp⟩ := ρ.surjective (g.getD m 0)
    have hj : ∃ j, j ≤ m ∧ p = g.getD j 0 := by
      by_contra hn
      have hne : ∀ x < m + 1, p ≠ g.getD x 0 := fun x hx hxp => hn ⟨x, by omega, hxp⟩
      have := h p hne
      rw [hp] at this
      exact hne m (by omega) this.symm
    obtain ⟨j, hjm, rfl⟩ := hj
    obtain ⟨d, hd, hfy⟩ := fy_exists hg m (by omega) (ρ * swap (g.getD m 0) (g.getD j 0)) (by
      intro q hq
      rw [Perm.mul_apply]
      by_cases hqm : q = g.getD m 0
      · rw [hqm, swap_apply_left, hp]
      · by_cases hqj : q = g.getD j 0
        · by_cases hjm' : j = m
          · subst hjm'; exact absurd hqj hqm
          · exact absurd hqj (hq j (by omega))
        · rw [swap_apply_of_ne_of_ne hqm hqj]
          apply h
          intro x hx
          by_cases hxm : x = m
          · rw [hxm]; exact hqm
          · exact hq x (by omega))
    refine ⟨fun i => if i = m then j else d i, ?_, ?_⟩
    · intro i hi
      by_cases him : i = m
      · simp [him, hjm]
      · simp only [him, if_false]
        exact hd i (by omega)
    · unfold fy
      rw [fy_congr (fun i => if i = m then j else d i) d m fun i hi => by simp [show i ≠ m by omega], hfy]
      simp [mul_assoc]

/-! ### The loop of the shuffle -/

theorem shuffle_loop (hg : g.Nodup) (d : Nat → Nat) (e : Event) : ∀ m, m ≤ g.length → (∀ i < m, d i ≤ i) →
    ((List.range m).foldl (fun (st : List Nat × Event) (index : Nat) => shuffleStep st index (d index)) (g, e)).1 = g.map (fy g d m) ∧
    (∀ i, momentum ((List.range m).foldl (fun (st : List Nat × Event) (index : Nat) => shuffleStep st index (d index)) (g, e)).2 (fy g d m i) = momentum e i) ∧
    ((List.range m).foldl (fun (st : List Nat × Event) (index : Nat) => shuffleStep st index (d index)) (g, e)).2.size = e.size
  | 0, _, _ => by simp [fy]
  | m + 1, hm, hd => by
    obtain ⟨h1, h2, h3⟩ := shuffle_loop hg d e m (by omega) fun i hi => hd i (by omega)
    rw [List.range_succ, List.foldl_append]
    obtain ⟨st, hst⟩ : ∃ st, (List.range m).foldl (fun (st : List Nat × Event) (index : Nat) => shuffleStep st index (d index)) (g, e) = st := ⟨_, rfl⟩
    rw [hst] at h1 h2 h3 ⊢
    simp only [List.foldl_cons, List.foldl_nil]
    have hdm := hd m (by omega)
    unfold shuffleStep
    by_cases hmd : m = d m
    · rw [if_pos hmd]
      have e1 : fy g d (m + 1) = fy g d m := by
        rw [fy, ← hmd, swap_self]
        exact mul_one _
      rw [e1]
      exact ⟨h1, h2, h3⟩
    · rw [if_neg hmd]
      have hlm : m < g.length := by omega
      have hld : d m < g.length := by omega
      have ha : st.1.getD m 0 = fy g d m (g.getD m 0) := by
        rw [h1, List.getD_eq_getElem _ _ (by simpa using hlm), List.getElem_map, List.getD_eq_getElem _ _ hlm]
      have hb : st.1.getD (d m) 0 = fy g d m (g.getD (d m) 0) := by
        rw [h1, List.getD_eq_getElem _ _ (by simpa using hld), List.getElem_map, List.getD_eq_getElem _ _ hld]
      have hlen : st.1.length = g.length := by rw [h1, List.length_map]
      simp only
      have s1 : ((st.1.set m (st.1.getD (d m) 0)).set (d m) (st.1.getD m 0)).getD m 0 = st.1.getD (d m) 0 := by
        rw [List.getD_eq_getElem _ _ (by simp; omega), List.getElem_set_of_ne (by omega), List.getElem_set_self]
      have s2 : ((st.1.set m (st.1.getD (d m) 0)).set (d m) (st.1.getD m 0)).getD (d m) 0 = st.1.getD m 0 := by
        rw [List.getD_eq_getElem _ _ (by simp; omega), List.getElem_set_self]
      rw [s1, s2]
      refine ⟨?_, ?_, ?_⟩
      · apply List.ext_getElem
        · simp [hlen]
        · intro x hx1 hx2
          have hx : x < g.length := by simpa using hx2
          rw [List.getElem_map]
          unfold fy
          rw [Perm.mul_apply]
          by_cases hxd : x = d m
          · subst hxd
            rw [List.getElem_set_self, ha]
            rw [← List.getD_eq_getElem _ 0 hx, swap_apply_right]
          · rw [List.getElem_set_of_ne (fun h => hxd h.symm)]
            by_cases hxm : x = m
            · subst hxm
              rw [List.getElem_set_self, hb, ← List.getD_eq_getElem _ 0 hx, swap_apply_left]
            · rw [List.getElem_set_of_ne (fun h => hxm h.symm)]
              rw [swap_apply_of_ne_of_ne]
              · simp only [h1, List.getElem_map]
              · intro h
                rw [← List.getD_eq_getElem _ 0 hx] at h
                exact hxm (getD_inj hg hx hlm h)
              · intro h
                rw [← List.getD_eq_getElem _ 0 hx] at h
                exact hxd (getD_inj hg hx hld h)
      · intro i
        rw [momentum_swap]
        have hfy : fy g d (m + 1) i = swap (fy g d m (g.getD m 0)) (fy g d m (g.getD (d m) 0)) (fy g d m i) := by
          rw [fy, Perm.mul_apply, swap_apply_apply]
          simp
        rw [hfy, ha, hb, swap_apply_def]
        rw [← h2 i]
        by_cases c1 : fy g d m i = fy g d m (g.getD m 0)
        · rw [if_pos c1, if_pos rfl, c1]
        · rw [if_neg c1]
          by_cases c2 : fy g d m i = fy g d m (g.getD (d m) 0)
          · rw [if_pos c2]
            have : ¬ fy g d m (g.getD m 0) = fy g d m (g.getD (d m) 0) := by
              intro h
              exact c1 (c2.trans h.symm)
            rw [if_neg this, if_pos rfl, c2]
          · rw [if_neg c2, if_neg c2, if_neg c1]
      · rw [swap_size]; exact h3

/-- The permutation of a group. -/
def groupPerm (g : List Nat) (d : Nat → Nat) : Perm Nat := fy g d g.length

theorem shuffle_spec (hg : g.Nodup) (d : Nat → Nat) (hd : ∀ i < g.length, d i ≤ i) (e : Event) :
    (∀ i, momentum (shuffle d e g) (groupPerm g d i) = momentum e i) ∧ (shuffle d e g).size = e.size := by
  have := shuffle_loop hg d e g.length (Nat.le_refl _) hd
  exact ⟨this.2.1, this.2.2⟩

theorem groupPerm_fixes (hg : g.Nodup) (d : Nat → Nat) (hd : ∀ i < g.length, d i ≤ i) (p : Nat) (hp : p ∉ g) : groupPerm g d p = p := by
  apply fy_fixes hg d g.length (Nat.le_refl _) hd
  intro x hx h
  exact hp (h ▸ getD_mem hx)

theorem groupPerm_mem (hg : g.Nodup) (d : Nat → Nat) (hd : ∀ i < g.length, d i ≤ i) (p : Nat) (hp : p ∈ g) : groupPerm g d p ∈ g := by
  by_contra h
  have := groupPerm_fixes hg d hd _ h
  have := (groupPerm g d).injective this
  rw [this] at h
  exact h hp

theorem groupPerm_exists (hg : g.Nodup) (ρ : Perm Nat) (h : ∀ p, p ∉ g → ρ p = p) : ∃ d : Nat → Nat, (∀ i < g.length, d i ≤ i) ∧ groupPerm g d = ρ := by
  apply fy_exists hg g.length (Nat.le_refl _)
  intro p hp
  apply h
  intro hm
  obtain ⟨x, hx, rfl⟩ := List.getElem_of_mem hm
  exact hp x hx (List.getD_eq_getElem _ _ hx).symm

/-! ### All groups -/

/-- The permutation of all groups, beginning with the random numbers of number `n`. -/
def allPerm (draws : Nat → Nat → Nat) : List (List Nat) → Nat → Perm Nat
  | [], _ => 1
  | g :: gs, n => allPerm draws gs (n + 1) * groupPerm g (draws n)

/-- The random numbers are within their ranges. -/
def Bounded (draws : Nat → Nat → Nat) (gs : List (List Nat)) (n : Nat) : Prop := ∀ (k : Nat) (hk : k < gs.length), ∀ i < gs[k].length, draws (n + k) i ≤ i

/-- The groups are disjoint. -/
def DisjointGroups (gs : List (List Nat)) : Prop := (∀ g ∈ gs, g.Nodup) ∧ gs.Pairwise List.Disjoint

theorem bounded_cons {draws : Nat → Nat → Nat} {g : List Nat} {gs : List (List Nat)} {n : Nat} (h : Bounded draws (g :: gs) n) :
    (∀ i < g.length, draws n i ≤ i) ∧ Bounded draws gs (n + 1) := by
  constructor
  · intro i hi
    exact h 0 (by simp) i hi
  · intro k hk i hi
    have := h (k + 1) (by simpa using hk) i (by simpa using hi)
    rwa [show n + (k + 1) = n + 1 + k by omega] at this

theorem disjoint_cons {g : List Nat} {gs : List (List Nat)} (h : DisjointGroups (g :: gs)) : g.Nodup ∧ DisjointGroups gs ∧ ∀ g' ∈ gs, ∀ p ∈ g, p ∉ g' := by
  obtain ⟨h1, h2⟩ := h
  rw [List.pairwise_cons] at h2
  exact ⟨h1 g (by simp), ⟨fun g' hg' => h1 g' (List.mem_cons_of_mem _ hg'), h2.2⟩, fun g' hg' p hp hp' => h2.1 g' hg' hp hp'⟩

theorem symmetrise_spec (draws : Nat → Nat → Nat) : ∀ (gs : List (List Nat)) (n : Nat) (e : Event), DisjointGroups gs → Bounded draws gs n →
    (∀ i, momentum ((gs.zipIdx n).foldl (fun (e : Event) (g : List Nat × Nat) => shuffle (draws g.2) e g.1) e) (allPerm draws gs n i) = momentum e i) ∧
    ((gs.zipIdx n).foldl (fun (e : Event) (g : List Nat × Nat) => shuffle (draws g.2) e g.1) e).size = e.size
  | [], n, e, _, _ => by simp [allPerm]
  | g :: gs, n, e, hd, hb => by
    obtain ⟨h1, h2⟩ := bounded_cons hb
    obtain ⟨hg, hgs, _⟩ := disjoint_cons hd
    obtain ⟨s1, s2⟩ := shuffle_spec hg (draws n) h1 e
    obtain ⟨i1, i2⟩ := symmetrise_spec draws gs (n + 1) (shuffle (draws n) e g) hgs h2
    rw [List.zipIdx_cons, List.foldl_cons]
    refine ⟨?_, ?_⟩
    · intro i
      unfold allPerm
      rw [Perm.mul_apply, i1, s1]
    · rw [i2, s2]

theorem allPerm_fixes (draws : Nat → Nat → Nat) : ∀ (gs : List (List Nat)) (n : Nat), DisjointGroups gs → Bounded draws gs n → ∀ p, (∀ g ∈ gs, p ∉ g) → allPerm draws gs n p = p
  | [], _, _, _, p, _ => rfl
  | g :: gs, n, hd, hb, p, hp => by
    obtain ⟨h1, h2⟩ := bounded_cons hb
    obtain ⟨hg, hgs, _⟩ := disjoint_cons hd
    unfold allPerm
    rw [Perm.mul_apply, groupPerm_fixes hg (draws n) h1 p (hp g (by simp))]
    exact allPerm_fixes draws gs (n + 1) hgs h2 p fun g' hg' => hp g' (List.mem_cons_of_mem _ hg')

theorem allPerm_mem (draws : Nat → Nat → Nat) : ∀ (gs : List (List Nat)) (n : Nat), DisjointGroups gs → Bounded draws gs n → ∀ g ∈ gs, ∀ p ∈ g, allPerm draws gs n p ∈ g
  | g :: gs, n, hd, hb, g', hg', p, hp => by
    obtain ⟨h1, h2⟩ := bounded_cons hb
    obtain ⟨hg, hgs, hdis⟩ := disjoint_cons hd
    unfold allPerm
    rw [Perm.mul_apply]
    rcases List.mem_cons.1 hg' with rfl | hg'
    · have hm := groupPerm_mem hg (draws n) h1 p hp
      rw [allPerm_fixes draws gs (n + 1) hgs h2 _ fun g'' hg'' => hdis g'' hg'' _ hm]
      exact hm
    · have : p ∉ g := fun hpg => hdis g' hg' p hpg hp
      rw [groupPerm_fixes hg (draws n) h1 p this]
      exact allPerm_mem draws gs (n + 1) hgs h2 g' hg' p hp

theorem allPerm_unique (draws draws' : Nat → Nat → Nat) : ∀ (gs : List (List Nat)) (n : Nat), DisjointGroups gs → Bounded draws gs n → Bounded draws' gs n → allPerm draws gs n = allPerm draws' gs n →
    ∀ (k : Nat) (hk : k < gs.length), ∀ i < gs[k].length, draws (n + k) i = draws' (n + k) i
  | [], _, _, _, _, _, k, hk => by simp at hk
  | g :: gs, n, hd, hb, hb', h, k, hk => by
    obtain ⟨h1, h2⟩ := bounded_cons hb
    obtain ⟨h1', h2'⟩ := bounded_cons hb'
    obtain ⟨hg, hgs, hdis⟩ := disjoint_cons hd
    have e1 : groupPerm g (draws n) = groupPerm g (draws' n) := by
      ext p
      by_cases hp : p ∈ g
      · have := congrArg (fun σ : Perm Nat => σ p) h
        simp only [allPerm, Perm.mul_apply] at this
        rw [allPerm_fixes draws gs (n + 1) hgs h2 _ fun g'' hg'' => hdis g'' hg'' _ (groupPerm_mem hg _ h1 p hp),
          allPerm_fixes draws' gs (n + 1) hgs h2' _ fun g'' hg'' => hdis g'' hg'' _ (groupPerm_mem hg _ h1' p hp)] at this
        exact this
      · rw [groupPerm_fixes hg _ h1 p hp, groupPerm_fixes hg _ h1' p hp]
    have e2 : allPerm draws gs (n + 1) = allPerm draws' gs (n + 1) := by
      unfold allPerm at h
      rw [e1] at h
      exact mul_right_cancel h
    cases k with
    | zero => exact fy_unique hg (draws n) (draws' n) g.length (Nat.le_refl _) h1 h1' e1
    | succ k =>
      intro i hi
      have := allPerm_unique draws draws' gs (n + 1) hgs h2 h2' e2 k (by simpa using hk) i (by simpa using hi)
      rwa [show n + (k + 1) = n + 1 + k by omega]

theorem allPerm_congr (draws draws' : Nat → Nat → Nat) : ∀ (gs : List (List Nat)) (n : Nat), (∀ k, n ≤ k → draws k = draws' k) → allPerm draws gs n = allPerm draws' gs n
  | [], _, _ => rfl
  | g :: gs, n, h => by
    unfold allPerm
    rw [h n (Nat.le_refl _), allPerm_congr draws draws' gs (n + 1) fun k hk => h k (by omega)]

open Classical in
theorem allPerm_exists : ∀ (gs : List (List Nat)) (n : Nat), DisjointGroups gs → ∀ σ : Perm Nat, (∀ g ∈ gs, ∀ p, p ∈ g ↔ σ p ∈ g) → (∀ p, (∀ g ∈ gs, p ∉ g) → σ p = p) →
    ∃ draws, Bounded draws gs n ∧ allPerm draws gs n = σ
  | [], n, _, σ, _, h => ⟨fun _ _ => 0, fun k hk => by simp at hk, by ext p; simp [allPerm, h p (by simp)]⟩
  | g :: gs, n, hd, σ, hσ, hfix => by
    obtain ⟨hg, hgs, hdis⟩ := disjoint_cons hd
    let ρ : Perm Nat := Perm.ofSubtype (σ.subtypePerm (p := fun p => p ∈ g) fun p => (hσ g (by simp) p).symm)
    have hρ1 : ∀ p ∈ g, ρ p = σ p := by
      intro p hp
      show Perm.ofSubtype _ p = _
      rw [Perm.ofSubtype_apply_of_mem _ hp]
      rfl
    have hρ2 : ∀ p, p ∉ g → ρ p = p := fun p hp => Perm.ofSubtype_apply_of_not_mem _ hp
    obtain ⟨d, hdb, hdp⟩ := groupPerm_exists hg ρ hρ2
    have hin : ∀ p, p ∈ g → ρ⁻¹ p ∈ g := by
      intro p hp
      by_contra h
      have := hρ2 _ h
      rw [perm_apply_inv] at this
      rw [← this] at h
      exact h hp
    have hout : ∀ p, p ∉ g → ρ⁻¹ p = p := by
      intro p hp
      have := hρ2 p hp
      rw [Perm.inv_eq_iff_eq]
      exact this.symm
    have hfixg : ∀ p ∈ g, (σ * ρ⁻¹) p = p := by
      intro p hp
      rw [Perm.mul_apply, ← hρ1 _ (hin p hp), perm_apply_inv]
    obtain ⟨draws, hb, hall⟩ := allPerm_exists gs (n + 1) hgs (σ * ρ⁻¹) (by
      intro g' hg' p
      by_cases hp : p ∈ g
      · rw [hfixg p hp]
      · rw [Perm.mul_apply, hout p hp]
        exact hσ g' (List.mem_cons_of_mem _ hg') p) (by
      intro p hp
      by_cases hpg : p ∈ g
      · exact hfixg p hpg
      · rw [Perm.mul_apply, hout p hpg]
        apply hfix
        intro g' hg'
        rcases List.mem_cons.1 hg' with rfl | hg'
        · exact hpg
        · exact hp g' hg')
    refine ⟨fun k => if k = n then d else draws k, ?_, ?_⟩
    · intro k hk i hi
      cases k with
      | zero =>
        simp only [Nat.add_zero, if_true]
        exact hdb i hi
      | succ k =>
        have := hb k (by simpa using hk) i (by simpa using hi)
        rw [show n + (k + 1) = n + 1 + k by omega]
        simp only [show n + 1 + k ≠ n by omega, if_false]
        exact this
    · unfold allPerm
      rw [allPerm_congr (fun k => if k = n then d else draws k) draws gs (n + 1) fun k hk => by simp [show k ≠ n by omega], hall]
      simp only [if_true]
      rw [hdp]
      simp

end AmpGen.EventType
