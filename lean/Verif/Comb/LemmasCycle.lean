import Verif.Comb.Model
import Mathlib.GroupTheory.Perm.Cycle.Concrete
import Mathlib.GroupTheory.Perm.Cycle.Type
import Mathlib.Data.List.Sort
import Mathlib.Data.List.OfFn
import Mathlib.Tactic.Ring
/-
The loop of `minSwaps` enumerates the cycles of the permutation.
-/
namespace AmpGen.Comb

open Equiv.Perm

variable {n : Nat}

/-! ### The sorted pairs -/

theorem pairLe_trans (a b c : Nat × Nat) (h1 : pairLe a b = true) (h2 : pairLe b c = true) :
    pairLe a c = true := by
  simp only [pairLe, Bool.or_eq_true, decide_eq_true_eq, Bool.and_eq_true, beq_iff_eq] at *
  omega

theorem pairLe_total (a b : Nat × Nat) : (pairLe a b || pairLe b a) = true := by
  simp only [pairLe, Bool.or_eq_true, decide_eq_true_eq, Bool.and_eq_true, beq_iff_eq]
  omega

theorem pairLe_antisymm (a b : Nat × Nat) (h1 : pairLe a b = true) (h2 : pairLe b a = true) : a = b := by
  simp only [pairLe, Bool.or_eq_true, decide_eq_true_eq, Bool.and_eq_true, beq_iff_eq] at *
  ext <;> omega

theorem arrPos_eq (σ : Equiv.Perm (Fin n)) :
    arrPos (List.ofFn fun i => ((σ i : Fin n) : Nat)) =
      List.ofFn fun j : Fin n => ((j : Nat), ((σ⁻¹ j : Fin n) : Nat)) := by
  haveI : Std.Total (fun a b : Nat × Nat => pairLe a b = true) :=
    ⟨fun a b => by simpa using pairLe_total a b⟩
  haveI : IsTrans (Nat × Nat) (fun a b => pairLe a b = true) := ⟨pairLe_trans⟩
  have hsort := List.pairwise_insertionSort (fun a b : Nat × Nat => pairLe a b = true)
    ((List.ofFn fun i => ((σ i : Fin n) : Nat)).zipIdx)
  have hperm := List.perm_insertionSort (fun a b : Nat × Nat => pairLe a b = true)
    ((List.ofFn fun i => ((σ i : Fin n) : Nat)).zipIdx)
  unfold arrPos
  refine List.Perm.eq_of_pairwise (fun a b _ _ h1 h2 => pairLe_antisymm a b h1 h2) hsort ?_ ?_
  · rw [List.pairwise_ofFn]
    intro i j hij
    have hij' : (i : Nat) < j := hij
    simp only [pairLe, Bool.or_eq_true, decide_eq_true_eq]
    exact Or.inl hij'
  · refine hperm.trans ?_
    rw [List.perm_ext_iff_of_nodup]
    · rintro ⟨a, b⟩
      rw [List.mem_zipIdx_iff_getElem?, List.mem_ofFn']
      simp only [Set.mem_range, Prod.mk.injEq, List.getElem?_ofFn]
      constructor
      · intro h
        by_cases hb : b < n
        · rw [dif_pos hb] at h
          refine ⟨σ ⟨b, hb⟩, Option.some.inj h, by simp⟩
        · rw [dif_neg hb] at h; cases h
      · rintro ⟨j, rfl, rfl⟩
        rw [dif_pos (σ⁻¹ j).2]
        simp
    · have h : (((List.ofFn fun i => ((σ i : Fin n) : Nat)).zipIdx).map Prod.snd).Nodup := by
        rw [List.zipIdx_map_snd]
        exact List.nodup_range' 
      exact List.Nodup.of_map _ h
    · rw [List.nodup_ofFn]
      intro i j hij
      exact Fin.ext (Prod.mk.inj hij).1

/-! ### The walk along a cycle -/

theorem walk_cycle (τ : Equiv.Perm (Fin n)) (s : Nat → Nat) (hs : ∀ i : Fin n, s i = (τ i : Fin n))
    (i : Fin n) (hi : τ i ≠ i) (V : Nat → Bool) (hV : ∀ x : Fin n, SameCycle τ i x → V x = false) :
    ∀ (d k fuel : Nat) (V' : Nat → Bool), k + d = (toList τ i).length → d < fuel →
      (∀ x : Fin n, V' x = true ↔ V x = true ∨ ∃ a, a < k ∧ x = (τ ^ a) i) →
      ∃ V'', walk s fuel V' ((τ ^ k) i : Fin n) k = some (V'', (toList τ i).length) ∧
        ∀ x : Fin n, V'' x = true ↔ V x = true ∨ SameCycle τ i x := by
  intro d
  have hsup : i ∈ τ.support := mem_support.mpr hi
  have hpos : 0 < (toList τ i).length := length_toList_pos_of_mem_support _ _ hsup
  have hall : ∀ x : Fin n, SameCycle τ i x ↔ ∃ a, a < (toList τ i).length ∧ x = (τ ^ a) i := by
    intro x
    constructor
    · intro h
      have hx : x ∈ toList τ i := mem_toList_iff.mpr ⟨h, hsup⟩
      obtain ⟨a, ha, rfl⟩ := List.getElem_of_mem hx
      exact ⟨a, ha, getElem_toList _ _ _ ha⟩
    · rintro ⟨a, _, rfl⟩
      exact ⟨a, by simp⟩
  induction d with
  | zero =>
    intro k fuel V' hk hf hV'
    obtain ⟨f, rfl⟩ := Nat.exists_eq_add_of_le' (show 1 ≤ fuel by omega)
    have hk' : k = (toList τ i).length := by omega
    have hback : (τ ^ k) i = i := by
      rw [hk', length_toList]
      have h := pow_mod_card_support_cycleOf_self_apply τ (τ.cycleOf i).support.card i
      rw [Nat.mod_self, pow_zero, Equiv.Perm.one_apply] at h
      exact h.symm
    refine ⟨V', ?_, ?_⟩
    · unfold walk
      have : V' ((τ ^ k) i : Fin n) = true := by
        rw [hV']
        exact Or.inr ⟨0, by omega, by simp [hback]⟩
      rw [if_pos this, hk']
    · intro x
      rw [hV', hall, hk']
  | succ d ih =>
    intro k fuel V' hk hf hV'
    obtain ⟨f, rfl⟩ := Nat.exists_eq_add_of_le' (show 1 ≤ fuel by omega)
    have hnot : ¬ V' ((τ ^ k) i : Fin n) = true := by
      rw [hV']
      rintro (h | ⟨a, ha, h⟩)
      · rw [hV _ ⟨k, by simp⟩] at h
        cases h
      · have h1 := getElem_toList τ i k (by omega)
        have h2 := getElem_toList τ i a (by omega)
        have h3 : (toList τ i)[k]'(by omega) = (toList τ i)[a]'(by omega) := by rw [h1, h2, h]
        have := (List.Nodup.getElem_inj_iff (nodup_toList τ i)).mp h3
        omega
    unfold walk
    rw [if_neg hnot, hs]
    have hnext : (τ ((τ ^ k) i) : Fin n) = (τ ^ (k + 1)) i := by
      rw [pow_succ', Equiv.Perm.mul_apply]
    rw [hnext]
    refine ih (k + 1) f _ (by omega) (by omega) ?_
    intro x
    by_cases hx : x = (τ ^ k) i
    · subst hx
      simp only [if_pos, true_iff]
      exact Or.inr ⟨k, by omega, rfl⟩
    · have hx' : ¬ ((x : Nat) = ((τ ^ k) i : Fin n)) := fun h => hx (Fin.ext h)
      simp only [if_neg hx', hV']
      constructor
      · rintro (h | ⟨a, ha, h⟩)
        · exact Or.inl h
        · exact Or.inr ⟨a, by omega, h⟩
      · rintro (h | ⟨a, ha, h⟩)
        · exact Or.inl h
        · refine Or.inr ⟨a, ?_, h⟩
          rcases Nat.lt_succ_iff_lt_or_eq.mp ha with h1 | rfl
          · exact h1
          · exact absurd h hx

/-! ### The loop over starting points -/

/-- The parity entry of the least element of a cycle. -/
noncomputable def leastPar (p : Fin n → Int) (c : Equiv.Perm (Fin n)) : Int :=
  if h : c.support.Nonempty then p (c.support.min' h) else 1

/-- The cycles met before position `k`. -/
noncomputable def met (τ : Equiv.Perm (Fin n)) (k : Nat) : Finset (Equiv.Perm (Fin n)) :=
  open Classical in τ.cycleFactorsFinset.filter fun c => ∃ j ∈ c.support, (j : Nat) < k

structure SwapInv (τ : Equiv.Perm (Fin n)) (p : Fin n → Int) (k : Nat) (st : SwapState) : Prop where
  visited : ∀ x : Fin n, st.visited x = true ↔ ∃ i : Fin n, (i : Nat) < k ∧ τ i ≠ i ∧ SameCycle τ i x
  ans : st.ans = ∑ c ∈ met τ k, (c.support.card - 1)
  parity : st.parity = ∏ c ∈ met τ k, leastPar p c

theorem mem_met {τ : Equiv.Perm (Fin n)} {k : Nat} {c : Equiv.Perm (Fin n)} :
    c ∈ met τ k ↔ c ∈ τ.cycleFactorsFinset ∧ ∃ j ∈ c.support, (j : Nat) < k := by
  unfold met
  rw [Finset.mem_filter]

theorem swapStep_inv (τ : Equiv.Perm (Fin n)) (s : Nat → Nat) (hs : ∀ i : Fin n, s i = (τ i : Fin n))
    (p : Fin n → Int) (q : Nat → Int) (hq : ∀ i : Fin n, q i = p i) (fuel : Nat) (hf : n < fuel)
    (i : Fin n) (st : SwapState) (h : SwapInv τ p i st) :
    ∃ st', swapStep s fuel q st i = some st' ∧ SwapInv τ p (i + 1) st' := by
  unfold swapStep
  by_cases hskip : st.visited i = true ∨ τ i = i
  · have hc : (st.visited i || decide (s i = (i : Nat))) = true := by
      rw [Bool.or_eq_true, decide_eq_true_eq, hs]
      exact hskip.imp id fun h => by rw [h]
    rw [if_pos hc]
    have hmet : met τ ((i : Nat) + 1) = met τ (i : Nat) := by
      ext c
      rw [mem_met, mem_met]
      constructor
      · rintro ⟨h1, j, h2, h3⟩
        refine ⟨h1, ?_⟩
        rcases Nat.lt_succ_iff_lt_or_eq.mp h3 with h4 | h4
        · exact ⟨j, h2, h4⟩
        · have hji : j = i := Fin.ext h4
          subst hji
          have hne : τ j ≠ j := mem_support.mp (mem_cycleFactorsFinset_support_le h1 h2)
          rcases hskip with h5 | h5
          · obtain ⟨i', h6, h7, h8⟩ := (h.visited j).mp h5
            refine ⟨i', ?_, h6⟩
            rw [← eq_cycleOf_of_mem_cycleFactorsFinset_iff τ c h1] at h2 ⊢
            rw [h2, h8.cycleOf_eq]
          · exact absurd h5 hne
      · rintro ⟨h1, j, h2, h3⟩
        exact ⟨h1, j, h2, by omega⟩
    refine ⟨st, rfl, ⟨?_, by rw [hmet]; exact h.ans, by rw [hmet]; exact h.parity⟩⟩
    intro x
    rw [h.visited]
    constructor
    · rintro ⟨j, h1, h2⟩
      exact ⟨j, by omega, h2⟩
    · rintro ⟨j, h1, h2, h3⟩
      rcases Nat.lt_succ_iff_lt_or_eq.mp h1 with h4 | h4
      · exact ⟨j, h4, h2, h3⟩
      · have hji : j = i := Fin.ext h4
        subst hji
        rcases hskip with h5 | h5
        · obtain ⟨i', h6, h7, h8⟩ := (h.visited j).mp h5
          exact ⟨i', h6, h7, h8.trans h3⟩
        · exact absurd h5 h2
  · have hv : ¬ st.visited i = true := fun hh => hskip (Or.inl hh)
    have hne : τ i ≠ i := fun hh => hskip (Or.inr hh)
    have hc : ¬ (st.visited i || decide (s i = (i : Nat))) = true := by
      rw [Bool.or_eq_true, decide_eq_true_eq, hs]
      rintro (h1 | h1)
      · exact hv h1
      · exact hne (Fin.ext h1)
    rw [if_neg hc]
    have hfree : ∀ x : Fin n, SameCycle τ i x → st.visited x = false := by
      intro x hx
      by_contra hcon
      have hx' : st.visited x = true := by simpa using hcon
      obtain ⟨j, h1, h2, h3⟩ := (h.visited x).mp hx'
      exact hv ((h.visited i).mpr ⟨j, h1, h2, h3.trans hx.symm⟩)
    have hlen : (toList τ i).length ≤ n := by
      have := (nodup_toList τ i).length_le_card
      simpa using this
    obtain ⟨V'', w1, w2⟩ := walk_cycle τ s hs i hne st.visited hfree (toList τ i).length 0 fuel
      st.visited (by omega) (by omega) (by intro x; simp)
    have w1' : walk s fuel st.visited i 0 = some (V'', (toList τ i).length) := by simpa using w1
    rw [w1']
    have hsup : i ∈ τ.support := mem_support.mpr hne
    have hpos : 0 < (toList τ i).length := length_toList_pos_of_mem_support _ _ hsup
    refine ⟨⟨V'', st.ans + ((toList τ i).length - 1), st.parity * q i⟩, ?_, ?_⟩
    · simp only [Option.map_some, gt_iff_lt, if_pos hpos]
    · have hmem : τ.cycleOf i ∈ τ.cycleFactorsFinset := cycleOf_mem_cycleFactorsFinset_iff.mpr hsup
      have hself : i ∈ (τ.cycleOf i).support :=
        (eq_cycleOf_of_mem_cycleFactorsFinset_iff τ _ hmem i).mp rfl
      have hleast : ∀ j ∈ (τ.cycleOf i).support, i ≤ j := by
        intro j hj
        by_contra hlt
        have hsc : SameCycle τ i j := by
          by_contra hns
          rw [mem_support, cycleOf_apply_of_not_sameCycle hns] at hj
          exact hj rfl
        refine hv ((h.visited i).mpr ⟨j, by simpa using hlt, ?_, hsc.symm⟩)
        exact mem_support.mp (mem_cycleFactorsFinset_support_le hmem hj)
      have hnot : τ.cycleOf i ∉ met τ (i : Nat) := by
        rw [mem_met]
        rintro ⟨_, j, h1, h2⟩
        have := hleast j h1
        have : (i : Nat) ≤ j := this
        omega
      have hmet : met τ ((i : Nat) + 1) = insert (τ.cycleOf i) (met τ (i : Nat)) := by
        ext c
        rw [Finset.mem_insert, mem_met, mem_met]
        constructor
        · rintro ⟨h1, j, h2, h3⟩
          rcases Nat.lt_succ_iff_lt_or_eq.mp h3 with h4 | h4
          · exact Or.inr ⟨h1, j, h2, h4⟩
          · have hji : j = i := Fin.ext h4
            subst hji
            exact Or.inl ((eq_cycleOf_of_mem_cycleFactorsFinset_iff τ c h1 j).mpr h2)
        · rintro (rfl | ⟨h1, j, h2, h3⟩)
          · exact ⟨hmem, i, hself, by omega⟩
          · exact ⟨h1, j, h2, by omega⟩
      refine ⟨?_, ?_, ?_⟩
      · intro x
        show V'' x = true ↔ _
        rw [w2, h.visited]
        constructor
        · rintro (⟨j, h1, h2⟩ | h1)
          · exact ⟨j, by omega, h2⟩
          · exact ⟨i, by omega, hne, h1⟩
        · rintro ⟨j, h1, h2, h3⟩
          rcases Nat.lt_succ_iff_lt_or_eq.mp h1 with h4 | h4
          · exact Or.inl ⟨j, h4, h2, h3⟩
          · have hji : j = i := Fin.ext h4
            subst hji
            exact Or.inr h3
      · show st.ans + _ = _
        rw [hmet, Finset.sum_insert hnot, h.ans, length_toList, Nat.add_comm]
      · show st.parity * _ = _
        rw [hmet, Finset.prod_insert hnot, h.parity, mul_comm, hq]
        congr 1
        unfold leastPar
        rw [dif_pos ⟨i, hself⟩]
        congr 1
        apply le_antisymm
        · exact Finset.le_min' _ _ _ hleast
        · exact Finset.min'_le _ _ hself

theorem met_zero (τ : Equiv.Perm (Fin n)) : met τ 0 = ∅ := by
  ext c
  rw [mem_met]
  simp

theorem met_all (τ : Equiv.Perm (Fin n)) : met τ n = τ.cycleFactorsFinset := by
  ext c
  rw [mem_met]
  constructor
  · exact fun h => h.1
  · intro h
    obtain ⟨j, hj⟩ := IsCycle.nonempty_support (mem_cycleFactorsFinset_iff.mp h).1
    exact ⟨h, j, hj, j.2⟩

theorem swapLoop_inv (τ : Equiv.Perm (Fin n)) (s : Nat → Nat) (hs : ∀ i : Fin n, s i = (τ i : Fin n))
    (p : Fin n → Int) (q : Nat → Int) (hq : ∀ i : Fin n, q i = p i) (fuel : Nat) (hf : n < fuel) :
    ∀ k, k ≤ n → ∃ st, (List.range k).foldlM (fun st i => swapStep s fuel q st i) ⟨fun _ => false, 0, 1⟩ =
      some st ∧ SwapInv τ p k st := by
  intro k
  induction k with
  | zero =>
    intro _
    exact ⟨_, rfl, ⟨by simp, by simp [met_zero], by simp [met_zero]⟩⟩
  | succ k ih =>
    intro hk
    obtain ⟨st, h1, h2⟩ := ih (by omega)
    obtain ⟨st', h3, h4⟩ := swapStep_inv τ s hs p q hq fuel hf ⟨k, by omega⟩ st h2
    refine ⟨st', ?_, h4⟩
    rw [List.range_succ, List.foldlM_append, h1]
    simp only [List.foldlM_cons, List.foldlM_nil]
    show ((swapStep s fuel q st k).bind fun x => some x) = _
    rw [h3]
    rfl

theorem minSwaps_eq (σ : Equiv.Perm (Fin n)) (p : Fin n → Int) (fuel : Nat) (hf : n < fuel) :
    minSwaps fuel (List.ofFn fun i => ((σ i : Fin n) : Nat)) (List.ofFn p) =
      some (∑ c ∈ σ⁻¹.cycleFactorsFinset, (c.support.card - 1),
        ∏ c ∈ σ⁻¹.cycleFactorsFinset, leastPar p c) := by
  unfold minSwaps
  have hs : ∀ i : Fin n, ((arrPos (List.ofFn fun i => ((σ i : Fin n) : Nat)))[(i : Nat)]?.map Prod.snd).getD 0
      = (σ⁻¹ i : Fin n) := by
    intro i
    rw [arrPos_eq]
    simp
  obtain ⟨st, h1, h2⟩ := swapLoop_inv σ⁻¹
    (fun i => ((arrPos (List.ofFn fun i => ((σ i : Fin n) : Nat)))[i]?.map Prod.snd).getD 0) hs p (fun i => (List.ofFn p).getD i 0) (by intro i; simp) fuel hf
    n (le_refl _)
  simp only [List.length_ofFn]
  rw [h1]
  simp only [Option.map_some]
  rw [h2.ans, h2.parity, met_all]

/-! ### Signs -/

theorem sign_cycles (τ : Equiv.Perm (Fin n)) :
    sign τ = ∏ c ∈ τ.cycleFactorsFinset, (-(-1 : ℤˣ) ^ c.support.card) := by
  rw [sign_of_cycleType', cycleType_def, Multiset.map_map]
  rfl

theorem sign_swaps (τ : Equiv.Perm (Fin n)) :
    (-1 : ℤˣ) ^ (∑ c ∈ τ.cycleFactorsFinset, (c.support.card - 1)) = sign τ := by
  rw [sign_cycles, ← Finset.prod_pow_eq_pow_sum]
  apply Finset.prod_congr rfl
  intro c hc
  have h2 : 2 ≤ c.support.card := (mem_cycleFactorsFinset_iff.mp hc).1.two_le_card_support
  obtain ⟨k, hk⟩ := Nat.exists_eq_add_of_le' (show 1 ≤ c.support.card by omega)
  rw [hk, Nat.add_sub_cancel, pow_succ]
  simp

/-- `τ` on the positions satisfying `F`, the identity elsewhere, has the cycles of `τ`
inside `F`. -/
theorem cycles_restrict (τ : Equiv.Perm (Fin n)) (F : Fin n → Prop) [DecidablePred F]
    (hF : ∀ x, F (τ x) ↔ F x) :
    (ofSubtype (τ.subtypePerm hF)).cycleFactorsFinset =
      τ.cycleFactorsFinset.filter fun c => ∀ x ∈ c.support, F x := by
  have happ : ∀ x, (ofSubtype (τ.subtypePerm hF)) x = if F x then τ x else x := by
    intro x
    by_cases h : F x
    · rw [ofSubtype_apply_of_mem _ h, if_pos h]; rfl
    · rw [ofSubtype_apply_of_not_mem _ h, if_neg h]
  ext c
  rw [Finset.mem_filter, mem_cycleFactorsFinset_iff, mem_cycleFactorsFinset_iff]
  constructor
  · rintro ⟨h1, h2⟩
    have h3 : ∀ x ∈ c.support, F x := by
      intro x hx
      by_contra hn
      have := h2 x hx
      rw [happ, if_neg hn] at this
      exact mem_support.mp hx this
    refine ⟨⟨h1, fun x hx => ?_⟩, h3⟩
    rw [h2 x hx, happ, if_pos (h3 x hx)]
  · rintro ⟨⟨h1, h2⟩, h3⟩
    refine ⟨h1, fun x hx => ?_⟩
    rw [h2 x hx, happ, if_pos (h3 x hx)]

theorem card_two (τ : Equiv.Perm (Fin n)) (hinv : ∀ x, τ (τ x) = x) (c : Equiv.Perm (Fin n))
    (hc : c ∈ τ.cycleFactorsFinset) : c.support.card = 2 := by
  obtain ⟨h1, h2⟩ := mem_cycleFactorsFinset_iff.mp hc
  have hsq : c ^ 2 = 1 := by
    ext x
    by_cases hx : x ∈ c.support
    · rw [pow_two, Equiv.Perm.mul_apply, h2 x hx]
      have hx' : τ x ∈ c.support := by rw [← h2 x hx]; exact apply_mem_support.mpr hx
      rw [h2 _ hx', hinv]
      rfl
    · have hfix : c x = x := by simpa using hx
      rw [pow_two, Equiv.Perm.mul_apply, hfix, hfix]
      rfl
  have h3 : c.support.card ∣ 2 := by
    rw [← h1.orderOf]
    exact orderOf_dvd_of_pow_eq_one hsq
  have h4 := h1.two_le_card_support
  have h5 := Nat.le_of_dvd (by decide) h3
  omega

end AmpGen.Comb
