import Verif.CP.Lemmas
/-
Properties of the comparison of decay chains: C140.
-/
namespace AmpGen.CP
open AmpGen.Strings
open AmpGen.CP.Spec

/-- What one place adds to the bit `k`. -/
def hereBit (k : Nat) (a b : Chain) : Prop :=
  if k = 0 then name a ≠ name b ∨ (products a ≠ [] ∧ products b ≠ [] ∧ (products a).length ≠ (products b).length)
  else if k = 2 then name a = name b ∧ ((products a = [] ∧ products b ≠ []) ∨ (products a ≠ [] ∧ products b = []))
  else if k = 3 then name a = name b ∧ (products a).length = (products b).length ∧ orbital a ≠ orbital b
  else name a = name b ∧ (products a).length = (products b).length ∧ polarisation a ≠ polarisation b

theorem bit_step (k : Nat) (hk : k = 0 ∨ k = 2 ∨ k = 3 ∨ k = 4) (n n' : Str) (L L' : Nat) (p p' : Int) (ds ds' : List Chain) :
    (matchChain (.node n L p ds) (.node n' L' p' ds')).testBit k = true ↔
      hereBit k (.node n L p ds) (.node n' L' p' ds') ∨
      (n = n' ∧ ds.length = ds'.length ∧ ∃ (i : Nat) (d d' : Chain), ds[i]? = some d ∧ ds'[i]? = some d' ∧ (matchChain d d').testBit k = true) := by
  rw [matchChain]
  by_cases hn : n = n'
  · rw [if_neg (not_not.mpr hn)]
    by_cases hz : (ds'.length = 0 ∧ ds.length ≠ 0) ∨ (ds'.length ≠ 0 ∧ ds.length = 0)
    · rw [if_pos hz]
      have hl : ds.length ≠ ds'.length := by omega
      simp only [List.length_eq_zero_iff, ne_eq] at hz
      rcases hk with rfl | rfl | rfl | rfl <;> simp [hereBit, name, products, mPartialExpansion, hn, hl, Nat.testBit] <;> tauto
    · rw [if_neg hz]
      by_cases hl : ds.length = ds'.length
      · rw [if_neg (by omega)]
        obtain ⟨r, hr, hlt⟩ := matchList_bounds ds ds' 0 (by decide)
        rw [hr]
        simp only
        rw [matchEnd_eq]
        have hb := matchList_bit k ds ds' 0 r hr
        have hf := endBits_facts r hlt (decide (L ≠ L')) (decide (p ≠ p'))
        simp only [Nat.zero_testBit, Bool.false_eq_true, false_or] at hb
        have hnil : ds = [] ↔ ds' = [] := by rw [← List.length_eq_zero_iff, ← List.length_eq_zero_iff, hl]
        have e0 : (endBits (decide (L ≠ L')) (decide (p ≠ p')) r).testBit k = true ↔ hereBit k (.node n L p ds) (.node n' L' p' ds') ∨ r.testBit k = true := by
          rcases hk with rfl | rfl | rfl | rfl
          · rw [hf.2.2.2.2.1]; simp [hereBit, name, products, hn, hl]
          · rw [hf.2.2.2.2.2.1]; simp [hereBit, name, products, hn, hnil]
          · rw [hf.2.2.2.2.2.2.1]; simp [hereBit, name, products, orbital, hn, hl, or_comm]
          · rw [hf.2.2.2.2.2.2.2]; simp [hereBit, name, products, polarisation, hn, hl, or_comm]
        rw [e0, hb]
        simp [hn, hl]
      · rw [if_pos (by omega)]
        have h1 : ¬ (ds = [] ∧ ds' ≠ [] ∨ ds ≠ [] ∧ ds' = []) := by
          intro h; apply hz; simp only [List.length_eq_zero_iff, ne_eq]; tauto
        have h2 : ds ≠ [] ∧ ds' ≠ [] := by
          constructor
          · rintro rfl; apply hz; right; simp at hl ⊢; exact fun h => hl (by simp [h])
          · rintro rfl; apply hz; left; simp at hl ⊢; exact hl
        rcases hk with rfl | rfl | rfl | rfl <;> simp [hereBit, name, products, mNone, hn, hl, h2, Nat.testBit]
  · rw [if_pos hn]
    rcases hk with rfl | rfl | rfl | rfl <;> simp [hereBit, name, mNone, hn, Nat.testBit]

theorem bit_places (k : Nat) (hk : k = 0 ∨ k = 2 ∨ k = 3 ∨ k = 4) : ∀ t u : Chain, (matchChain t u).testBit k = true ↔ ∃ a b, Place t u a b ∧ hereBit k a b
  | .node n L p ds, .node n' L' p' ds' => by
    rw [bit_step k hk]
    constructor
    · rintro (h | ⟨rfl, hl, i, d, d', h1, h2, h3⟩)
      · exact ⟨_, _, .here _ _, h⟩
      · have := List.sizeOf_lt_of_mem (List.mem_of_getElem? h1)
        obtain ⟨a, b, hp, hb⟩ := (bit_places k hk d d').mp h3
        exact ⟨a, b, .inside n L L' p p' ds ds' i d d' a b hl h1 h2 hp, hb⟩
    · rintro ⟨a, b, hp, hb⟩
      cases hp with
      | here => exact Or.inl hb
      | inside _ _ _ _ _ _ _ i d d' _ _ hl h1 h2 hp =>
        have := List.sizeOf_lt_of_mem (List.mem_of_getElem? h1)
        exact Or.inr ⟨rfl, hl, i, d, d', h1, h2, (bit_places k hk d d').mpr ⟨a, b, hp, hb⟩⟩
termination_by t => sizeOf t
decreasing_by all_goals (simp_wf; omega)

/-- **C140**: two decay chains match exactly if and only if they are the same: all particles, angular momenta and polarisations, in the same places. -/
theorem exact_match : ∀ t u : Chain, matchChain t u = mExact ↔ t = u
  | .node n L p ds, .node n' L' p' ds' => by
    rw [matchChain]
    by_cases hn : n = n'
    · rw [if_neg (not_not.mpr hn)]
      by_cases hl : ds.length = ds'.length
      · have hz : ¬ ((ds'.length = 0 ∧ ds.length ≠ 0) ∨ (ds'.length ≠ 0 ∧ ds.length = 0)) := by omega
        rw [if_neg hz, if_neg (by omega)]
        obtain ⟨r, hr, hlt⟩ := matchList_bounds ds ds' 0 (by decide)
        rw [hr]
        simp only
        rw [matchEnd_eq, mExact, (endBits_facts r hlt _ _).2.2.1, matchList_exact ds ds' 0 r (by decide) hl hr]
        constructor
        · rintro ⟨⟨_, h⟩, hL, hp⟩
          have hds : ds = ds' := by
            apply List.ext_getElem? 
            intro i
            by_cases hi : i < ds.length
            · have hi' : i < ds'.length := hl ▸ hi
              have h1 : ds[i]? = some ds[i] := List.getElem?_eq_getElem hi
              have h2 : ds'[i]? = some ds'[i] := List.getElem?_eq_getElem hi'
              have := List.sizeOf_lt_of_mem (List.mem_of_getElem? h1)
              rw [h1, h2, (exact_match ds[i] ds'[i]).mp (h i _ _ h1 h2)]
            · rw [List.getElem?_eq_none (by omega), List.getElem?_eq_none (by omega)]
          simp at hL hp
          rw [hn, hL, hp, hds]
        · intro h
          injection h with h1 h2 h3 h4
          subst h2; subst h3; subst h4
          refine ⟨⟨Or.inl rfl, ?_⟩, by simp, by simp⟩
          intro i d d' h1 h2
          have := List.sizeOf_lt_of_mem (List.mem_of_getElem? h1)
          have hd : d = d' := Option.some.inj (h1.symm.trans h2)
          subst hd
          exact (exact_match d d).mpr rfl
      · have hne : ¬ (Chain.node n L p ds = Chain.node n' L' p' ds') := by intro h; injection h with h1 h2 h3 h4; exact hl (by rw [h4])
        simp only [hne, iff_false]
        split
        · decide
        · rw [if_pos (by omega)]; decide
    · rw [if_pos hn]
      have hne : ¬ (Chain.node n L p ds = Chain.node n' L' p' ds') := by intro h; injection h with h1; exact hn h1
      simp only [hne, iff_false]
      decide
termination_by t => sizeOf t
decreasing_by all_goals (simp_wf; (try subst_vars); (try omega))

theorem exact_bit (t u : Chain) : (matchChain t u).testBit 1 = true ↔ matchChain t u = mExact := by
  constructor
  · cases t with
    | node n L p ds =>
      cases u with
      | node n' L' p' ds' =>
        rw [matchChain]
        split
        · intro h; revert h; decide
        · split
          · intro h; revert h; decide
          · split
            · intro h; revert h; decide
            · obtain ⟨r, hr, hlt⟩ := matchList_bounds ds ds' 0 (by decide)
              rw [hr]
              simp only
              rw [matchEnd_eq]
              exact (endBits_facts r hlt _ _).2.2.2.1
  · intro h
    rw [h]; decide

/-- **C140**: the bits of the answer tell where the chains differ, and whether they are the same. -/
theorem match_bits (t u : Chain) : ((matchChain t u).testBit 0 = true ↔ DifferentParticles t u) ∧ ((matchChain t u).testBit 1 = true ↔ t = u)
    ∧ ((matchChain t u).testBit 2 = true ↔ Expanded t u) ∧ ((matchChain t u).testBit 3 = true ↔ DifferentOrbital t u)
    ∧ ((matchChain t u).testBit 4 = true ↔ DifferentPolarisation t u) :=
  ⟨bit_places 0 (by simp) t u, (exact_bit t u).trans (exact_match t u), bit_places 2 (by simp) t u, bit_places 3 (by simp) t u, bit_places 4 (by simp) t u⟩

/-- **C140**: the only answers are the numbers from 1 to 31. -/
theorem match_range (t u : Chain) : 1 ≤ matchChain t u ∧ matchChain t u ≤ 31 := by
  have := matchChain_bounds t u
  omega

/-- **C140**: the channel that is found is the first one that is the same decay, and no channel is found only if none is the same. -/
theorem channel_found (particle : Chain) (channels : List Chain) :
    (∀ i, findChannelIndex particle channels = some i ↔ channels[i]? = some particle ∧ ∀ j < i, channels[j]? ≠ some particle)
    ∧ (findChannelIndex particle channels = none ↔ particle ∉ channels) := by
  induction channels with
  | nil => simp [findChannelIndex]
  | cons c cs ih =>
    rw [findChannelIndex]
    by_cases h : particle = c
    · rw [if_pos ((exact_match _ _).mpr h)]
      refine ⟨?_, by simp [h]⟩
      intro i
      constructor
      · intro hi
        have hi : 0 = i := Option.some.inj hi
        subst hi
        simp [h]
      · rintro ⟨_, h2⟩
        cases i with
        | zero => rfl
        | succ i => exact absurd (by simp [h]) (h2 0 (by omega))
    · rw [if_neg (fun hm => h ((exact_match _ _).mp hm))]
      refine ⟨?_, by simp [ih.2, h]⟩
      intro i
      cases i with
      | zero =>
        simp only [List.getElem?_cons_zero, Option.some.injEq, Nat.not_lt_zero, false_imp_iff, implies_true, and_true]
        constructor
        · intro hm
          cases hf : findChannelIndex particle cs <;> simp [hf] at hm
        · intro hm; exact absurd hm.symm h
      | succ i =>
        have : Option.map (· + 1) (findChannelIndex particle cs) = some (i + 1) ↔ findChannelIndex particle cs = some i := by
          cases findChannelIndex particle cs <;> simp
        rw [this, ih.1 i]
        simp only [List.getElem?_cons_succ]
        constructor
        · rintro ⟨h1, h2⟩
          refine ⟨h1, ?_⟩
          intro j hj
          cases j with
          | zero => simpa using fun hc => h hc.symm
          | succ j => simpa using h2 j (by omega)
        · rintro ⟨h1, h2⟩
          exact ⟨h1, fun j hj => by simpa using h2 (j + 1) (by omega)⟩

/-- **C140, refuted**: the answer for chains with different particles need not be `None`: with another orbital angular momentum it is `None | DifferentOrbital`, which is
equal to none of the named answers. -/
theorem mixed_answer_counterexample : ∃ t u : Chain, DifferentParticles t u ∧ matchChain t u ≠ mNone ∧ matchChain t u ≠ mExact ∧ matchChain t u ≠ mPartialExpansion
    ∧ matchChain t u ≠ mDifferentOrbital ∧ matchChain t u ≠ mDifferentPolarisation := by
  refine ⟨.node ['D'] 0 0 [.node ['K'] 0 0 []], .node ['D'] 1 0 [.node ['p'] 0 0 []], ?_, ?_⟩
  · exact ⟨.node ['K'] 0 0 [], .node ['p'] 0 0 [], .inside _ _ _ _ _ _ _ 0 _ _ _ _ rfl rfl rfl (.here _ _), Or.inl (by decide)⟩
  · simp [matchChain, matchList, matchEnd, mNone, mExact, mPartialExpansion, mDifferentOrbital, mDifferentPolarisation]

/-- A vector that decays in one chain and not in the other, in two waves. -/
example : matchChain (.node ['D'] 0 0 [.node ['V'] 1 0 [.node ['K'] 0 0 [], .node ['p'] 0 0 []], .node ['p'] 0 0 []])
    (.node ['D'] 1 0 [.node ['V'] 1 0 [], .node ['p'] 0 0 []]) = mPartialExpansion ||| mDifferentOrbital := by
  simp [matchChain, matchList, matchEnd, mNone, mExact, mPartialExpansion, mDifferentOrbital, mDifferentPolarisation]

end AmpGen.CP
