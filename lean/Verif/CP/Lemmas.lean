import Verif.CP.Spec
import Verif.Particle.PropsConj
import Verif.Rules.LemmasText
import Verif.Strings.Props
import Mathlib.Tactic.Ring
import Mathlib.Tactic.Linarith
/-
Lemmas for CP conjugation and for the comparison of decay chains.
-/
namespace AmpGen.CP
open AmpGen.Strings AmpGen.PDG AmpGen.Particle
open AmpGen.CP.Spec

variable {K : Type} [Field K] [LinearOrder K]

theorem sign_eq (m : Int) : sign m = (m.negOnePow : ℤ) := by
  unfold sign
  rcases Int.even_or_odd m with h | h
  · have : m.tmod 2 = 0 := Int.tmod_eq_zero_of_dvd h.two_dvd
    rw [if_pos this, Int.negOnePow_even _ h]; rfl
  · have : ¬ m.tmod 2 = 0 := fun h0 => by have := Int.dvd_of_tmod_eq_zero h0; obtain ⟨k, rfl⟩ := h; omega
    rw [if_neg this, Int.negOnePow_odd _ h]; rfl

theorem fsp_of_phases {t : Particle.Tree K} {x : Int} (h : VertexPhases t x) : finalStateParity t = some x := by
  induction h with
  | stable d => simp [finalStateParity]
  | through d t x _ ih => simp [finalStateParity, ih]
  | decay d a b x y m _ _ hm iha ihb =>
    simp only [finalStateParity, iha, ihb, Option.bind_some, Option.map_some, Option.some.injEq]
    have : (d.props.twoSpin - (2 * (d.orbital : Int) + a.data.props.twoSpin + b.data.props.twoSpin)).tdiv 2 = m := by
      have : d.props.twoSpin - (2 * (d.orbital : Int) + a.data.props.twoSpin + b.data.props.twoSpin) = 2 * m := by omega
      rw [this]; exact Int.mul_tdiv_cancel_left _ (by decide)
    rw [this, sign_eq]

theorem phases_unit {t : Particle.Tree K} {x : Int} (h : VertexPhases t x) : x = 1 ∨ x = -1 := by
  induction h with
  | stable => simp
  | through _ _ _ _ ih => exact ih
  | decay d a b x y m _ _ hm iha ihb =>
    have : (m.negOnePow : ℤ) = 1 ∨ (m.negOnePow : ℤ) = -1 := by
      rw [← sign_eq]; unfold sign; split <;> simp
    rcases this with h | h <;> rcases iha with rfl | rfl <;> rcases ihb with rfl | rfl <;> simp [h]

theorem chargeParities_eq (ts : List (Particle.Tree K)) :
    chargeParities ts = ((ts.map fun t => t.data.props.cparity).filter fun c => decide (c ≠ 0)).prod * (ts.map chargeParity).prod := by
  induction ts with
  | nil => simp [chargeParities]
  | cons t ts ih =>
    simp only [chargeParities, ih, List.map_cons, List.prod_cons, List.filter_cons]
    by_cases h : t.data.props.cparity = 0
    · simp [h]; ring
    · simp [h]; ring

theorem chargeParity_node (d : Data K) (ds : List (Particle.Tree K)) (h : ds.length ≠ 1) : chargeParity (.node d ds) = chargeParities ds := by
  match ds, h with
  | [], _ => simp [chargeParity, chargeParities]
  | [a], h => simp at h
  | a :: b :: ds, _ => simp only [chargeParity, chargeParities]

theorem chargeParity_of {t : Particle.Tree K} {x : Int} (h : CParities t x) : chargeParity t = x := by
  induction h with
  | through d t x _ ih => rw [chargeParity]; exact ih
  | node d ds xs h1 hl _ ih =>
    rw [chargeParity_node _ _ h1, chargeParities_eq]
    congr 2
    apply List.ext_getElem
    · simpa using hl
    · intro i h2 h3
      have hd : i < ds.length := by simpa using h2
      rw [List.getElem_map]
      exact ih i ds[i] xs[i] (List.getElem?_eq_getElem hd) (List.getElem?_eq_getElem h3)

/-- The sign of a decay as a function of what its products contribute. -/
theorem fsp_perm (d : Data K) (ds ds' : List (Particle.Tree K)) (h : ds.Perm ds') : finalStateParity (.node d ds) = finalStateParity (.node d ds') := by
  have hl := h.length_eq
  match ds, ds', h, hl with
  | [], [], _, _ => rfl
  | [a], [a'], h, _ =>
    have : a = a' := by simpa using h
    rw [this]
  | [a, b], [a', b'], h, _ =>
    have : (a = a' ∧ b = b') ∨ (a = b' ∧ b = a') := by
      have ha : a ∈ [a', b'] := h.mem_iff.mp (by simp)
      rcases List.mem_cons.mp ha with rfl | ha
      · left
        have := (List.perm_cons a).mp h
        simpa using this
      · right
        have ha' : a = b' := by simpa using ha
        subst ha'
        have h2 : [a, b].Perm [a, a'] := h.trans (List.Perm.swap _ _ _)
        have := (List.perm_cons a).mp h2
        exact ⟨rfl, by simpa using this⟩
    rcases this with ⟨rfl, rfl⟩ | ⟨rfl, rfl⟩
    · rfl
    · simp only [finalStateParity]
      have : d.props.twoSpin - (2 * (d.orbital : Int) + a.data.props.twoSpin + b.data.props.twoSpin)
        = d.props.twoSpin - (2 * (d.orbital : Int) + b.data.props.twoSpin + a.data.props.twoSpin) := by ring
      rw [this]
      cases finalStateParity a <;> cases finalStateParity b <;> simp <;> ring
  | a :: b :: c :: l, a' :: b' :: c' :: l', _, _ => simp only [finalStateParity]

theorem chargeParity_perm (d d' : Data K) (ds ds' : List (Particle.Tree K)) (h : ds.Perm ds') : chargeParity (.node d ds) = chargeParity (.node d' ds') := by
  by_cases h1 : ds.length = 1
  · obtain ⟨a, rfl⟩ := List.length_eq_one_iff.mp h1
    have : ds' = [a] := by simpa using h.symm
    subst this
    simp [chargeParity]
  · rw [chargeParity_node _ _ h1, chargeParity_node _ _ (by rw [← h.length_eq]; exact h1), chargeParities_eq, chargeParities_eq]
    rw [((h.map _).filter _).prod_eq, (h.map _).prod_eq]

/-- Trees with the same shape whose products give the same numbers. -/
theorem fsp_congr (d d' : Data K) (hs : d'.props.twoSpin = d.props.twoSpin) (hL : d'.orbital = d.orbital) (ds cs : List (Particle.Tree K))
    (hl : ds.length = cs.length)
    (h : ∀ (i : Nat) (t t' : Particle.Tree K), ds[i]? = some t → cs[i]? = some t' → finalStateParity t' = finalStateParity t ∧ t'.data.props.twoSpin = t.data.props.twoSpin) :
    finalStateParity (.node d' cs) = finalStateParity (.node d ds) := by
  match ds, cs, hl, h with
  | [], [], _, _ => simp [finalStateParity]
  | [a], [a'], _, h =>
    have := h 0 a a' rfl rfl
    simp [finalStateParity, this.1]
  | [a, b], [a', b'], _, h =>
    have ha := h 0 a a' rfl rfl
    have hb := h 1 b b' rfl rfl
    simp only [finalStateParity, ha.1, ha.2, hb.1, hb.2, hs, hL]
  | a :: b :: c :: l, a' :: b' :: c' :: l', _, _ => simp only [finalStateParity, hs]

theorem chargeParity_congr (d d' : Data K) (ds cs : List (Particle.Tree K)) (hl : ds.length = cs.length)
    (h : ∀ (i : Nat) (t t' : Particle.Tree K), ds[i]? = some t → cs[i]? = some t' → chargeParity t' = chargeParity t ∧ t'.data.props.cparity = t.data.props.cparity) :
    chargeParity (.node d' cs) = chargeParity (.node d ds) := by
  by_cases h1 : ds.length = 1
  · obtain ⟨a, rfl⟩ := List.length_eq_one_iff.mp h1
    obtain ⟨a', rfl⟩ := List.length_eq_one_iff.mp (hl.symm.trans h1)
    have := h 0 a a' rfl rfl
    simp [chargeParity, this.1]
  · rw [chargeParity_node _ _ h1, chargeParity_node _ _ (by rw [← hl]; exact h1), chargeParities_eq, chargeParities_eq]
    have e1 : cs.map chargeParity = ds.map chargeParity := by
      apply List.ext_getElem (by simp [hl])
      intro i h2 h3
      have hd : i < ds.length := by simpa using h3
      have hc : i < cs.length := by simpa using h2
      rw [List.getElem_map, List.getElem_map]
      exact (h i _ _ (List.getElem?_eq_getElem hd) (List.getElem?_eq_getElem hc)).1
    have e2 : (cs.map fun t => t.data.props.cparity) = ds.map fun t => t.data.props.cparity := by
      apply List.ext_getElem (by simp [hl])
      intro i h2 h3
      have hd : i < ds.length := by simpa using h3
      have hc : i < cs.length := by simpa using h2
      rw [List.getElem_map, List.getElem_map]
      exact (h i _ _ (List.getElem?_eq_getElem hd) (List.getElem?_eq_getElem hc)).2
    rw [e1, e2]

theorem conjugate_numbers {env : Env K} {t t' : Particle.Tree K} (h : Particle.Spec.Conjugate env t t') : SameNumbers env t →
    finalStateParity t' = finalStateParity t ∧ chargeParity t' = chargeParity t ∧ t'.data.props.twoSpin = t.data.props.twoSpin ∧ t'.data.props.cparity = t.data.props.cparity := by
  induction h with
  | node d q ds cs ds' hq hl _ hp ih =>
    intro hs
    have hd := hs d q (Particle.Spec.Has.here d ds) hq
    have ih' : ∀ (i : Nat) (t t' : Particle.Tree K), ds[i]? = some t → cs[i]? = some t' → finalStateParity t' = finalStateParity t ∧ chargeParity t' = chargeParity t ∧ t'.data.props.twoSpin = t.data.props.twoSpin ∧ t'.data.props.cparity = t.data.props.cparity := by
      intro i t t' h1 h2
      exact ih i t t' h1 h2 (fun e r he hr => hs e r (Particle.Spec.Has.inside d ds t e (List.mem_of_getElem? h1) he) hr)
    refine ⟨?_, ?_, hd.1, hd.2⟩
    · rw [fsp_perm _ _ _ hp]
      exact fsp_congr d { d with name := q.name, props := q, parity := q.parity } hd.1 rfl ds cs hl fun i t t' h1 h2 => ⟨(ih' i t t' h1 h2).1, (ih' i t t' h1 h2).2.2.1⟩
    · rw [chargeParity_perm _ d _ _ hp]
      exact chargeParity_congr d d ds cs hl fun i t t' h1 h2 => ⟨(ih' i t t' h1 h2).2.1, (ih' i t t' h1 h2).2.2.2⟩

/-! ### Parameters -/

section
variable {S : Type}

theorem addNew_prefix (ps : List (Param S)) : ∀ mps : List (Param S), ∃ l, addNew mps ps = mps ++ l := by
  induction ps with
  | nil => intro mps; exact ⟨[], by simp [addNew]⟩
  | cons p ps ih =>
    intro mps
    unfold addNew
    split
    · exact ih mps
    · obtain ⟨l, hl⟩ := ih (mps ++ [p])
      exact ⟨p :: l, by rw [hl]; simp⟩

theorem addNew_mem (ps : List (Param S)) : ∀ (mps : List (Param S)) (q : Param S), q ∈ addNew mps ps → q ∈ mps ∨ q ∈ ps := by
  induction ps with
  | nil => intro mps q h; exact Or.inl h
  | cons p ps ih =>
    intro mps q h
    unfold addNew at h
    split at h
    · rcases ih _ _ h with h | h
      · exact Or.inl h
      · exact Or.inr (List.mem_cons_of_mem _ h)
    · rcases ih _ _ h with h | h
      · rcases List.mem_append.mp h with h | h
        · exact Or.inl h
        · exact Or.inr (by simp at h; simp [h])
      · exact Or.inr (List.mem_cons_of_mem _ h)

theorem addNew_names (ps : List (Param S)) : ∀ (mps : List (Param S)) (p : Param S), p ∈ ps → ∃ q ∈ addNew mps ps, q.name = p.name := by
  induction ps with
  | nil => intro mps p h; simp at h
  | cons p ps ih =>
    intro mps r h
    rcases List.mem_cons.mp h with rfl | h
    · unfold addNew
      split
      · rename_i hany
        obtain ⟨q, hq, hn⟩ := List.any_eq_true.mp hany
        obtain ⟨l, hl⟩ := addNew_prefix ps mps
        exact ⟨q, by rw [hl]; simp [hq], of_decide_eq_true hn⟩
      · obtain ⟨l, hl⟩ := addNew_prefix ps (mps ++ [r])
        exact ⟨r, by rw [hl]; simp, rfl⟩
    · unfold addNew
      exact ih _ _ h

theorem addNew_nodup (ps : List (Param S)) : ∀ mps : List (Param S), (mps.map Param.name).Nodup → ((addNew mps ps).map Param.name).Nodup := by
  induction ps with
  | nil => intro mps h; exact h
  | cons p ps ih =>
    intro mps h
    unfold addNew
    split
    · exact ih _ h
    · rename_i hany
      apply ih
      rw [List.map_append, List.nodup_append]
      refine ⟨h, by simp, ?_⟩
      intro a ha b hb hab
      obtain ⟨q, hq, rfl⟩ := List.mem_map.mp ha
      simp at hb
      apply hany
      rw [List.any_eq_true]
      exact ⟨q, hq, by simp [hab, hb]⟩

theorem addNew_known (ps : List (Param S)) : ∀ mps : List (Param S), (∀ p ∈ ps, ∃ q ∈ mps, q.name = p.name) → addNew mps ps = mps := by
  induction ps with
  | nil => intro mps _; rfl
  | cons p ps ih =>
    intro mps h
    unfold addNew
    have : (mps.any fun q => decide (q.name = p.name)) = true := by
      obtain ⟨q, hq, hn⟩ := h p (by simp)
      exact List.any_eq_true.mpr ⟨q, hq, by simp [hn]⟩
    rw [if_pos this]
    exact ih _ fun r hr => h r (by simp [hr])

theorem mapM_spec {A B : Type} (f : A → Option B) : ∀ (l : List A) (r : List B), l.mapM f = some r → (∀ a ∈ l, ∃ b ∈ r, f a = some b) ∧ (∀ b ∈ r, ∃ a ∈ l, f a = some b) := by
  intro l
  induction l with
  | nil => intro r h; simp at h; subst h; simp
  | cons a l ih =>
    intro r h
    rw [List.mapM_cons] at h
    cases hf : f a with
    | none => simp [hf] at h
    | some b =>
      cases hm : l.mapM f with
      | none => simp [hf, hm] at h
      | some bs =>
        simp [hf, hm] at h
        subst h
        obtain ⟨h1, h2⟩ := ih bs hm
        constructor
        · intro x hx
          rcases List.mem_cons.mp hx with rfl | hx
          · exact ⟨b, by simp, hf⟩
          · obtain ⟨y, hy, hxy⟩ := h1 x hx
            exact ⟨y, by simp [hy], hxy⟩
        · intro y hy
          rcases List.mem_cons.mp hy with rfl | hy
          · exact ⟨a, by simp, hf⟩
          · obtain ⟨x, hx, hxy⟩ := h2 y hy
            exact ⟨x, by simp [hx], hxy⟩

/-- What is added: every conjugate parameter has its name in the result, and whatever is new in the result is the conjugate of a parameter. -/
theorem addCP_spec {env : Env K} {coords : Str} {forbidden : List Str} {mps out : List (Param S)} (h : addCPConjugate env coords forbidden mps = some out) :
    (∃ l, out = mps ++ l) ∧ (∀ q ∈ out, q ∈ mps ∨ ∃ p ∈ mps, conjugateParam env coords forbidden p = some (some q))
      ∧ (∀ p ∈ mps, ∀ q, conjugateParam env coords forbidden p = some (some q) → ∃ r ∈ out, r.name = q.name) ∧ ((mps.map Param.name).Nodup → (out.map Param.name).Nodup) := by
  unfold addCPConjugate at h
  cases hm : mps.mapM (conjugateParam env coords forbidden) with
  | none => simp [hm] at h
  | some tmp =>
    simp [hm] at h
    obtain ⟨h1, h2⟩ := mapM_spec _ _ _ hm
    subst h
    refine ⟨addNew_prefix _ _, ?_, ?_, addNew_nodup _ _⟩
    · intro q hq
      rcases addNew_mem _ _ _ hq with hq | hq
      · exact Or.inl hq
      · obtain ⟨x, hx, hxq⟩ := List.mem_filterMap.mp hq
        have hxq' : x = some q := hxq
        subst hxq'
        exact Or.inr (h2 _ hx)
    · intro p hp q hq
      obtain ⟨b, hb, hpb⟩ := h1 p hp
      rw [hq] at hpb
      have hbq : some q = b := Option.some.inj hpb
      subst hbq
      exact addNew_names _ _ _ (List.mem_filterMap.mpr ⟨some q, hb, rfl⟩)

theorem no_colons {s : Str} (h : ':' ∉ s) : find s "::".toList 0 = none := by
  unfold find
  rw [if_pos (Nat.zero_le _), List.drop_zero]
  apply Particle.Rules.findAux_none
  intro hi
  have : ':' ∈ s := hi.subset (by decide)
  exact h this

theorem first_colons {s r : Str} (h : ':' ∉ s) : find (s ++ "::".toList ++ r) "::".toList 0 = some s.length := by
  have key : ∀ (s : Str) (k : Nat), ':' ∉ s → findAux "::".toList (s ++ "::".toList ++ r) k = some (k + s.length) := by
    intro s
    induction s with
    | nil => intro k _; simp [findAux]
    | cons c s ih =>
      intro k hc
      have h1 : c ≠ ':' := fun e => hc (by simp [e])
      have := ih (k + 1) (fun e => hc (by simp [e]))
      simp only [List.cons_append, findAux]
      rw [if_neg (by simp [List.isPrefixOf]; intro e; exact absurd e.symm h1)]
      simp only [List.length_cons]
      rw [this]
      congr 1; omega
  unfold find
  rw [if_pos (Nat.zero_le _), List.drop_zero, key s 0 h, Nat.zero_add]

theorem split_pair {a b : Str} (ha : '_' ∉ a) (hb : '_' ∉ b) (ha' : a ≠ [] ∧ a ≠ [' '] ∧ a ≠ ['\n'] ∧ a ≠ ['\t']) (hb' : b ≠ [] ∧ b ≠ [' '] ∧ b ≠ ['\n'] ∧ b ≠ ['\t']) :
    split (a ++ "_".toList ++ b) '_' true = [a, b] := by
  have h := split_join_roundtrip '_' [a, b] true (by simp [ha, hb]) (by
    intro w hw
    rcases List.mem_cons.mp hw with rfl | hw
    · exact ha'
    · simp at hw; subst hw; exact hb')
  have e : ['_'].intercalate [a, b] = a ++ "_".toList ++ b := by simp [List.intercalate, List.intersperse]
  rw [← e]; exact h

end

/-! ### Chains -/

/-- The end of the comparison in terms of what differs. -/
def endBits (o p : Bool) (rt : Nat) : Nat :=
  let rt := if o then rt ||| 8 else rt
  let rt := if p then rt ||| 16 else rt
  let rt := if rt = 0 then 2 else rt
  if rt &&& 2 ≠ 0 ∧ rt ≠ 2 then rt &&& 4294967293 else rt

theorem matchEnd_eq (L L' : Nat) (p p' : Int) (rt : Nat) : matchEnd L L' p p' rt = endBits (decide (L ≠ L')) (decide (p ≠ p')) rt := by
  unfold matchEnd endBits mDifferentOrbital mDifferentPolarisation mExact
  by_cases h1 : L = L' <;> by_cases h2 : p = p' <;> simp [h1, h2]

theorem endBits_facts : ∀ rt < 32, ∀ o p : Bool, endBits o p rt < 32 ∧ endBits o p rt ≠ 0 ∧ (endBits o p rt = 2 ↔ (rt = 0 ∨ rt = 2) ∧ o = false ∧ p = false)
    ∧ ((endBits o p rt).testBit 1 = true → endBits o p rt = 2) ∧ (endBits o p rt).testBit 0 = rt.testBit 0 ∧ (endBits o p rt).testBit 2 = rt.testBit 2 ∧ (endBits o p rt).testBit 3 = (rt.testBit 3 || o)
    ∧ (endBits o p rt).testBit 4 = (rt.testBit 4 || p) := by decide

theorem or_facts : ∀ a < 32, ∀ b < 32, a ||| b < 32 ∧ ((a ||| b = 0 ∨ a ||| b = 2) ↔ (a = 0 ∨ a = 2) ∧ (b = 0 ∨ b = 2)) := by decide

mutual
/-- The induction principle for two chains of the same shape. -/
theorem matchChain_bounds : ∀ t u : Chain, matchChain t u < 32 ∧ matchChain t u ≠ 0
  | .node n L p ds, .node n' L' p' ds' => by
    rw [matchChain]
    split
    · decide
    · split
      · decide
      · split
        · decide
        · obtain ⟨r, hr, hlt⟩ := matchList_bounds ds ds' 0 (by decide)
          rw [hr]
          simp only
          rw [matchEnd_eq]
          have := endBits_facts r hlt (decide (L ≠ L')) (decide (p ≠ p'))
          exact ⟨this.1, this.2.1⟩
theorem matchList_bounds : ∀ (ds ds' : List Chain) (rt : Nat), rt < 32 → ∃ r, matchList ds ds' rt = some r ∧ r < 32
  | [], _, rt, h => ⟨rt, by simp [matchList], h⟩
  | _ :: _, [], rt, h => ⟨rt, by simp [matchList], h⟩
  | d :: ds, d' :: ds', rt, h => by
    rw [matchList]
    have hb := matchChain_bounds d d'
    rw [if_neg hb.2]
    exact matchList_bounds ds ds' _ (or_facts _ h _ hb.1).1
end

/-- The loop collects the bits of the daughters. -/
theorem matchList_bit (k : Nat) : ∀ (ds ds' : List Chain) (rt r : Nat), matchList ds ds' rt = some r →
    (r.testBit k = true ↔ rt.testBit k = true ∨ ∃ (i : Nat) (d d' : Chain), ds[i]? = some d ∧ ds'[i]? = some d' ∧ (matchChain d d').testBit k = true) := by
  intro ds
  induction ds with
  | nil => intro ds' rt r h; simp [matchList] at h; subst h; simp
  | cons d ds ih =>
    intro ds' rt r h
    cases ds' with
    | nil => simp [matchList] at h; subst h; simp
    | cons d' ds' =>
      rw [matchList, if_neg (matchChain_bounds d d').2] at h
      rw [ih ds' _ r h, Nat.testBit_or, Bool.or_eq_true]
      constructor
      · rintro ((h | h) | ⟨i, e, e', h1, h2, h3⟩)
        · exact Or.inl h
        · exact Or.inr ⟨0, d, d', rfl, rfl, h⟩
        · exact Or.inr ⟨i + 1, e, e', by simpa using h1, by simpa using h2, h3⟩
      · rintro (h | ⟨i, e, e', h1, h2, h3⟩)
        · exact Or.inl (Or.inl h)
        · cases i with
          | zero => simp at h1 h2; subst h1; subst h2; exact Or.inl (Or.inr h3)
          | succ i => exact Or.inr ⟨i, e, e', by simpa using h1, by simpa using h2, h3⟩

theorem matchList_exact : ∀ (ds ds' : List Chain) (rt r : Nat), rt < 32 → ds.length = ds'.length → matchList ds ds' rt = some r →
    ((r = 0 ∨ r = 2) ↔ (rt = 0 ∨ rt = 2) ∧ ∀ (i : Nat) (d d' : Chain), ds[i]? = some d → ds'[i]? = some d' → matchChain d d' = 2) := by
  intro ds
  induction ds with
  | nil => intro ds' rt r _ hl h; simp [matchList] at h; subst h; simp
  | cons d ds ih =>
    intro ds' rt r hlt hl h
    cases ds' with
    | nil => simp at hl
    | cons d' ds' =>
      have hb := matchChain_bounds d d'
      rw [matchList, if_neg hb.2] at h
      rw [ih ds' _ r (or_facts _ hlt _ hb.1).1 (by simpa using hl) h, (or_facts _ hlt _ hb.1).2]
      constructor
      · rintro ⟨⟨h1, h2⟩, h3⟩
        refine ⟨h1, ?_⟩
        intro i e e' he he'
        cases i with
        | zero => simp at he he'; subst he; subst he'; exact h2.resolve_left hb.2
        | succ i => exact h3 i e e' (by simpa using he) (by simpa using he')
      · rintro ⟨h1, h2⟩
        exact ⟨⟨h1, Or.inr (h2 0 d d' rfl rfl)⟩, fun i e e' he he' => h2 (i + 1) e e' (by simpa using he) (by simpa using he')⟩

end AmpGen.CP
