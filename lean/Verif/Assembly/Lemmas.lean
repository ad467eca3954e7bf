import Verif.Assembly.Spec
import Verif.Strings.Lemmas
import Verif.Rules.Samples
import Verif.Coherent.Props
import Mathlib.Data.List.Sort
/-
Lemmas for the amplitudes of an event type and the tables of fit fractions.
-/
namespace AmpGen.Assembly
open AmpGen.Strings AmpGen.PDG AmpGen.Particle AmpGen.Particle.Rules
open AmpGen.Coherent (ffVal ffNorm ffSum crossPairs)

variable {K : Type} [Field K] [LinearOrder K] {V : Type}

/-- One step of the loops, on elements that are built already. -/
def addFirst {α β : Type} [DecidableEq β] (key : α → β) (rt : List α) (x : α) : List α :=
  if rt.any fun y => decide (key y = key x) then rt else rt ++ [x]

theorem firsts_foldl {α β : Type} [DecidableEq β] (key : α → β) (all : List α) :
    Firsts key all (all.foldl (addFirst key) []) := by
  induction all using List.reverseRecOn with
  | nil => exact ⟨List.Sublist.refl _, by simp, by simp, by simp⟩
  | append_singleton l x ih =>
    rw [List.foldl_append]
    simp only [List.foldl_cons, List.foldl_nil]
    obtain ⟨rt, hrt⟩ : ∃ rt, l.foldl (addFirst key) [] = rt := ⟨_, rfl⟩
    rw [hrt] at ih ⊢
    obtain ⟨h1, h2, h3, h4⟩ := ih
    unfold addFirst
    split
    · rename_i hx
      obtain ⟨y, hy, hk⟩ := List.any_eq_true.mp hx
      have hk := of_decide_eq_true hk
      refine ⟨h1.trans (List.sublist_append_left _ _), h2, ?_, ?_⟩
      · intro z hz
        rcases List.mem_append.mp hz with hz | hz
        · exact h3 z hz
        · rw [List.mem_singleton.mp hz, ← hk]
          exact List.mem_map_of_mem hy
      · intro z hz
        obtain ⟨a, b, e, hn⟩ := h4 z hz
        exact ⟨a, b ++ [x], by rw [e]; simp, hn⟩
    · rename_i hx
      have hx : key x ∉ rt.map key := by
        intro hm
        obtain ⟨y, hy, hk⟩ := List.mem_map.mp hm
        exact hx (List.any_eq_true.mpr ⟨y, hy, by simp [hk]⟩)
      refine ⟨h1.append (List.Sublist.refl _), ?_, ?_, ?_⟩
      · rw [List.map_append, List.nodup_append]
        refine ⟨h2, by simp, ?_⟩
        intro a ha b hb e
        rw [List.map_singleton, List.mem_singleton] at hb
        exact hx (hb ▸ e ▸ ha)
      · intro z hz
        rw [List.map_append]
        rcases List.mem_append.mp hz with hz | hz
        · exact List.mem_append_left _ (h3 z hz)
        · rw [List.mem_singleton.mp hz]
          simp
      · intro z hz
        rcases List.mem_append.mp hz with hz | hz
        · obtain ⟨a, b, e, hn⟩ := h4 z hz
          exact ⟨a, b ++ [x], by rw [e]; simp, hn⟩
        · rw [List.mem_singleton] at hz
          subst hz
          refine ⟨l, [], rfl, ?_⟩
          intro hm
          obtain ⟨y, hy, hk⟩ := List.mem_map.mp hm
          exact hx (hk ▸ h3 y hy)

theorem foldl_addFirst_nodup {α β : Type} [DecidableEq β] (key : α → β) (all : List α) (h : (all.map key).Nodup) :
    all.foldl (addFirst key) [] = all := by
  have hf := firsts_foldl key all
  have hsub := hf.1
  apply hsub.eq_of_length
  have h1 : (all.map key).Subperm ((all.foldl (addFirst key) []).map key) := by
    apply h.subperm
    intro k hk
    obtain ⟨x, hx, rfl⟩ := List.mem_map.mp hk
    exact hf.2.2.1 x hx
  have := h1.length_le
  simp only [List.length_map] at this
  exact Nat.le_antisymm hsub.length_le this

theorem addExpanded_eq (env : Env K) (externals : List Str) (xs rt : List (Particle.Tree K × List (Rule K V))) :
    addExpanded env externals xs rt = (xs.mapM (rebuild env)).map fun l =>
      (l.filter (covers externals)).foldl (addFirst fun x => x.1.uniqueString) rt := by
  induction xs generalizing rt with
  | nil => simp [addExpanded]
  | cons x xs ih =>
    obtain ⟨t, c⟩ := x
    unfold addExpanded
    rw [List.mapM_cons]
    cases h1 : t.uniqueString with
    | none => simp [rebuild, h1]
    | some d =>
      cases h2 : env.ofDescriptor d with
      | none => simp [rebuild, h1, h2]
      | some p =>
        cases h3 : p.uniqueString with
        | none => simp [rebuild, h1, h2, h3]
        | some n =>
          have hr : rebuild env (t, c) = some (p, c) := by simp [rebuild, h1, h2, h3]
          rw [hr]
          simp only [h2, h3, Option.bind_eq_bind, Option.bind_some, Option.pure_def]
          have hk : ∀ rt : List (Particle.Tree K × List (Rule K V)),
              (rt.any fun x => decide (x.1.uniqueString = some n)) =
              (rt.any fun x => decide (x.1.uniqueString = p.uniqueString)) := by intro rt; rw [h3]
          cases hm : xs.mapM (rebuild env) with
          | none =>
            rw [hm] at ih
            simp only [Option.map_none] at ih
            rw [ih, ih]
            simp
          | some l =>
            rw [hm] at ih
            simp only [Option.map_some] at ih
            rw [ih, ih]
            simp only [Option.bind_some, Option.map_some]
            rw [hk]
            have hc : covers externals (p, c) = (labels externals (p.finalState.map fun y => y.data.name)).2 := rfl
            by_cases hg : covers externals (p, c) = true
            · rw [List.filter_cons_of_pos hg, List.foldl_cons]
              rw [hc] at hg
              rw [hg, Bool.true_and]
              conv_rhs => rw [addFirst]
              cases (rt.any fun x => decide (x.1.uniqueString = p.uniqueString)) <;> simp
            · rw [List.filter_cons_of_neg hg]
              rw [hc] at hg
              have hg : (labels externals (p.finalState.map fun y => y.data.name)).2 = false := by simpa using hg
              rw [hg, Bool.false_and]
              simp

theorem mapM_append' {α β : Type} (f : α → Option β) (a b : List α) :
    (a ++ b).mapM f = (a.mapM f).bind fun x => (b.mapM f).map fun y => x ++ y := by
  rw [List.mapM_append]
  cases a.mapM f <;> cases b.mapM f <;> rfl

theorem addRules_eq (env : Env K) (order : List (Particle.Tree K) → List (Particle.Tree K)) (all : List (Rule K V))
    (fuel : Nat) (externals : List Str) (pre : Str) (rules : List (Rule K V)) (rt : List (Particle.Tree K × List (Rule K V))) :
    addRules env order all fuel externals pre rules rt =
      ((rules.filter fun r => decide (r.prefix_ = pre)).mapM (expand env order all fuel)).bind fun ex =>
        (ex.flatten.mapM (rebuild env)).map fun l =>
          (l.filter (covers externals)).foldl (addFirst fun x => x.1.uniqueString) rt := by
  induction rules generalizing rt with
  | nil => simp [addRules]
  | cons r rules ih =>
    unfold addRules
    by_cases hp : r.prefix_ = pre
    · rw [if_neg (by simp [hp]), List.filter_cons_of_pos (by simp [hp]), List.mapM_cons]
      cases he : expand env order all fuel r with
      | none => simp
      | some ex =>
        simp only [Option.bind_eq_bind, Option.bind_some]
        rw [addExpanded_eq]
        cases hx : ex.mapM (rebuild env) with
        | none =>
          simp only [Option.map_none, Option.bind_none]
          cases (rules.filter fun r => decide (r.prefix_ = pre)).mapM (expand env order all fuel) with
          | none => simp
          | some exs =>
            simp only [Option.bind_some, Option.pure_def, List.flatten_cons]
            rw [mapM_append', hx]
            simp
        | some l =>
          simp only [Option.map_some, Option.bind_some]
          rw [ih]
          cases (rules.filter fun r => decide (r.prefix_ = pre)).mapM (expand env order all fuel) with
          | none => simp
          | some exs =>
            simp only [Option.bind_some, Option.pure_def, List.flatten_cons]
            rw [mapM_append', hx]
            cases exs.flatten.mapM (rebuild env) with
            | none => simp
            | some l' => simp [List.filter_append, List.foldl_append]
    · rw [if_pos (by simpa using hp), List.filter_cons_of_neg (by simpa using hp), ih]

theorem matching_eq (env : Env K) (order : List (Particle.Tree K) → List (Particle.Tree K)) (all : List (Rule K V))
    (fuel : Nat) (mother : Str) (externals : List Str) (pre : Str) :
    getMatchingRules env order all fuel mother externals pre =
      (candidates env order all fuel mother externals pre).map fun l =>
        l.foldl (addFirst fun x => x.1.uniqueString) [] := by
  unfold getMatchingRules
  rw [addRules_eq]
  have hf : (rulesForDecay all mother pre).filter (fun r => decide (r.prefix_ = pre)) =
      all.filter fun r => decide (r.head = mother) && decide (r.prefix_ = pre) := by
    unfold rulesForDecay rulesFor
    split
    · rw [List.filter_filter]
      apply List.filter_congr
      intro r _
      rw [Bool.and_comm]
    · rw [List.filter_filter, List.filter_filter]
      apply List.filter_congr
      intro r _
      cases decide (r.head = mother) <;> cases decide (r.prefix_ = pre) <;> rfl
  rw [hf]
  unfold candidates
  cases (all.filter fun r => decide (r.head = mother) && decide (r.prefix_ = pre)).mapM (expand env order all fuel) with
  | none => rfl
  | some ex =>
    simp only [Option.bind_eq_bind, Option.bind_some]
    cases ex.flatten.mapM (rebuild env) <;> rfl

/-! ### Tables -/

theorem find_isSome_iff (s pat : Str) : (find s pat 0).isSome = true ↔ pat <:+: s := by
  have key : ∀ (s : Str) (k : Nat), (findAux pat s k).isSome = true ↔ pat <:+: s := by
    intro s
    induction s with
    | nil => intro k; unfold findAux; split <;> simp_all
    | cons c cs ih =>
      intro k
      unfold findAux
      split
      · rename_i h
        simp only [Option.isSome_some, true_iff]
        exact (List.isPrefixOf_iff_prefix.mp h).isInfix
      · rename_i h
        rw [ih, List.infix_cons_iff]
        constructor
        · exact Or.inr
        · rintro (h' | h')
          · exact absurd (List.isPrefixOf_iff_prefix.mpr h') h
          · exact h'
  unfold find
  rw [if_pos (Nat.zero_le _), List.drop_zero]
  exact key s 0

theorem mem_processIndex (es : List Element) (l : Str) (i : Nat) : i ∈ processIndex es l ↔ Uses es i l := by
  unfold processIndex Uses
  rw [List.mem_filter, List.mem_range]
  constructor
  · rintro ⟨h1, h2⟩
    rw [List.getElem?_eq_getElem h1] at h2 ⊢
    simp only [Element.contains, List.any_eq_true, find_isSome_iff] at h2
    exact ⟨_, rfl, h2⟩
  · rintro ⟨e, h1, h2⟩
    rw [h1]
    simp only [Element.contains, List.any_eq_true, find_isSome_iff]
    exact ⟨(List.getElem?_eq_some_iff.mp h1).1, h2⟩

theorem mem_findIndices (es : List Element) (l : Str) (i : Nat) : i ∈ findIndices es l ↔ Mentions es i l := by
  unfold findIndices Mentions
  rw [List.mem_filter, List.mem_range]
  constructor
  · rintro ⟨h1, h2⟩
    rw [List.getElem?_eq_getElem h1] at h2 ⊢
    simp only [find_isSome_iff] at h2
    exact ⟨_, rfl, h2⟩
  · rintro ⟨e, h1, h2⟩
    rw [h1]
    simp only [find_isSome_iff]
    exact ⟨(List.getElem?_eq_some_iff.mp h1).1, h2⟩

theorem processIndex_sorted (es : List Element) (l : Str) : (processIndex es l).Pairwise (· < ·) :=
  List.Pairwise.filter _ List.pairwise_lt_range

theorem findIndices_sorted (es : List Element) (l : Str) : (findIndices es l).Pairwise (· < ·) :=
  List.Pairwise.filter _ List.pairwise_lt_range

theorem calculators_eq (es : List Element) (mother pre head : Str) (ps : List Process) :
    (fractionCalculator es mother pre (head, ps)).calculators =
      ((ps.filter fun p => !(decide (p.head = mother ∧ p.prefix_ ≠ pre))).filter fun p =>
        !(decide ((processIndex es p.name).length = 0 ∨ processIndex es p.name = findIndices es head))).map fun p =>
        (p.name, processIndex es p.name, processIndex es p.name) := by
  unfold fractionCalculator
  simp only
  have key : ∀ (ps : List Process) (acc : List (Str × List Nat × List Nat)),
      ps.foldl (fun acc process =>
        if process.head = mother ∧ process.prefix_ ≠ pre then acc
        else if (processIndex es process.name).length = 0 ∨ processIndex es process.name = findIndices es head then acc
        else acc ++ [(process.name, processIndex es process.name, processIndex es process.name)]) acc =
      acc ++ ((ps.filter fun p => !(decide (p.head = mother ∧ p.prefix_ ≠ pre))).filter fun p =>
        !(decide ((processIndex es p.name).length = 0 ∨ processIndex es p.name = findIndices es head))).map fun p =>
        (p.name, processIndex es p.name, processIndex es p.name) := by
    intro ps
    induction ps with
    | nil => intro acc; simp
    | cons p ps ih =>
      intro acc
      rw [List.foldl_cons, ih]
      by_cases h1 : p.head = mother ∧ p.prefix_ ≠ pre
      · rw [if_pos h1, List.filter_cons_of_neg (by simp [h1])]
      · rw [if_neg h1]
        have e1 : (!(decide (p.head = mother ∧ p.prefix_ ≠ pre))) = true := by rw [decide_eq_false h1]; rfl
        rw [List.filter_cons_of_pos (p := fun p : Process => !(decide (p.head = mother ∧ p.prefix_ ≠ pre))) e1]
        by_cases h2 : (processIndex es p.name).length = 0 ∨ processIndex es p.name = findIndices es head
        · have e2 : ¬ (!(decide ((processIndex es p.name).length = 0 ∨ processIndex es p.name = findIndices es head))) = true := by
            rw [decide_eq_true h2]; simp
          rw [if_pos h2, List.filter_cons_of_neg
            (p := fun p : Process => !(decide ((processIndex es p.name).length = 0 ∨ processIndex es p.name = findIndices es head))) e2]
        · have e2 : (!(decide ((processIndex es p.name).length = 0 ∨ processIndex es p.name = findIndices es head))) = true := by
            rw [decide_eq_false h2]; rfl
          rw [if_neg h2, List.filter_cons_of_pos
            (p := fun p : Process => !(decide ((processIndex es p.name).length = 0 ∨ processIndex es p.name = findIndices es head))) e2]
          simp
  exact key ps []

theorem foldl_add (l : List ℝ) (a : ℝ) : l.foldl (· + ·) a = a + l.sum := by
  induction l generalizing a with
  | nil => simp
  | cons x l ih => rw [List.foldl_cons, ih, List.sum_cons]; ring

theorem pairLoop_eq {α : Type} (l : List α) : pairLoop l = crossPairs l := by
  induction l with
  | nil => rfl
  | cons a l ih => unfold pairLoop crossPairs; rw [ih]

theorem crossPairs_map {α β : Type} (f : α → β) (l : List α) :
    crossPairs (l.map f) = (crossPairs l).map fun p => (f p.1, f p.2) := by
  induction l with
  | nil => rfl
  | cons a l ih => simp only [List.map_cons, crossPairs, ih, List.map_append, List.map_map]; rfl

theorem ffVal_nil (coef : Nat → ℂ) (norm : Nat → Nat → ℂ) (n : List Nat) : ffVal coef norm n [] [] = 0 := by
  unfold ffVal ffSum
  simp

end AmpGen.Assembly
