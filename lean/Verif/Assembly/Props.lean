import Verif.Assembly.Lemmas
import Mathlib.Data.List.Count
/-
C144 and C145: amplitudes of an event type, tables of fit fractions.
-/
namespace AmpGen.Assembly
open AmpGen.Strings AmpGen.PDG AmpGen.Particle AmpGen.Particle.Rules
open AmpGen.Coherent (ffVal ffNorm ffSum crossPairs fit_fractions_add_up)

variable {K : Type} [Field K] [LinearOrder K] {V : Type}

/-- C144.  The amplitudes of an event type are the expansions of the rules for its mother with the
prefix asked for that have its final state, in order, and of those with the same decay descriptor the
first.  They exist if all the expansions do. -/
theorem matching_rules (env : Env K) (order : List (Particle.Tree K) → List (Particle.Tree K)) (all : List (Rule K V))
    (fuel : Nat) (mother : Str) (externals : List Str) (pre : Str) :
    (∀ rt, getMatchingRules env order all fuel mother externals pre = some rt →
      ∃ cs, candidates env order all fuel mother externals pre = some cs ∧ Firsts (fun x => x.1.uniqueString) cs rt) ∧
    (∀ cs, candidates env order all fuel mother externals pre = some cs →
      ∃ rt, getMatchingRules env order all fuel mother externals pre = some rt) := by
  rw [matching_eq]
  constructor
  · intro rt h
    obtain ⟨cs, hc, rfl⟩ := Option.map_eq_some_iff.mp h
    exact ⟨cs, hc, firsts_foldl _ cs⟩
  · intro cs h
    rw [h]
    exact ⟨_, rfl⟩

/-- C144.  If no two expansions have the same decay descriptor, the amplitudes of the event type are
all of them, and the amplitude is the sum of all.

Missing: expansions with the same descriptor, of which all but the first are lost. -/
theorem matching_amplitude_partial [CommSemiring V] (env : Env K) (order : List (Particle.Tree K) → List (Particle.Tree K))
    (all : List (Rule K V)) (fuel : Nat) (mother : Str) (externals : List Str) (pre : Str)
    (cs : List (Particle.Tree K × List (Rule K V))) (hc : candidates env order all fuel mother externals pre = some cs)
    (hd : (cs.map fun x => x.1.uniqueString).Nodup) (amp : Option Str → V) :
    ∃ rt, getMatchingRules env order all fuel mother externals pre = some rt ∧ rt = cs ∧
      totalAmplitude amp rt = totalAmplitude amp cs := by
  refine ⟨cs, ?_, rfl, rfl⟩
  rw [matching_eq, hc]
  exact congrArg some (foldl_addFirst_nodup _ cs hd)

/-- Two rules for a decay to two resonances and a rule for each of the resonances. -/
theorem matching_example : ∃ (rules : List (Rule ℚ ℚ)) (cs : List (Particle.Tree ℚ × List (Rule ℚ ℚ))),
    candidates sampleEnv id rules 10 "D0".toList ["K-".toList, "pi+".toList, "pi+".toList, "pi-".toList] [] = some cs ∧
    cs.length = 2 ∧ (cs.map fun x => x.1.uniqueString).Nodup := by
  have h : (match sampleRules sampleEnv [("D0{K*(892)bar0,rho(770)0}", 2), ("D0[P]{K*(892)bar0,rho(770)0}", 3),
        ("rho(770)0{pi+,pi-}", 5), ("K*(892)bar0{K-,pi+}", 7)] with
      | some rules =>
        (match candidates sampleEnv id rules 10 "D0".toList ["K-".toList, "pi+".toList, "pi+".toList, "pi-".toList] [] with
        | some cs => decide (cs.length = 2) && decide ((cs.map fun x => x.1.uniqueString).Nodup)
        | none => false)
      | none => false) = true := by decide +kernel
  split at h
  · rename_i rules hr
    split at h
    · rename_i cs hcs
      simp only [Bool.and_eq_true, decide_eq_true_eq] at h
      exact ⟨rules, cs, hcs, h⟩
    · simp at h
  · simp at h

/-- C144.  The same decay written in two ways is two expansions with one descriptor: the second
amplitude is lost together with its coupling, and the amplitude is not the sum of both. -/
theorem matching_rules_counterexample : ∃ (rules : List (Rule ℚ ℚ)) (cs rt : List (Particle.Tree ℚ × List (Rule ℚ ℚ))),
    rules.map (fun r => r.name) = ["D0{K-,pi+}".toList, "D0{pi+,K-}".toList] ∧
    candidates sampleEnv id rules 10 "D0".toList ["K-".toList, "pi+".toList] [] = some cs ∧
    getMatchingRules sampleEnv id rules 10 "D0".toList ["K-".toList, "pi+".toList] [] = some rt ∧
    totalAmplitude (fun _ => 1) cs = 7 ∧ totalAmplitude (fun _ => 1) rt = 2 := by
  have h : (match sampleRules sampleEnv [("D0{K-,pi+}", 2), ("D0{pi+,K-}", 5)] with
      | some rules => decide (rules.map (fun r => r.name) = ["D0{K-,pi+}".toList, "D0{pi+,K-}".toList]) &&
        (match candidates sampleEnv id rules 10 "D0".toList ["K-".toList, "pi+".toList] [] with
        | some cs => decide (totalAmplitude (fun _ => 1) cs = 7) &&
          (match getMatchingRules sampleEnv id rules 10 "D0".toList ["K-".toList, "pi+".toList] [] with
          | some rt => decide (totalAmplitude (fun _ => 1) rt = 2)
          | none => false)
        | none => false)
      | none => false) = true := by decide +kernel
  split at h
  · rename_i rules hr
    rw [Bool.and_eq_true, decide_eq_true_eq] at h
    obtain ⟨h0, h⟩ := h
    split at h
    · rename_i cs hcs
      rw [Bool.and_eq_true, decide_eq_true_eq] at h
      obtain ⟨h1, h⟩ := h
      split at h
      · rename_i rt hrt
        exact ⟨rules, cs, rt, h0, hcs, hrt, h1, of_decide_eq_true h⟩
      · simp at h
    · simp at h
  · simp at h

/-! ### C145 -/

/-- C145.  The entries for the decays of a particle: one for every process of it, with the prefix of
the sum if the particle is the mother, that some but not all of the amplitudes with the particle use.
The fraction is that of the amplitudes using the process among the amplitudes with the particle. -/
theorem fraction_entries (es : List Element) (mother pre head : Str) (ps : List Process) (k : Str × List Nat × List Nat) :
    let c := fractionCalculator es mother pre (head, ps)
    Lists c.normSet (fun i => Mentions es i head) ∧
    (k ∈ c.calculators ↔ ∃ p ∈ ps, k.1 = p.name ∧ (p.head = mother → p.prefix_ = pre) ∧
      Lists k.2.1 (fun i => Uses es i p.name) ∧ k.2.2 = k.2.1 ∧ k.2.1 ≠ [] ∧ k.2.1 ≠ c.normSet) := by
  simp only
  refine ⟨⟨findIndices_sorted es head, mem_findIndices es head⟩, ?_⟩
  have uniq : ∀ (l : List Nat) (label : Str), Lists l (fun i => Uses es i label) → l = processIndex es label := by
    intro l label h
    refine List.Perm.eq_of_pairwise' (r := (· < ·)) h.1 (processIndex_sorted es label) ?_
    refine (List.perm_ext_iff_of_nodup (h.1.imp fun h => Nat.ne_of_lt h)
      ((processIndex_sorted es label).imp fun h => Nat.ne_of_lt h)).mpr ?_
    intro i
    rw [h.2, mem_processIndex]
  rw [calculators_eq, List.mem_map]
  show _ ↔ ∃ p ∈ ps, k.1 = p.name ∧ (p.head = mother → p.prefix_ = pre) ∧
      Lists k.2.1 (fun i => Uses es i p.name) ∧ k.2.2 = k.2.1 ∧ k.2.1 ≠ [] ∧ k.2.1 ≠ findIndices es head
  constructor
  · rintro ⟨p, hp, rfl⟩
    rw [List.mem_filter, List.mem_filter] at hp
    obtain ⟨⟨h1, h2⟩, h3⟩ := hp
    rw [Bool.not_eq_true', decide_eq_false_iff_not] at h2 h3
    refine ⟨p, h1, rfl, ?_, ⟨processIndex_sorted es _, mem_processIndex es _⟩, rfl, ?_, ?_⟩
    · intro hh
      by_contra hne
      exact h2 ⟨hh, hne⟩
    · intro he
      simp only at he
      exact h3 (Or.inl (by rw [he]; rfl))
    · intro he
      exact h3 (Or.inr he)
  · rintro ⟨p, h1, h2, h3, h4, h5, h6, h7⟩
    have e := uniq _ _ h4
    refine ⟨p, ?_, ?_⟩
    · rw [List.mem_filter, List.mem_filter]
      refine ⟨⟨h1, ?_⟩, ?_⟩
      · rw [Bool.not_eq_true', decide_eq_false_iff_not]
        rintro ⟨a, b⟩
        exact b (h3 a)
      · rw [Bool.not_eq_true', decide_eq_false_iff_not]
        rintro (a | a)
        · exact h6 (by rw [e]; exact List.length_eq_zero_iff.mp a)
        · exact h7 (by rw [e]; exact a)
    · obtain ⟨a, b, c⟩ := k
      simp only at h2 h5 e
      rw [h2, h5, e]

/-- C145.  The lines printed for a particle are the fractions of its entries, the largest first, and
their sum. -/
theorem fraction_lines (coef : Nat → ℂ) (norm : Nat → Nat → ℂ) (name : Str) (c : Calculator) :
    ∃ body, lines coef norm name c = body ++ [("Sum_".toList ++ name, (body.map fun l => l.2).sum)] ∧
      body.Perm (c.calculators.map fun k => (k.1, ffVal coef norm c.normSet k.2.1 k.2.2)) ∧
      body.Pairwise (fun a b => a.2 ≥ b.2) := by
  letI : DecidableRel fun a b : Line => a.2 ≥ b.2 := fun _ _ => Classical.propDecidable _
  refine ⟨(c.calculators.map fun k => (k.1, ffVal coef norm c.normSet k.2.1 k.2.2)).insertionSort
    (fun a b : Line => a.2 ≥ b.2), ?_, List.perm_insertionSort _ _, ?_⟩
  · unfold lines
    simp only
    rw [foldl_add, zero_add]
    congr 3
    exact ((List.perm_insertionSort (fun a b : Line => a.2 ≥ b.2) _).map fun l : Line => l.2).sum_eq.symm
  · haveI : Std.Total (fun a b : Line => a.2 ≥ b.2) := ⟨fun a b => le_total b.2 a.2⟩
    haveI : IsTrans Line (fun a b : Line => a.2 ≥ b.2) := ⟨fun a b c h1 h2 => ge_trans h1 h2⟩
    exact List.pairwise_insertionSort (fun a b : Line => a.2 ≥ b.2) _

theorem lines_last (coef : Nat → ℂ) (norm : Nat → Nat → ℂ) (name : Str) (c : Calculator) :
    (lines coef norm name c).getLast? = some ("Sum_".toList ++ name,
      (c.calculators.map fun k => ffVal coef norm c.normSet k.2.1 k.2.2).sum) := by
  unfold lines
  simp only
  rw [foldl_add, zero_add, List.getLast?_concat, List.map_map]
  rfl

/-- C145.  In the table for the mother the sum of the fractions and twice the sum of the interference
fractions add up to one, if every amplitude uses exactly one of the processes of the mother and names
the mother, no process is used by all of them, and, for a sum without prefix, no rule for the mother has
one.

Missing: these hypotheses; without the last one it is false. -/
theorem mother_table_partial (coef : Nat → ℂ) (norm : Nat → Nat → ℂ) (es : List Element) (mother pre : Str)
    (rules : List (Str × List Process)) (ps : List Process)
    (hr : rules.find? (fun r => decide (r.1 = mother)) = some (mother, ps))
    (hhead : ∀ p ∈ ps, p.head = mother) (hpre : pre = [] → ∀ p ∈ ps, p.prefix_ = [])
    (hm : ∀ e ∈ es, mother <:+: e.descriptor)
    (hone : ∀ e ∈ es, ((ps.filter fun p => decide (p.prefix_ = pre)).filter fun p => e.contains p.name).length = 1)
    (hall : ∀ p ∈ ps, ∃ i, i < es.length ∧ ¬ Uses es i p.name)
    (h0 : ffNorm coef norm (List.range es.length) ≠ 0) :
    ∃ F I, (lines coef norm mother (fractionCalculator es mother pre (mother, ps))).getLast? = some ("Sum_".toList ++ mother, F) ∧
      (lines coef norm (mother ++ "_interference".toList) (interferenceCalculator es mother pre rules)).getLast? =
        some ("Sum_".toList ++ (mother ++ "_interference".toList), I) ∧
      F + 2 * I = 1 := by
  refine ⟨_, _, lines_last _ _ _ _, lines_last _ _ _ _, ?_⟩
  obtain ⟨H, hH⟩ : ∃ H, (ps.filter fun p => decide (p.prefix_ = pre)) = H := ⟨_, rfl⟩
  have hnorm : findIndices es mother = List.range es.length := by
    unfold findIndices
    rw [List.filter_eq_self]
    intro i hi
    rw [List.getElem?_eq_getElem (List.mem_range.mp hi)]
    simp only [find_isSome_iff]
    exact hm _ (List.getElem_mem _)
  have hhr : headRules rules mother pre = H := by
    unfold headRules
    rw [hr]
    simp only
    split
    · rename_i he
      subst he
      rw [← hH]
      symm
      rw [List.filter_eq_self]
      intro p hp
      simpa using hpre rfl p hp
    · exact hH
  have hF : ((fractionCalculator es mother pre (mother, ps)).calculators.map fun k =>
      ffVal coef norm (fractionCalculator es mother pre (mother, ps)).normSet k.2.1 k.2.2).sum =
      (H.map fun p => ffVal coef norm (List.range es.length) (processIndex es p.name) (processIndex es p.name)).sum := by
    rw [calculators_eq, List.map_map]
    have e1 : (ps.filter fun p => !(decide (p.head = mother ∧ p.prefix_ ≠ pre))) = H := by
      rw [← hH]
      apply List.filter_congr
      intro p hp
      rw [Bool.eq_iff_iff]
      simp only [Bool.not_eq_true', decide_eq_false_iff_not, decide_eq_true_eq, hhead p hp, true_and, not_not, ne_eq]
    rw [e1]
    have e2 : (fractionCalculator es mother pre (mother, ps)).normSet = List.range es.length := hnorm
    rw [e2]
    have hsub : ∀ p ∈ H, p ∈ ps := by
      intro p hp
      rw [← hH] at hp
      exact (List.mem_filter.mp hp).1
    clear hhr e1 hH hone
    induction H with
    | nil => rfl
    | cons p H ih =>
      have ih := ih fun q hq => hsub q (List.mem_cons_of_mem _ hq)
      by_cases hz : (processIndex es p.name).length = 0
      · rw [List.filter_cons_of_neg (by simp [hz]), ih, List.map_cons, List.sum_cons,
          List.length_eq_zero_iff.mp hz, ffVal_nil, zero_add]
      · have hne : processIndex es p.name ≠ findIndices es mother := by
          intro he
          obtain ⟨i, hi, hu⟩ := hall p (hsub p (List.mem_cons_self ..))
          apply hu
          rw [← mem_processIndex, he, hnorm]
          exact List.mem_range.mpr hi
        have hc : (!(decide ((processIndex es p.name).length = 0 ∨ processIndex es p.name = findIndices es mother))) = true := by
          rw [decide_eq_false (by rintro (h | h); exact hz h; exact hne h)]
          rfl
        rw [List.filter_cons_of_pos (p := fun p : Process =>
          !(decide ((processIndex es p.name).length = 0 ∨ processIndex es p.name = findIndices es mother))) hc,
          List.map_cons, List.sum_cons, List.map_cons, List.sum_cons, ih]
        rfl
  have hI : ((interferenceCalculator es mother pre rules).calculators.map fun k =>
      ffVal coef norm (interferenceCalculator es mother pre rules).normSet k.2.1 k.2.2).sum =
      ((crossPairs (H.map fun p => processIndex es p.name)).map fun q =>
        ffVal coef norm (List.range es.length) q.1 q.2).sum := by
    unfold interferenceCalculator
    simp only
    rw [hhr, hnorm, pairLoop_eq, List.map_map, crossPairs_map, List.map_map]
    rfl
  rw [hF, hI]
  have hperm : (H.map fun p => processIndex es p.name).flatten.Perm (List.range es.length) := by
    rw [List.perm_iff_count]
    intro i
    rw [List.count_flatten, List.map_map]
    have hcount : ∀ (label : Str), (processIndex es label).count i =
        if (match es[i]? with | some e => e.contains label | none => false) = true then 1 else 0 := by
      intro label
      have nd : (processIndex es label).Nodup := (processIndex_sorted es label).imp fun h => Nat.ne_of_lt h
      by_cases hi : i ∈ processIndex es label
      · rw [List.count_eq_one_of_mem nd hi, if_pos]
        exact (List.mem_filter.mp hi).2
      · rw [List.count_eq_zero_of_not_mem hi, if_neg]
        intro hc
        apply hi
        unfold processIndex
        rw [List.mem_filter]
        refine ⟨?_, hc⟩
        rw [List.mem_range]
        by_contra hlt
        rw [List.getElem?_eq_none (Nat.le_of_not_lt hlt)] at hc
        exact absurd hc (by simp)
    have hs : ∀ (l : List Process) (f : Process → Bool), (l.map fun p => if f p = true then 1 else 0).sum = (l.filter f).length := by
      intro l f
      induction l with
      | nil => rfl
      | cons p l ih =>
        rw [List.map_cons, List.sum_cons, ih, List.filter_cons]
        split <;> simp [Nat.add_comm]
    have : (List.map (List.count i ∘ fun p : Process => processIndex es p.name) H) =
        H.map fun p => if (match es[i]? with | some e => e.contains p.name | none => false) = true then 1 else 0 :=
      List.map_congr_left fun p _ => hcount p.name
    rw [this, hs]
    by_cases hi : i < es.length
    · rw [List.count_eq_one_of_mem List.nodup_range (List.mem_range.mpr hi)]
      rw [List.getElem?_eq_getElem hi]
      rw [← hone _ (List.getElem_mem hi), hH]
    · rw [List.count_eq_zero_of_not_mem (by simpa using hi), List.getElem?_eq_none (Nat.le_of_not_lt hi)]
      simp
  have := fit_fractions_add_up coef norm (H.map fun p => processIndex es p.name) (List.range es.length) hperm h0
  rw [List.map_map] at this
  exact this

/-- Two processes with one amplitude each and a third process without amplitudes. -/
def exampleElements : List Element :=
  [⟨"D0{K*(892)bar0{K-,pi+},pi0}".toList, ["D0{K*(892)bar0,pi0}".toList, "K*(892)bar0{K-,pi+}".toList]⟩,
   ⟨"D0{rho(770)+{pi+,pi0},K-}".toList, ["D0{rho(770)+,K-}".toList, "rho(770)+{pi+,pi0}".toList]⟩]

def exampleRules : List (Str × List Process) :=
  [("D0".toList, [⟨"D0".toList, [], "D0{K*(892)bar0,pi0}".toList⟩, ⟨"D0".toList, [], "D0{rho(770)+,K-}".toList⟩,
     ⟨"D0".toList, [], "D0{omega(782)0,pi0}".toList⟩]),
   ("K*(892)bar0".toList, [⟨"K*(892)bar0".toList, [], "K*(892)bar0{K-,pi+}".toList⟩])]

example : let ps := [⟨"D0".toList, [], "D0{K*(892)bar0,pi0}".toList⟩, ⟨"D0".toList, [], "D0{rho(770)+,K-}".toList⟩,
     (⟨"D0".toList, [], "D0{omega(782)0,pi0}".toList⟩ : Process)]
    exampleRules.find? (fun r => decide (r.1 = "D0".toList)) = some ("D0".toList, ps) ∧
    (∀ p ∈ ps, p.head = "D0".toList) ∧ (∀ p ∈ ps, p.prefix_ = []) ∧
    (∀ e ∈ exampleElements, "D0".toList <:+: e.descriptor) ∧
    (∀ e ∈ exampleElements, ((ps.filter fun p => decide (p.prefix_ = [])).filter fun p => e.contains p.name).length = 1) ∧
    (∀ p ∈ ps, ∃ i, i < exampleElements.length ∧ ¬ Uses exampleElements i p.name) ∧
    ffNorm (fun _ => 1) (fun i j => if i = j then 1 else 0) (List.range exampleElements.length) ≠ 0 := by
  refine ⟨by decide +kernel, by decide +kernel, by decide +kernel, ?_, by decide +kernel, ?_, ?_⟩
  · intro e he
    rw [← find_isSome_iff]
    revert e
    decide +kernel
  · intro p hp
    simp only [← mem_processIndex]
    have : ∃ i ∈ [0, 1], ¬ i ∈ processIndex exampleElements p.name := by
      revert p
      decide +kernel
    obtain ⟨i, hi, h⟩ := this
    refine ⟨i, ?_, h⟩
    have : exampleElements.length = 2 := rfl
    rw [this]
    rcases List.mem_cons.mp hi with rfl | hi
    · omega
    · rw [List.mem_singleton] at hi; omega
  · have : exampleElements.length = 2 := rfl
    rw [this]
    unfold ffNorm ffSum
    simp [List.range_succ]

/-- C145.  A sum without prefix lists the interference of an amplitude with itself if there is a rule of
the same name with a prefix: with a single amplitude, the interference fractions are one. -/
theorem interference_prefix_counterexample :
    let es : List Element := [⟨"D0{K-,pi+}".toList, ["D0{K-,pi+}".toList]⟩]
    let rules : List (Str × List Process) :=
      [("D0".toList, [⟨"D0".toList, [], "D0{K-,pi+}".toList⟩, ⟨"D0".toList, "CP".toList, "D0{K-,pi+}".toList⟩])]
    lines (fun _ => 1) (fun _ _ => 1) "D0_interference".toList (interferenceCalculator es "D0".toList [] rules) =
      [("D0{K-,pi+}xD0{K-,pi+}".toList, 1), ("Sum_D0_interference".toList, 1)] := by
  intro es rules
  have hc : interferenceCalculator es "D0".toList [] rules = ⟨[0], [("D0{K-,pi+}xD0{K-,pi+}".toList, [0], [0])]⟩ := by
    have h1 : findIndices es "D0".toList = [0] := by decide +kernel
    have h2 : (pairLoop (headRules rules "D0".toList [])).map (fun p =>
      (p.1.name ++ "x".toList ++ p.2.name, processIndex es p.1.name, processIndex es p.2.name)) =
      [("D0{K-,pi+}xD0{K-,pi+}".toList, [0], [0])] := by decide +kernel
    unfold interferenceCalculator
    rw [h1, h2]
  rw [hc]
  have hv : ffVal (fun _ => 1) (fun _ _ => 1) [0] [0] [0] = 1 := by
    unfold ffVal ffNorm ffSum
    simp
  have hn : "Sum_".toList ++ "D0_interference".toList = "Sum_D0_interference".toList := by decide
  unfold lines
  simp only [List.map_cons, List.map_nil, hv, List.insertionSort_cons, List.insertionSort_nil, List.orderedInsert_nil, hn,
    List.foldl_cons, List.foldl_nil, zero_add, List.cons_append, List.nil_append]

/-- C145.  Names are compared by parts: an amplitude with a doubly charged resonance counts as one with
the singly charged resonance, so that the only amplitude with the latter has half of its own fraction. -/
theorem fraction_name_counterexample :
    let es : List Element :=
      [⟨"Lambda(c)+{Delta(1232)+{p+,pi0},K*(892)bar0{K-,pi+}}".toList,
          ["Lambda(c)+{Delta(1232)+,K*(892)bar0}".toList, "Delta(1232)+{p+,pi0}".toList, "K*(892)bar0{K-,pi+}".toList]⟩,
       ⟨"Lambda(c)+{Delta(1232)++{p+,pi+},K*(892)-{K-,pi0}}".toList,
          ["Lambda(c)+{Delta(1232)++,K*(892)-}".toList, "Delta(1232)++{p+,pi+}".toList, "K*(892)-{K-,pi0}".toList]⟩]
    let c := fractionCalculator es "Lambda(c)+".toList []
      ("Delta(1232)+".toList, [⟨"Delta(1232)+".toList, [], "Delta(1232)+{p+,pi0}".toList⟩])
    c.normSet = [0, 1] ∧
    lines (fun _ => 1) (fun i j => if i = j then 1 else 0) "Delta(1232)+".toList c =
      [("Delta(1232)+{p+,pi0}".toList, 1 / 2), ("Sum_Delta(1232)+".toList, 1 / 2)] := by
  intro es c
  have hn : c.normSet = [0, 1] := by decide +kernel
  have hk : c.calculators = [("Delta(1232)+{p+,pi0}".toList, [0], [0])] := by decide +kernel
  refine ⟨hn, ?_⟩
  have hv : ffVal (fun _ => 1) (fun i j => if i = j then 1 else 0) [0, 1] [0] [0] = 1 / 2 := by
    unfold ffVal ffNorm ffSum
    norm_num
  have hs : "Sum_".toList ++ "Delta(1232)+".toList = "Sum_Delta(1232)+".toList := by decide
  unfold lines
  simp only [hn, hk, List.map_cons, List.map_nil, hv, List.insertionSort_cons, List.insertionSort_nil,
    List.orderedInsert_nil, hs, List.foldl_cons, List.foldl_nil, zero_add, List.cons_append, List.nil_append]

/-- C145.  The whole table: the blocks of all particles with entries, followed by the interference
fractions of the mother. -/
theorem fraction_table (coef : Nat → ℂ) (norm : Nat → Nat → ℂ) (es : List Element) (mother pre : Str)
    (rules : List (Str × List Process)) (l : Line) :
    l ∈ fitFractions coef norm es mother pre rules ↔
      (∃ rule ∈ rules, (fractionCalculator es mother pre rule).calculators ≠ [] ∧
        l ∈ lines coef norm rule.1 (fractionCalculator es mother pre rule)) ∨
      l ∈ lines coef norm (mother ++ "_interference".toList) (interferenceCalculator es mother pre rules) := by
  unfold fitFractions
  rw [List.mem_append, List.mem_flatMap]
  refine or_congr (exists_congr fun rule => and_congr_right fun _ => ?_) Iff.rfl
  simp only
  by_cases h : (fractionCalculator es mother pre rule).calculators.length = 0
  · rw [if_pos h, List.length_eq_zero_iff.mp h]
    simp
  · rw [if_neg h]
    exact (and_iff_right fun e => h (by rw [e]; rfl)).symm

/-- C145.  In a polarised sum the interference fractions are those of the pairs of processes of the
mother that some but not all amplitudes use. -/
theorem polarised_interference (es : List Element) (mother pre : Str) (rules : List (Str × List Process))
    (k : Str × List Nat × List Nat) :
    k ∈ (polarisedInterference es mother pre rules).calculators ↔
      ∃ q ∈ crossPairs (headRules rules mother pre), k.1 = q.1.name ++ " ".toList ++ q.2.name ∧
        k.2.1 = processIndex es q.1.name ∧ k.2.2 = processIndex es q.2.name ∧
        k.2.1 ≠ [] ∧ k.2.2 ≠ [] ∧ k.2.1 ≠ findIndices es mother ∧ k.2.2 ≠ findIndices es mother := by
  unfold polarisedInterference
  simp only
  rw [List.mem_map, pairLoop_eq]
  constructor
  · rintro ⟨q, hq, rfl⟩
    rw [List.mem_filter] at hq
    obtain ⟨h1, h2⟩ := hq
    simp only [Bool.and_eq_true, Bool.not_eq_true', Bool.or_eq_false_iff, decide_eq_false_iff_not,
      List.length_eq_zero_iff] at h2
    exact ⟨q, h1, rfl, rfl, rfl, h2.1.1, h2.2.1, h2.1.2, h2.2.2⟩
  · rintro ⟨q, h1, h2, h3, h4, h5, h6, h7, h8⟩
    refine ⟨q, ?_, ?_⟩
    · rw [List.mem_filter]
      simp only [Bool.and_eq_true, Bool.not_eq_true', Bool.or_eq_false_iff, decide_eq_false_iff_not,
        List.length_eq_zero_iff]
      rw [← h3, ← h4]
      exact ⟨h1, ⟨h5, h7⟩, ⟨h6, h8⟩⟩
    · obtain ⟨a, b, c⟩ := k
      simp only at h2 h3 h4
      rw [h2, h3, h4]

end AmpGen.Assembly
