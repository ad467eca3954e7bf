import Verif.Generator.Lemmas
import Mathlib.MeasureTheory.Measure.Lebesgue.Basic
import Mathlib.Algebra.Order.Field.Rat
/-
C40 and C66: generation of events by accepting and rejecting proposals.
-/
namespace AmpGen.Generator
open Spec

section
variable {K σ : Type} [Field K] [LinearOrder K] [IsStrictOrderedRing K]

/-- C40. For every phase space generator, random number generator, density and block size, and whatever is in the list before, generation ends without accessing memory out of range after at most as many
blocks as events are asked for. The events added are the first `N` that pass, in the order in which they were proposed, stored with their densities and positions. There are exactly `N` of them unless
nothing passes in a whole block, and then that block was the last one. No block is proposed after enough events passed. -/
theorem generation_result (gps : PhaseSpace K σ) (rndm : σ → K × σ) (normalise : Bool) (nParticles n : Nat) (pdf : List K → Option K) (list : List (Event K)) (N : Nat) (s : σ) (h : InRange gps n) :
    ∃ (M : K) (k : Nat) (st : State K σ), Threshold normalise pdf (proposals gps n s).1 M ∧
      fillEventList gps (some rndm) normalise nParticles n pdf list N s = some st ∧ k ≤ N ∧
      st.list = list ++ stored pdf list.length ((((trials gps rndm n s k).flatten.filter fun t => decide (Passes pdf M t)).take N).map Prod.fst) ∧
      ((st.list.length = list.length + N ∧ ∀ b ∈ trials gps rndm n s k, ∃ t ∈ b, Passes pdf M t) ∨
        ∃ b, trials gps rndm n s k = (trials gps rndm n s k).dropLast ++ [b] ∧ (∀ t ∈ b, ¬ Passes pdf M t) ∧ ∀ b' ∈ (trials gps rndm n s k).dropLast, ∃ t ∈ b', Passes pdf M t) ∧
      (0 < k → ((trials gps rndm n s k).dropLast.flatten.filter fun t => decide (Passes pdf M t)).length < N) := by
  obtain ⟨M, hM, hT⟩ : ∃ M : K, (((if normalise then (0 : K) else 1) ≠ 0 ∧ (if normalise then (0 : K) else 1) = M) ∨
      ((if normalise then (0 : K) else 1) = 0 ∧ M = 3 / 2 * getMax (evaluate pdf (proposals gps n s).1))) ∧ Threshold normalise pdf (proposals gps n s).1 M := by
    cases normalise with
    | false => exact ⟨1, Or.inl ⟨by simp, by simp⟩, Or.inl ⟨rfl, rfl⟩⟩
    | true =>
      refine ⟨_, Or.inr ⟨by simp, rfl⟩, Or.inr ⟨rfl, _, rfl, ?_⟩⟩
      obtain ⟨h1, h2, h3⟩ := getMax_spec (evaluate pdf (proposals gps n s).1)
      refine ⟨h1, ?_, ?_⟩
      · intro e he g hg
        exact h2 _ (List.mem_map.2 ⟨e, he, rfl⟩) g hg
      · rcases h3 with h3 | ⟨e, he, h3⟩
        · exact Or.inl h3
        · obtain ⟨e', he', rfl⟩ := List.mem_map.1 he
          exact Or.inr ⟨e', he', h3⟩
  obtain ⟨k, st, h1, h2, h3, h4, h5, _⟩ := blocks_spec gps rndm pdf nParticles n list.length N h M N (if normalise then 0 else 1) ⟨list, s, List.replicate n false, []⟩
    (by simp) (le_refl _) (by simp) (by simp) hM
  simp only [Nat.sub_self, Nat.sub_zero] at h2 h3 h5
  have hne : ∀ b, passed pdf M b ≠ [] → ∃ t ∈ b, Passes pdf M t := by
    intro b hb
    obtain ⟨t, ht⟩ := List.exists_mem_of_ne_nil _ hb
    obtain ⟨h1, h2⟩ := List.mem_filter.1 ht
    exact ⟨t, h1, of_decide_eq_true h2⟩
  refine ⟨M, k, st, hT, h1, h2, h3, ?_, h5⟩
  rcases h4 with ⟨h4, h4'⟩ | ⟨b, hb, hb1, hb2⟩
  · exact Or.inl ⟨h4, fun b hb => hne b (h4' b hb)⟩
  · refine Or.inr ⟨b, hb, ?_, fun b' hb' => hne b' (hb2 b' hb')⟩
    intro t ht hp
    unfold passed at hb1
    rw [List.filter_eq_nil_iff] at hb1
    exact hb1 t ht (decide_eq_true hp)

/-- The events of a phase space generator that are used for an example: one number, counted up. -/
def counting : PhaseSpace ℚ Nat := .phaseSpace fun s => ([(s : ℚ)], s + 1)

/-- Random numbers for an example. -/
def half : Nat → ℚ × Nat := fun s => (1 / 2, s)

example : InRange counting 3 := trivial

/-- Densities 0, 1, 2, ...: the threshold is 3, and the events 2 and 3 pass. -/
example : (fillEventList counting (some half) true 1 3 (fun d => some (d.getD 0 0)) [] 2 0).map (fun st => st.list) =
    some [⟨[2], some 2, 1, 0⟩, ⟨[3], some 3, 1, 1⟩] := by decide +kernel

/-- C40. Without a random number generator nothing is added. -/
theorem generation_without_generator (gps : PhaseSpace K σ) (normalise : Bool) (nParticles n : Nat) (pdf : List K → Option K) (list : List (Event K)) (N : Nat) (s : σ) :
    ∃ st, fillEventList gps none normalise nParticles n pdf list N s = some st ∧ st.list = list := ⟨_, rfl, rfl⟩

/-- C40. The list returned by `generate` holds the events with which an empty list would have been filled. -/
theorem generate_result (gps : PhaseSpace K σ) (rndm : σ → K × σ) (normalise : Bool) (nParticles n : Nat) (pdf : List K → Option K) (N : Nat) (s : σ) (h : InRange gps n) :
    ∃ st, fillEventList gps (some rndm) normalise nParticles n pdf [] N s = some st ∧ generate gps (some rndm) normalise nParticles n pdf N s = some st.list := by
  obtain ⟨M, k, st, _, h1, _, h3, _⟩ := generation_result gps rndm normalise nParticles n pdf [] N s h
  refine ⟨st, h1, ?_⟩
  unfold generate
  rw [h1, Option.map_some, copy_spec, h3]
  congr 1
  simp only [List.nil_append, List.length_nil, stored]
  apply List.ext_getElem
  · simp
  · intro i h1 h2
    simp

example : generate counting (some half) true 1 3 (fun d => some (d.getD 0 0)) 2 0 = some [⟨[2], some 2, 1, 0⟩, ⟨[3], some 3, 1, 1⟩] := by decide +kernel

/-- C40. Generation without a density returns the number of events asked for, as they were proposed. -/
theorem phase_space_generation (gps : PhaseSpace K σ) (nParticles N : Nat) (s : σ) :
    (generatePhaseSpace gps nParticles N s).length = N ∧
      ∀ i (hi : i < N), ∃ e e', (generatePhaseSpace gps nParticles N s)[i]? = some e ∧ (proposals gps N s).1[i]? = some e' ∧ e = { e' with index := i } := by
  unfold generatePhaseSpace
  rw [copy_spec, fill_spec]
  have hlen := proposals_length gps N s
  refine ⟨by simp [hlen], ?_⟩
  intro i hi
  refine ⟨{ ((proposals gps N s).1[i]'(by omega)) with index := i }, (proposals gps N s).1[i]'(by omega), ?_, ?_, rfl⟩
  · rw [List.getElem?_eq_getElem (by simp; omega)]
    simp
  · rw [List.getElem?_eq_getElem (by omega)]

example : generatePhaseSpace counting 1 2 5 = [⟨[5], some 1, 1, 0⟩, ⟨[6], some 1, 1, 1⟩] := by decide +kernel

/-- C66. An event is reported by a warning only if its density is greater than the threshold, and every event that is stored with such a density is reported. -/
theorem generation_warnings (gps : PhaseSpace K σ) (rndm : σ → K × σ) (normalise : Bool) (nParticles n : Nat) (pdf : List K → Option K) (list : List (Event K)) (N : Nat) (s : σ) (h : InRange gps n) :
    ∃ (M : K) (k : Nat) (st : State K σ), Threshold normalise pdf (proposals gps n s).1 M ∧ fillEventList gps (some rndm) normalise nParticles n pdf list N s = some st ∧
      st.list = list ++ stored pdf list.length ((((trials gps rndm n s k).flatten.filter fun t => decide (Passes pdf M t)).take N).map Prod.fst) ∧
      (∀ e ∈ st.warned, ∃ g, e.genPdf = some g ∧ M < g) ∧
      ∀ t ∈ ((trials gps rndm n s k).flatten.filter fun t => decide (Passes pdf M t)).take N, ∀ g, density pdf t.1 = some g → M < g → { t.1 with genPdf := some g } ∈ st.warned := by
  obtain ⟨M, hM, hT⟩ : ∃ M : K, (((if normalise then (0 : K) else 1) ≠ 0 ∧ (if normalise then (0 : K) else 1) = M) ∨
      ((if normalise then (0 : K) else 1) = 0 ∧ M = 3 / 2 * getMax (evaluate pdf (proposals gps n s).1))) ∧ Threshold normalise pdf (proposals gps n s).1 M := by
    cases normalise with
    | false => exact ⟨1, Or.inl ⟨by simp, by simp⟩, Or.inl ⟨rfl, rfl⟩⟩
    | true =>
      refine ⟨_, Or.inr ⟨by simp, rfl⟩, Or.inr ⟨rfl, _, rfl, ?_⟩⟩
      obtain ⟨h1, h2, h3⟩ := getMax_spec (evaluate pdf (proposals gps n s).1)
      refine ⟨h1, ?_, ?_⟩
      · intro e he g hg
        exact h2 _ (List.mem_map.2 ⟨e, he, rfl⟩) g hg
      · rcases h3 with h3 | ⟨e, he, h3⟩
        · exact Or.inl h3
        · obtain ⟨e', he', rfl⟩ := List.mem_map.1 he
          exact Or.inr ⟨e', he', h3⟩
  obtain ⟨k, st, h1, _, h3, _, _, w, h6, h7, h8⟩ := blocks_spec gps rndm pdf nParticles n list.length N h M N (if normalise then 0 else 1) ⟨list, s, List.replicate n false, []⟩
    (by simp) (le_refl _) (by simp) (by simp) hM
  simp only [Nat.sub_self, Nat.sub_zero, List.nil_append] at h3 h6 h8
  refine ⟨M, k, st, hT, h1, h3, ?_, ?_⟩
  · intro e he
    rw [h6] at he
    have := h7 e he
    unfold gt at this
    split at this
    · rename_i a b ha hb
      cases hb
      exact ⟨a, ha, of_decide_eq_true this⟩
    · cases this
  · intro t ht g hg hl
    rw [h6]
    have := h8 t ht (by rw [hg]; exact decide_eq_true hl)
    unfold withDensity at this
    rw [hg] at this
    exact this

/-- In a later block the density has grown beyond the threshold: a warning. -/
example : (fillEventList counting (some half) true 1 3 (fun d => some (d.getD 0 0)) [] 4 0).map (fun st => st.warned.map (fun e => e.genPdf)) = some [some 4, some 5] := by decide +kernel

/-- C66. In the first block no density is greater than the threshold when densities are not negative. -/
theorem first_block_threshold (gps : PhaseSpace K σ) (pdf : List K → Option K) (n : Nat) (s : σ) (M : K) (hT : Threshold true pdf (proposals gps n s).1 M) :
    0 ≤ M ∧ ∀ e ∈ (proposals gps n s).1, ∀ g, density pdf e = some g → g ≤ 2 / 3 * M := by
  rcases hT with ⟨h, _⟩ | ⟨_, m, rfl, h1, h2, _⟩
  · cases h
  · exact ⟨by linarith, fun e he g hg => by have := h2 e he g hg; linarith⟩

example : Threshold true (fun d => some (d.getD 0 0)) (proposals counting 3 0).1 3 :=
  Or.inr ⟨rfl, 2, by norm_num, by norm_num, by decide +kernel, Or.inr ⟨⟨[2], some 1, 1, 2⟩, by decide +kernel, by decide +kernel⟩⟩

end

open MeasureTheory in
/-- C66, partial. For a random number with the uniform distribution in [0,1), the probability that an event is accepted is its density over the threshold, the same constant for all events, if the density is not
greater than the threshold. Missing: densities greater than the threshold. -/
theorem acceptance_probability_partial (M g : ℝ) (hM : 0 < M) (h0 : 0 ≤ g) (hg : g ≤ M) : volume {u : ℝ | u ∈ Set.Ico 0 1 ∧ accepted (some g) M u = true} = ENNReal.ofReal (g / M) := by
  have hset : {u : ℝ | u ∈ Set.Ico 0 1 ∧ accepted (some g) M u = true} = Set.Ico 0 (g / M) := by
    ext u
    simp only [Set.mem_setOf_eq, Set.mem_Ico, accepted_iff, Option.some.injEq, exists_eq_left', lt_div_iff₀ hM]
    constructor
    · rintro ⟨⟨h1, _⟩, h3⟩
      exact ⟨h1, by linarith⟩
    · rintro ⟨h1, h2⟩
      refine ⟨⟨h1, ?_⟩, by linarith⟩
      by_contra hu
      have : M * 1 ≤ M * u := mul_le_mul_of_nonneg_left (not_lt.1 hu) hM.le
      linarith
  rw [hset, Real.volume_Ico, sub_zero]

example : (0 : ℝ) < 3 ∧ (0 : ℝ) ≤ 2 ∧ (2 : ℝ) ≤ 3 := by norm_num

open MeasureTheory in
/-- C66. Densities greater than the threshold are not distinguished: with the threshold 3 an event of density 6 is accepted with the same probability as an event of density 4. -/
theorem acceptance_probability_counterexample :
    volume {u : ℝ | u ∈ Set.Ico 0 1 ∧ accepted (some 6) 3 u = true} = 1 ∧ volume {u : ℝ | u ∈ Set.Ico 0 1 ∧ accepted (some 4) 3 u = true} = 1 := by
  have hset : ∀ g : ℝ, 3 ≤ g → {u : ℝ | u ∈ Set.Ico 0 1 ∧ accepted (some g) 3 u = true} = Set.Ico 0 1 := by
    intro g hg
    ext u
    simp only [Set.mem_setOf_eq, Set.mem_Ico, accepted_iff, Option.some.injEq, exists_eq_left']
    constructor
    · exact fun h => h.1
    · exact fun h => ⟨h, by linarith [h.2]⟩
  rw [hset 6 (by norm_num), hset 4 (by norm_num)]
  simp

/-- Such densities are met: the events 4 and 6 of the second and third block, with the threshold 3. -/
example : ((fillEventList counting (some half) true 1 3 (fun d => some (d.getD 0 0)) [] 5 0).map fun st => st.list.map fun e => e.genPdf) = some [some 2, some 3, some 4, some 5, some 6] := by
  decide +kernel

end AmpGen.Generator
