import Verif.Fit.Model
import Verif.Params.Props
import Mathlib.Data.Rat.Floor
import Mathlib.Tactic.Linarith
import Mathlib.Tactic.FieldSimp
import Mathlib.Tactic.Ring
/-
C97-C102: errors from Minos, scans, the result of a fit, blind parameters, fixed parameters, and the function that is minimised.
-/
namespace AmpGen.Fit
open AmpGen.Params
open AmpGen.Strings (Str)

/-- After evaluations at some points, the varying parameters have the values of the last point. -/
theorem minimise_last (w0 : World) {m : Minimiser} (hm : m.mapping = freePositions w0) (xs : List (Nat → ℚ)) : ∀ (w : World) (x0 : Nat → ℚ), w.params.Nodup →
    w.params = w0.params → (∀ a p, Varying w0 a → w.param a = some p → p.mean = x0 (rank w0 a)) →
    ∃ w', minimise m w xs = some w' ∧ w'.params = w.params ∧ w'.keys = w.keys ∧ w'.next = w.next ∧
      (∀ a p, Varying w0 a → w.param a = some p → w'.param a = some { p with mean := (xs.getLast?.getD x0) (rank w0 a) }) ∧
      (∀ a, ¬ Varying w0 a → w'.param a = w.param a) ∧ (∀ id, id ∉ w.params → w'.heap id = w.heap id) := by
  induction xs with
  | nil =>
    intro w x0 _ _ h0
    exact ⟨w, rfl, rfl, rfl, rfl, fun a p hv hp => by
      rw [hp]
      simp only [List.getLast?_nil, Option.getD_none]
      rw [← h0 a p hv hp], fun _ _ => rfl, fun _ _ => rfl⟩
  | cons x xs ih =>
    intro w x0 hN hp h0
    obtain ⟨w1, a1, a2, a3, a4, a5, a6, a7⟩ := modifyAll_free (fun i p => { p with mean := x i }) hN hp
    have hx : ∀ a p, Varying w0 a → w1.param a = some p → p.mean = x (rank w0 a) := by
      intro a p hv hpar
      obtain ⟨q, hq, _⟩ := id hv
      have hat : (w.at a).map w.heap = w.param a := rfl
      cases hc : w.param a with
      | none =>
        unfold World.param World.at at hc hpar
        rw [a2] at hpar
        cases hh : w.params[a]? with
        | none => rw [hh] at hpar; cases hpar
        | some i => rw [hh] at hc; cases hc
      | some p0 =>
        rw [a5 a p0 hv hc] at hpar
        rw [← Option.some.inj hpar]
    obtain ⟨w2, b1, b2, b3, b4, b5, b6, b7⟩ := ih w1 x (by rw [a2]; exact hN) (a2.trans hp) hx
    refine ⟨w2, ?_, b2.trans a2, b3.trans a3, b4.trans a4, ?_, ?_, ?_⟩
    · unfold minimise evaluate
      rw [hm, a1]
      exact b1
    · intro a p hv hpar
      rw [b5 a _ hv (a5 a p hv hpar)]
      have : (x :: xs).getLast?.getD x0 = xs.getLast?.getD x := by
        cases xs with
        | nil => rfl
        | cons y ys => rw [List.getLast?_cons_cons]; cases h : (y :: ys).getLast? with
          | none => simp at h
          | some z => rfl
      rw [this]
    · intro a hv
      rw [b6 a hv, a6 a hv]
    · intro i hi
      rw [b7 i (by rw [a2]; exact hi), a7 i hi]

theorem setParam_param {w : World} (hN : w.params.Nodup) {a id : Nat} (ha : w.at a = some id) (f : Param → Param) (b : Nat) :
    (setParam w id f).param b = if b = a then (w.param b).map f else w.param b := by
  unfold World.param setParam
  have hat : ∀ c, ({ w with heap := Function.update w.heap id (f (w.heap id)) } : World).at c = w.at c := fun _ => rfl
  rw [hat]
  by_cases hb : b = a
  · subst hb
    rw [if_pos rfl, ha]
    simp
  · rw [if_neg hb]
    cases hc : w.at b with
    | none => rfl
    | some j =>
      have hj : j ≠ id := fun h => hb (at_inj hN (h ▸ hc) ha)
      simp [Function.update_of_ne hj]

theorem getLast_append {α : Type} (l1 l2 : List α) (x : α) : (l1 ++ l2).getLast?.getD x = l2.getLast?.getD (l1.getLast?.getD x) := by
  cases l2 with
  | nil => simp
  | cons y ys =>
    rw [List.getLast?_append]
    cases h : (y :: ys).getLast? with
    | none => simp at h
    | some z => rfl

theorem runMinos_spec (w0 : World) {m : Minimiser} (hm : m.mapping = freePositions w0) (pts : Nat → List (Nat → ℚ)) (low high : Nat → ℚ) (is : List Nat) :
    ∀ (w : World) (x0 : Nat → ℚ), (∀ i ∈ is, i < (freePositions w0).length) → w.params.Nodup → w.params = w0.params →
    (∀ a p, Varying w0 a → w.param a = some p → p.mean = x0 (rank w0 a)) →
    ∃ w', runMinos m pts low high is w = some w' ∧ w'.params = w.params ∧ w'.keys = w.keys ∧
      (∀ a p, Varying w0 a → w.param a = some p → w'.param a = some { p with
        mean := ((is.flatMap pts).getLast?.getD x0) (rank w0 a)
        errNeg := if rank w0 a ∈ is then low (rank w0 a) else p.errNeg
        errPos := if rank w0 a ∈ is then high (rank w0 a) else p.errPos }) ∧
      (∀ a, ¬ Varying w0 a → w'.param a = w.param a) := by
  induction is with
  | nil =>
    intro w x0 _ _ _ h0
    refine ⟨w, rfl, rfl, rfl, fun a p hv hp => ?_, fun _ _ => rfl⟩
    rw [hp]
    simp only [List.flatMap_nil, List.getLast?_nil, Option.getD_none, List.not_mem_nil, if_false]
    rw [← h0 a p hv hp]
  | cons i is ih =>
    intro w x0 hlt hN hp h0
    obtain ⟨w1, a1, a2, a3, _, a5, a6, _⟩ := minimise_last w0 hm (pts i) w x0 hN hp h0
    have hi := hlt i List.mem_cons_self
    obtain ⟨c, hc⟩ : ∃ c, (freePositions w0)[i]? = some c := ⟨_, List.getElem?_eq_getElem hi⟩
    have hrank : rank w0 c = i := rank_of_getElem hc
    have hcv : Varying w0 c := freePositions_mem.mp (List.mem_of_getElem? hc)
    have hN1 : w1.params.Nodup := by rw [a2]; exact hN
    obtain ⟨j, hj⟩ : ∃ j, w1.at c = some j := by
      have : c < w1.params.length := by rw [a2, hp]; exact freePositions_lt c (List.mem_of_getElem? hc)
      exact ⟨_, List.getElem?_eq_getElem this⟩
    let f : Param → Param := fun p => p.setResult p.mean p.err (low i) (high i)
    have e1 : w1.modifyAt (m.mapping.getD i w1.params.length) f = some (setParam w1 j f) := by
      rw [hm, List.getD_eq_getElem?_getD, hc]
      unfold World.modifyAt
      simp only [Option.getD_some, hj]
      rfl
    have hpar : ∀ a p, Varying w0 a → w.param a = some p → (setParam w1 j f).param a = some { p with
        mean := ((pts i).getLast?.getD x0) (rank w0 a)
        errNeg := if rank w0 a = i then low (rank w0 a) else p.errNeg
        errPos := if rank w0 a = i then high (rank w0 a) else p.errPos } := by
      intro a p hv hpa
      rw [setParam_param hN1 hj, a5 a p hv hpa]
      by_cases hac : a = c
      · subst hac
        rw [if_pos rfl, hrank, if_pos rfl, if_pos rfl]
        rfl
      · have : rank w0 a ≠ i := by
          intro h
          have h2 := freePositions_rank hv
          rw [h, hc] at h2
          exact hac (Option.some.inj h2).symm
        rw [if_neg hac, if_neg this, if_neg this]
    have hnone : ∀ a, w.param a = none → (setParam w1 j f).param a = none := by
      intro a ha
      have hat : (setParam w1 j f).at a = w.at a := by
        show w1.params[a]? = w.params[a]?
        rw [a2]
      unfold World.param at ha ⊢
      rw [hat]
      cases hh : w.at a with
      | none => rfl
      | some k => rw [hh] at ha; cases ha
    obtain ⟨w2, b1, b2, b3, b4, b5⟩ := ih (setParam w1 j f) ((pts i).getLast?.getD x0) (fun k hk => hlt k (List.mem_cons_of_mem _ hk)) hN1 (a2.trans hp)
      (fun a p hv hpa => by
        cases hc2 : w.param a with
        | none => rw [hnone a hc2] at hpa; cases hpa
        | some p0 =>
          rw [hpar a p0 hv hc2] at hpa
          rw [← Option.some.inj hpa])
    refine ⟨w2, ?_, b2.trans a2, b3.trans a3, ?_, ?_⟩
    · show ((minimise m w (pts i)).bind fun w => (w.modifyAt (m.mapping.getD i w.params.length) _).bind fun w => runMinos m pts low high is w) = _
      rw [a1]
      simp only [Option.bind_some]
      have e1' := e1
      simp only [f] at e1'
      rw [e1']
      exact b1
    · intro a p hv hpa
      rw [b4 a _ hv (hpar a p hv hpa)]
      rw [List.flatMap_cons, getLast_append]
      simp only [List.mem_cons]
      congr 2
      · by_cases h1 : rank w0 a ∈ is
        · simp [h1]
        · by_cases h2 : rank w0 a = i <;> simp [h1, h2]
      · by_cases h1 : rank w0 a ∈ is
        · simp [h1]
        · by_cases h2 : rank w0 a = i <;> simp [h1, h2]
    · intro a hv
      rw [b5 a hv, setParam_param hN1 hj, a6 a hv]
      have hac : a ≠ c := fun h => hv (h ▸ hcv)
      rw [if_neg hac]

/-- C97, partial.  A fit with `Minimiser::RunMinos`, whatever points the library evaluates: every varying parameter has the errors
that were found, and the value it had when the function was last evaluated; all other parameters are as they were.  What is missing is that the value is the one that was fitted. -/
theorem run_minos_partial (w : World) (hN : w.params.Nodup) (xs : List (Nat → ℚ)) (X E : Nat → ℚ) (C : Nat → Nat → ℚ)
    (pts : Nat → List (Nat → ℚ)) (low high : Nat → ℚ) : ∃ w1 m w2 m',
    prepare w = some (w1, m) ∧ doFitMinos m w1 xs X E C pts low high = some (w2, m') ∧ w2.params = w.params ∧ w2.keys = w.keys ∧
    (∀ a p, w.param a = some p → Varying w a → w2.param a =
      some { p with
        mean := (((List.range (rank w w.params.length)).flatMap pts).getLast?.getD X) (rank w a)
        err := E (rank w a), errNeg := low (rank w a), errPos := high (rank w a), index := rank w a }) ∧
    (∀ a, ¬ Varying w a → w2.param a = w.param a) := by
  obtain ⟨w1, m, w2, m', h1, h2, h3, h4, h5, h6, _⟩ := fit_result w hN xs X E C
  have hm : m'.mapping = freePositions w ∧ m'.nParams = (freePositions w).length := by
    unfold prepare at h1
    simp only [Option.map_eq_some_iff, Prod.mk.injEq] at h1
    obtain ⟨_, _, _, rfl⟩ := h1
    unfold doFit at h2
    simp only [Option.bind_eq_bind, Option.bind_eq_some_iff, Option.pure_def, Option.some.injEq, Prod.mk.injEq] at h2
    obtain ⟨_, _, _, _, _, rfl⟩ := h2
    exact ⟨rfl, rfl⟩
  have hlen : (freePositions w).length = rank w w.params.length := by
    rw [rank_eq]
    rfl
  have hlt : ∀ a, Varying w a → rank w a < (freePositions w).length := fun a ha => (List.getElem?_eq_some_iff.mp (freePositions_rank ha)).1
  obtain ⟨w3, b1, b2, b3, b4, b5⟩ := runMinos_spec w hm.1 pts low high (List.range m'.nParams) w2 X
    (fun i hi => by rw [← hm.2]; exact List.mem_range.mp hi) (by rw [h3]; exact hN) h3
    (fun a p hv hp => by
      obtain ⟨q, hq, _⟩ := id hv
      rw [h5 a q hq hv] at hp
      rw [← Option.some.inj hp])
  refine ⟨w1, m, w3, m', h1, ?_, b2.trans h3, b3.trans h4, ?_, ?_⟩
  · unfold doFitMinos
    rw [h2]
    simp only [Option.bind_some]
    rw [b1]
    rfl
  · intro a p hp hv
    rw [b4 a _ hv (h5 a p hp hv), hm.2, hlen]
    have hmem : rank w a ∈ List.range (rank w w.params.length) := by rw [← hlen]; exact List.mem_range.mpr (hlt a hv)
    rw [if_pos hmem, if_pos hmem]
  · intro a hv
    rw [b5 a hv, h6 a hv]

/-- One free parameter. -/
def oneFree (junk : Param) : World := ((World.empty junk).run [.add ['x'] .free 1 1 0 0]).1

/-- C97 is false as stated: the library ends at `0`, then evaluates the function at `5` to find the errors; the parameter is left at `5`. -/
theorem run_minos_counterexample (junk : Param) : ∃ w1 m w2 m', prepare (oneFree junk) = some (w1, m) ∧
    doFitMinos m w1 [] (fun _ => 0) (fun _ => 1) (fun _ _ => 1) (fun _ => [fun _ => 5]) (fun _ => -1) (fun _ => 1) = some (w2, m') ∧
    (w2.param 0).map Param.mean = some 5 := ⟨_, _, _, _, rfl, rfl, rfl⟩

end AmpGen.Fit
