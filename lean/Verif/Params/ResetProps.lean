import Verif.Params.ResetModel
import Verif.Params.Props
/-
C165 (the values of parameters can be copied from another set and reset).
-/
namespace AmpGen.Params
open AmpGen.Strings (Str)

/-- Everything but the result of a fit is the same. -/
def SameSetup (p q : Param) : Prop :=
  q.flag = p.flag ∧ q.name = p.name ∧ q.meanInit = p.meanInit ∧ q.stepInit = p.stepInit ∧ q.minInit = p.minInit ∧ q.maxInit = p.maxInit

theorem copy_fold (other : World) (l : List Nat) (w : World) (h : ∀ id ∈ l, ∃ j, other.find (w.heap id).name = some j) :
    ∃ w', l.foldlM (World.copyOne other) w = some w' ∧ w'.params = w.params ∧ w'.keys = w.keys ∧ w'.next = w.next ∧
      (∀ id ∉ l, w'.heap id = w.heap id) ∧
      ∀ id ∈ l, ∃ j, other.find (w.heap id).name = some j ∧ w'.heap id = { w.heap id with mean := (other.heap j).mean } := by
  induction l generalizing w with
  | nil => exact ⟨w, rfl, rfl, rfl, rfl, fun _ _ => rfl, by simp⟩
  | cons a l ih =>
    obtain ⟨j, hj⟩ := h a (by simp)
    obtain ⟨w1, hw1⟩ : ∃ w1 : World, w1 = { w with heap := Function.update w.heap a { w.heap a with mean := (other.heap j).mean } } := ⟨_, rfl⟩
    have hname : ∀ id, (w1.heap id).name = (w.heap id).name := by
      intro id
      rw [hw1]
      by_cases hid : id = a
      · subst hid; simp
      · simp [Function.update_of_ne hid]
    obtain ⟨w', h1, h2, h3, h4, h5, h6⟩ := ih w1 fun id hid => by rw [hname]; exact h id (by simp [hid])
    have hstep : World.copyOne other w a = some w1 := by
      unfold World.copyOne
      rw [hj, hw1]
      rfl
    refine ⟨w', ?_, by rw [h2, hw1], by rw [h3, hw1], by rw [h4, hw1], ?_, ?_⟩
    · rw [List.foldlM_cons, hstep]; exact h1
    · intro id hid
      simp only [List.mem_cons, not_or] at hid
      rw [h5 id hid.2, hw1]
      exact Function.update_of_ne hid.1 ..
    · intro id hid
      by_cases hl : id ∈ l
      · obtain ⟨k, hk, e⟩ := h6 id hl
        rw [hname] at hk
        refine ⟨k, hk, ?_⟩
        rw [e, hw1]
        by_cases hid' : id = a
        · subst hid'; simp
        · simp [Function.update_of_ne hid']
      · have hid' : id = a := by simpa [hl] using hid
        subst hid'
        exact ⟨j, hj, by rw [h5 id hl, hw1]; exact Function.update_self ..⟩

/-- C165.  If all parameters of a set exist in another one, copying gives each the current value of the parameter with its name there, and changes nothing else.

Missing: a parameter that the other set does not have, see the counterexample. -/
theorem copy_values_partial (w other : World) (h : ∀ a p, w.param a = some p → (other.find p.name).isSome) :
    ∃ w', w.set other = some w' ∧ w'.params = w.params ∧ w'.keys = w.keys ∧ (∀ id ∉ w.params, w'.heap id = w.heap id) ∧
      ∀ a p, w.param a = some p → ∃ j, other.find p.name = some j ∧ w'.param a = some { p with mean := (other.heap j).mean } := by
  have hall : ∀ id ∈ w.params, ∃ j, other.find (w.heap id).name = some j := by
    intro id hid
    obtain ⟨a, ha, e⟩ := List.mem_iff_getElem.1 hid
    have := h a (w.heap id) (by unfold World.param World.at; rw [List.getElem?_eq_getElem ha, e]; rfl)
    exact Option.isSome_iff_exists.1 this
  obtain ⟨w', h1, h2, h3, _, h5, h6⟩ := copy_fold other w.params w hall
  refine ⟨w', h1, h2, h3, h5, ?_⟩
  intro a p hp
  unfold World.param World.at at hp ⊢
  rw [h2]
  cases hid : w.params[a]? with
  | none => rw [hid] at hp; simp at hp
  | some id =>
    rw [hid] at hp
    simp only [Option.map_some, Option.some.injEq] at hp
    subst hp
    obtain ⟨j, hj, e⟩ := h6 id (List.mem_of_getElem? hid)
    exact ⟨j, hj, by rw [Option.map_some, e]⟩

/-- Two parameters of two sets. -/
def resetDemo (v : ℚ) : World := ((World.empty default).run [.add "a".toList .free v 1 0 0, .add "b".toList .fix (v + 1) 1 0 5]).1
  where default : Param := ⟨.free, [], 0, 0, 0, 0, 0, 0, 0, 0, 0⟩

example : ∃ w', (resetDemo 1).set (resetDemo 7) = some w' ∧ (w'.param 1).map (·.mean) = some 8 := by
  obtain ⟨w', h1, _, _, _, h2⟩ := copy_values_partial (resetDemo 1) (resetDemo 7) (by
    intro a p hp
    have hpar : (resetDemo 1).params = [0, 1] := by decide +kernel
    unfold World.param World.at at hp
    rw [hpar] at hp
    match a with
    | 0 =>
      have : p = (resetDemo 1).heap 0 := by simpa using hp.symm
      subst this
      decide +kernel
    | 1 =>
      have : p = (resetDemo 1).heap 1 := by simpa using hp.symm
      subst this
      decide +kernel
    | a + 2 => simp at hp)
  obtain ⟨j, hj, e⟩ := h2 1 ((resetDemo 1).heap 1) (by decide +kernel)
  refine ⟨w', h1, ?_⟩
  rw [e]
  have : (resetDemo 7).find ((resetDemo 1).heap 1).name = some 1 := by decide +kernel
  rw [this] at hj
  cases hj
  decide +kernel

/-- C165 is false if a parameter does not exist in the other set: the entry after the last one is read.  It is false for parameters that are built without a flag: their
values do not depend on the arguments, but on what the memory contained. -/
theorem copy_values_counterexample :
    (∀ (junk : Param) (p : Param), (((World.empty junk).addNew p).1).set (World.empty junk) = none) ∧
    (∀ (memory : Memory) (name : Str) (mean step mi ma : ℚ), (Param.makeFree memory name mean step mi ma).mean = memory.meanInit ∧
      (Param.makeFree memory name mean step mi ma).err = memory.stepInit) := by
  refine ⟨fun junk p => ?_, fun _ _ _ _ _ _ => ⟨rfl, rfl⟩⟩
  unfold World.set World.addNew World.create World.addToEnd World.empty
  simp [World.copyOne, World.find]

theorem reset_fold (l : List Nat) (w : World) :
    let w' := l.foldl (fun (w : World) id => { w with heap := Function.update w.heap id (w.heap id).resetToInit }) w
    w'.params = w.params ∧ w'.keys = w.keys ∧ (∀ id ∉ l, w'.heap id = w.heap id) ∧ ∀ id ∈ l, w'.heap id = (w.heap id).resetToInit := by
  induction l generalizing w with
  | nil => simp
  | cons a l ih =>
    simp only [List.foldl_cons]
    obtain ⟨h1, h2, h3, h4⟩ := ih { w with heap := Function.update w.heap a (w.heap a).resetToInit }
    refine ⟨h1, h2, ?_, ?_⟩
    · intro id hid
      simp only [List.mem_cons, not_or] at hid
      rw [h3 id hid.2]
      exact Function.update_of_ne hid.1 ..
    · intro id hid
      by_cases hl : id ∈ l
      · rw [h4 id hl]
        by_cases hid' : id = a
        · subst hid'; simp [Param.resetToInit]
        · simp [Function.update_of_ne hid']
      · have hid' : id = a := by simpa [hl] using hid
        subst hid'
        rw [h3 id hl]
        exact Function.update_self ..

/-- Setups are the same everywhere. -/
def SameSetups (w w' : World) : Prop := w'.params = w.params ∧ w'.keys = w.keys ∧ ∀ id, SameSetup (w.heap id) (w'.heap id)

theorem SameSetups.refl (w : World) : SameSetups w w := ⟨rfl, rfl, fun _ => ⟨rfl, rfl, rfl, rfl, rfl, rfl⟩⟩

theorem SameSetups.trans {u v w : World} (h : SameSetups u v) (g : SameSetups v w) : SameSetups u w := by
  refine ⟨g.1.trans h.1, g.2.1.trans h.2.1, fun id => ?_⟩
  obtain ⟨a1, a2, a3, a4, a5, a6⟩ := h.2.2 id
  obtain ⟨b1, b2, b3, b4, b5, b6⟩ := g.2.2 id
  exact ⟨b1.trans a1, b2.trans a2, b3.trans a3, b4.trans a4, b5.trans a5, b6.trans a6⟩

theorem modifyAt_setup {w w' : World} {m : Nat} {f : Param → Param} (hf : ∀ p, SameSetup p (f p)) (h : w.modifyAt m f = some w') : SameSetups w w' := by
  unfold World.modifyAt at h
  cases hm : w.at m with
  | none => rw [hm] at h; simp at h
  | some id =>
    rw [hm] at h
    simp only [Option.map_some, Option.some.injEq] at h
    subst h
    refine ⟨rfl, rfl, fun id' => ?_⟩
    by_cases e : id' = id
    · subst e
      simp only [Function.update_self]
      exact hf _
    · simp only [Function.update_of_ne e]
      exact ⟨rfl, rfl, rfl, rfl, rfl, rfl⟩

theorem modifyAll_setup {f : Nat → Param → Param} (hf : ∀ i p, SameSetup p (f i p)) (ms : List Nat) (i : Nat) {w w' : World}
    (h : World.modifyAll f ms i w = some w') : SameSetups w w' := by
  induction ms generalizing i w with
  | nil => unfold World.modifyAll at h; cases h; exact SameSetups.refl _
  | cons m ms ih =>
    unfold World.modifyAll at h
    cases hm : w.modifyAt m (f i) with
    | none => rw [hm] at h; simp at h
    | some w1 =>
      rw [hm] at h
      exact (modifyAt_setup (hf i) hm).trans (ih (i + 1) h)

theorem minimise_setup (m : Minimiser) (xs : List (Nat → ℚ)) {w w' : World} (h : minimise m w xs = some w') : SameSetups w w' := by
  induction xs generalizing w with
  | nil => unfold minimise at h; cases h; exact SameSetups.refl _
  | cons x xs ih =>
    unfold minimise at h
    cases hm : evaluate m w x with
    | none => rw [hm] at h; simp at h
    | some w1 =>
      rw [hm] at h
      exact (modifyAll_setup (f := fun i p => { p with mean := x i }) (fun _ _ => ⟨rfl, rfl, rfl, rfl, rfl, rfl⟩) _ _ hm).trans (ih h)

/-- C165.  After any fit, whatever points were tried and whatever its result, resetting gives every parameter its initial value and step again and forgets its
errors; names, flags, limits and the order of the parameters are those before the fit. -/
theorem reset_after_fit (w w1 w2 : World) (m m' : Minimiser) (xs : List (Nat → ℚ)) (X E : Nat → ℚ) (C : Nat → Nat → ℚ)
    (hp : prepare w = some (w1, m)) (hfit : doFit m w1 xs X E C = some (w2, m')) :
    (w2.resetToInit).params = w.params ∧ (w2.resetToInit).keys = w.keys ∧
      ∀ a p, w.param a = some p → ∃ k, (w2.resetToInit).param a =
        some { p with mean := p.meanInit, err := p.stepInit, errPos := -9999, errNeg := -9999, index := k } := by
  have h1 : SameSetups w w1 := by
    unfold prepare at hp
    simp only [Option.map_eq_some_iff, Prod.mk.injEq] at hp
    obtain ⟨v, hv, rfl, _⟩ := hp
    exact modifyAll_setup (f := fun i p => { p with index := i }) (fun _ _ => ⟨rfl, rfl, rfl, rfl, rfl, rfl⟩) _ _ hv
  have h2 : SameSetups w1 w2 := by
    unfold doFit at hfit
    cases hm : minimise m w1 xs with
    | none => rw [hm] at hfit; cases hfit
    | some v =>
      rw [hm] at hfit
      simp only [Option.bind_eq_bind, Option.bind_some] at hfit
      cases hr : World.modifyAll (fun i p => p.setResult (X i) (E i) (E i) (E i)) (m.mapping.take m.nParams) 0 v with
      | none => rw [hr] at hfit; cases hfit
      | some u =>
        rw [hr] at hfit
        cases hfit
        exact (minimise_setup m xs hm).trans (modifyAll_setup (f := fun i p => p.setResult (X i) (E i) (E i) (E i)) (fun _ _ => ⟨rfl, rfl, rfl, rfl, rfl, rfl⟩) _ _ hr)
  have h := h1.trans h2
  obtain ⟨g1, g2, _, g4⟩ := reset_fold w2.params w2
  refine ⟨g1.trans h.1, g2.trans h.2.1, ?_⟩
  intro a p hpa
  unfold World.param World.at at hpa ⊢
  cases hid : w.params[a]? with
  | none => rw [hid] at hpa; simp at hpa
  | some id =>
    rw [hid] at hpa
    simp only [Option.map_some, Option.some.injEq] at hpa
    subst hpa
    have e : (w2.resetToInit).params[a]? = some id := by
      show (World.resetToInit w2).params[a]? = _
      unfold World.resetToInit
      rw [g1, h.1, hid]
    have hmem : id ∈ w2.params := by rw [h.1]; exact List.mem_of_getElem? hid
    have hh : (w2.resetToInit).heap id = (w2.heap id).resetToInit := g4 id hmem
    obtain ⟨a1, a2, a3, a4, a5, a6⟩ := h.2.2 id
    refine ⟨(w2.heap id).index, ?_⟩
    rw [e, Option.map_some, hh]
    unfold Param.resetToInit
    rw [← a1, ← a2, ← a3, ← a4, ← a5, ← a6]

example : ∃ w1 m w2 m', prepare (resetDemo 1) = some (w1, m) ∧ doFit m w1 [fun _ => 3] (fun _ => 4) (fun _ => 2) (fun _ _ => 1) = some (w2, m') ∧
    (w2.param 0).map (·.mean) = some 4 ∧ ((w2.resetToInit).param 0).map (·.mean) = some 1 := by
  refine ⟨_, _, _, _, rfl, rfl, ?_, ?_⟩ <;> decide +kernel

end AmpGen.Params
