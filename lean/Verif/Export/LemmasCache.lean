import Verif.Export.Lemmas
/-
Invariants of the reuse of compiled libraries.
-/
namespace AmpGen.Export

variable {Code : Type}

/-- Every complete library on disk or in memory was made from an expression of `S` whose name has the
hash of the path. -/
def FromSet (S : List (Fn Code)) (w : World Code) : Prop :=
  ∀ p l, (w.files p = some (some l) ∨ w.loaded p = some l) → ∃ g ∈ S, l = g.lib ∧ p.2 = fnv1a g.name

/-- No file is incomplete. -/
def NoBroken (w : World Code) : Prop := ∀ p, w.files p ≠ some none

theorem dlopen_from {S : List (Fn Code)} {w : World Code} (h : FromSet S w) (p : Path) :
    FromSet S (dlopen w p).1 ∧ (dlopen w p).1.files = w.files ∧
    ∀ l, (dlopen w p).2 = some l → ∃ g ∈ S, l = g.lib ∧ p.2 = fnv1a g.name := by
  unfold dlopen
  cases hl : w.loaded p with
  | some l =>
    refine ⟨h, rfl, ?_⟩
    intro l' e
    cases e
    exact h p l (Or.inr hl)
  | none =>
    simp only
    rcases hf : w.files p with _ | _ | l
    · exact ⟨h, rfl, fun l e => nomatch e⟩
    · exact ⟨h, rfl, fun l e => nomatch e⟩
    · refine ⟨?_, rfl, ?_⟩
      · intro q l' hq
        rcases hq with hq | hq
        · exact h q l' (Or.inl hq)
        · simp only at hq
          split at hq
          · rename_i e; subst e; cases hq; exact h q l (Or.inl hf)
          · exact h q l' (Or.inr hq)
      · intro l' e
        cases e
        exact h p l (Or.inl hf)

theorem link_from {S : List (Fn Code)} {w : World Code} (h : FromSet S w) (f : Fn Code) (p : Path)
    (r : World Code × Bool × Linked Code) (e : link w f p = some r) :
    FromSet S r.1 ∧ r.1.files = w.files ∧
    ∃ g ∈ S, programaticName g.name = programaticName f.name ∧ p.2 = fnv1a g.name ∧
      r.2.1 = ((!f.db || g.db) && (!f.batch || g.batch)) ∧ r.2.2 = ⟨g.code, f.batch && g.batch⟩ := by
  have hd := dlopen_from h p
  unfold link at e
  split at e
  · exact nomatch e
  · rename_i w' l he
    rw [he] at hd
    obtain ⟨h1, h2, h3⟩ := hd
    obtain ⟨g, hg, rfl, hp⟩ := h3 l rfl
    split at e
    · rename_i hs
      cases e
      exact ⟨h1, h2, g, hg, hs, hp, rfl, rfl⟩
    · exact nomatch e

theorem fromSet_mono {S T : List (Fn Code)} {w : World Code} (h : FromSet S w) (hs : ∀ g ∈ S, g ∈ T) : FromSet T w := by
  intro p l hp
  obtain ⟨g, hg, r⟩ := h p l hp
  exact ⟨g, hs g hg, r⟩

theorem write_from {S : List (Fn Code)} {w : World Code} (h : FromSet S w) (f : Fn Code) (hf : f ∈ S) (p : Path)
    (hp : p.2 = fnv1a f.name) (ok : Bool) :
    FromSet S (if ok then { w with files := fun q => if q = p then some (some f.lib) else w.files q } else w) := by
  cases ok
  · exact h
  · intro q l hq
    rw [if_pos rfl] at hq
    rcases hq with hq | hq
    · simp only at hq
      split at hq
      · rename_i e; subst e; cases hq; exact ⟨f, hf, rfl, hp⟩
      · exact h q l (Or.inl hq)
    · exact h q l (Or.inr hq)

theorem compile_from {S : List (Fn Code)} {w : World Code} (h : FromSet S w) (f : Fn Code) (hf : f ∈ S)
    (fname tmp : List Char) (force ok : Bool) (r : World Code × Linked Code)
    (e : compile w f fname tmp force ok = some r) :
    FromSet S r.1 ∧ ∃ g ∈ S, programaticName g.name = programaticName f.name ∧ fnv1a g.name = fnv1a f.name ∧
      r.2.code = g.code := by
  have build : ∀ w : World Code, FromSet S w →
      (link (if ok then { w with files := fun q => if q = path f fname tmp then some (some f.lib) else w.files q } else w)
        f (path f fname tmp)).map (fun r => (r.1, r.2.2)) = some r →
      FromSet S r.1 ∧ ∃ g ∈ S, programaticName g.name = programaticName f.name ∧ fnv1a g.name = fnv1a f.name ∧
        r.2.code = g.code := by
    intro w hw e
    obtain ⟨r', hr', rfl⟩ := Option.map_eq_some_iff.mp e
    obtain ⟨h1, -, g, hg, hs, hp, -, hl⟩ := link_from (write_from hw f hf _ rfl ok) f _ r' hr'
    exact ⟨h1, g, hg, hs, hp.symm, by rw [hl]⟩
  unfold compile at e
  simp only at e
  split at e
  · split at e
    · exact nomatch e
    · rename_i w' l he
      cases e
      obtain ⟨h1, -, g, hg, hs, hp, -, hl⟩ := link_from h f _ _ he
      exact ⟨h1, g, hg, hs, hp.symm, by simp only at hl; rw [hl]⟩
    · rename_i w' l he
      obtain ⟨h1, -⟩ := link_from h f _ _ he
      exact build w' h1 e
  · exact build w h e

theorem step_from {S : List (Fn Code)} {w : World Code} (h : FromSet S w) (o : Op Code)
    (ho : ∀ g ∈ compiled [o], g ∈ S) (r : World Code × Option (Linked Code)) (e : step w o = some r) : FromSet S r.1 := by
  cases o with
  | compile f fname tmp force ok =>
    obtain ⟨r', hr', rfl⟩ := Option.map_eq_some_iff.mp e
    exact (compile_from h f (ho f (by simp [compiled])) fname tmp force ok r' hr').1
  | restart =>
    cases e
    intro p l hp
    rcases hp with hp | hp
    · exact h p l (Or.inl hp)
    · exact nomatch hp
  | crash f fname tmp =>
    cases e
    intro p l hp
    rcases hp with hp | hp
    · simp only at hp
      split at hp
      · simp at hp
      · exact h p l (Or.inl hp)
    · exact nomatch hp
  | remove q =>
    cases e
    intro p l hp
    rcases hp with hp | hp
    · simp only at hp
      split at hp
      · simp at hp
      · exact h p l (Or.inl hp)
    · exact h p l (Or.inr hp)

theorem compiled_cons (o : Op Code) (os : List (Op Code)) : compiled (o :: os) = compiled [o] ++ compiled os := by
  cases o <;> rfl

theorem run_from {S : List (Fn Code)} (os : List (Op Code)) (w w' : World Code) (h : FromSet S w)
    (hs : ∀ g ∈ compiled os, g ∈ S) (e : run w os = some w') : FromSet S w' := by
  induction os generalizing w with
  | nil => cases e; exact h
  | cons o os ih =>
    rw [compiled_cons] at hs
    unfold run at e
    obtain ⟨r, hr, hrun⟩ := Option.bind_eq_some_iff.mp e
    exact ih r.1 (step_from h o (fun g hg => hs g (List.mem_append_left _ hg)) r hr)
      (fun g hg => hs g (List.mem_append_right _ hg)) hrun

theorem empty_from (S : List (Fn Code)) : FromSet S World.empty := by
  intro p l h
  rcases h with h | h <;> exact nomatch h

theorem compile_good {S : List (Fn Code)} {w : World Code} (h : FromSet S w) (hb : NoBroken w) (f : Fn Code)
    (hf : f ∈ S) (hdef : ∀ g ∈ S, ∀ k ∈ S, g.name = k.name → g = k)
    (hhash : ∀ g ∈ S, ∀ k ∈ S, fnv1a g.name = fnv1a k.name → g.name = k.name)
    (fname tmp : List Char) (force : Bool) :
    ∃ w', compile w f fname tmp force true = some (w', ⟨f.code, f.batch⟩) ∧ FromSet S w' ∧ NoBroken w' := by
  have dl : ∀ w : World Code, FromSet S w → NoBroken w → w.files (path f fname tmp) ≠ none →
      ∃ w', link w f (path f fname tmp) = some (w', true, ⟨f.code, f.batch⟩) ∧ FromSet S w' ∧ NoBroken w' := by
    intro w h hb hp
    have hd := dlopen_from h (path f fname tmp)
    have hsome : ∃ l, (dlopen w (path f fname tmp)).2 = some l := by
      unfold dlopen
      cases hl : w.loaded (path f fname tmp) with
      | some l => exact ⟨l, rfl⟩
      | none =>
        rcases hq : w.files (path f fname tmp) with _ | _ | l
        · exact absurd hq hp
        · exact absurd hq (hb _)
        · exact ⟨l, rfl⟩
    obtain ⟨l, hl⟩ := hsome
    obtain ⟨g, hg, hlib, hpath⟩ := hd.2.2 l hl
    have hgf : g = f := hdef g hg f hf (hhash g hg f hf hpath.symm)
    subst hgf
    refine ⟨(dlopen w (path g fname tmp)).1, ?_, hd.1, ?_⟩
    · unfold link
      have : dlopen w (path g fname tmp) = ((dlopen w (path g fname tmp)).1, some l) := Prod.ext rfl hl
      rw [this]
      simp only
      rw [hlib, if_pos (show g.lib.symbol = programaticName g.name from rfl)]
      simp only [Fn.lib]
      cases g.db <;> cases g.batch <;> rfl
    · intro p; rw [hd.2.1]; exact hb p
  unfold compile
  simp only
  by_cases hc : force = false ∧ w.files (path f fname tmp) ≠ none
  · rw [if_pos hc]
    obtain ⟨w', hw', h1, h2⟩ := dl w h hb hc.2
    rw [hw']
    exact ⟨w', rfl, h1, h2⟩
  · rw [if_neg hc]
    have h1 := write_from h f hf (path f fname tmp) rfl true
    rw [if_pos rfl] at h1
    have hb1 : NoBroken { w with files := fun q => if q = path f fname tmp then some (some f.lib) else w.files q } := by
      intro p
      simp only
      split
      · simp
      · exact hb p
    obtain ⟨w', hw', h1', h2'⟩ := dl _ h1 hb1 (by simp)
    rw [if_pos trivial, hw']
    exact ⟨w', rfl, h1', h2'⟩

theorem run_good {S : List (Fn Code)} (os : List (Op Code)) (w : World Code) (h : FromSet S w) (hb : NoBroken w)
    (hs : ∀ g ∈ compiled os, g ∈ S) (hdef : ∀ g ∈ S, ∀ k ∈ S, g.name = k.name → g = k)
    (hhash : ∀ g ∈ S, ∀ k ∈ S, fnv1a g.name = fnv1a k.name → g.name = k.name) (hU : Undisturbed os) :
    ∃ w', run w os = some w' ∧ FromSet S w' ∧ NoBroken w' := by
  induction os generalizing w with
  | nil => exact ⟨w, rfl, h, hb⟩
  | cons o os ih =>
    have hs' : ∀ g ∈ compiled os, g ∈ S := by
      intro g hg
      apply hs
      rw [compiled_cons]
      exact List.mem_append_right _ hg
    cases o with
    | compile f fname tmp force ok =>
      obtain ⟨hok, hU⟩ := hU
      subst hok
      obtain ⟨w1, e1, h1, b1⟩ := compile_good h hb f (hs f (by simp [compiled])) hdef hhash fname tmp force
      obtain ⟨w2, e2, r⟩ := ih w1 h1 b1 hs' hU
      refine ⟨w2, ?_, r⟩
      unfold run
      have : step w (.compile f fname tmp force true) = some (w1, some ⟨f.code, f.batch⟩) := by
        show (compile w f fname tmp force true).map _ = _
        rw [e1]
        rfl
      rw [this]
      exact e2
    | restart =>
      obtain ⟨w2, e2, r⟩ := ih { w with loaded := fun _ => none }
        (step_from h .restart (by simp [compiled]) _ rfl) hb hs' hU
      exact ⟨w2, e2, r⟩
    | crash f fname tmp => exact hU.elim
    | remove p =>
      obtain ⟨w2, e2, r⟩ := ih { w with files := fun q => if q = p then none else w.files q }
        (step_from h (.remove p) (by simp [compiled]) _ rfl) (by
          intro q
          simp only
          split
          · simp
          · exact hb q) hs' hU
      exact ⟨w2, e2, r⟩

end AmpGen.Export
