import Verif.Sharing.Spec
import Mathlib.Data.List.Nodup
/-
C168: copies, clones and expansions of decay chains.
-/
namespace AmpGen.Sharing
open AmpGen.Strings (Str)

theorem Owns.lt {h : Heap} {ks : List Nat} {f : Forest} {s : List Nat} (o : Owns h ks f s) : ∀ a ∈ s, a < h.length := by
  induction o with
  | nil => simp
  | node h1 _ _ ih1 ih2 =>
    intro a ha
    simp only [List.mem_cons, List.mem_append] at ha
    rcases ha with rfl | ha | ha
    · exact (List.getElem?_eq_some_iff.1 h1).1
    · exact ih1 a ha
    · exact ih2 a ha

theorem Owns.frame {h h' : Heap} {ks : List Nat} {f : Forest} {s : List Nat} (o : Owns h ks f s) : (∀ a ∈ s, h'[a]? = h[a]?) → Owns h' ks f s := by
  induction o with
  | nil => intro _; exact .nil
  | node h1 _ _ ih1 ih2 =>
    intro hs
    refine .node (by rw [hs _ (by simp)]; exact h1) (ih1 fun a ha => hs a (by simp [ha])) (ih2 fun a ha => hs a (by simp [ha]))

theorem Owns.append {h : Heap} {ks : List Nat} {f : Forest} {s : List Nat} (o : Owns h ks f s) (e : Heap) : Owns (h ++ e) ks f s :=
  o.frame fun a ha => List.getElem?_append_left (o.lt a ha)

theorem Owns.eq_nil {h : Heap} {ks s : List Nat} (o : Owns h ks .nil s) : ks = [] := by cases o; rfl

theorem Owns.kids_nil {h : Heap} {f : Forest} {s : List Nat} (o : Owns h [] f s) : f = .nil := by cases o; rfl

theorem Owns.unique {h : Heap} {ks : List Nat} {f : Forest} {s : List Nat} (o : Owns h ks f s) : ∀ {g : Forest} {t : List Nat}, Owns h ks g t → f = g := by
  induction o with
  | nil => intro g t o'; cases o'; rfl
  | node h1 _ _ ih1 ih2 =>
    intro g t o'
    cases o' with
    | node h1' o1 o2 =>
      rw [h1] at h1'
      cases h1'
      rw [ih1 o1, ih2 o2]

theorem Shows.unique {h : Heap} {c : Cell} {f g : Forest} (a : Shows h c f) (b : Shows h c g) : f = g := by
  obtain ⟨_, a⟩ := a
  obtain ⟨_, b⟩ := b
  exact a.unique b

theorem stable_node (n : Str) (k r : Forest) (x : Str) : x ∈ (Forest.node n k r).stable ↔ x ∈ (Forest.node n k .nil).stable ∨ x ∈ r.stable := by
  cases k <;> simp [Forest.stable]

theorem stable_leaf (n : Str) (k : Forest) (x : Str) : x ∈ (Forest.node n k .nil).stable ↔ (k = .nil ∧ x = n) ∨ x ∈ k.stable := by
  cases k <;> simp [Forest.stable]

theorem cloneKids_spec : ∀ (n : Nat) {h : Heap} {ks : List Nat} {f : Forest} {s : List Nat}, Owns h ks f s → f.size < n →
    ∃ e ks' s', cloneKids n h ks = some (h ++ e, ks') ∧ Owns (h ++ e) ks' f s' ∧ (∀ a ∈ s', h.length ≤ a) ∧ s'.Nodup := by
  intro n
  induction n with
  | zero => intro h ks f s _ hn; exact absurd hn (Nat.not_lt_zero _)
  | succ n ih =>
    intro h ks f s o hn
    cases o with
    | nil => exact ⟨[], [], [], by simp [cloneKids], by simpa using Owns.nil, by simp, by simp⟩
    | @node a as d k r s t h1 o1 o2 =>
      simp only [Forest.size] at hn
      obtain ⟨e1, k1, s1, c1, w1, g1, n1⟩ := ih o1 (by omega)
      obtain ⟨e2, k2, s2, c2, w2, g2, n2⟩ := ih ((o2.append e1).append [{ d with kids := k1 }]) (by omega)
      refine ⟨e1 ++ { d with kids := k1 } :: e2, (h ++ e1).length :: k2, (h ++ e1).length :: (s1 ++ s2), ?_, ?_, ?_, ?_⟩
      · unfold cloneKids
        simp only [h1, c1, c2, Option.bind_eq_bind, Option.bind_some]
        simp
      · have e : h ++ (e1 ++ { d with kids := k1 } :: e2) = h ++ e1 ++ [{ d with kids := k1 }] ++ e2 := by simp
        rw [e]
        refine Owns.node (d := { d with kids := k1 }) ?_ ((w1.append _).append _) w2
        rw [List.getElem?_append_left (by simp), List.getElem?_append_right (Nat.le_refl _)]
        simp
      · intro b hb
        simp only [List.mem_cons, List.mem_append] at hb
        rcases hb with rfl | hb | hb
        · simp
        · exact g1 b hb
        · have := g2 b hb
          simp at this
          omega
      · rw [List.nodup_cons, List.nodup_append]
        refine ⟨?_, n1, n2, ?_⟩
        · intro hb
          rcases List.mem_append.1 hb with hb | hb
          · exact absurd (w1.lt _ hb) (Nat.lt_irrefl _)
          · have := g2 _ hb
            simp at this
            omega
        · intro x hx y hy hxy
          subst hxy
          have h1 := w1.lt _ hx
          have h2 := g2 _ hy
          simp at h1 h2
          omega

theorem expandKids_absent (p : Cell) : ∀ (n : Nat) {h : Heap} {ks : List Nat} {f : Forest} {s : List Nat}, Owns h ks f s → f.size < n → p.name ∉ f.stable →
    expandKids p n h ks = some (h, ks, false) := by
  intro n
  induction n with
  | zero => intro h ks f s _ hn; exact absurd hn (Nat.not_lt_zero _)
  | succ n ih =>
    intro h ks f s o hn hp
    cases o with
    | nil => simp [expandKids]
    | @node a as d k r s t h1 o1 o2 =>
      simp only [Forest.size] at hn
      rw [stable_node, stable_leaf, not_or, not_or] at hp
      obtain ⟨⟨hp1, hp2⟩, hp3⟩ := hp
      have hc : ¬ (d.name = p.name ∧ d.kids = []) := by
        rintro ⟨e1, e2⟩
        rw [e2] at o1
        exact hp1 ⟨o1.kids_nil, e1.symm⟩
      have hset : h.set a d = h := by
        obtain ⟨hl, he⟩ := List.getElem?_eq_some_iff.1 h1
        rw [← he]
        exact List.set_getElem_self hl
      unfold expandKids
      simp only [h1, Option.bind_eq_bind, Option.bind_some, hc, if_false, ih o1 (by omega) hp2]
      have : ({ d with kids := d.kids } : Cell) = d := rfl
      simp [hset, ih o2 (by omega) hp3]

theorem expandKids_present (p : Cell) : ∀ (n : Nat) {h : Heap} {ks : List Nat} {f pf : Forest} {s sp : List Nat}, Owns h ks f s → s.Nodup →
    Owns h p.kids pf sp → (∀ a ∈ s, a ∉ sp) → f.size < n → p.name ∈ f.stable →
    ∃ h' ks' f' s', expandKids p n h ks = some (h', ks', true) ∧ ReplacesFirst p.name pf f f' ∧ Owns h' ks' f' s' ∧ h.length ≤ h'.length ∧
      (∀ a ∈ s', a ∈ s ∨ a ∈ sp ∨ h.length ≤ a) ∧ ∀ a, a < h.length → a ∉ s → h'[a]? = h[a]? := by
  intro n
  induction n with
  | zero => intro h ks f pf s sp _ _ _ _ hn; exact absurd hn (Nat.not_lt_zero _)
  | succ n ih =>
    intro h ks f pf s sp o nd op dj hn hp
    cases o with
    | nil => simp [Forest.stable] at hp
    | @node a as d k r s t h1 o1 o2 =>
      simp only [Forest.size] at hn
      rw [List.nodup_cons, List.nodup_append] at nd
      obtain ⟨nd0, nd1, nd2, nd3⟩ := nd
      simp only [List.mem_append, not_or] at nd0
      have hal : a < h.length := (List.getElem?_eq_some_iff.1 h1).1
      have hap : a ∉ sp := dj a (by simp)
      by_cases hc : d.name = p.name ∧ d.kids = []
      · obtain ⟨e1, e2⟩ := hc
        have hk : k = .nil := by rw [e2] at o1; exact o1.kids_nil
        subst hk
        refine ⟨h ++ [p], h.length :: as, .node p.name pf r, h.length :: (sp ++ t), ?_, ?_, ?_, by simp, ?_, ?_⟩
        · unfold expandKids
          simp [h1, e1, e2]
        · rw [e1]; exact .here
        · exact Owns.node (d := p) (by simp) (op.append _) (o2.append _)
        · intro b hb
          simp only [List.mem_cons, List.mem_append] at hb ⊢
          rcases hb with rfl | hb | hb
          · exact Or.inr (Or.inr (Nat.le_refl _))
          · exact Or.inr (Or.inl hb)
          · exact Or.inl (Or.inr (Or.inr hb))
        · intro b hb _
          exact List.getElem?_append_left hb
      · by_cases hk : p.name ∈ k.stable
        · obtain ⟨h', ks', k', s', x1, x2, x3, x4, x5, x6⟩ := ih o1 nd1 op (fun b hb => dj b (by simp [hb])) (by omega) hk
          have has' : a ∉ s' := by
            intro hb
            rcases x5 a hb with hb | hb | hb
            · exact nd0.1 hb
            · exact hap hb
            · omega
          refine ⟨h'.set a { d with kids := ks' }, a :: as, .node d.name k' r, a :: (s' ++ t), ?_, .inside x2, ?_, by simpa using x4, ?_, ?_⟩
          · unfold expandKids
            simp only [h1, Option.bind_eq_bind, Option.bind_some, hc, if_false, x1]
            simp
          · refine Owns.node (d := { d with kids := ks' }) ?_ (x3.frame ?_) (o2.frame ?_)
            · rw [List.getElem?_set_self (by omega)]
            · intro b hb
              rw [List.getElem?_set_ne (by rintro rfl; exact has' hb)]
            · intro b hb
              rw [List.getElem?_set_ne (by rintro rfl; exact nd0.2 hb)]
              exact x6 b (o2.lt b hb) (fun hs => nd3 b hs b hb rfl)
          · intro b hb
            simp only [List.mem_cons, List.mem_append] at hb ⊢
            rcases hb with rfl | hb | hb
            · exact Or.inl (Or.inl rfl)
            · rcases x5 b hb with hb | hb | hb
              · exact Or.inl (Or.inr (Or.inl hb))
              · exact Or.inr (Or.inl hb)
              · exact Or.inr (Or.inr hb)
            · exact Or.inl (Or.inr (Or.inr hb))
          · intro b hb hs
            simp only [List.mem_cons, List.mem_append, not_or] at hs
            rw [List.getElem?_set_ne (fun e => hs.1 e.symm)]
            exact x6 b hb hs.2.1
        · have hn1 : p.name ∉ (Forest.node d.name k .nil).stable := by
            rw [stable_leaf, not_or]
            refine ⟨?_, hk⟩
            rintro ⟨e1, e2⟩
            subst e1
            exact hc ⟨e2.symm, o1.eq_nil⟩
          have hr : p.name ∈ r.stable := by
            rw [stable_node] at hp
            exact hp.resolve_left hn1
          obtain ⟨h', ks', r', t', x1, x2, x3, x4, x5, x6⟩ := ih o2 nd2 op (fun b hb => dj b (by simp [hb])) (by omega) hr
          have hset : h.set a d = h := by
            obtain ⟨hl, he⟩ := List.getElem?_eq_some_iff.1 h1
            rw [← he]
            exact List.set_getElem_self hl
          refine ⟨h', a :: ks', .node d.name k r', a :: (s ++ t'), ?_, .later hn1 x2, ?_, x4, ?_, ?_⟩
          · unfold expandKids
            simp only [h1, Option.bind_eq_bind, Option.bind_some, hc, if_false, expandKids_absent p n o1 (by omega) hk]
            simp [hset, x1]
          · refine Owns.node (by rw [x6 a hal nd0.2]; exact h1) (o1.frame ?_) x3
            intro b hb
            exact x6 b (o1.lt b hb) (fun ht => nd3 b hb b ht rfl)
          · intro b hb
            simp only [List.mem_cons, List.mem_append] at hb ⊢
            rcases hb with rfl | hb | hb
            · exact Or.inl (Or.inl rfl)
            · exact Or.inl (Or.inr (Or.inl hb))
            · rcases x5 b hb with hb | hb | hb
              · exact Or.inl (Or.inr (Or.inr hb))
              · exact Or.inr (Or.inl hb)
              · exact Or.inr (Or.inr hb)
          · intro b hb hs
            simp only [List.mem_cons, List.mem_append, not_or] at hs
            exact x6 b hb hs.2.2

/-- C168.  A clone of a decay chain has the same particles as the chain.  Expanding the clone with a particle replaces the first of its stable particles with this
name, and reports that it did; without such a particle it changes nothing and says so.  No decay chain that existed before is changed by this, and in particular
not the chain that was cloned and not the particle it was expanded with.

Missing: copies, and clones that are expanded again, see `expand_copy_counterexample`. -/
theorem expand_clone_partial {h : Heap} {c p : Cell} {f pf : Forest} (hc : Shows h c f) (hp : Shows h p pf) {n : Nat} (hn : f.size < n) :
    ∃ h1 c1 h2 c2 worked f', clone n h c = some (h1, c1) ∧ c1.name = c.name ∧ Shows h1 c1 f ∧
      expand n h1 c1 p = some (h2, c2, worked) ∧ c2.name = c.name ∧ Shows h2 c2 f' ∧ (worked = true ↔ p.name ∈ f.stable) ∧
      (worked = true → ReplacesFirst p.name pf f f') ∧ (worked = false → f' = f) ∧
      ∀ (q : Cell) (g : Forest), Shows h q g → Shows h1 q g ∧ Shows h2 q g := by
  obtain ⟨s, o⟩ := hc
  obtain ⟨sp, op⟩ := hp
  obtain ⟨e, ks, s', x1, x2, x3, x4⟩ := cloneKids_spec n o hn
  by_cases hpf : p.name ∈ f.stable
  · obtain ⟨h2, ks2, f', s2, y1, y2, y3, y4, y5, y6⟩ := expandKids_present p n x2 x4 (op.append e)
      (fun a ha hb => absurd (op.lt a hb) (by have := x3 a ha; omega)) hn hpf
    refine ⟨h ++ e, { c with kids := ks }, h2, { c with kids := ks2 }, true, f', by simp [clone, x1], rfl, ⟨s', x2⟩, by simp [expand, y1], rfl, ⟨s2, y3⟩,
      by simp [hpf], fun _ => y2, by simp, ?_⟩
    rintro q g ⟨sq, oq⟩
    refine ⟨⟨sq, oq.append e⟩, ⟨sq, oq.frame fun a ha => ?_⟩⟩
    have hl := oq.lt a ha
    rw [y6 a (by simp; omega) (fun hs => by have := x3 a hs; omega), List.getElem?_append_left hl]
  · have y1 := expandKids_absent p n x2 hn hpf
    refine ⟨h ++ e, { c with kids := ks }, h ++ e, { c with kids := ks }, false, f, by simp [clone, x1], rfl, ⟨s', x2⟩, by simp [expand, y1], rfl, ⟨s', x2⟩,
      by simp [hpf], by simp, fun _ => rfl, ?_⟩
    rintro q g ⟨sq, oq⟩
    exact ⟨⟨sq, oq.append e⟩, ⟨sq, oq.append e⟩⟩

/-- A memory with the chain `D0{K1{K*,pi},pi}` and with `K*{K,pi}`. -/
def demoHeap : Heap := [⟨"K*".toList, []⟩, ⟨"pi".toList, []⟩, ⟨"K1".toList, [0, 1]⟩, ⟨"pi".toList, []⟩, ⟨"K".toList, []⟩, ⟨"pi".toList, []⟩]

def demoChain : Cell := ⟨"D0".toList, [2, 3]⟩

def demoPart : Cell := ⟨"K*".toList, [4, 5]⟩

def leaf (s : String) (r : Forest) : Forest := .node s.toList .nil r

theorem owns_leaf {h : Heap} {a : Nat} {as : List Nat} {s : String} {r : Forest} {t : List Nat} (h1 : h[a]? = some ⟨s.toList, []⟩) (o : Owns h as r t) :
    Owns h (a :: as) (leaf s r) (a :: ([] ++ t)) := Owns.node (d := ⟨s.toList, []⟩) h1 .nil o

theorem demo_chain : Shows demoHeap demoChain (.node "K1".toList (leaf "K*" (leaf "pi" .nil)) (leaf "pi" .nil)) :=
  ⟨_, Owns.node (d := ⟨"K1".toList, [0, 1]⟩) rfl (owns_leaf rfl (owns_leaf rfl .nil)) (owns_leaf rfl .nil)⟩

theorem demo_part : Shows demoHeap demoPart (leaf "K" (leaf "pi" .nil)) := ⟨_, owns_leaf rfl (owns_leaf rfl .nil)⟩

/-- The hypotheses are met. -/
example : ∃ f pf, Shows demoHeap demoChain f ∧ Shows demoHeap demoPart pf ∧ f.size < 5 ∧ demoPart.name ∈ f.stable :=
  ⟨_, _, demo_chain, demo_part, by decide, by decide⟩

/-- C168.  Expanding a copy of a decay chain instead of a clone changes the chain that was copied, too, if the particle is not one of its daughters; and expanding
a clone twice changes the particle it was expanded with first. -/
theorem expand_copy_counterexample :
    (∃ h2 c2, Shows demoHeap demoChain (.node "K1".toList (leaf "K*" (leaf "pi" .nil)) (leaf "pi" .nil)) ∧ expand 5 demoHeap demoChain demoPart = some (h2, c2, true) ∧
      Shows h2 demoChain (.node "K1".toList (.node "K*".toList (leaf "K" (leaf "pi" .nil)) (leaf "pi" .nil)) (leaf "pi" .nil)) ∧
      ¬ Shows h2 demoChain (.node "K1".toList (leaf "K*" (leaf "pi" .nil)) (leaf "pi" .nil))) ∧
    ∃ (h : Heap) (c p q : Cell) (pf : Forest) (h1 h2 h3 : Heap) (c1 c2 c3 : Cell), Shows h p pf ∧ clone 9 h c = some (h1, c1) ∧
      expand 9 h1 c1 p = some (h2, c2, true) ∧ Shows h2 p pf ∧ expand 9 h2 c2 q = some (h3, c3, true) ∧ ¬ Shows h3 p pf := by
  constructor
  · refine ⟨demoHeap.set 2 ⟨"K1".toList, [6, 1]⟩ ++ [demoPart], demoChain, demo_chain, by decide +kernel, ?_, ?_⟩
    · exact ⟨_, Owns.node (d := ⟨"K1".toList, [6, 1]⟩) rfl (Owns.node (d := demoPart) rfl (owns_leaf rfl (owns_leaf rfl .nil)) (owns_leaf rfl .nil)) (owns_leaf rfl .nil)⟩
    · intro hs
      have : Shows (demoHeap.set 2 ⟨"K1".toList, [6, 1]⟩ ++ [demoPart]) demoChain
          (.node "K1".toList (.node "K*".toList (leaf "K" (leaf "pi" .nil)) (leaf "pi" .nil)) (leaf "pi" .nil)) :=
        ⟨_, Owns.node (d := ⟨"K1".toList, [6, 1]⟩) rfl (Owns.node (d := demoPart) rfl (owns_leaf rfl (owns_leaf rfl .nil)) (owns_leaf rfl .nil)) (owns_leaf rfl .nil)⟩
      exact absurd (hs.unique this) (by decide)
  · let h : Heap := [⟨"K*".toList, []⟩, ⟨"S".toList, []⟩, ⟨"pi".toList, []⟩, ⟨"R".toList, [1, 2]⟩, ⟨"pi".toList, []⟩, ⟨"K".toList, []⟩, ⟨"pi".toList, []⟩]
    let p : Cell := ⟨"K*".toList, [3, 4]⟩
    let q : Cell := ⟨"S".toList, [5, 6]⟩
    let h1 : Heap := h ++ [⟨"K*".toList, []⟩]
    let h2 : Heap := h1 ++ [p]
    let h3 : Heap := h2.set 3 ⟨"R".toList, [9, 2]⟩ ++ [q]
    have hp : ∀ k : Heap, k[3]? = some ⟨"R".toList, [1, 2]⟩ → k[1]? = some ⟨"S".toList, []⟩ → k[2]? = some ⟨"pi".toList, []⟩ → k[4]? = some ⟨"pi".toList, []⟩ →
        Shows k p (.node "R".toList (leaf "S" (leaf "pi" .nil)) (leaf "pi" .nil)) := fun k a b c d =>
      ⟨_, Owns.node (d := ⟨"R".toList, [1, 2]⟩) a (owns_leaf b (owns_leaf c .nil)) (owns_leaf d .nil)⟩
    refine ⟨h, ⟨"D0".toList, [0]⟩, p, q, _, h1, h2, h3, ⟨"D0".toList, [7]⟩, ⟨"D0".toList, [8]⟩, ⟨"D0".toList, [8]⟩, hp h rfl rfl rfl rfl, by decide +kernel,
      by decide +kernel, hp h2 rfl rfl rfl rfl, by decide +kernel, ?_⟩
    intro hs
    have : Shows h3 p (.node "R".toList (.node "S".toList (leaf "K" (leaf "pi" .nil)) (leaf "pi" .nil)) (leaf "pi" .nil)) :=
      ⟨_, Owns.node (d := ⟨"R".toList, [9, 2]⟩) rfl (Owns.node (d := q) rfl (owns_leaf rfl (owns_leaf rfl .nil)) (owns_leaf rfl .nil)) (owns_leaf rfl .nil)⟩
    exact absurd (hs.unique this) (by decide)

end AmpGen.Sharing
