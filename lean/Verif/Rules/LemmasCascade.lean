import Verif.Rules.LemmasText
import Mathlib.Data.List.Forall2
import Mathlib.Data.List.Perm.Basic
/-
Cascades and trees that are alike.
-/
namespace AmpGen.Particle.Rules
open AmpGen.Strings AmpGen.PDG AmpGen.Particle AmpGen.Particle.Spec AmpGen.Particle.Rules.Spec

variable {K : Type} [Field K] [LinearOrder K] {V : Type}

theorem Tree.ind {P : Tree K → Prop} (h : ∀ d ds, (∀ t ∈ ds, P t) → P (.node d ds)) : ∀ t, P t
  | .node d ds => h d ds fun t _ => Tree.ind h t
termination_by t => sizeOf t
decreasing_by
  have := List.sizeOf_lt_of_mem ‹t ∈ ds›
  simp
  omega

/-! ### Alike -/

theorem forall₂_of_get {α β : Type} {R : α → β → Prop} : ∀ {l : List α} {m : List β}, l.length = m.length → (∀ (i : Nat) a b, l[i]? = some a → m[i]? = some b → R a b) → List.Forall₂ R l m
  | [], [], _, _ => List.Forall₂.nil
  | [], _ :: _, h, _ => by simp at h
  | _ :: _, [], h, _ => by simp at h
  | a :: l, b :: m, h, hr => List.Forall₂.cons (hr 0 a b rfl rfl) (forall₂_of_get (by simpa using h) fun i x y hx hy => hr (i + 1) x y (by simpa using hx) (by simpa using hy))

theorem get_of_forall₂ {α β : Type} {R : α → β → Prop} {l : List α} {m : List β} (h : List.Forall₂ R l m) : l.length = m.length ∧ ∀ (i : Nat) a b, l[i]? = some a → m[i]? = some b → R a b := by
  induction h with
  | nil => exact ⟨rfl, fun i a b h => by simp at h⟩
  | cons hab _ ih =>
    refine ⟨by simp [ih.1], ?_⟩
    intro i a b ha hb
    cases i with
    | zero =>
      obtain rfl := Option.some.inj ha
      obtain rfl := Option.some.inj hb
      exact hab
    | succ i => exact ih.2 i a b (by simpa using ha) (by simpa using hb)

/-- The flags and the settings agree. -/
def Agree (d : Data K) (mods : List Str) : Prop :=
  (∀ s ∈ ["BgSpin0", "Inco", "NoSym"], s.toList ∈ mods ↔ s.toList ∈ d.modifiers) ∧ mods.filter (fun m => decide ('=' ∈ m)) = d.modifiers.filter (fun m => decide ('=' ∈ m))

theorem alike_mk {d : Data K} {mods : List Str} {ds cs ds' : List (Tree K)} (ha : Agree d mods) (hf : List.Forall₂ Alike ds cs) (hp : cs.Perm ds') : Alike (.node d ds) (.node { d with modifiers := mods } ds') :=
  Alike.node d mods ds cs ds' ha.1 ha.2 (get_of_forall₂ hf).1 (get_of_forall₂ hf).2 hp

theorem alike_out {d : Data K} {ds : List (Tree K)} {t : Tree K} (h : Alike (.node d ds) t) : ∃ mods cs ds', Agree d mods ∧ List.Forall₂ Alike ds cs ∧ cs.Perm ds' ∧ t = .node { d with modifiers := mods } ds' := by
  cases h with
  | node _ mods _ cs ds' h1 h2 h3 h4 h5 => exact ⟨mods, cs, ds', ⟨h1, h2⟩, forall₂_of_get h3 h4, h5, rfl⟩

theorem Agree.refl (d : Data K) : Agree d d.modifiers := ⟨fun _ _ => Iff.rfl, rfl⟩

theorem alike_refl (t : Tree K) : Alike t t := by
  induction t using Tree.ind with
  | h d ds ih =>
    have := alike_mk (d := d) (Agree.refl d) (ds := ds) (cs := ds) (ds' := ds) ?_ (List.Perm.refl _)
    · exact this
    · exact List.forall₂_same.2 ih

theorem forall₂_left {α β : Type} {R : α → β → Prop} {l : List α} {m : List β} (h : List.Forall₂ R l m) : ∀ x ∈ l, ∃ y ∈ m, R x y := by
  induction h with
  | nil => intro x hx; simp at hx
  | cons hab _ ih =>
    intro x hx
    rcases List.mem_cons.1 hx with rfl | hx
    · exact ⟨_, List.mem_cons_self, hab⟩
    · obtain ⟨y, hy, hxy⟩ := ih x hx
      exact ⟨y, List.mem_cons_of_mem _ hy, hxy⟩

theorem forall₂_right {α β : Type} {R : α → β → Prop} {l : List α} {m : List β} (h : List.Forall₂ R l m) : ∀ y ∈ m, ∃ x ∈ l, R x y := by
  induction h with
  | nil => intro x hx; simp at hx
  | cons hab _ ih =>
    intro x hx
    rcases List.mem_cons.1 hx with rfl | hx
    · exact ⟨_, List.mem_cons_self, hab⟩
    · obtain ⟨y, hy, hxy⟩ := ih x hx
      exact ⟨y, List.mem_cons_of_mem _ hy, hxy⟩

theorem forall₂_split {α β : Type} {R : α → β → Prop} : ∀ {m m' : List β} {l : List α}, List.Forall₂ R l (m ++ m') → ∃ l1 l2, List.Forall₂ R l1 m ∧ List.Forall₂ R l2 m' ∧ l1 ++ l2 = l
  | [], m', l, h => ⟨[], l, List.Forall₂.nil, h, rfl⟩
  | b :: m, m', _, .cons hab h => by
    obtain ⟨l1, l2, h1, h2, h3⟩ := forall₂_split h
    exact ⟨_ :: l1, l2, List.Forall₂.cons hab h1, h2, by rw [List.cons_append, h3]⟩

theorem forall₂_perm {α β : Type} {R : α → β → Prop} {l l' : List α} {m : List β} (hp : l.Perm l') (h : List.Forall₂ R l' m) : ∃ m', List.Forall₂ R l m' ∧ m'.Perm m := by
  induction hp generalizing m with
  | nil => exact ⟨m, h, List.Perm.refl _⟩
  | cons a _ ih =>
    cases h with
    | cons hab h =>
      obtain ⟨m', h1, h2⟩ := ih h
      exact ⟨_ :: m', List.Forall₂.cons hab h1, h2.cons _⟩
  | swap a b l =>
    cases h with
    | cons hab h =>
      cases h with
      | cons hcd h => exact ⟨_, List.Forall₂.cons hcd (List.Forall₂.cons hab h), List.Perm.swap _ _ _⟩
  | trans _ _ ih1 ih2 =>
    obtain ⟨m1, h1, h2⟩ := ih2 h
    obtain ⟨m2, h3, h4⟩ := ih1 h1
    exact ⟨m2, h3, h4.trans h2⟩

theorem forall₂_trans {α β γ : Type} {R : α → β → Prop} {S : β → γ → Prop} {T : α → γ → Prop} {l : List α} {m : List β} {k : List γ} (h1 : List.Forall₂ R l m) (h2 : List.Forall₂ S m k)
    (h : ∀ a ∈ l, ∀ b c, R a b → S b c → T a c) : List.Forall₂ T l k := by
  induction h1 generalizing k with
  | nil => cases h2; exact List.Forall₂.nil
  | cons hab _ ih =>
    cases h2 with
    | cons hbc h2 => exact List.Forall₂.cons (h _ List.mem_cons_self _ _ hab hbc) (ih h2 fun a ha => h a (List.mem_cons_of_mem _ ha))

theorem alike_trans (a : Tree K) : ∀ {b c : Tree K}, Alike a b → Alike b c → Alike a c := by
  induction a using Tree.ind with
  | h d ds ih =>
    intro b c h1 h2
    obtain ⟨mods, cs, ds', g1, g2, g3, rfl⟩ := alike_out h1
    obtain ⟨mods', cs', ds'', k1, k2, k3, rfl⟩ := alike_out h2
    obtain ⟨m, e1, e2⟩ := forall₂_perm g3 k2
    have : Agree d mods' := ⟨fun s hs => (k1.1 s hs).trans (g1.1 s hs), k1.2.trans g1.2⟩
    exact alike_mk this (forall₂_trans g2 e1 fun a ha b c hab hbc => ih a ha hab hbc) (e2.trans k3)

theorem Agree.printed {d : Data K} {mods : List Str} (h : Agree d mods) : printedModifiers { d with modifiers := mods } = printedModifiers d := by
  unfold printedModifiers
  have h1 : flags.filter (fun m => decide (m ∈ mods)) = flags.filter fun m => decide (m ∈ d.modifiers) := by
    refine List.filter_congr fun m hm => ?_
    have : m ∈ mods ↔ m ∈ d.modifiers := by
      simp only [flags, List.mem_cons, List.not_mem_nil, or_false] at hm
      rcases hm with rfl | rfl | rfl
      · exact h.1 _ (by simp)
      · exact h.1 _ (by simp)
      · exact h.1 _ (by simp)
    rw [decide_eq_decide.2 this]
  have h2 : orbitalString { d with modifiers := mods } = orbitalString d := rfl
  simp only [h1, h2, h.2]

theorem Agree.string {d : Data K} {mods : List Str} (h : Agree d mods) : modifierString { d with modifiers := mods } = modifierString d := by
  unfold modifierString
  rw [h.printed]

theorem nodesList_eq : ∀ (ds : List (Tree K)), nodesList ds = ds.flatMap Tree.nodes
  | [] => by rw [nodesList]; rfl
  | t :: ts => by rw [nodesList, nodesList_eq ts]; rfl

theorem nodes_node (d : Data K) (ds : List (Tree K)) : (Tree.node d ds).nodes = d :: ds.flatMap Tree.nodes := by rw [Tree.nodes, nodesList_eq]

theorem nodes_has (t : Tree K) : ∀ d ∈ t.nodes, Has t d := by
  induction t using Tree.ind with
  | h d ds ih =>
    intro e he
    rw [nodes_node] at he
    rcases List.mem_cons.1 he with rfl | he
    · exact Has.here _ _
    · obtain ⟨t, ht, he⟩ := List.mem_flatMap.1 he
      exact Has.inside _ _ t e ht (ih t ht e he)

/-- The same name and the same text of the modifiers. -/
def SameHead (d e : Data K) : Prop := e = { d with modifiers := e.modifiers } ∧ Agree d e.modifiers

theorem flatMap_forall₂ {α β γ : Type} {R : α → β → Prop} {S : γ → γ → Prop} {f : α → List γ} {g : β → List γ} {l : List α} {m : List β} (h : List.Forall₂ R l m)
    (hf : ∀ a ∈ l, ∀ b, R a b → ∃ k, List.Forall₂ S (f a) k ∧ k.Perm (g b)) : ∃ k, List.Forall₂ S (l.flatMap f) k ∧ k.Perm (m.flatMap g) := by
  induction h with
  | nil => exact ⟨[], List.Forall₂.nil, List.Perm.refl _⟩
  | cons hab _ ih =>
    obtain ⟨k1, h1, h2⟩ := hf _ List.mem_cons_self _ hab
    obtain ⟨k2, h3, h4⟩ := ih fun a ha => hf a (List.mem_cons_of_mem _ ha)
    rw [List.flatMap_cons, List.flatMap_cons]
    exact ⟨k1 ++ k2, List.rel_append h1 h3, h2.append h4⟩

theorem alike_nodes (u : Tree K) : ∀ {t : Tree K}, Alike u t → ∃ l, List.Forall₂ SameHead u.nodes l ∧ l.Perm t.nodes := by
  induction u using Tree.ind with
  | h d ds ih =>
    intro t h
    obtain ⟨mods, cs, ds', g1, g2, g3, rfl⟩ := alike_out h
    obtain ⟨k, h1, h2⟩ := flatMap_forall₂ (f := Tree.nodes) (g := Tree.nodes) g2 fun a ha b hab => ih a ha hab
    rw [nodes_node, nodes_node]
    exact ⟨_ :: k, List.Forall₂.cons ⟨rfl, g1⟩ h1, (h2.trans (g3.flatMap_right _)).cons _⟩

theorem SameHead.string {d e : Data K} (h : SameHead d e) : e.name = d.name ∧ modifierString e = modifierString d := by
  obtain ⟨h1, h2⟩ := h
  rw [h1]
  exact ⟨rfl, h2.string⟩

theorem SameHead.mentions {d e : Data K} (h : SameHead d e) (n : Str) : Mentions n e ↔ Mentions n d := by
  unfold Mentions
  rw [h.string.1, h.string.2]

theorem pairwise_forall₂ {α : Type} {P : α → Prop} {R : α → α → Prop} {l m : List α} (h : List.Forall₂ R l m) (hr : ∀ a b, R a b → (P b → P a)) (hl : l.Pairwise fun a b => ¬ (P a ∧ P b)) :
    m.Pairwise fun a b => ¬ (P a ∧ P b) := by
  induction h with
  | nil => exact List.Pairwise.nil
  | cons hab hrest ih =>
    rw [List.pairwise_cons] at hl ⊢
    refine ⟨?_, ih hl.2⟩
    intro y hy hPy
    obtain ⟨x, hx, hxy⟩ := forall₂_right hrest y hy
    exact hl.1 x hx ⟨hr _ _ hab hPy.1, hr _ _ hxy hPy.2⟩

theorem once_alike {rules : List (Rule K V)} {u t : Tree K} (h : Alike u t) (ho : Once rules u) : Once rules t := by
  intro r hr
  obtain ⟨l, h1, h2⟩ := alike_nodes u h
  refine (List.Perm.pairwise_iff ?_ h2).1 (pairwise_forall₂ h1 (fun a b hab hb => (hab.mentions _).1 hb) (ho r hr))
  intro a b hab hba
  exact hab ⟨hba.2, hba.1⟩

theorem bare_alike {rules : List (Rule K V)} (u : Tree K) : ∀ {t : Tree K}, Alike u t → Bare rules u → Bare rules t := by
  induction u using Tree.ind with
  | h d ds ih =>
    intro t h hb
    obtain ⟨mods, cs, ds', g1, g2, g3, rfl⟩ := alike_out h
    cases hb with
    | leaf _ hl =>
      cases g2
      obtain rfl := List.nil_perm.1 g3
      exact Bare.leaf _ fun r hr hn => by rw [g1.string]; exact hl r hr hn
    | node _ _ hne hall =>
      refine Bare.node _ _ ?_ ?_
      · rintro rfl
        obtain rfl := List.perm_nil.1 g3
        cases g2
        exact hne rfl
      · intro x hx
        have hx := g3.mem_iff.2 hx
        obtain ⟨y, hy, hyx⟩ := forall₂_right g2 x hx
        exact ih y hy hyx (hall y hy)

theorem complete_alike {rules : List (Rule K V)} (u : Tree K) : ∀ {t : Tree K}, Alike u t → Complete rules t → Complete rules u := by
  induction u using Tree.ind with
  | h d ds ih =>
    intro t h hb
    obtain ⟨mods, cs, ds', g1, g2, g3, rfl⟩ := alike_out h
    cases hb with
    | leaf _ hl =>
      obtain rfl := List.perm_nil.1 g3
      cases g2
      exact Complete.leaf _ hl
    | node _ _ hne hall =>
      refine Complete.node _ _ ?_ ?_
      · rintro rfl
        cases g2
        exact hne (List.nil_perm.1 g3)
      · intro x hx
        obtain ⟨y, hy, hxy⟩ := forall₂_left g2 x hx
        exact ih x hx hxy (hall y (g3.mem_iff.1 hy))

/-! ### Cascades -/

theorem cascade_node {rules : List (Rule K V)} {d : Data K} {ds : List (Tree K)} (hne : ds ≠ []) {u : Tree K} {cs : List (Rule K V)} :
    Cascade rules (.node d ds) u cs ↔ ∃ us, u = .node d us ∧ Cascades rules ds us cs := by
  obtain ⟨t, ts, rfl⟩ := List.exists_cons_of_ne_nil hne
  constructor
  · intro h
    cases h with
    | node _ _ _ us _ h => exact ⟨us, rfl, h⟩
  · rintro ⟨us, rfl, h⟩
    exact Cascade.node d t ts us cs h

theorem cascades_append {rules : List (Rule K V)} : ∀ {l m us : List (Tree K)} {cs : List (Rule K V)},
    Cascades rules (l ++ m) us cs ↔ ∃ us1 us2 cs1 cs2, us = us1 ++ us2 ∧ cs = cs1 ++ cs2 ∧ Cascades rules l us1 cs1 ∧ Cascades rules m us2 cs2
  | [], m, us, cs => by
    constructor
    · intro h; exact ⟨[], us, [], cs, rfl, rfl, Cascades.nil, h⟩
    · rintro ⟨us1, us2, cs1, cs2, rfl, rfl, h1, h2⟩
      cases h1
      exact h2
  | t :: l, m, us, cs => by
    constructor
    · intro h
      cases h with
      | cons _ u _ us c cs' h1 h2 =>
        obtain ⟨us1, us2, cs1, cs2, rfl, rfl, h3, h4⟩ := cascades_append.1 h2
        exact ⟨u :: us1, us2, c ++ cs1, cs2, rfl, by simp, Cascades.cons _ _ _ _ _ _ h1 h3, h4⟩
    · rintro ⟨us1, us2, cs1, cs2, rfl, rfl, h1, h2⟩
      cases h1 with
      | cons _ u _ us c cs' h1 h3 =>
        rw [List.cons_append, List.cons_append, List.append_assoc]
        exact Cascades.cons _ _ _ _ _ _ h1 (cascades_append.2 ⟨us, us2, cs', cs2, rfl, rfl, h3, h2⟩)

theorem cascades_one {rules : List (Rule K V)} {t : Tree K} {ts us : List (Tree K)} {cs : List (Rule K V)} :
    Cascades rules (t :: ts) us cs ↔ ∃ u us' c cs', us = u :: us' ∧ cs = c ++ cs' ∧ Cascade rules t u c ∧ Cascades rules ts us' cs' := by
  constructor
  · intro h
    cases h with
    | cons _ u _ us c cs' h1 h2 => exact ⟨u, us, c, cs', rfl, rfl, h1, h2⟩
  · rintro ⟨u, us', c, cs', rfl, rfl, h1, h2⟩
    exact Cascades.cons _ _ _ _ _ _ h1 h2

theorem cascades_refl {rules : List (Rule K V)} : ∀ {ds : List (Tree K)}, (∀ t ∈ ds, Cascade rules t t []) → Cascades rules ds ds []
  | [], _ => Cascades.nil
  | t :: ts, h => Cascades.cons t t ts ts [] [] (h t List.mem_cons_self) (cascades_refl fun t ht => h t (List.mem_cons_of_mem _ ht))

theorem cascade_refl (rules : List (Rule K V)) (t : Tree K) : Cascade rules t t [] := by
  induction t using Tree.ind with
  | h d ds ih =>
    cases ds with
    | nil => exact Cascade.stop d
    | cons t ts => exact Cascade.node d t ts _ _ (cascades_refl ih)

mutual
theorem cascade_trans {rules : List (Rule K V)} : ∀ {t u : Tree K} {cs : List (Rule K V)}, Cascade rules t u cs → ∀ {w : Tree K} {cs' : List (Rule K V)}, Cascade rules u w cs' →
    ∃ k, Cascade rules t w k ∧ k.Perm (cs ++ cs')
  | _, _, _, .stop _, _, cs', h => ⟨cs', h, List.Perm.refl _⟩
  | _, _, _, .decay d r u cs h1 h2 h3, w, cs', h => by
    obtain ⟨k, g1, g2⟩ := cascade_trans h3 h
    exact ⟨r :: k, Cascade.decay d r w k h1 h2 g1, g2.cons _⟩
  | _, _, _, .node d t ts us cs h1, w, cs', h => by
    have hne : us ≠ [] := by cases h1; simp
    obtain ⟨ws, rfl, h2⟩ := (cascade_node hne).1 h
    obtain ⟨k, g1, g2⟩ := cascades_trans h1 h2
    exact ⟨k, Cascade.node d t ts ws k g1, g2⟩
theorem cascades_trans {rules : List (Rule K V)} : ∀ {ts us : List (Tree K)} {cs : List (Rule K V)}, Cascades rules ts us cs → ∀ {ws : List (Tree K)} {cs' : List (Rule K V)}, Cascades rules us ws cs' →
    ∃ k, Cascades rules ts ws k ∧ k.Perm (cs ++ cs')
  | _, _, _, .nil, _, cs', h => ⟨cs', h, List.Perm.refl _⟩
  | _, _, _, .cons t u ts us c cs h1 h2, ws, cs', h => by
    obtain ⟨w, ws', c', cs'', rfl, rfl, h3, h4⟩ := cascades_one.1 h
    obtain ⟨k1, g1, g2⟩ := cascade_trans h1 h3
    obtain ⟨k2, g3, g4⟩ := cascades_trans h2 h4
    refine ⟨k1 ++ k2, Cascades.cons _ _ _ _ _ _ g1 g3, (g2.append g4).trans ?_⟩
    rw [List.append_assoc, List.append_assoc]
    refine List.Perm.append_left _ ?_
    rw [← List.append_assoc, ← List.append_assoc]
    exact List.perm_append_comm.append_right _
end

mutual
theorem complete_cascade {rules : List (Rule K V)} : ∀ {t u : Tree K} {cs : List (Rule K V)}, Cascade rules t u cs → Complete rules t → u = t ∧ cs = []
  | _, _, _, .stop _, _ => ⟨rfl, rfl⟩
  | _, _, _, .decay d r u cs h1 h2 h3, h => by
    cases h with
    | leaf _ hl => exact absurd h2 (hl r h1)
    | node _ _ hne => exact absurd rfl hne
  | _, _, _, .node d t ts us cs h1, h => by
    cases h with
    | node _ _ _ hall =>
      obtain ⟨g1, g2⟩ := complete_cascades h1 hall
      exact ⟨by rw [g1], g2⟩
theorem complete_cascades {rules : List (Rule K V)} : ∀ {ts us : List (Tree K)} {cs : List (Rule K V)}, Cascades rules ts us cs → (∀ t ∈ ts, Complete rules t) → us = ts ∧ cs = []
  | _, _, _, .nil, _ => ⟨rfl, rfl⟩
  | _, _, _, .cons t u ts us c cs h1 h2, h => by
    obtain ⟨rfl, rfl⟩ := complete_cascade h1 (h t List.mem_cons_self)
    obtain ⟨rfl, rfl⟩ := complete_cascades h2 fun t ht => h t (List.mem_cons_of_mem _ ht)
    exact ⟨rfl, rfl⟩
end

/-! ### A particle of the final state and what may stand in its place -/

/-- A particle of the final state with this name, and the tree with something else in its place. -/
inductive Spot (n : Str) : Tree K → (Tree K → Tree K) → Prop
  | here (d : Data K) : d.name = n → Spot n (.node d []) fun y => y
  | inside (d : Data K) (l : List (Tree K)) (x : Tree K) (r : List (Tree K)) (f : Tree K → Tree K) : Spot n x f → Spot n (.node d (l ++ x :: r)) fun y => .node d (l ++ f y :: r)

theorem finalStates_eq : ∀ (ds : List (Tree K)), finalStates ds = ds.flatMap fun t => if t.isStable then [t] else t.finalState
  | [] => by rw [finalStates]; rfl
  | t :: ts => by rw [finalStates, finalStates_eq ts]; rfl

theorem finalState_node (d : Data K) (ds : List (Tree K)) : (Tree.node d ds).finalState = ds.flatMap fun t => if t.isStable then [t] else t.finalState := by rw [Tree.finalState, finalStates_eq]

theorem spot_of_final (t : Tree K) : ∀ x ∈ t.finalState, ∃ f, Spot x.data.name t f := by
  induction t using Tree.ind with
  | h d ds ih =>
    intro x hx
    rw [finalState_node] at hx
    obtain ⟨y, hy, hxy⟩ := List.mem_flatMap.1 hx
    obtain ⟨l, r, rfl⟩ := List.append_of_mem hy
    clear hx
    rename' hxy => hx
    by_cases hs : y.isStable = true
    · rw [if_pos hs, List.mem_singleton] at hx
      obtain rfl := hx
      cases x with
      | node e es =>
        have : es = [] := by simpa [Tree.isStable, Tree.daughters] using hs
        subst this
        exact ⟨_, Spot.inside d l _ r _ (Spot.here e rfl)⟩
    · rw [if_neg hs] at hx
      obtain ⟨f, hf⟩ := ih y hy x hx
      exact ⟨_, Spot.inside d l y r f hf⟩

theorem spot_alike {n : Str} {t : Tree K} {f : Tree K → Tree K} (h : Spot n t f) : ∀ {v : Tree K}, Alike v t → ∃ g, Spot n v g ∧ ∀ R, Alike (g R) (f R) := by
  induction h with
  | here d hd =>
    intro v hv
    cases v with
    | node e es =>
      obtain ⟨mods, cs, ds', g1, g2, g3, g4⟩ := alike_out hv
      injection g4 with g4 g5
      subst g5
      obtain rfl := List.perm_nil.1 g3
      cases g2
      refine ⟨_, Spot.here e ?_, fun R => alike_refl R⟩
      rw [← hd, g4]
  | inside d l x r f hx ih =>
    intro v hv
    cases v with
    | node e es =>
      obtain ⟨mods, cs, ds', g1, g2, g3, g4⟩ := alike_out hv
      injection g4 with g4 g5
      subst g5
      have hmem : x ∈ cs := g3.mem_iff.2 (by simp)
      obtain ⟨l', r', rfl⟩ := List.append_of_mem hmem
      have hp : (l' ++ r').Perm (l ++ r) := (List.perm_cons x).1 (List.perm_middle.symm.trans (g3.trans List.perm_middle))
      obtain ⟨m1, m2, e1, e2, hes⟩ := forall₂_split g2
      cases e2 with
      | @cons x0 _ r0 _ hx0 hr0 =>
        obtain ⟨g, hg1, hg2⟩ := ih hx0
        refine ⟨_, hes ▸ Spot.inside e m1 x0 r0 g hg1, fun R => ?_⟩
        rw [g4]
        refine alike_mk (cs := l' ++ f R :: r') g1 (List.rel_append e1 (List.Forall₂.cons (hg2 R) hr0)) ?_
        exact List.perm_middle.trans ((hp.cons _).trans List.perm_middle.symm)

theorem spot_cascade {rules : List (Rule K V)} {n : Str} {v : Tree K} {g : Tree K → Tree K} (h : Spot n v g) {r : Rule K V} (hr : r ∈ rules) (hn : r.particle.data.name = n) : Cascade rules v (g r.particle) [r] := by
  induction h with
  | here d hd => exact Cascade.decay d r r.particle [] hr (hn.trans hd.symm) (cascade_refl _ _)
  | inside d l x r' f hx ih =>
    refine (cascade_node (by simp)).2 ⟨_, rfl, cascades_append.2 ⟨l, f r.particle :: r', [], [r], rfl, rfl, cascades_refl fun t _ => cascade_refl _ t, ?_⟩⟩
    exact Cascades.cons _ _ _ _ [r] [] ih (cascades_refl fun t _ => cascade_refl _ t)

theorem spot_decays {rules : List (Rule K V)} {n : Str} {v : Tree K} {g : Tree K → Tree K} (h : Spot n v g) (hn : ∃ r ∈ rules, r.particle.data.name = n) : ∀ {u : Tree K} {cs : List (Rule K V)},
    Cascade rules v u cs → Complete rules u → ∃ r ∈ rules, r.particle.data.name = n ∧ ∃ cs', Cascade rules (g r.particle) u cs' ∧ cs.Perm (r :: cs') := by
  induction h with
  | here d hd =>
    intro u cs hc hu
    generalize ht : Tree.node d [] = t at hc
    cases hc with
    | stop e =>
      injection ht with ht _
      subst ht
      cases hu with
      | leaf _ hl =>
        obtain ⟨r, hr, hrn⟩ := hn
        exact absurd (hrn.trans hd.symm) (hl r hr)
      | node _ _ hne => exact absurd rfl hne
    | decay d' r u cs h1 h2 h3 =>
      injection ht with ht _
      subst ht
      exact ⟨r, h1, h2.trans hd, cs, h3, List.Perm.refl _⟩
    | node => injection ht with _ ht; simp at ht
  | inside d l x r f hx ih =>
    intro u cs hc hu
    obtain ⟨us, rfl, hcs⟩ := (cascade_node (by simp)).1 hc
    obtain ⟨us1, us2, cs1, cs2, rfl, rfl, h1, h2⟩ := cascades_append.1 hcs
    obtain ⟨w, ws, c, cs3, rfl, rfl, h3, h4⟩ := cascades_one.1 h2
    have hw : Complete rules w := by
      generalize ht : Tree.node d (us1 ++ w :: ws) = t at hu
      cases hu with
      | leaf => injection ht with _ ht; simp at ht
      | node d' ds _ hall =>
        injection ht with _ ht
        exact hall w (by rw [← ht]; simp)
    obtain ⟨r', g1, g2, c', g3, g4⟩ := ih h3 hw
    refine ⟨r', g1, g2, cs1 ++ (c' ++ cs3), (cascade_node (by simp)).2 ⟨_, rfl, cascades_append.2 ⟨us1, w :: ws, cs1, _, rfl, rfl, h1, Cascades.cons _ _ _ _ _ _ g3 h4⟩⟩, ?_⟩
    have := (g4.append_right cs3).append_left cs1
    refine this.trans ?_
    rw [List.cons_append]
    exact List.perm_middle

theorem complete_of_final {rules : List (Rule K V)} (t : Tree K) (hne : t.daughters ≠ []) (h : ∀ x ∈ t.finalState, ∀ r ∈ rules, r.particle.data.name ≠ x.data.name) : Complete rules t := by
  induction t using Tree.ind with
  | h d ds ih =>
    refine Complete.node d ds hne fun x hx => ?_
    have hsub : ∀ y ∈ (if x.isStable then [x] else x.finalState), y ∈ (Tree.node d ds).finalState := by
      intro y hy
      rw [finalState_node]
      exact List.mem_flatMap.2 ⟨x, hx, hy⟩
    by_cases hs : x.isStable = true
    · have := h x (hsub x (by rw [if_pos hs]; simp))
      cases x with
      | node e es =>
        have he : es = [] := by simpa [Tree.isStable, Tree.daughters] using hs
        subst he
        exact Complete.leaf e this
    · rw [if_neg hs] at hsub
      refine ih x hx ?_ fun y hy => h y (hsub y hy)
      intro he
      exact hs (by simp [Tree.isStable, he])

end AmpGen.Particle.Rules
