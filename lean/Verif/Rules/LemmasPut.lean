import Verif.Rules.LemmasCascade
/-
Putting a decay in place of a particle in the text of a tree.
-/
namespace AmpGen.Particle.Rules
open AmpGen.Strings AmpGen.PDG AmpGen.PDG.Spec AmpGen.Particle AmpGen.Particle.Spec AmpGen.Particle.Rules.Spec

variable {K : Type} [Field K] [LinearOrder K] {V : Type}

/-! ### Quark contents -/

/-- The same quark content, up to order. -/
def SameQuarks (t u : Tree K) : Prop := ∃ q q', t.quarks = some q ∧ u.quarks = some q' ∧ q ≠ [] ∧ q' ≠ [] ∧ ∀ s, s ∈ q ↔ s ∈ q'

theorem SameQuarks.symm {t u : Tree K} (h : SameQuarks t u) : SameQuarks u t := by
  obtain ⟨q, q', h1, h2, h3, h4, h5⟩ := h
  exact ⟨q', q, h2, h1, h4, h3, fun s => (h5 s).symm⟩

theorem choice_same {qs qs' : List QuarkContent} (h : List.Forall₂ (fun q q' => ∀ s, s ∈ q ↔ s ∈ q') qs qs') : ∀ {s : QuarkState}, Choice qs s → Choice qs' s := by
  induction h with
  | nil => intro s h; exact h
  | cons hab _ ih =>
    intro s hs
    cases hs with
    | cons hx hc => exact Choice.cons ((hab _).1 hx) (ih hc)

theorem quarksList_same {ds cs : List (Tree K)} (h : List.Forall₂ SameQuarks ds cs) :
    ∃ qs qs', ds.mapM Tree.quarks = some qs ∧ cs.mapM Tree.quarks = some qs' ∧ List.Forall₂ (fun q q' => ∀ s, s ∈ q ↔ s ∈ q') qs qs' ∧ (∀ q ∈ qs, q ≠ []) ∧ ∀ q ∈ qs', q ≠ [] := by
  induction h with
  | nil => exact ⟨[], [], rfl, rfl, List.Forall₂.nil, by simp, by simp⟩
  | cons hab _ ih =>
    obtain ⟨qs, qs', h1, h2, h3, h4, h5⟩ := ih
    obtain ⟨q, q', g1, g2, g3, g4, g5⟩ := hab
    refine ⟨q :: qs, q' :: qs', mapM_cons_some.2 ⟨_, _, g1, h1, rfl⟩, mapM_cons_some.2 ⟨_, _, g2, h2, rfl⟩, List.Forall₂.cons g5 h3, ?_, ?_⟩
    · intro x hx
      rcases List.mem_cons.1 hx with rfl | hx
      · exact g3
      · exact h4 x hx
    · intro x hx
      rcases List.mem_cons.1 hx with rfl | hx
      · exact g4
      · exact h5 x hx

theorem forall₂_flip_symm {α : Type} {R : α → α → Prop} (hr : ∀ a b, R a b → R b a) {l m : List α} (h : List.Forall₂ R l m) : List.Forall₂ R m l := by
  induction h with
  | nil => exact List.Forall₂.nil
  | cons hab _ ih => exact List.Forall₂.cons (hr _ _ hab) ih

/-- The quarks of the decay products. -/
theorem daughters_same {ds cs ds' : List (Tree K)} (h : List.Forall₂ SameQuarks ds cs) (hp : cs.Perm ds') :
    ∃ r r', (quarksList ds).bind PDG.daughterQuarks = some r ∧ (quarksList ds').bind PDG.daughterQuarks = some r' ∧ r ≠ [] ∧ r' ≠ [] ∧ ∀ s, s ∈ r ↔ s ∈ r' := by
  obtain ⟨qs, qs1, h1, h2, h3, h4, h5⟩ := quarksList_same h
  obtain ⟨qs', g1, g2⟩ := mapM_perm _ hp _ h2
  have h5' : ∀ q ∈ qs', q ≠ [] := fun q hq => h5 q (g2.mem_iff.2 hq)
  obtain ⟨r, k1, k2, k3⟩ := daughterQuarks_fold qs QuarkContent.default (by simp [QuarkContent.default]) h4
  obtain ⟨r', m1, m2, m3⟩ := daughterQuarks_fold qs' QuarkContent.default (by simp [QuarkContent.default]) h5'
  refine ⟨r, r', ?_, ?_, k2, m2, ?_⟩
  · rw [quarksList_eq, h1]; exact k1
  · rw [quarksList_eq, g1]; exact m1
  · intro s
    rw [k3, m3]
    constructor
    · rintro ⟨x, hx, t, ht, e⟩
      exact ⟨x, hx, t, choice_perm g2 (choice_same h3 ht), e⟩
    · rintro ⟨x, hx, t, ht, e⟩
      have h3' := forall₂_flip_symm (R := fun q q' : QuarkContent => ∀ s, s ∈ q ↔ s ∈ q') (fun a b hab s => (hab s).symm) h3
      exact ⟨x, hx, t, choice_same h3' (choice_perm g2.symm ht), e⟩

theorem eq_congr {q r r' : QuarkContent} (h : ∀ s, s ∈ r ↔ s ∈ r') : q.eq r = q.eq r' := by
  unfold QuarkContent.eq
  rw [Bool.eq_iff_iff]
  simp only [List.any_eq_true, decide_eq_true_eq]
  constructor
  · rintro ⟨x, hx, y, hy, e⟩; exact ⟨x, hx, y, (h y).1 hy, e⟩
  · rintro ⟨x, hx, y, hy, e⟩; exact ⟨x, hx, y, (h y).2 hy, e⟩

theorem isStrong_same (name : Str) (props : Props K) {ds cs ds' : List (Tree K)} (h : List.Forall₂ SameQuarks ds cs) (hp : cs.Perm ds') : isStrong name props ds = isStrong name props ds' := by
  obtain ⟨r, r', h1, h2, _, _, h5⟩ := daughters_same h hp
  unfold isStrong
  rw [h1, h2]
  simp only [Option.bind_eq_bind, Option.bind_some]
  cases isNonRes name
  · simp only [Bool.false_eq_true, if_false, eq_congr h5]
  · simp only [if_true, Bool.or_true]

theorem quarks_same {d d' : Data K} (hn : d'.name = d.name) (hq : d'.props = d.props) (hne : d.props.quarkContent ≠ []) {ds cs ds' : List (Tree K)} (h : List.Forall₂ SameQuarks ds cs) (hp : cs.Perm ds') :
    SameQuarks (.node d ds) (.node d' ds') := by
  obtain ⟨r, r', h1, h2, h3, h4, h5⟩ := daughters_same h hp
  by_cases hr : isNonRes d.name = true
  · exact ⟨r, r', by rw [Tree.quarks, if_pos hr, h1], by rw [Tree.quarks, hn, if_pos hr, h2], h3, h4, h5⟩
  · exact ⟨d.props.quarkContent, d.props.quarkContent, by rw [Tree.quarks, if_neg hr], by rw [Tree.quarks, hn, if_neg hr, hq], hne, hne, fun _ => Iff.rfl⟩

theorem minOrbital_same (S : Nat) (parity : Int) (b : Bool) {ds cs : List (Tree K)} (h : List.Forall₂ (fun t u : Tree K => t.data.props = u.data.props ∧ t.data.parity = u.data.parity) ds cs) :
    minOrbital S parity b ds = minOrbital S parity b cs := by
  cases h with
  | nil => rfl
  | cons h1 h =>
    cases h with
    | nil => rfl
    | cons h2 h =>
      cases h with
      | nil => simp only [minOrbital, h1.1, h1.2, h2.1, h2.2]
      | cons _ _ => rfl

/-! ### Places -/

/-- A particle of the final state with this name and without modifiers, when no other particle mentions the name. -/
inductive Clean (n : Str) : Tree K → (Tree K → Tree K) → Prop
  | here (d : Data K) : d.name = n → modifierString d = some [] → Clean n (.node d []) fun y => y
  | inside (d : Data K) (l : List (Tree K)) (x : Tree K) (r : List (Tree K)) (f : Tree K → Tree K) : ¬ Mentions n d → (∀ y ∈ l, ∀ e, Has y e → ¬ Mentions n e) → (∀ y ∈ r, ∀ e, Has y e → ¬ Mentions n e) →
      Clean n x f → Clean n (.node d (l ++ x :: r)) fun y => .node d (l ++ f y :: r)

theorem clean_mentions {n : Str} {t : Tree K} {f : Tree K → Tree K} (h : Clean n t f) : ∃ e ∈ t.nodes, Mentions n e := by
  induction h with
  | here d hd hm => exact ⟨d, by rw [nodes_node]; simp, [], hm, by rw [hd]; exact ⟨[], [], by simp⟩⟩
  | inside d l x r f _ _ _ _ ih =>
    obtain ⟨e, he, hm⟩ := ih
    refine ⟨e, ?_, hm⟩
    rw [nodes_node]
    exact List.mem_cons_of_mem _ (List.mem_flatMap.2 ⟨x, by simp, he⟩)

theorem clean_of_spot {rules : List (Rule K V)} {n : Str} (hn : ∃ r ∈ rules, r.particle.data.name = n) {t : Tree K} {f : Tree K → Tree K} (h : Spot n t f) (hb : Bare rules t)
    (ho : t.nodes.Pairwise fun d e => ¬ (Mentions n d ∧ Mentions n e)) : Clean n t f := by
  induction h with
  | here d hd =>
    refine Clean.here d hd ?_
    obtain ⟨r, hr, hrn⟩ := hn
    cases hb with
    | leaf _ hl => exact hl r hr (hrn.trans hd.symm)
    | node _ _ hne => exact absurd rfl hne
  | inside d l x r f hx ih =>
    rw [nodes_node, List.flatMap_append, List.flatMap_cons, List.pairwise_cons, List.pairwise_append, List.pairwise_append] at ho
    obtain ⟨h1, h2, ⟨h3, h4, h5⟩, h6⟩ := ho
    have hbx : Bare rules x := by
      generalize ht : Tree.node d (l ++ x :: r) = t at hb
      cases hb with
      | leaf => injection ht with _ ht; simp at ht
      | node d' ds _ hall =>
        injection ht with _ ht
        exact hall x (by rw [← ht]; simp)
    have hc := ih hbx h3
    obtain ⟨e, he, hm⟩ := clean_mentions hc
    refine Clean.inside d l x r f ?_ ?_ ?_ hc
    · intro hd
      exact h1 e (by simp [he]) ⟨hd, hm⟩
    · intro y hy e' he' hm'
      exact h6 e' (List.mem_flatMap.2 ⟨y, hy, has_nodes y e' he'⟩) e (by simp [he]) ⟨hm', hm⟩
    · intro y hy e' he' hm'
      exact h5 e he e' (List.mem_flatMap.2 ⟨y, hy, has_nodes y e' he'⟩) ⟨hm, hm'⟩

/-! ### Texts -/

theorem off_append {n x y : Str} (hx : Off n x) (hy : Off n y) : Off n (x ++ y) := by
  rcases hx with rfl | ⟨c, b', rfl, hc⟩
  · exact hy
  · exact Or.inr ⟨c, b' ++ y, rfl, hc⟩

/-- The text ends with a character that is not in the name, or is empty. -/
def EndsOff (n a : Str) : Prop := a = [] ∨ ∃ c a', a = a' ++ [c] ∧ c ∉ n

theorem endsOff_append {n x y : Str} (hx : EndsOff n x) (hy : EndsOff n y) : EndsOff n (x ++ y) := by
  rcases hy with rfl | ⟨c, a', rfl, hc⟩
  · rw [List.append_nil]; exact hx
  · exact Or.inr ⟨c, x ++ a', by simp, hc⟩

/-- Items before one of them. -/
def before (l : List Str) : Str := l.flatMap fun s => s ++ [',']

/-- Items behind one of them. -/
def behind (l : List Str) : Str := l.flatMap fun s => ',' :: s

theorem intercalate_middle (l : List Str) (x : Str) (r : List Str) : [','].intercalate (l ++ x :: r) = before l ++ (x ++ behind r) := by
  induction l with
  | nil => exact intercalate_flatMap ',' x r
  | cons a l ih =>
    cases l with
    | nil => rw [List.cons_append, List.nil_append, intercalate_cons, ← List.nil_append (x :: r), ih]; simp [before]
    | cons b l =>
      rw [List.cons_append, List.cons_append, intercalate_cons, ← List.cons_append, ih]
      simp [before]

theorem endsOff_before {n : Str} (hn : ',' ∉ n) : ∀ (l : List Str), EndsOff n (before l)
  | [] => Or.inl rfl
  | a :: l => by
    unfold before
    rw [List.flatMap_cons]
    exact endsOff_append (Or.inr ⟨',', a, rfl, hn⟩) (endsOff_before hn l)

theorem off_behind {n : Str} (hn : ',' ∉ n) : ∀ (l : List Str), Off n (behind l)
  | [] => Or.inl rfl
  | a :: l => by
    unfold behind
    rw [List.flatMap_cons]
    exact Or.inr ⟨',', _, rfl, hn⟩

theorem infix_before {n : Str} (hn : ',' ∉ n) {z : Str} : ∀ {l : List Str}, n <:+: before l ++ z → (∃ s ∈ l, n <:+: s) ∨ n <:+: z
  | [], h => Or.inr h
  | a :: l, h => by
    unfold before at h
    rw [List.flatMap_cons, List.append_assoc, List.append_assoc, List.singleton_append] at h
    rcases infix_split hn h with h | h
    · exact Or.inl ⟨a, List.mem_cons_self, h⟩
    · rcases infix_before hn h with ⟨s, hs, h⟩ | h
      · exact Or.inl ⟨s, List.mem_cons_of_mem _ hs, h⟩
      · exact Or.inr h

theorem infix_behind {n : Str} (hn : ',' ∉ n) (hne : n ≠ []) : ∀ {l : List Str}, n <:+: behind l → ∃ s ∈ l, n <:+: s
  | [], h => by
    have := List.infix_nil.1 h
    exact absurd this hne
  | a :: l, h => by
    unfold behind at h
    rw [List.flatMap_cons] at h
    rcases infix_off hne (off_behind hn l) h with h | h
    · rcases infix_split (u := []) hn h with h | h
      · exact absurd (List.infix_nil.1 h) hne
      · exact ⟨a, List.mem_cons_self, h⟩
    · obtain ⟨s, hs, h⟩ := infix_behind hn hne h
      exact ⟨s, List.mem_cons_of_mem _ hs, h⟩

theorem infix_intercalate {n : Str} (hn : ',' ∉ n) (hne : n ≠ []) {l : List Str} (h : n <:+: [','].intercalate l) : ∃ s ∈ l, n <:+: s := by
  cases l with
  | nil => exact absurd (List.infix_nil.1 h) hne
  | cons a l =>
    rw [← List.nil_append (a :: l), intercalate_middle] at h
    have h : n <:+: a ++ behind l := h
    rcases infix_off hne (off_behind hn l) h with h | h
    · exact ⟨a, List.mem_cons_self, h⟩
    · obtain ⟨s, hs, h⟩ := infix_behind hn hne h
      exact ⟨s, List.mem_cons_of_mem _ hs, h⟩

/-- A name without characters that have a meaning occurs in the text of a tree only within the text of a particle. -/
theorem text_mentions {n : Str} (hp : Plain n) (hne : n ≠ []) (t : Tree K) : ∀ {s : Str}, (∀ d, Has t d → d.props.name = d.name) → t.uniqueString = some s → n <:+: s → ∃ e, Has t e ∧ Mentions n e := by
  have hb1 : '{' ∉ n := fun h => hp _ h (by decide)
  have hb2 : '}' ∉ n := fun h => hp _ h (by decide)
  have hb3 : ',' ∉ n := fun h => hp _ h (by decide)
  induction t using Tree.ind with
  | h d ds ih =>
    intro s hnames hs hi
    rw [Tree.uniqueString] at hs
    obtain ⟨m, hm, hs⟩ := Option.bind_eq_some_iff.1 hs
    have hd := hnames d (Has.here _ _)
    cases hds : ds with
    | nil =>
      subst hds
      simp only [Option.some.injEq] at hs
      subst hs
      exact ⟨d, Has.here _ _, m, hm, hd ▸ hi⟩
    | cons t0 ts0 =>
      have hs' : (uniqueStrings ds).map (fun ss => d.props.name ++ m ++ ['{'] ++ [','].intercalate ss ++ ['}']) = some s := by rw [hds] at hs ⊢; exact hs
      obtain ⟨ss, hss, rfl⟩ := Option.map_eq_some_iff.1 hs'
      rw [uniqueStrings_eq] at hss
      rw [← hds]
      rw [List.append_assoc, List.append_assoc, List.singleton_append] at hi
      rcases infix_split hb1 hi with hi | hi
      · exact ⟨d, Has.here _ _, m, hm, hd ▸ hi⟩
      · rcases infix_split hb2 hi with hi | hi
        · obtain ⟨x, hx, hi⟩ := infix_intercalate hb3 hne hi
          obtain ⟨y, hy, hyx⟩ := mapM_mem hss x hx
          obtain ⟨e, he, hm⟩ := ih y hy (fun e he => hnames e (Has.inside d ds y e hy he)) hyx hi
          exact ⟨e, Has.inside d ds y e hy he, hm⟩
        · exact absurd (List.infix_nil.1 hi) hne

theorem mapM_append_some {α β : Type} {f : α → Option β} : ∀ {l m : List α} {r : List β}, (l ++ m).mapM f = some r → ∃ r1 r2, l.mapM f = some r1 ∧ m.mapM f = some r2 ∧ r = r1 ++ r2
  | [], m, r, h => ⟨[], r, rfl, h, rfl⟩
  | a :: l, m, r, h => by
    obtain ⟨b, bs, h1, h2, rfl⟩ := mapM_cons_some.1 h
    obtain ⟨r1, r2, h3, h4, rfl⟩ := mapM_append_some h2
    exact ⟨b :: r1, r2, mapM_cons_some.2 ⟨b, r1, h1, h3, rfl⟩, h4, rfl⟩

theorem mapM_some_append {α β : Type} {f : α → Option β} : ∀ {l m : List α} {r1 r2 : List β}, l.mapM f = some r1 → m.mapM f = some r2 → (l ++ m).mapM f = some (r1 ++ r2)
  | [], m, r1, r2, h1, h2 => by
    obtain rfl := Option.some.inj h1
    exact h2
  | a :: l, m, r1, r2, h1, h2 => by
    obtain ⟨b, bs, h3, h4, rfl⟩ := mapM_cons_some.1 h1
    exact mapM_cons_some.2 ⟨b, bs ++ r2, h3, mapM_some_append h4 h2, rfl⟩

/-! ### Trees as they are read -/

/-- What is known of a tree that is read. -/
structure Good (env : Env K) (t : Tree K) : Prop where
  reads : ∃ k s, env.construct k s = some t
  fine : ∀ d, Has t d → Consistent env.db d.name ∧ Writable env d
  text : ∃ s, t.uniqueString = some s

theorem Good.parts {env : Env K} {d : Data K} {ds : List (Tree K)} (h : Good env (.node d ds)) : ∃ dsU mods, ds.Perm dsU ∧ (∀ x ∈ ds, Good env x) ∧
    env.pdgLookup (rawData d.name d.props (mods.foldl env.parseModifier Parsed.initial) mods) dsU = some d ∧ Regular env (.node d ds) := by
  obtain ⟨k, s, hk⟩ := h.reads
  cases k with
  | zero => simp [Env.construct] at hk
  | succ k =>
    obtain ⟨d', ds', dsU, mods, he, h1, h2, h3, h4, hreg⟩ := construct_parts env k s _ hk fun d hd => (h.fine d hd).1
    injection he with e1 e2
    subst e1; subst e2
    refine ⟨dsU, mods, h1, ?_, h4, hreg⟩
    intro x hx
    obtain ⟨u, hu⟩ := h2 x hx
    refine ⟨⟨k, u, hu⟩, fun e he => h.fine e (Has.inside d ds x e hx he), ?_⟩
    obtain ⟨s, hs⟩ := h.text
    rw [Tree.uniqueString] at hs
    obtain ⟨m, _, hs⟩ := Option.bind_eq_some_iff.1 hs
    obtain ⟨t0, ts0, hds⟩ := List.exists_cons_of_ne_nil (List.ne_nil_of_mem hx)
    have hs' : (uniqueStrings ds).map (fun ss => d.props.name ++ m ++ ['{'] ++ [','].intercalate ss ++ ['}']) = some s := by rw [hds] at hs ⊢; exact hs
    obtain ⟨ss, hss, _⟩ := Option.map_eq_some_iff.1 hs'
    rw [uniqueStrings_eq] at hss
    obtain ⟨l, r, rfl⟩ := List.append_of_mem hx
    obtain ⟨r1, r2, _, h6, _⟩ := mapM_append_some hss
    obtain ⟨b, _, h7, _, _⟩ := mapM_cons_some.1 h6
    exact ⟨b, h7⟩

theorem alike_norm {env : Env K} (he : Unambiguous env) (t : Tree K) : Good env t → Alike t t.norm := by
  induction t using Tree.ind with
  | h d ds ih =>
    intro h
    obtain ⟨dsU, mods, h1, h2, h4, hreg⟩ := h.parts
    have hd := printed_of_lookup he h4 (h.fine d (Has.here _ _)).2
    rw [norm_node]
    have hag : Agree d ((printedModifiers d).getD []) := by
      obtain ⟨s, hs⟩ := h.text
      rw [Tree.uniqueString] at hs
      obtain ⟨m, hm, hs⟩ := Option.bind_eq_some_iff.1 hs
      cases hp : printedModifiers d with
      | none =>
        have : modifierString d = none := by unfold modifierString; rw [hp]; rfl
        rw [this] at hm
        simp at hm
      | some ps =>
        obtain ⟨_, _, _, k4, k5⟩ := reparse_spec hd hp
        refine ⟨fun s hs => k4 _ ?_, k5⟩
        simp only [List.mem_cons, List.not_mem_nil, or_false] at hs
        rcases hs with rfl | rfl | rfl <;> decide
    exact alike_mk hag (List.forall₂_map_right_iff.2 (List.forall₂_same.2 fun x hx => ih x hx (h2 x hx))) (List.Perm.refl _)

theorem alike_has {u t : Tree K} (h : Alike u t) (e : Data K) (he : Has t e) : ∃ e0, Has u e0 ∧ SameHead e0 e := by
  obtain ⟨l, h1, h2⟩ := alike_nodes u h
  obtain ⟨x, hx, hxe⟩ := forall₂_right h1 e (h2.mem_iff.2 (has_nodes t e he))
  exact ⟨x, nodes_has u x hx, hxe⟩

theorem writable_printed {env : Env K} {d : Data K} (h : Printed env d) {ps : List Str} (hp : printedModifiers d = some ps) : Writable env { d with modifiers := ps } := by
  obtain ⟨_, h2, _, _, h5⟩ := reparse_spec h hp
  refine ⟨fun m hm => (h2 m hm).1, ?_, h.writable.vertex⟩
  intro m hm he
  have : m ∈ d.modifiers := by
    have h6 : m ∈ ps.filter fun m => decide ('=' ∈ m) := List.mem_filter.2 ⟨hm, by simp [he]⟩
    rw [h5] at h6
    exact (List.mem_filter.1 h6).1
  exact h.writable.settings m this he

theorem Good.norm {env : Env K} (he : Unambiguous env) (t : Tree K) : Good env t → Good env t.norm := by
  intro h
  obtain ⟨k, s, hk⟩ := h.reads
  obtain ⟨r, hr⟩ := h.text
  have hpr := construct_printed env he k s t hk h.fine
  refine ⟨⟨k, r, (construct_print env he k s t r hk h.fine hr).1⟩, ?_, ⟨r, uniqueString_norm env t r hpr hr⟩⟩
  have key : ∀ t : Tree K, (∀ d, Has t d → Printed env d ∧ Consistent env.db d.name) → (∃ s, t.uniqueString = some s) → ∀ e, Has t.norm e → Consistent env.db e.name ∧ Writable env e := by
    intro t
    induction t using Tree.ind with
    | h d ds ih =>
      intro hd ⟨s, hs⟩ e he
      rw [norm_node] at he
      rw [Tree.uniqueString] at hs
      obtain ⟨m, hm, hs⟩ := Option.bind_eq_some_iff.1 hs
      cases he with
      | here =>
        refine ⟨(hd d (Has.here _ _)).2, ?_⟩
        cases hp : printedModifiers d with
        | none =>
          have : modifierString d = none := by unfold modifierString; rw [hp]; rfl
          rw [this] at hm
          simp at hm
        | some ps => exact writable_printed (hd d (Has.here _ _)).1 hp
      | inside _ _ y _ hy he =>
        obtain ⟨x, hx, rfl⟩ := List.mem_map.1 hy
        refine ih x hx (fun d' hd' => hd d' (Has.inside _ _ x d' hx hd')) ?_ e he
        obtain ⟨t0, ts0, hds⟩ := List.exists_cons_of_ne_nil (List.ne_nil_of_mem hx)
        have hs' : (uniqueStrings ds).map (fun ss => d.props.name ++ m ++ ['{'] ++ [','].intercalate ss ++ ['}']) = some s := by rw [hds] at hs ⊢; exact hs
        obtain ⟨ss, hss, _⟩ := Option.map_eq_some_iff.1 hs'
        rw [uniqueStrings_eq] at hss
        obtain ⟨l, r, rfl⟩ := List.append_of_mem hx
        obtain ⟨r1, r2, _, h6, _⟩ := mapM_append_some hss
        obtain ⟨b, _, h7, _, _⟩ := mapM_cons_some.1 h6
        exact ⟨b, h7⟩
  exact key t (fun d hd => ⟨hpr d hd, (h.fine d hd).1⟩) ⟨r, hr⟩

end AmpGen.Particle.Rules
