import Verif.Particle.LemmasPrint
/-
The round trip of descriptors.
-/
namespace AmpGen.Particle
open AmpGen.Strings AmpGen.PDG AmpGen.PDG.Spec AmpGen.Particle.Spec

variable {K : Type} [Field K] [LinearOrder K]

/-! ### The tree with only the modifiers that are printed -/

mutual
/-- The tree with the modifiers that are printed. -/
def Tree.norm : Tree K → Tree K
  | .node d ds => .node { d with modifiers := (printedModifiers d).getD [] } (normList ds)
/-- The same for the daughters. -/
def normList : List (Tree K) → List (Tree K)
  | [] => []
  | t :: ts => t.norm :: normList ts
end

theorem normList_eq : ∀ (ds : List (Tree K)), normList ds = ds.map Tree.norm
  | [] => by rw [normList]; rfl
  | t :: ts => by rw [normList, normList_eq ts]; rfl

theorem norm_node (d : Data K) (ds : List (Tree K)) : (Tree.node d ds).norm = .node { d with modifiers := (printedModifiers d).getD [] } (ds.map Tree.norm) := by
  rw [Tree.norm, normList_eq]

theorem norm_fields (t : Tree K) : t.norm.data.props = t.data.props ∧ t.norm.data.index = t.data.index ∧ t.norm.isStable = t.isStable ∧ t.norm.data.parity = t.data.parity := by
  cases t with
  | node d ds =>
    rw [norm_node]
    refine ⟨rfl, rfl, ?_, rfl⟩
    cases ds <;> rfl

theorem lt_norm (a b : Tree K) : a.norm.lt b.norm = a.lt b := by
  unfold Tree.lt
  simp only [(norm_fields a).1, (norm_fields a).2.1, (norm_fields a).2.2.1, (norm_fields b).1, (norm_fields b).2.1, (norm_fields b).2.2.1]

theorem sort_norm (l : List (Tree K)) : sortTrees (l.map Tree.norm) = (sortTrees l).map Tree.norm := by
  unfold sortTrees
  refine (List.map_insertionSort _ _ _ _ ?_).symm
  intro a _ b _
  unfold Tree.le
  rw [lt_norm]

mutual
theorem conjThis_norm (env : Env K) : ∀ (t : Tree K), env.conjThis t.norm = (env.conjThis t).map Tree.norm
  | .node d ds => by
    rw [Tree.norm, Env.conjThis, Env.conjThis, conjThisList_norm env ds]
    cases h : env.antiProps d.props with
    | none => rfl
    | some q =>
      simp only [Option.bind_some]
      cases env.conjThisList ds with
      | none => rfl
      | some l =>
        simp only [Option.map_some, Option.some.injEq]
        rw [Tree.norm]
        rfl
theorem conjThisList_norm (env : Env K) : ∀ (ds : List (Tree K)), env.conjThisList (normList ds) = (env.conjThisList ds).map normList
  | [] => by rw [normList, Env.conjThisList, Option.map_some, normList]
  | t :: ts => by
    rw [normList, Env.conjThisList, Env.conjThisList, conjThis_norm env t, conjThisList_norm env ts]
    cases env.conjThis t with
    | none => rfl
    | some a =>
      simp only [Option.bind_some, Option.map_some]
      cases env.conjThisList ts with
      | none => rfl
      | some l => simp only [Option.map_some, Option.some.injEq]; rw [normList]
end

theorem node_norm (t : Tree K) : Tree.node t.norm.data (sortTrees t.norm.daughters) = (Tree.node t.data (sortTrees t.daughters)).norm := by
  cases t with
  | node d ds =>
    rw [norm_node]
    simp only [Tree.data, Tree.daughters]
    rw [sort_norm, norm_node]

theorem sortDaughters_norm (env : Env K) (t : Tree K) : env.sortDaughters t.norm = (env.sortDaughters t).map Tree.norm := by
  unfold Env.sortDaughters
  rw [(norm_fields t).1]
  split
  · rw [conjThis_norm]
    cases env.conjThis t with
    | none => rfl
    | some a =>
      simp only [Option.bind_some, Option.map_some]
      rw [node_norm, conjThis_norm]
  · rw [node_norm]; rfl

mutual
theorem quarks_norm : ∀ (t : Tree K), t.norm.quarks = t.quarks
  | .node d ds => by rw [Tree.norm, Tree.quarks, Tree.quarks, quarksList_norm ds]
theorem quarksList_norm : ∀ (ds : List (Tree K)), quarksList (normList ds) = quarksList ds
  | [] => by rw [normList]
  | t :: ts => by rw [normList, quarksList, quarksList, quarks_norm t, quarksList_norm ts]
end

theorem isStrong_norm (name : Str) (props : Props K) (ds : List (Tree K)) : isStrong name props (ds.map Tree.norm) = isStrong name props ds := by
  unfold isStrong
  rw [← normList_eq, quarksList_norm]

theorem minOrbital_norm (S : Nat) (parity : Int) (b : Bool) (ds : List (Tree K)) : minOrbital S parity b (ds.map Tree.norm) = minOrbital S parity b ds := by
  match ds with
  | [] => rfl
  | [_] => rfl
  | [x, y] =>
    simp only [List.map_cons, List.map_nil, minOrbital, (norm_fields x).1, (norm_fields x).2.2.2, (norm_fields y).1, (norm_fields y).2.2.2]
  | _ :: _ :: _ :: _ => rfl

theorem uniqueStrings_eq : ∀ (ds : List (Tree K)), uniqueStrings ds = ds.mapM Tree.uniqueString
  | [] => by rw [uniqueStrings]; rfl
  | t :: ts => by
    rw [uniqueStrings, uniqueStrings_eq ts, List.mapM_cons]
    cases t.uniqueString with
    | none => rfl
    | some a => cases List.mapM Tree.uniqueString ts <;> rfl

theorem modifierString_mods (d : Data K) (ps : List Str) (h : printedModifiers { d with modifiers := ps } = printedModifiers d) : modifierString { d with modifiers := ps } = modifierString d := by
  unfold modifierString
  rw [h]

mutual
theorem uniqueString_norm (env : Env K) : ∀ (t : Tree K) (r : Str), (∀ d, Has t d → Printed env d) → t.uniqueString = some r → t.norm.uniqueString = some r
  | .node d ds, r, h, hr => by
    have hd := h d (Has.here d ds)
    have hnl : ∀ ss, uniqueStrings ds = some ss → uniqueStrings (normList ds) = some ss := fun ss => uniqueStrings_norm env ds ss fun t ht e he => h e (Has.inside d ds t e ht he)
    rw [Tree.norm]
    rw [Tree.uniqueString] at hr ⊢
    cases hp : printedModifiers d with
    | none =>
      have : modifierString d = none := by unfold modifierString; rw [hp]; rfl
      rw [this] at hr
      simp at hr
    | some ps =>
      rw [Option.getD_some, modifierString_mods d ps ((reparse_spec hd hp).2.2.1.trans hp.symm)]
      cases hm : modifierString d with
      | none => rw [hm] at hr; simp at hr
      | some m =>
        rw [hm] at hr
        simp only [Option.bind_some] at hr ⊢
        cases ds with
        | nil => rw [normList]; exact hr
        | cons t ts =>
          simp only at hr
          obtain ⟨ss, hss, rfl⟩ := Option.map_eq_some_iff.1 hr
          have := hnl ss hss
          rw [normList] at this ⊢
          simp only
          rw [this]
          rfl
theorem uniqueStrings_norm (env : Env K) : ∀ (ds : List (Tree K)) (ss : List Str), (∀ t ∈ ds, ∀ d, Has t d → Printed env d) → uniqueStrings ds = some ss → uniqueStrings (normList ds) = some ss
  | [], ss, _, h => by rw [normList]; exact h
  | t :: ts, ss, hd, h => by
    rw [uniqueStrings] at h
    obtain ⟨r, hr, h2⟩ := Option.bind_eq_some_iff.1 h
    obtain ⟨rs, hrs, rfl⟩ := Option.map_eq_some_iff.1 h2
    rw [normList, uniqueStrings, uniqueString_norm env t r (hd t List.mem_cons_self) hr, Option.bind_some,
      uniqueStrings_norm env ts rs (fun t ht => hd t (List.mem_cons_of_mem _ ht)) hrs]
    rfl
end

mutual
theorem same_norm (env : Env K) : ∀ (t : Tree K), (∀ d, Has t d → Printed env d) → (∃ r, t.uniqueString = some r) → Same t t.norm
  | .node d ds, h, hr => by
    have hd := h d (Has.here d ds)
    obtain ⟨r, hr⟩ := hr
    rw [Tree.uniqueString] at hr
    cases hp : printedModifiers d with
    | none =>
      have : modifierString d = none := by unfold modifierString; rw [hp]; rfl
      rw [this] at hr
      simp at hr
    | some ps =>
      obtain ⟨_, _, _, h4, h5⟩ := reparse_spec hd hp
      have hsub : ∃ ss, uniqueStrings ds = some ss := by
        obtain ⟨m, _, h2⟩ := Option.bind_eq_some_iff.1 hr
        cases ds with
        | nil => exact ⟨[], by rw [uniqueStrings]⟩
        | cons t ts =>
          simp only at h2
          obtain ⟨ss, hss, _⟩ := Option.map_eq_some_iff.1 h2
          exact ⟨ss, hss⟩
      rw [Tree.norm, hp, Option.getD_some]
      obtain ⟨g1, g2⟩ := same_normList env ds (fun t ht e he => h e (Has.inside d ds t e ht he)) hsub
      refine Same.node d ps ds _ ?_ h5 g1 g2
      intro s hs
      refine h4 _ ?_
      simp only [List.mem_cons, List.not_mem_nil, or_false] at hs
      rcases hs with rfl | rfl | rfl <;> decide
theorem same_normList (env : Env K) : ∀ (ds : List (Tree K)), (∀ t ∈ ds, ∀ d, Has t d → Printed env d) → (∃ ss, uniqueStrings ds = some ss) →
    ds.length = (normList ds).length ∧ ∀ (i : Nat) (t t' : Tree K), ds[i]? = some t → (normList ds)[i]? = some t' → Same t t'
  | [], _, _ => by
    rw [normList]
    exact ⟨rfl, fun i t t' h _ => by simp at h⟩
  | t :: ts, hd, h => by
    obtain ⟨ss, h⟩ := h
    rw [uniqueStrings] at h
    obtain ⟨r, hr, h2⟩ := Option.bind_eq_some_iff.1 h
    obtain ⟨rs, hrs, rfl⟩ := Option.map_eq_some_iff.1 h2
    obtain ⟨g1, g2⟩ := same_normList env ts (fun t ht => hd t (List.mem_cons_of_mem _ ht)) ⟨rs, hrs⟩
    have g0 := same_norm env t (hd t List.mem_cons_self) ⟨r, hr⟩
    rw [normList]
    refine ⟨by simp [g1], ?_⟩
    intro i a b ha hb
    cases i with
    | zero =>
      obtain rfl := Option.some.inj ha
      obtain rfl := Option.some.inj hb
      exact g0
    | succ i => exact g2 i a b (by simpa using ha) (by simpa using hb)
end

/-! ### Construction -/

theorem head_spec {env : Env K} {item : Str} {d0 : Data K} (h : env.head item = some d0) :
    ∃ name mods props, env.db.find name = some props ∧ d0 = rawData name props (mods.foldl env.parseModifier Parsed.initial) mods := by
  unfold Env.head at h
  simp only [Option.bind_eq_bind, Option.bind_eq_some_iff] at h
  obtain ⟨mods, _, name, _, props, h3, h4⟩ := h
  exact ⟨name, mods.tail, props, h3, (Option.some.inj h4).symm⟩

theorem construct_spec {env : Env K} {n : Nat} {s : Str} {t : Tree K} : env.construct (n + 1) s = some t ↔
    ∃ items item d0 ds d, getItems s '{' '}' ',' = some items ∧ items.head? = some item ∧ env.head item = some d0 ∧ items.tail.mapM (env.construct n) = some ds ∧
      env.pdgLookup d0 ds = some d ∧ env.sortDaughters (.node d ds) = some t := by
  rw [Env.construct]
  simp only [Option.bind_eq_bind, Option.bind_eq_some_iff]
  constructor
  · rintro ⟨items, h1, item, h2, d0, h3, ds, h4, d, h5, h6⟩
    exact ⟨items, item, d0, ds, d, h1, h2, h3, h4, h5, h6⟩
  · rintro ⟨items, item, d0, ds, d, h1, h2, h3, h4, h5, h6⟩
    exact ⟨items, h1, item, h2, d0, h3, ds, h4, d, h5, h6⟩

mutual
theorem conjThis_names (env : Env K) : ∀ (t t' : Tree K), env.conjThis t = some t' → ∀ e, Has t e → ∃ e', Has t' e' ∧ e'.name = e.name
  | .node d ds, t', h, e, he => by
    rw [Env.conjThis] at h
    obtain ⟨q, _, h2⟩ := Option.bind_eq_some_iff.1 h
    obtain ⟨l, hl, rfl⟩ := Option.map_eq_some_iff.1 h2
    cases he with
    | here => exact ⟨_, Has.here _ _, rfl⟩
    | inside _ _ t _ ht he =>
      obtain ⟨u, hu, e', h3, h4⟩ := conjThisList_names env ds l hl t ht e he
      exact ⟨e', Has.inside _ _ u e' hu h3, h4⟩
theorem conjThisList_names (env : Env K) : ∀ (ds l : List (Tree K)), env.conjThisList ds = some l → ∀ t ∈ ds, ∀ e, Has t e → ∃ u ∈ l, ∃ e', Has u e' ∧ e'.name = e.name
  | [], _, _, t, ht, _, _ => by simp at ht
  | a :: as, l, h, t, ht, e, he => by
    rw [Env.conjThisList] at h
    obtain ⟨b, hb, h2⟩ := Option.bind_eq_some_iff.1 h
    obtain ⟨bs, hbs, rfl⟩ := Option.map_eq_some_iff.1 h2
    rcases List.mem_cons.1 ht with hta | ht
    · obtain ⟨e', h3, h4⟩ := conjThis_names env a b hb e (hta ▸ he)
      exact ⟨b, List.mem_cons_self, e', h3, h4⟩
    · obtain ⟨u, hu, h3⟩ := conjThisList_names env as bs hbs t ht e he
      exact ⟨u, List.mem_cons_of_mem _ hu, h3⟩
end

theorem sort_has (t : Tree K) (e : Data K) (h : Has t e) : Has (.node t.data (sortTrees t.daughters)) e := by
  cases h with
  | here d ds => exact Has.here _ _
  | inside d ds t _ ht he => exact Has.inside _ _ t e ((sort_perm ds).mem_iff.2 ht) he

theorem sortDaughters_names (env : Env K) (t t' : Tree K) (h : env.sortDaughters t = some t') (e : Data K) (he : Has t e) : ∃ e', Has t' e' ∧ e'.name = e.name := by
  unfold Env.sortDaughters at h
  split at h
  · obtain ⟨t1, h1, h2⟩ := Option.bind_eq_some_iff.1 h
    obtain ⟨e1, g1, g2⟩ := conjThis_names env t t1 h1 e he
    obtain ⟨e2, g3, g4⟩ := conjThis_names env _ t' h2 e1 (sort_has t1 e1 g1)
    exact ⟨e2, g3, g4.trans g2⟩
  · obtain rfl := Option.some.inj h
    exact ⟨e, sort_has t e he, rfl⟩

theorem pdgLookup_same {env : Env K} {d0 d : Data K} {ds : List (Tree K)} (h : env.pdgLookup d0 ds = some d) : d.name = d0.name ∧ d.props = d0.props := by
  unfold Env.pdgLookup at h
  simp only [Option.bind_eq_bind, Option.bind_eq_some_iff] at h
  obtain ⟨b, _, h2⟩ := h
  obtain rfl := Option.some.inj h2
  exact ⟨rfl, rfl⟩

/-- Trees that are constructed have the properties of the database, if it is consistent for them. -/
theorem construct_regular (env : Env K) : ∀ (n : Nat) (s : Str) (t : Tree K), env.construct n s = some t → (∀ d, Has t d → Consistent env.db d.name) → Regular env t
  | 0, _, _, h, _ => by simp [Env.construct] at h
  | n + 1, s, t, h, hc => by
    obtain ⟨items, item, d0, ds, d, _, _, h3, h4, h5, h6⟩ := construct_spec.1 h
    obtain ⟨name, mods, props, hf, rfl⟩ := head_spec h3
    have hcons : ∀ e, Has (.node d ds) e → Consistent env.db e.name := by
      intro e he
      obtain ⟨e', g1, g2⟩ := sortDaughters_names env _ _ h6 e he
      rw [← g2]; exact hc e' g1
    have hreg : Regular env (.node d ds) := by
      intro e he
      refine ⟨hcons e he, ?_⟩
      cases he with
      | here =>
        rw [(pdgLookup_same h5).1, (pdgLookup_same h5).2]
        exact hf
      | inside _ _ t _ ht he =>
        obtain ⟨u, _, hu⟩ := mapM_mem h4 t ht
        exact (construct_regular env n u t hu (fun e he => hcons e (Has.inside d ds t e ht he)) e he).2
    obtain ⟨ds', g1, g2, _⟩ := sortDaughters_spec env d ds hreg.invertible
    rw [g1] at h6
    obtain rfl := Option.some.inj h6
    exact hreg.of_perm g2

/-- The parts of a tree that is constructed. -/
theorem construct_parts (env : Env K) (n : Nat) (s : Str) (t : Tree K) (h : env.construct (n + 1) s = some t) (hc : ∀ d, Has t d → Consistent env.db d.name) :
    ∃ d ds dsU mods, t = .node d ds ∧ ds.Perm dsU ∧ (∀ x ∈ ds, ∃ u, env.construct n u = some x) ∧ env.sortDaughters (.node d ds) = some (.node d ds) ∧
      env.pdgLookup (rawData d.name d.props (mods.foldl env.parseModifier Parsed.initial) mods) dsU = some d ∧ Regular env (.node d ds) := by
  have hregt := construct_regular env (n + 1) s t h hc
  obtain ⟨items, item, d0, dsU, d, _, _, h3, h4, h5, h6⟩ := construct_spec.1 h
  obtain ⟨name, mods, props, hf, rfl⟩ := head_spec h3
  have hcons : ∀ e, Has (.node d dsU) e → Consistent env.db e.name := by
    intro e he
    obtain ⟨e', g1, g2⟩ := sortDaughters_names env _ _ h6 e he
    rw [← g2]; exact hc e' g1
  obtain ⟨e1, e2⟩ := pdgLookup_same h5
  have hreg : Regular env (.node d dsU) := by
    intro e he
    refine ⟨hcons e he, ?_⟩
    cases he with
    | here => rw [e1, e2]; exact hf
    | inside _ _ t _ ht he =>
      obtain ⟨u, _, hu⟩ := mapM_mem h4 t ht
      exact (construct_regular env n u t hu (fun e he => hcons e (Has.inside d dsU t e ht he)) e he).2
  obtain ⟨ds', g1, g2, g3⟩ := sortDaughters_spec env d dsU hreg.invertible
  rw [g1] at h6
  obtain rfl := Option.some.inj h6
  refine ⟨d, ds', dsU, mods, rfl, g2, ?_, g3, ?_, hregt⟩
  · intro x hx
    obtain ⟨u, _, hu⟩ := mapM_mem h4 x (g2.mem_iff.1 hx)
    exact ⟨u, hu⟩
  · rw [e1, e2]; exact h5

theorem construct_printed (env : Env K) (he : Unambiguous env) : ∀ (n : Nat) (s : Str) (t : Tree K), env.construct n s = some t → (∀ d, Has t d → Consistent env.db d.name ∧ Writable env d) →
    ∀ d, Has t d → Printed env d
  | 0, _, _, h, _, _, _ => by simp [Env.construct] at h
  | n + 1, s, t, h, hc, e, hhas => by
    obtain ⟨d, ds, dsU, mods, rfl, h1, h2, _, h4, _⟩ := construct_parts env n s t h fun d hd => (hc d hd).1
    cases hhas with
    | here => exact printed_of_lookup he h4 (hc _ (Has.here _ _)).2
    | inside _ _ x _ hx hex =>
      obtain ⟨u, hu⟩ := h2 x hx
      exact construct_printed env he n u x hu (fun d' hd' => hc d' (Has.inside _ _ x d' hx hd')) e hex

theorem mapM_map_some {α β γ : Type} {f : α → Option β} {g : β → Option γ} {k : α → γ} : ∀ {l : List α} {r : List β}, l.mapM f = some r → (∀ x ∈ l, ∀ y, f x = some y → g y = some (k x)) →
    r.mapM g = some (l.map k)
  | [], r, h, _ => by
    rw [List.mapM_nil] at h
    obtain rfl := Option.some.inj h
    rfl
  | a :: l, r, h, hg => by
    obtain ⟨b, bs, h1, h2, rfl⟩ := mapM_cons_some.1 h
    exact mapM_cons_some.2 ⟨k a, l.map k, hg a List.mem_cons_self b h1, mapM_map_some h2 fun x hx => hg x (List.mem_cons_of_mem _ hx), rfl⟩

/-- Printing and constructing again. -/
theorem construct_print (env : Env K) (he : Unambiguous env) : ∀ (n : Nat) (s : Str) (t : Tree K) (r : Str), env.construct n s = some t → (∀ d, Has t d → Consistent env.db d.name ∧ Writable env d) →
    t.uniqueString = some r → env.construct n r = some t.norm ∧ Shape '{' '}' ',' r
  | 0, _, _, _, h, _, _ => by simp [Env.construct] at h
  | n + 1, s, t, r, h, hc, hr => by
    have hprinted := construct_printed env he (n + 1) s t h hc
    obtain ⟨d, ds, dsU, mods, rfl, h1, h2, h3, h4, hreg⟩ := construct_parts env n s t h fun d hd => (hc d hd).1
    have hd := hprinted d (Has.here _ _)
    obtain ⟨⟨p, q1, q2, q3, _⟩, hfind⟩ := hreg d (Has.here _ _)
    rw [hfind] at q1
    obtain rfl := Option.some.inj q1
    rw [Tree.uniqueString] at hr
    obtain ⟨m, hm, hr⟩ := Option.bind_eq_some_iff.1 hr
    cases hp : printedModifiers d with
    | none =>
      have : modifierString d = none := by unfold modifierString; rw [hp]; rfl
      rw [this] at hm
      simp at hm
    | some ps =>
      obtain ⟨m', hm', _, hnone, hhead⟩ := head_print hd q3 hfind hp
      rw [hm] at hm'
      obtain rfl := Option.some.inj hm'
      have hlook : env.pdgLookup (rawData d.name d.props (reparsed d) ps) (ds.map Tree.norm) = some { d with modifiers := ps } := by
        refine lookup_reparsed h4 ?_ ?_
        · rw [isStrong_norm]
          obtain ⟨b, b1, b2⟩ := isStrong_perm env d.name d.props (fun x hx => hreg.daughter hx) h1
          rw [b1, b2]
        · intro b
          rw [minOrbital_norm]
          exact minOrbital_perm _ _ _ h1
      have hsort : env.sortDaughters (.node { d with modifiers := ps } (ds.map Tree.norm)) = some (Tree.node d ds).norm := by
        have := sortDaughters_norm env (.node d ds)
        rw [h3, Option.map_some] at this
        rw [← this, norm_node, hp]
        rfl
      have ih : ∀ x ∈ ds, ∀ y, x.uniqueString = some y → env.construct n y = some x.norm ∧ Shape '{' '}' ',' y := by
        intro x hx y hy
        obtain ⟨u, hu⟩ := h2 x hx
        exact construct_print env he n u x y hu (fun d' hd' => hc d' (Has.inside _ _ x d' hx hd')) hy
      cases hds : ds with
      | nil =>
        rw [hds] at hr
        simp only at hr
        obtain rfl := Option.some.inj hr
        rw [q2]
        refine ⟨?_, Shape.atom _ hnone⟩
        refine construct_spec.2 ⟨[d.name ++ m], d.name ++ m, _, [], { d with modifiers := ps }, ?_, rfl, hhead, rfl, ?_, ?_⟩
        · exact getItems_atom _ (fun hx => hnone _ hx (by simp)) (fun hx => hnone _ hx (by simp))
        · rw [hds] at hlook; exact hlook
        · rw [hds] at hsort; exact hsort
      | cons t0 ts0 =>
        have hr' : (uniqueStrings ds).map (fun ss => d.props.name ++ m ++ ['{'] ++ [','].intercalate ss ++ ['}']) = some r := by rw [hds] at hr ⊢; exact hr
        obtain ⟨ss, hss, rfl⟩ := Option.map_eq_some_iff.1 hr'
        rw [uniqueStrings_eq] at hss
        have hne : ss ≠ [] := by
          rintro rfl
          rw [hds] at hss
          obtain ⟨_, _, _, _, h5⟩ := mapM_cons_some.1 hss
          simp at h5
        have hshape : ∀ i ∈ ss, Shape '{' '}' ',' i := by
          intro i hi
          obtain ⟨x, hx, hxi⟩ := mapM_mem hss i hi
          exact (ih x hx i hxi).2
        have hstr : d.props.name ++ m ++ ['{'] ++ [','].intercalate ss ++ ['}'] = (d.name ++ m) ++ '{' :: ([','].intercalate ss ++ ['}']) := by rw [q2]; simp
        rw [hstr, ← hds]
        refine ⟨?_, Shape.node _ ss hnone hne hshape⟩
        refine construct_spec.2 ⟨(d.name ++ m) :: ss, d.name ++ m, _, ds.map Tree.norm, _, getItems_node (by decide) (by decide) (by decide) _ ss hnone hne hshape, rfl, hhead, ?_, hlook, hsort⟩
        exact mapM_map_some hss fun x hx y hy => (ih x hx y hy).1

/-! ### Depth -/

theorem construct_mono (env : Env K) : ∀ (n : Nat) (s : Str) (t : Tree K), env.construct n s = some t → env.construct (n + 1) s = some t
  | 0, _, _, h => by simp [Env.construct] at h
  | n + 1, s, t, h => by
    obtain ⟨items, item, d0, ds, d, h1, h2, h3, h4, h5, h6⟩ := construct_spec.1 h
    refine construct_spec.2 ⟨items, item, d0, ds, d, h1, h2, h3, ?_, h5, h6⟩
    have key : ∀ (l : List Str) (r : List (Tree K)), l.mapM (env.construct n) = some r → l.mapM (env.construct (n + 1)) = some r := by
      intro l
      induction l with
      | nil => intro r hr; exact hr
      | cons a l ih =>
        intro r hr
        obtain ⟨b, bs, g1, g2, rfl⟩ := mapM_cons_some.1 hr
        exact mapM_cons_some.2 ⟨b, bs, construct_mono env n a b g1, ih bs g2, rfl⟩
    exact key _ _ h4

theorem construct_mono_le (env : Env K) {n m : Nat} (hnm : n ≤ m) (s : Str) (t : Tree K) (h : env.construct n s = some t) : env.construct m s = some t := by
  induction hnm with
  | refl => exact h
  | step _ ih => exact construct_mono env _ s t ih

theorem splitLoop_short (tree : Str) (inner : List (Nat × Nat)) : ∀ (cs : List Nat) (b : Nat) (acc : List Str), 1 ≤ b →
    1 ≤ (splitLoop tree inner cs b acc).2 ∧ ∃ more, (splitLoop tree inner cs b acc).1 = acc ++ more ∧ ∀ x ∈ more, x.length ≤ tree.length - 1
  | [], b, acc, hb => ⟨hb, [], by simp [splitLoop], by simp⟩
  | c :: cs, b, acc, hb => by
    rw [splitLoop]
    split
    · exact splitLoop_short tree inner cs b acc hb
    · obtain ⟨h1, more, h2, h3⟩ := splitLoop_short tree inner cs (c + 1) (acc ++ [substr tree b c]) (by omega)
      refine ⟨h1, substr tree b c :: more, by rw [h2]; simp, ?_⟩
      intro x hx
      rcases List.mem_cons.1 hx with rfl | hx
      · unfold substr
        split
        · rw [List.length_drop]; omega
        · rw [List.length_take, List.length_drop]; omega
      · exact h3 x hx

theorem getItems_short {s : Str} {o c sep : Char} {items : List Str} (h : getItems s o c sep = some items) : ∀ x ∈ items.tail, x.length < s.length := by
  unfold getItems at h
  simp only at h
  split at h
  · obtain rfl := Option.some.inj h
    simp
  · split at h
    · obtain rfl := Option.some.inj h
      simp
    · rename_i first rest hb
      have hpos : 0 < s.length := by
        cases s with
        | nil => simp [bracesFrom] at hb
        | cons => simp
      split at h
      · simp at h
      · rename_i outer inner _
        obtain rfl := Option.some.inj h
        obtain ⟨h1, more, h2, h3⟩ := splitLoop_short s inner (positionsFrom sep s 0) (outer.1 + 1) [s.take first.1] (by omega)
        intro x hx
        rw [h2] at hx
        simp only [List.cons_append, List.nil_append, List.tail_cons, List.mem_append, List.mem_cons, List.not_mem_nil, or_false] at hx
        rcases hx with hx | rfl
        · have := h3 x hx; omega
        · unfold substr
          split
          · rw [List.length_drop]; omega
          · rw [List.length_take, List.length_drop]; omega

/-- The depth that is given suffices. -/
theorem construct_depth (env : Env K) : ∀ (n : Nat) (s : Str), s.length < n → env.construct n s = env.construct (n + 1) s
  | 0, _, h => by omega
  | n + 1, s, h => by
    rw [Env.construct]
    conv => rhs; rw [Env.construct]
    cases hi : getItems s '{' '}' ',' with
    | none => rfl
    | some items =>
      have key : ∀ (l : List Str), (∀ x ∈ l, x.length < n) → l.mapM (env.construct n) = l.mapM (env.construct (n + 1)) := by
        intro l
        induction l with
        | nil => intro _; rfl
        | cons a l ih =>
          intro hl
          rw [List.mapM_cons, List.mapM_cons, construct_depth env n a (hl a List.mem_cons_self), ih fun x hx => hl x (List.mem_cons_of_mem _ hx)]
      have hl := getItems_short hi
      simp only [Option.bind_eq_bind, Option.bind_some]
      rw [key items.tail fun x hx => by have := hl x hx; omega]

end AmpGen.Particle
