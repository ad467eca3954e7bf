import Verif.Rules.LemmasPut
/-
One step of the expansion.
-/
namespace AmpGen.Particle.Rules
open AmpGen.Strings AmpGen.PDG AmpGen.PDG.Spec AmpGen.Particle AmpGen.Particle.Spec AmpGen.Particle.Rules.Spec

variable {K : Type} [Field K] [LinearOrder K] {V : Type}

theorem Good.regular {env : Env K} {t : Tree K} (h : Good env t) : Regular env t := by
  cases t with
  | node d ds => obtain ⟨_, _, _, _, _, hreg⟩ := h.parts; exact hreg

theorem Good.names {env : Env K} {t : Tree K} (h : Good env t) : ∀ d, Has t d → d.props.name = d.name := by
  intro d hd
  obtain ⟨⟨p, q1, q2, _⟩, hf⟩ := h.regular d hd
  rw [hf] at q1
  obtain rfl := Option.some.inj q1
  exact q2

theorem Good.parity {env : Env K} {d : Data K} {ds : List (Tree K)} (h : Good env (.node d ds)) : d.parity = d.props.parity := by
  obtain ⟨dsU, mods, _, _, h4, _⟩ := h.parts
  obtain ⟨b, _, hd⟩ := pdgLookup_eq h4
  exact congrArg Data.parity hd |>.trans rfl

theorem proper_good {env : Env K} {r : Rule K V} (h : Proper env r) : Good env r.particle := by
  refine ⟨⟨_, _, h.reads⟩, fun d hd => ⟨h.consistent d hd, (h.writable d hd).1⟩, ?_⟩
  have key : ∀ t : Tree K, (∀ d, Has t d → ∃ m, modifierString d = some m) → ∃ s, t.uniqueString = some s := by
    intro t
    induction t using Tree.ind with
    | h d ds ih =>
      intro hm
      obtain ⟨m, hm'⟩ := hm d (Has.here _ _)
      rw [Tree.uniqueString, hm', Option.bind_some]
      cases hds : ds with
      | nil => exact ⟨_, rfl⟩
      | cons t0 ts0 =>
        rw [← hds]
        have : ∃ ss, uniqueStrings ds = some ss := by
          rw [uniqueStrings_eq]
          have ih' : ∀ t ∈ ds, ∃ s, t.uniqueString = some s := fun t ht => ih t ht fun d' hd' => hm d' (Has.inside _ _ t d' ht hd')
          clear hds ih hm
          induction ds with
          | nil => exact ⟨[], rfl⟩
          | cons a l ih2 =>
            obtain ⟨s, hs⟩ := ih' a List.mem_cons_self
            obtain ⟨ss, hss⟩ := ih2 fun t ht => ih' t (List.mem_cons_of_mem _ ht)
            exact ⟨s :: ss, mapM_cons_some.2 ⟨s, ss, hs, hss, rfl⟩⟩
        obtain ⟨ss, hss⟩ := this
        refine ⟨_, by rw [hss, hds]; rfl⟩
  exact key _ fun d hd => (h.writable d hd).2

/-- The same particle, as far as what decays to it is concerned. -/
structure Like (t u : Tree K) : Prop where
  props : t.data.props = u.data.props
  parity : t.data.parity = u.data.parity
  quarks : SameQuarks t u

theorem like_norm {env : Env K} {t : Tree K} (h : Good env t) : Like t.norm t := by
  obtain ⟨q, h1, h2⟩ := quarks_some env t h.regular
  exact ⟨(norm_fields t).1, (norm_fields t).2.2.2, ⟨q, q, by rw [quarks_norm, h1], h1, h2, h2, fun _ => Iff.rfl⟩⟩

theorem construct_some {env : Env K} {k : Nat} {s : Str} {t : Tree K} (h : env.construct k s = some t) : env.ofDescriptor s = some t := by
  unfold Env.ofDescriptor
  by_cases hk : k ≤ s.length + 1
  · exact construct_mono_le env hk s t h
  · have key : ∀ j, env.construct (s.length + 1 + j) s = env.construct (s.length + 1) s := by
      intro j
      induction j with
      | zero => rfl
      | succ j ih => rw [← ih]; exact (construct_depth env (s.length + 1 + j) s (by omega)).symm
    have : k = s.length + 1 + (k - (s.length + 1)) := by omega
    rw [this, key] at h
    exact h

/-- The text of a tree with a rule in place of a particle, and the tree that is read from it. -/
theorem put_text {env : Env K} (he : Unambiguous env) {r : Rule K V} (hr : Proper env r) {t : Tree K} {f : Tree K → Tree K} (hc : Clean r.particle.data.name t f) : Good env t →
    ∃ a b t', t.uniqueString = some (a ++ (r.particle.data.name ++ b)) ∧ EndsOff r.particle.data.name a ∧ Off r.particle.data.name b ∧ ¬ r.particle.data.name <:+: a ∧ ¬ r.particle.data.name <:+: b ∧
      Shape '{' '}' ',' (a ++ (r.name ++ b)) ∧ (∃ N, env.construct N (a ++ (r.name ++ b)) = some t') ∧ Alike (f r.particle) t' ∧ (∀ d, Has t' d → Consistent env.db d.name ∧ Writable env d) ∧ Like t' t := by
  have hgr := proper_good hr
  have hplain : Plain r.particle.data.name := by
    cases hp : r.particle with
    | node e es =>
      obtain ⟨p, _, _, h3, _⟩ := hr.consistent e (by rw [hp]; exact Has.here _ _)
      exact h3
  have hne := hr.name
  generalize hn : r.particle.data.name = n at *
  have hb1 : '{' ∉ n := fun h => hplain _ h (by decide)
  have hb2 : '}' ∉ n := fun h => hplain _ h (by decide)
  have hb3 : ',' ∉ n := fun h => hplain _ h (by decide)
  induction hc with
  | here d hd hm =>
    intro hg
    have hdn := hg.names d (Has.here _ _)
    refine ⟨[], [], r.particle, ?_, Or.inl rfl, Or.inl rfl, fun h => hne (List.infix_nil.1 h), fun h => hne (List.infix_nil.1 h), by simpa using hr.shape, ⟨r.name.length + 1, by simpa [Env.ofDescriptor] using hr.reads⟩, alike_refl _, hgr.fine, ?_⟩
    · rw [Tree.uniqueString, hm, Option.bind_some]
      simp [hdn, hd]
    · cases hp : r.particle with
      | node e es =>
        rw [hp] at hgr hn
        have h1 := (hgr.regular e (Has.here _ _)).2
        have h2 := (hg.regular d (Has.here _ _)).2
        have hen : e.name = n := hn
        rw [hen] at h1
        rw [hd, h1] at h2
        have h2 := Option.some.inj h2
        have hnr : isNonRes n = false := by have := hr.resonant; rw [hp] at this; rw [← hen]; exact this
        obtain ⟨q, q1, q2⟩ := quarks_some env _ hg.regular
        refine ⟨h2, by rw [Tree.data, Tree.data, hgr.parity, hg.parity, h2], ⟨q, q, ?_, q1, q2, q2, fun _ => Iff.rfl⟩⟩
        rw [← q1, Tree.quarks, Tree.quarks, hen, hd, hnr, h2]
        simp
  | inside d l x r' f hmd hl hr' hcx ih =>
    intro hg
    obtain ⟨dsU, mods, h1, h2, h4, hreg⟩ := hg.parts
    have hd := printed_of_lookup he h4 (hg.fine d (Has.here _ _)).2
    have hgx := h2 x (by simp)
    obtain ⟨a, b, x', g1, g2, g3, g4, g5, g6, ⟨N, g7⟩, g8, g9, g10⟩ := ih hgx
    obtain ⟨⟨p, q1, q2, q3, q4, _⟩, hfind⟩ := hreg d (Has.here _ _)
    rw [hfind] at q1
    obtain rfl := Option.some.inj q1
    obtain ⟨s, hs⟩ := hg.text
    have hs0 := hs
    rw [Tree.uniqueString] at hs
    obtain ⟨m, hm, hs⟩ := Option.bind_eq_some_iff.1 hs
    obtain ⟨t0, ts0, hds⟩ := List.exists_cons_of_ne_nil (show l ++ x :: r' ≠ [] by simp)
    have hs' : (uniqueStrings (l ++ x :: r')).map (fun ss => d.props.name ++ m ++ ['{'] ++ [','].intercalate ss ++ ['}']) = some s := by rw [hds] at hs ⊢; exact hs
    obtain ⟨ss, hss, rfl⟩ := Option.map_eq_some_iff.1 hs'
    rw [uniqueStrings_eq] at hss
    obtain ⟨sl, sr0, k1, k2, rfl⟩ := mapM_append_some hss
    obtain ⟨sx, sr, k3, k4, rfl⟩ := mapM_cons_some.1 k2
    rw [g1] at k3
    obtain rfl := Option.some.inj k3
    cases hp : printedModifiers d with
    | none =>
      have : modifierString d = none := by unfold modifierString; rw [hp]; rfl
      rw [this] at hm
      simp at hm
    | some ps =>
      obtain ⟨m', hm', _, hnone, hhead⟩ := head_print hd q3 hfind hp
      rw [hm] at hm'
      obtain rfl := Option.some.inj hm'
      have hsl : ∀ y ∈ sl, ∃ z ∈ l, z.uniqueString = some y := fun y hy => mapM_mem k1 y hy
      have hsr : ∀ y ∈ sr, ∃ z ∈ r', z.uniqueString = some y := fun y hy => mapM_mem k4 y hy
      -- the daughters are read again
      have hprint : ∀ z ∈ l ++ x :: r', ∀ y, z.uniqueString = some y → (∃ k, env.construct k y = some z.norm) ∧ Shape '{' '}' ',' y := by
        intro z hz y hy
        obtain ⟨k, s, hk⟩ := (h2 z hz).reads
        obtain ⟨e1, e2⟩ := construct_print env he k s z y hk (h2 z hz).fine hy
        exact ⟨⟨k, e1⟩, e2⟩
      have hall : ∀ (zs : List (Tree K)) (ys : List Str), (∀ z ∈ zs, z ∈ l ++ x :: r') → zs.mapM Tree.uniqueString = some ys → ∃ k, ∀ j, k ≤ j → ys.mapM (env.construct j) = some (zs.map Tree.norm) := by
        intro zs
        induction zs with
        | nil =>
          intro ys _ hys
          obtain rfl := Option.some.inj hys
          exact ⟨0, fun j _ => rfl⟩
        | cons z zs ihz =>
          intro ys hin hys
          obtain ⟨y, ys', e1, e2, rfl⟩ := mapM_cons_some.1 hys
          obtain ⟨k, hk⟩ := (hprint z (hin z List.mem_cons_self) y e1).1
          obtain ⟨k', hk'⟩ := ihz ys' (fun z hz => hin z (List.mem_cons_of_mem _ hz)) e2
          refine ⟨max k k', fun j hj => mapM_cons_some.2 ⟨z.norm, zs.map Tree.norm, construct_mono_le env (le_trans (le_max_left _ _) hj) _ _ hk, hk' j (le_trans (le_max_right _ _) hj), rfl⟩⟩
      obtain ⟨kl, hkl⟩ := hall l sl (fun z hz => by simp [hz]) k1
      obtain ⟨kr, hkr⟩ := hall r' sr (fun z hz => by simp [hz]) k4
      have hshape : ∀ i ∈ sl ++ (a ++ (r.name ++ b)) :: sr, Shape '{' '}' ',' i := by
        intro i hi
        rcases List.mem_append.1 hi with hi | hi
        · obtain ⟨z, hz, hzi⟩ := hsl i hi
          exact (hprint z (by simp [hz]) i hzi).2
        · rcases List.mem_cons.1 hi with rfl | hi
          · exact g6
          · obtain ⟨z, hz, hzi⟩ := hsr i hi
            exact (hprint z (by simp [hz]) i hzi).2
      -- the new daughters
      have hlike : List.Forall₂ Like (l.map Tree.norm ++ x' :: r'.map Tree.norm) (l ++ x :: r') := by
        refine List.rel_append (List.forall₂_map_left_iff.2 (List.forall₂_same.2 fun z hz => like_norm (h2 z (by simp [hz])))) (List.Forall₂.cons g10 ?_)
        exact List.forall₂_map_left_iff.2 (List.forall₂_same.2 fun z hz => like_norm (h2 z (by simp [hz])))
      have hquarks : List.Forall₂ SameQuarks (l.map Tree.norm ++ x' :: r'.map Tree.norm) (l ++ x :: r') := hlike.imp fun _ _ h => h.quarks
      have hlook : env.pdgLookup (rawData d.name d.props (reparsed d) ps) (l.map Tree.norm ++ x' :: r'.map Tree.norm) = some { d with modifiers := ps } := by
        refine lookup_reparsed h4 (isStrong_same _ _ hquarks h1) ?_
        intro b
        rw [minOrbital_same _ _ _ (hlike.imp fun _ _ h => ⟨h.props, h.parity⟩)]
        exact minOrbital_perm _ _ _ h1
      have hfine : ∀ e, Has (.node { d with modifiers := ps } (l.map Tree.norm ++ x' :: r'.map Tree.norm)) e → Consistent env.db e.name ∧ Writable env e := by
        intro e hee
        cases hee with
        | here => exact ⟨(hg.fine d (Has.here _ _)).1, writable_printed hd hp⟩
        | inside _ _ y _ hy hye =>
          rcases List.mem_append.1 hy with hy | hy
          · obtain ⟨z, hz, rfl⟩ := List.mem_map.1 hy
            exact (Good.norm he z (h2 z (by simp [hz]))).fine e hye
          · rcases List.mem_cons.1 hy with rfl | hy
            · exact g9 e hye
            · obtain ⟨z, hz, rfl⟩ := List.mem_map.1 hy
              exact (Good.norm he z (h2 z (by simp [hz]))).fine e hye
      have hregnew : Regular env (.node { d with modifiers := ps } (l.map Tree.norm ++ x' :: r'.map Tree.norm)) := by
        intro e hee
        refine ⟨(hfine e hee).1, ?_⟩
        cases hee with
        | here => exact hfind
        | inside _ _ y _ hy hye =>
          rcases List.mem_append.1 hy with hy | hy
          · obtain ⟨z, hz, rfl⟩ := List.mem_map.1 hy
            exact ((Good.norm he z (h2 z (by simp [hz]))).regular e hye).2
          · rcases List.mem_cons.1 hy with rfl | hy
            · exact (construct_regular env N _ _ g7 (fun e he => (g9 e he).1) e hye).2
            · obtain ⟨z, hz, rfl⟩ := List.mem_map.1 hy
              exact ((Good.norm he z (h2 z (by simp [hz]))).regular e hye).2
      obtain ⟨ds', e1, e2, _⟩ := sortDaughters_spec env _ _ hregnew.invertible
      have hag : Agree d ps := by
        obtain ⟨_, _, _, k4, k5⟩ := reparse_spec hd hp
        refine ⟨fun s hs => k4 _ ?_, k5⟩
        simp only [List.mem_cons, List.not_mem_nil, or_false] at hs
        rcases hs with rfl | rfl | rfl <;> decide
      have htext : ∀ w : Str, d.name ++ m ++ '{' :: ([','].intercalate (sl ++ (a ++ (w ++ b)) :: sr) ++ ['}']) = (d.name ++ m ++ '{' :: (before sl ++ a)) ++ (w ++ (b ++ (behind sr ++ ['}']))) := by
        intro w
        rw [intercalate_middle]
        simp
      refine ⟨d.name ++ m ++ '{' :: (before sl ++ a), b ++ (behind sr ++ ['}']), .node { d with modifiers := ps } ds', ?_, ?_, ?_, ?_, ?_, ?_, ?_, ?_, ?_, ?_⟩
      · rw [hs0, ← htext, q2]; simp
      · have : d.name ++ m ++ '{' :: (before sl ++ a) = (d.name ++ m ++ ['{']) ++ (before sl ++ a) := by simp
        rw [this]
        exact endsOff_append (Or.inr ⟨'{', _, rfl, hb1⟩) (endsOff_append (endsOff_before hb3 _) g2)
      · exact off_append g3 (off_append (off_behind hb3 _) (Or.inr ⟨'}', [], rfl, hb2⟩))
      · intro h
        rcases infix_split hb1 h with h | h
        · exact hmd ⟨m, hm, h⟩
        · rcases infix_before hb3 h with ⟨y, hy, h⟩ | h
          · obtain ⟨z, hz, hzy⟩ := hsl y hy
            obtain ⟨e, e3, e4⟩ := text_mentions hplain hne z (h2 z (by simp [hz])).names hzy h
            exact hl z hz e e3 e4
          · exact g4 h
      · intro h
        rcases infix_off hne (off_append (off_behind hb3 _) (Or.inr ⟨'}', [], rfl, hb2⟩)) h with h | h
        · exact g5 h
        · rcases infix_split hb2 h with h | h
          · obtain ⟨y, hy, h⟩ := infix_behind hb3 hne h
            obtain ⟨z, hz, hzy⟩ := hsr y hy
            obtain ⟨e, e3, e4⟩ := text_mentions hplain hne z (h2 z (by simp [hz])).names hzy h
            exact hr' z hz e e3 e4
          · exact hne (List.infix_nil.1 h)
      · rw [← htext]
        exact Shape.node _ _ hnone (by simp) hshape
      · refine ⟨max N (max kl kr) + 1, ?_⟩
        rw [← htext]
        refine construct_spec.2 ⟨(d.name ++ m) :: (sl ++ (a ++ (r.name ++ b)) :: sr), d.name ++ m, _, l.map Tree.norm ++ x' :: r'.map Tree.norm, _,
          getItems_node (by decide) (by decide) (by decide) _ _ hnone (by simp) hshape, rfl, hhead, ?_, hlook, e1⟩
        refine mapM_some_append (hkl _ (by omega)) (mapM_cons_some.2 ⟨x', _, construct_mono_le env (by omega) _ _ g7, hkr _ (by omega), rfl⟩)
      · refine alike_mk (cs := l.map Tree.norm ++ x' :: r'.map Tree.norm) hag ?_ e2.symm
        refine List.rel_append (List.forall₂_map_right_iff.2 (List.forall₂_same.2 fun z hz => alike_norm he z (h2 z (by simp [hz])))) (List.Forall₂.cons g8 ?_)
        exact List.forall₂_map_right_iff.2 (List.forall₂_same.2 fun z hz => alike_norm he z (h2 z (by simp [hz])))
      · intro e hee
        refine hfine e ?_
        cases hee with
        | here => exact Has.here _ _
        | inside _ _ y _ hy hye => exact Has.inside _ _ y e (e2.mem_iff.1 hy) hye
      · exact ⟨rfl, rfl, (quarks_same (d := d) (d' := { d with modifiers := ps }) rfl rfl q4 (forall₂_flip_symm (fun _ _ h => h.symm) hquarks) e2.symm).symm⟩

end AmpGen.Particle.Rules
