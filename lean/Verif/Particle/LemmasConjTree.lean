import Verif.Particle.LemmasConj
/-
Conjugating a decay tree twice.
-/
namespace AmpGen.Particle
open AmpGen.Strings AmpGen.PDG AmpGen.PDG.Spec AmpGen.Particle.Spec

variable {K : Type} [Field K] [LinearOrder K]

theorem conjList_eq (env : Env K) (invertHead reorder : Bool) : ∀ (ds : List (Tree K)), env.conjList invertHead reorder ds = ds.mapM (env.conj invertHead reorder false)
  | [] => by rw [Env.conjList]; rfl
  | t :: ts => by
    rw [Env.conjList, conjList_eq env invertHead reorder ts, List.mapM_cons]

theorem conj_eq {env : Env K} {reorder head : Bool} {d : Data K} {ds : List (Tree K)} {p q : Props K} {cs ds' : List (Tree K)} {d' : Data K} (h1 : env.antiProps d.props = some p)
    (h2 : env.db.find p.name = some q) (h3 : ds.mapM (env.conj true reorder false) = some cs) (h4 : env.reorder reorder (.node { d with name := p.name, props := q, parity := q.parity } cs) =
      some (.node { d with name := p.name, props := q, parity := q.parity } ds')) (h5 : env.pdgLookup { d with name := p.name, props := q, parity := q.parity } ds' = some d') :
    env.conj true reorder head (.node d ds) = some (.node d' ds') := by
  rw [Env.conj]
  have : (!head || true) = true := by simp
  rw [this, Env.conjProps, if_pos rfl, h1]
  simp only [Option.bind_eq_bind, Option.bind_some]
  rw [h2, Option.bind_some, conjList_eq, h3, Option.bind_some, h4, Option.bind_some]
  simp only [Tree.data, Tree.daughters]
  rw [h5]
  rfl

theorem quarksList_partner {env : Env K} {reorder : Bool} : ∀ {ds cs : List (Tree K)}, List.Forall₂ (Partner env reorder) ds cs →
    ∃ qs qs', quarksList ds = some qs ∧ quarksList cs = some qs' ∧ (∀ x ∈ qs, x ≠ []) ∧ (∀ x ∈ qs', x ≠ []) ∧ List.Forall₂ MirrorQ qs qs'
  | [], [], _ => ⟨[], [], by rw [quarksList], by rw [quarksList], by simp, by simp, List.Forall₂.nil⟩
  | a :: as, b :: bs, h => by
    obtain ⟨h1, h2⟩ := List.forall₂_cons.1 h
    obtain ⟨q, q', g1, g2, g3, g4, g5⟩ := h1.quarks
    obtain ⟨qs, qs', k1, k2, k3, k4, k5⟩ := quarksList_partner h2
    refine ⟨q :: qs, q' :: qs', by rw [quarksList, g1, Option.bind_some, k1]; rfl, by rw [quarksList, g2, Option.bind_some, k2]; rfl, ?_, ?_, List.Forall₂.cons g5 k5⟩
    · intro x hx
      rcases List.mem_cons.1 hx with rfl | hx
      · exact g3
      · exact k3 x hx
    · intro x hx
      rcases List.mem_cons.1 hx with rfl | hx
      · exact g4
      · exact k4 x hx

theorem lookup_fix {env : Env K} {d : Data K} {ds : List (Tree K)} (h : env.pdgLookup d ds = some d) :
    ∃ b, isStrong d.name d.props ds = some b ∧ env.lookupLineshape d.name d.props d.lineshape d.usesDefaultLineshape = (d.lineshape, d.usesDefaultLineshape) ∧ d.parity = d.props.parity ∧
      d.minL = minOrbital d.props.twoSpin.toNat d.props.parity b ds ∧ (if d.orbital = 0 then minOrbital d.props.twoSpin.toNat d.props.parity b ds else d.orbital) = d.orbital := by
  unfold Env.pdgLookup at h
  simp only [Option.bind_eq_bind, Option.bind_eq_some_iff] at h
  obtain ⟨b, hb, h⟩ := h
  have h := Option.some.inj h
  have e1 := congrArg Data.lineshape h
  have e2 := congrArg Data.usesDefaultLineshape h
  have e3 := congrArg Data.parity h
  have e4 := congrArg Data.minL h
  have e5 := congrArg Data.orbital h
  exact ⟨b, hb, Prod.ext e1 e2, e3.symm, e4.symm, e5⟩

theorem lookup_of_fix {env : Env K} {d : Data K} {ds : List (Tree K)} {b : Bool} (h1 : isStrong d.name d.props ds = some b)
    (h2 : env.lookupLineshape d.name d.props d.lineshape d.usesDefaultLineshape = (d.lineshape, d.usesDefaultLineshape)) (h3 : d.parity = d.props.parity)
    (h4 : d.minL = minOrbital d.props.twoSpin.toNat d.props.parity b ds) (h5 : (if d.orbital = 0 then minOrbital d.props.twoSpin.toNat d.props.parity b ds else d.orbital) = d.orbital) :
    env.pdgLookup d ds = some d := by
  unfold Env.pdgLookup
  rw [h1]
  simp only [Option.bind_eq_bind, Option.bind_some, h2, h5]
  rw [← h4, ← h3]
  rfl

theorem lineshape_mirror (env : Env K) {name name' : Str} {p q : Props K} (l : Str) (u : Bool) (hn : isNonRes name' = isNonRes name) (hw : q.getWidth = p.getWidth) (hid : q.pdgID = 22 ↔ p.pdgID = 22) :
    env.lookupLineshape name' q l u = env.lookupLineshape name p l u := by
  unfold Env.lookupLineshape
  rw [hn, hw]
  by_cases h : p.pdgID = 22
  · simp only [h, hid.2 h]
  · have h' : ¬ q.pdgID = 22 := fun e => h (hid.1 e)
    simp only [h, h', if_false]

theorem forall_getElem {α β : Type} {R : α → β → Prop} : ∀ {l : List α} {l' : List β}, List.Forall₂ R l l' → ∀ (i : Nat) (a : α) (b : β), l[i]? = some a → l'[i]? = some b → R a b
  | _, _, List.Forall₂.nil, i, a, b, h, _ => by simp at h
  | _, _, List.Forall₂.cons h t, i, a, b, ha, hb => by
    cases i with
    | zero =>
      simp at ha hb
      subst ha hb
      exact h
    | succ i => exact forall_getElem t i a b (by simpa using ha) (by simpa using hb)

theorem forall_left {α β : Type} {R : α → β → Prop} : ∀ {l : List α} {l' : List β}, List.Forall₂ R l l' → ∀ b ∈ l', ∃ a ∈ l, R a b
  | _, _, List.Forall₂.nil, b, hb => by simp at hb
  | _, _, List.Forall₂.cons h t, b, hb => by
    rcases List.mem_cons.1 hb with rfl | hb
    · exact ⟨_, List.mem_cons_self, h⟩
    · obtain ⟨a, ha, hab⟩ := forall_left t b hb
      exact ⟨a, List.mem_cons_of_mem _ ha, hab⟩

theorem mapM_back {α : Type} {f : α → Option α} : ∀ {l l' : List α}, List.Forall₂ (fun a b => f b = some a) l l' → l'.mapM f = some l
  | _, _, List.Forall₂.nil => rfl
  | _, _, List.Forall₂.cons h t => mapM_cons_some.2 ⟨_, _, h, mapM_back t, rfl⟩

/-- What the database says about the conjugate decay. -/
theorem lookup_mirror {env : Env K} {reorder : Bool} {d : Data K} {q : Props K} {ds cs ds' : List (Tree K)} (hl : env.pdgLookup d ds = some d)
    (heven : ∀ a b, ds = [a, b] → (d.props.twoSpin.toNat + a.data.props.twoSpin.toNat + b.data.props.twoSpin.toNat) % 2 = 0) (hF : List.Forall₂ (Partner env reorder) ds cs) (hp : ds'.Perm cs)
    (hs : q.twoSpin = d.props.twoSpin) (hw : q.getWidth = d.props.getWidth) (hpar : q.parity = (if d.props.twoSpin.toNat % 2 = 1 then - d.props.parity else d.props.parity))
    (hq : MirrorQ d.props.quarkContent q.quarkContent) (hn : isNonRes q.name = isNonRes d.name) (hid : q.pdgID.natAbs = d.props.pdgID.natAbs) (h22 : q.pdgID = 22 ↔ d.props.pdgID = 22) :
    env.pdgLookup { d with name := q.name, props := q, parity := q.parity } ds' = some { d with name := q.name, props := q, parity := q.parity } := by
  obtain ⟨b, hb, g2, g3, g4, g5⟩ := lookup_fix hl
  obtain ⟨qs, qs', k1, k2, k3, k4, k5⟩ := quarksList_partner hF
  rw [quarksList_eq] at k2
  obtain ⟨qs'', k6, k7⟩ := mapM_perm _ hp.symm _ k2
  rw [← quarksList_eq] at k6
  obtain ⟨b', hb1, hb2⟩ := isStrong_mirror (name := d.name) (name' := q.name) (p := d.props) (q := q) k1 k6 k3 (fun x hx => k4 x (k7.mem_iff.2 hx))
    (fun s => ⟨fun h => (choice_mirror k5 s).1 (choice_perm k7.symm h), fun h => choice_perm k7 ((choice_mirror k5 s).2 h)⟩) hn hq hid
  rw [hb] at hb1
  obtain rfl := Option.some.inj hb1
  have hmin : minOrbital q.twoSpin.toNat q.parity b ds' = minOrbital d.props.twoSpin.toNat d.props.parity b ds := by
    rw [minOrbital_perm _ _ _ hp, hs]
    exact minOrbital_mirror _ _ _ _ hF hpar heven
  refine lookup_of_fix (b := b) hb2 ?_ rfl ?_ ?_
  · show env.lookupLineshape q.name q d.lineshape d.usesDefaultLineshape = _
    rw [lineshape_mirror env _ _ hn hw h22]; exact g2
  · show d.minL = minOrbital q.twoSpin.toNat q.parity b ds'
    rw [hmin]; exact g4
  · show (if d.orbital = 0 then minOrbital q.twoSpin.toNat q.parity b ds' else d.orbital) = d.orbital
    rw [hmin]; exact g5

theorem data_restore {d : Data K} {q : Props K} (hname : d.props.name = d.name) (hpar : d.parity = d.props.parity) :
    ({ ({ d with name := q.name, props := q, parity := q.parity } : Data K) with name := d.props.name, props := d.props, parity := d.props.parity } : Data K) = d := by
  rw [hname, ← hpar]

mutual
theorem conj_partner (env : Env K) (reorder : Bool) : ∀ (t : Tree K), (∀ d, Has t d → Mirrored env d) → Settled env t → (reorder = true → Ordered env t) →
    ∃ t', (∀ head, env.conj true reorder head t = some t') ∧ Partner env reorder t t'
  | .node d ds, hm, hs, ho => by
    obtain ⟨hl, heven, hsd⟩ : env.pdgLookup d ds = some d ∧ (∀ a b, ds = [a, b] → (d.props.twoSpin.toNat + a.data.props.twoSpin.toNat + b.data.props.twoSpin.toNat) % 2 = 0) ∧ ∀ t ∈ ds, Settled env t := by
      cases hs with
      | node _ _ a b c => exact ⟨a, b, c⟩
    have hod : reorder = true → ∀ t ∈ ds, Ordered env t := by
      intro hr
      cases ho hr with
      | node _ _ _ _ c => exact c
    obtain ⟨cs, hcs, hF⟩ := conjList_partner env reorder ds (fun t ht e he => hm e (Has.inside d ds t e ht he)) hsd hod
    have hmd := hm d (Has.here d ds)
    obtain ⟨q, a1, a2, a3, a4, a5, a6, a7, a8, a9⟩ := hmd.anti
    obtain ⟨_, _, _, hpard, _, _⟩ := lookup_fix hl
    have hself : d.props.hasDistinctAnti = false → q = d.props := by
      intro h
      unfold Env.antiProps at a1
      rw [if_neg (by rw [h]; simp)] at a1
      exact (Option.some.inj a1).symm
    have hid : q.pdgID.natAbs = d.props.pdgID.natAbs := by
      rcases a9 with h | ⟨h, _⟩
      · rw [hself h]
      · rw [h]; omega
    have h22 : q.pdgID = 22 ↔ d.props.pdgID = 22 := by
      rcases a9 with h | ⟨h, h'⟩
      · rw [hself h]
      · rw [h]; omega
    have hinvds : Invertible env (.node d ds) := by
      intro e he
      obtain ⟨q', b1, b2, _⟩ := (hm e he).anti
      exact ⟨q', b1, b2⟩
    have hinv1 : ∀ L : List (Tree K), L.Perm cs → Invertible env (.node { d with name := q.name, props := q, parity := q.parity } L) := by
      intro L hL e he
      cases he with
      | here => exact ⟨d.props, a2, a1⟩
      | inside _ _ t _ ht he =>
        obtain ⟨a, _, hP⟩ := forall_left hF t (hL.mem_iff.1 ht)
        exact hP.invertible e he
    have hkeys : List.Forall₂ (KeyAnti env) ds cs := hF.imp fun _ _ h => h.key
    have hback0 : cs.mapM (env.conj true reorder false) = some ds := mapM_back (hF.imp fun _ _ h => h.back false)
    -- the order of the decay products, and what the second conjugation makes of it
    obtain ⟨ds', M, hre, hp, hM, hre2⟩ : ∃ ds' M, env.reorder reorder (.node { d with name := q.name, props := q, parity := q.parity } cs) =
        some (.node { d with name := q.name, props := q, parity := q.parity } ds') ∧ ds'.Perm cs ∧ ds'.mapM (env.conj true reorder false) = some M ∧ env.reorder reorder (.node d M) = some (.node d ds) := by
      cases hr : reorder with
      | false =>
        rw [hr] at hback0
        exact ⟨cs, ds, rfl, List.Perm.refl _, hback0, rfl⟩
      | true =>
        rw [hr] at hback0
        unfold Env.reorder
        simp only [if_true]
        obtain ⟨hsort, hcase⟩ : env.sortDaughters (.node d ds) = some (.node d ds) ∧
            (d.props.hasDistinctAnti = true ∧ d.props.pdgID ≠ 0 ∨ d.props.hasDistinctAnti = false ∧ 0 ≤ d.props.pdgID ∧ ds.Pairwise fun a b => a.lt b = true) := by
          cases ho hr with
          | node _ _ a b _ => exact ⟨a, b⟩
        rcases hcase with ⟨c1, c2⟩ | ⟨c1, c2, c3⟩
        · have hidq : q.pdgID = - d.props.pdgID := by
            rcases a9 with h | h
            · rw [h] at c1; simp at c1
            · exact h.1
          exact ⟨cs, ds, sort_flip env (d1 := { d with name := q.name, props := q, parity := q.parity }) hkeys a1 hinvds (hinv1 cs (List.Perm.refl _)) hsort c2 hidq, List.Perm.refl _, hback0, hsort⟩
        · obtain ⟨ds', e1, e2, _⟩ := sortDaughters_spec env { d with name := q.name, props := q, parity := q.parity } cs (hinv1 cs (List.Perm.refl _))
          obtain ⟨M, e3, e4⟩ := mapM_perm _ e2.symm _ hback0
          refine ⟨ds', M, e1, e2, e3, ?_⟩
          rw [sortDaughters_nonneg env _ _ (by omega), sort_unique c3 e4.symm]
    have hlook := lookup_mirror (q := q) hl heven hF hp a4 a5 a6 a7 a8 hid h22
    refine ⟨.node { d with name := q.name, props := q, parity := q.parity } ds', ?_, ?_⟩
    · intro head
      exact conj_eq a1 a3 hcs hre hlook
    · refine ⟨?_, ?_, ?_, a4, ?_, ?_, hinv1 ds' hp⟩
      · intro head
        have hfind : env.db.find d.props.name = some d.props := by rw [hmd.name]; exact hmd.found
        have hrest := data_restore (q := q) hmd.name hpard
        refine conj_eq (p := d.props) (q := d.props) (cs := M) a2 hfind hM ?_ ?_
        · rw [hrest]; exact hre2
        · rw [hrest]; exact hl
      · exact Conjugate.node d q ds cs ds' a1 hF.length_eq (fun i t t' ht ht' => (forall_getElem hF i t t' ht ht').conjugate) hp
      · refine ⟨a1, a2, rfl, ?_⟩
        have hlen : ds.length = ds'.length := hF.length_eq.trans hp.length_eq.symm
        cases ds <;> cases ds' <;> first | rfl | simp at hlen
      · show q.parity = _
        rw [a6]
        simp only [Tree.data]
        rw [hpard]
        rfl
      · rw [Tree.quarks, Tree.quarks]
        simp only
        rw [a8]
        by_cases hnr : isNonRes d.name = true
        · rw [if_pos hnr, if_pos hnr]
          obtain ⟨qs, qs', k1, k2, k3, k4, k5⟩ := quarksList_partner hF
          rw [quarksList_eq] at k2
          obtain ⟨qs'', k6, k7⟩ := mapM_perm _ hp.symm _ k2
          rw [← quarksList_eq] at k6
          obtain ⟨r, r1, r2, r3⟩ := daughterQuarks_mem qs k3
          obtain ⟨r', s1, s2, s3⟩ := daughterQuarks_mem qs'' (fun x hx => k4 x (k7.mem_iff.2 hx))
          refine ⟨r, r', by rw [k1, Option.bind_some, r1], by rw [k6, Option.bind_some, s1], r2, s2, ?_⟩
          intro x
          rw [s3, r3]
          exact ⟨fun h => (choice_mirror k5 x).1 (choice_perm k7.symm h), fun h => choice_perm k7 ((choice_mirror k5 x).2 h)⟩
        · rw [if_neg hnr, if_neg hnr]
          refine ⟨_, _, rfl, rfl, hmd.quarks, ?_, a7⟩
          obtain ⟨x, xs, hx⟩ := List.exists_cons_of_ne_nil hmd.quarks
          intro h0
          have : (fun i => - x i) ∈ q.quarkContent := (a7 _).2 (by
            have e : (fun i => - (fun i => - x i) i : QuarkState) = x := by funext i; simp
            rw [e, hx]; exact List.mem_cons_self)
          rw [h0] at this
          simp at this
theorem conjList_partner (env : Env K) (reorder : Bool) : ∀ (ds : List (Tree K)), (∀ t ∈ ds, ∀ d, Has t d → Mirrored env d) → (∀ t ∈ ds, Settled env t) → (reorder = true → ∀ t ∈ ds, Ordered env t) →
    ∃ cs, ds.mapM (env.conj true reorder false) = some cs ∧ List.Forall₂ (Partner env reorder) ds cs
  | [], _, _, _ => ⟨[], rfl, List.Forall₂.nil⟩
  | a :: as, hm, hs, ho => by
    obtain ⟨b, h1, h2⟩ := conj_partner env reorder a (hm a List.mem_cons_self) (hs a List.mem_cons_self) (fun hr => ho hr a List.mem_cons_self)
    obtain ⟨bs, h3, h4⟩ := conjList_partner env reorder as (fun t ht => hm t (List.mem_cons_of_mem _ ht)) (fun t ht => hs t (List.mem_cons_of_mem _ ht)) (fun hr t ht => ho hr t (List.mem_cons_of_mem _ ht))
    exact ⟨b :: bs, mapM_cons_some.2 ⟨b, bs, h1 false, h3, rfl⟩, List.Forall₂.cons h2 h4⟩
end

end AmpGen.Particle
