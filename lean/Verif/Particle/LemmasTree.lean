import Verif.Particle.Spec
import Verif.PDG.Props
import Verif.EventType.PropsConj
/-
Sorting, conjugation in place, quark contents and angular momenta of trees.
-/
namespace AmpGen.Particle
open AmpGen.Strings AmpGen.PDG AmpGen.PDG.Spec AmpGen.Particle.Spec

variable {K : Type} [Field K] [LinearOrder K]

/-! ### Lists -/

theorem mapM_cons_some {α β : Type} {f : α → Option β} {a : α} {l : List α} {r : List β} : (a :: l).mapM f = some r ↔ ∃ b bs, f a = some b ∧ l.mapM f = some bs ∧ r = b :: bs := by
  rw [List.mapM_cons]
  cases h1 : f a with
  | none => simp
  | some b =>
    cases h2 : l.mapM f with
    | none => simp
    | some bs => simp [eq_comm]

theorem mapM_perm {α β : Type} (f : α → Option β) {l l' : List α} (h : l.Perm l') : ∀ r, l.mapM f = some r → ∃ r', l'.mapM f = some r' ∧ r.Perm r' := by
  induction h with
  | nil => intro r hr; exact ⟨r, hr, List.Perm.refl _⟩
  | cons a _ ih =>
    intro r hr
    obtain ⟨b, bs, h1, h2, rfl⟩ := mapM_cons_some.1 hr
    obtain ⟨r', h3, h4⟩ := ih bs h2
    exact ⟨b :: r', mapM_cons_some.2 ⟨b, r', h1, h3, rfl⟩, h4.cons b⟩
  | swap a b l =>
    intro r hr
    obtain ⟨x, xs, h1, h2, rfl⟩ := mapM_cons_some.1 hr
    obtain ⟨y, ys, h3, h4, rfl⟩ := mapM_cons_some.1 h2
    exact ⟨y :: x :: ys, mapM_cons_some.2 ⟨y, x :: ys, h3, mapM_cons_some.2 ⟨x, ys, h1, h4, rfl⟩, rfl⟩, List.Perm.swap y x ys⟩
  | trans _ _ ih1 ih2 =>
    intro r hr
    obtain ⟨r1, h1, h2⟩ := ih1 r hr
    obtain ⟨r2, h3, h4⟩ := ih2 r1 h1
    exact ⟨r2, h3, h2.trans h4⟩

/-! ### Sorting -/

theorem lt_asymm (a b : Tree K) (h : a.lt b = true) : b.lt a = false := by
  unfold Tree.lt at *
  simp only at *
  generalize a.data.props.getMass = m at *
  generalize b.data.props.getMass = m' at *
  generalize a.data.props.twoSpin = s at *
  generalize b.data.props.twoSpin = s' at *
  generalize a.data.props.pdgID = i at *
  generalize b.data.props.pdgID = i' at *
  generalize a.data.props.charge = c at *
  generalize b.data.props.charge = c' at *
  generalize a.data.index = x at *
  generalize b.data.index = x' at *
  by_cases h1 : s = s'
  · subst h1
    cases ha : a.isStable <;> cases hb : b.isStable <;> simp only [ha, hb] at *
    case false.true => simp
    case true.false => simp at h
    all_goals
      by_cases h4 : m = m'
      · subst h4
        simp only [ne_eq, not_true_eq_false, if_false, Bool.not_true, Bool.not_false, Bool.and_true, Bool.and_false, Bool.false_eq_true] at *
        by_cases h5 : i = i'
        · subst h5
          simp only [not_true_eq_false, and_false, if_false] at *
          by_cases h6 : c = c'
          · subst h6
            simp only [not_true_eq_false, if_false, decide_eq_true_eq, decide_eq_false_iff_not] at *
            omega
          · have h6' : ¬ c' = c := fun e => h6 e.symm
            simp only [h6, h6', not_false_iff, if_true, decide_eq_true_eq, decide_eq_false_iff_not] at *
            omega
        · have h5' : ¬ i' = i := fun e => h5 e.symm
          simp only [h5, h5', not_false_iff, if_true, and_true] at *
          by_cases h7 : i.natAbs = i'.natAbs
          · simp only [h7, if_true, decide_eq_true_eq, decide_eq_false_iff_not] at *
            omega
          · have h7' : ¬ i'.natAbs = i.natAbs := fun e => h7 e.symm
            simp only [h7, h7', if_false] at *
            by_cases h6 : c = c'
            · subst h6
              simp only [not_true_eq_false, if_false, decide_eq_true_eq, decide_eq_false_iff_not] at *
              omega
            · have h6' : ¬ c' = c := fun e => h6 e.symm
              simp only [h6, h6', not_false_iff, if_true, decide_eq_true_eq, decide_eq_false_iff_not] at *
              omega
      · have h4' : ¬ m' = m := fun e => h4 e.symm
        simp only [ne_eq, not_true_eq_false, if_false, if_true, Bool.not_true, Bool.not_false, Bool.and_true, Bool.and_false, Bool.false_eq_true, h4, h4', not_false_iff, decide_eq_true_eq,
          decide_eq_false_iff_not] at *
        exact not_lt_of_gt h
  · have h1' : ¬ s' = s := fun e => h1 e.symm
    simp only [ne_eq, h1, h1', not_false_iff, if_true, decide_eq_true_eq, decide_eq_false_iff_not] at *
    omega

theorem le_total (a b : Tree K) : Tree.le a b ∨ Tree.le b a := by
  unfold Tree.le
  cases h : b.lt a
  · exact Or.inl rfl
  · exact Or.inr (lt_asymm b a h)

/-- Neighbours are in order. -/
abbrev Chained (l : List (Tree K)) : Prop := l.IsChain Tree.le

theorem sort_of_chained : ∀ (l : List (Tree K)), Chained l → sortTrees l = l
  | [], _ => rfl
  | [a], _ => rfl
  | a :: b :: l, h => by
    unfold sortTrees at *
    have h' := List.isChain_cons_cons.1 h
    have ih : (b :: l).insertionSort Tree.le = b :: l := sort_of_chained (b :: l) h'.2
    rw [List.insertionSort_cons, ih, List.orderedInsert_cons, if_pos h'.1]

theorem orderedInsert_chained (a : Tree K) : ∀ (l : List (Tree K)), Chained l → Chained (l.orderedInsert Tree.le a)
  | [], _ => List.isChain_singleton _
  | b :: l, h => by
    rw [List.orderedInsert_cons]
    split
    · rename_i hab
      exact List.isChain_cons_cons.2 ⟨hab, h⟩
    · rename_i hab
      have hba : Tree.le b a := (le_total a b).resolve_left hab
      have ih := orderedInsert_chained a l (List.IsChain.of_cons h)
      cases l with
      | nil => exact List.isChain_cons_cons.2 ⟨hba, List.isChain_singleton _⟩
      | cons c l =>
        rw [List.orderedInsert_cons] at ih ⊢
        split
        · rename_i hac
          rw [if_pos hac] at ih
          exact List.isChain_cons_cons.2 ⟨hba, ih⟩
        · rename_i hac
          rw [if_neg hac] at ih
          exact List.isChain_cons_cons.2 ⟨(List.isChain_cons_cons.1 h).1, ih⟩

theorem sort_chained : ∀ (l : List (Tree K)), Chained (sortTrees l)
  | [] => List.isChain_nil
  | a :: l => by
    unfold sortTrees
    rw [List.insertionSort_cons]
    exact orderedInsert_chained a _ (sort_chained l)

theorem sort_sort (l : List (Tree K)) : sortTrees (sortTrees l) = sortTrees l := sort_of_chained _ (sort_chained l)

theorem sort_perm (l : List (Tree K)) : (sortTrees l).Perm l := List.perm_insertionSort _ _

/-! ### Conjugation in place -/

theorem conjThisList_eq (env : Env K) : ∀ (ds : List (Tree K)), env.conjThisList ds = ds.mapM env.conjThis
  | [] => by rw [Env.conjThisList]; rfl
  | t :: ts => by
    rw [Env.conjThisList, conjThisList_eq env ts, List.mapM_cons]
    cases env.conjThis t with
    | none => rfl
    | some a => cases List.mapM env.conjThis ts <;> rfl

/-- The properties of all particles are those of the database, which is consistent for them. -/
def Regular (env : Env K) (t : Tree K) : Prop := ∀ d, Has t d → Consistent env.db d.name ∧ env.db.find d.name = some d.props

theorem Regular.daughter {env : Env K} {d : Data K} {ds : List (Tree K)} (h : Regular env (.node d ds)) {t : Tree K} (ht : t ∈ ds) : Regular env t :=
  fun e he => h e (Has.inside d ds t e ht he)

theorem Regular.of_perm {env : Env K} {d : Data K} {ds ds' : List (Tree K)} (h : Regular env (.node d ds)) (hp : ds'.Perm ds) : Regular env (.node d ds') := by
  intro e he
  cases he with
  | here => exact h d (Has.here d ds)
  | inside _ _ t _ ht he => exact h e (Has.inside d ds t e (hp.mem_iff.1 ht) he)

theorem Regular.anti {env : Env K} {d : Data K} {ds : List (Tree K)} (h : Regular env (.node d ds)) : ∃ q, env.antiProps d.props = some q ∧ env.antiProps q = some d.props := by
  obtain ⟨⟨p, h1, _, _, _, h2⟩, h3⟩ := h d (Has.here d ds)
  rw [h1] at h3
  obtain rfl := Option.some.inj h3
  unfold Env.antiProps
  by_cases h4 : d.props.hasDistinctAnti = true
  · obtain ⟨q, h5, h6, h7⟩ := h2 h4
    exact ⟨q, by rw [if_pos h4, h5], by rw [if_pos h6, h7]⟩
  · exact ⟨d.props, by rw [if_neg h4], by rw [if_neg h4]⟩

/-- Every particle is the antiparticle of its antiparticle. -/
def Invertible (env : Env K) (t : Tree K) : Prop := ∀ d, Has t d → ∃ q, env.antiProps d.props = some q ∧ env.antiProps q = some d.props

theorem Regular.invertible {env : Env K} : ∀ {t : Tree K}, Regular env t → Invertible env t
  | .node d ds, h => by
    intro e he
    refine Regular.anti (d := e) (ds := []) ?_
    intro e' he'
    cases he' with
    | here => exact h e he
    | inside _ _ t _ ht _ => simp at ht

theorem Invertible.daughter {env : Env K} {d : Data K} {ds : List (Tree K)} (h : Invertible env (.node d ds)) {t : Tree K} (ht : t ∈ ds) : Invertible env t :=
  fun e he => h e (Has.inside d ds t e ht he)

mutual
theorem conjThis_twice (env : Env K) : ∀ (t : Tree K), Invertible env t → ∃ t1, env.conjThis t = some t1 ∧ env.conjThis t1 = some t
  | .node d ds, h => by
    obtain ⟨q, h1, h2⟩ := h d (Has.here d ds)
    obtain ⟨l, h3, h4⟩ := conjThisList_twice env ds fun t ht => h.daughter ht
    refine ⟨.node { d with props := q } l, ?_, ?_⟩
    · rw [Env.conjThis, h1, Option.bind_some, h3]; rfl
    · rw [Env.conjThis, h2, Option.bind_some, h4]; rfl
theorem conjThisList_twice (env : Env K) : ∀ (ds : List (Tree K)), (∀ t ∈ ds, Invertible env t) → ∃ l, env.conjThisList ds = some l ∧ env.conjThisList l = some ds
  | [], _ => ⟨[], by rw [Env.conjThisList], by rw [Env.conjThisList]⟩
  | t :: ts, h => by
    obtain ⟨t1, h1, h2⟩ := conjThis_twice env t (h t List.mem_cons_self)
    obtain ⟨l, h3, h4⟩ := conjThisList_twice env ts fun t ht => h t (List.mem_cons_of_mem _ ht)
    refine ⟨t1 :: l, ?_, ?_⟩
    · rw [Env.conjThisList, h1, Option.bind_some, h3]; rfl
    · rw [Env.conjThisList, h2, Option.bind_some, h4]; rfl
end

theorem mapM_mem {α β : Type} {f : α → Option β} : ∀ {l : List α} {r : List β}, l.mapM f = some r → ∀ y ∈ r, ∃ x ∈ l, f x = some y
  | [], r, h, y, hy => by
    rw [List.mapM_nil] at h
    obtain rfl := Option.some.inj h
    simp at hy
  | a :: l, r, h, y, hy => by
    obtain ⟨b, bs, h1, h2, rfl⟩ := mapM_cons_some.1 h
    rcases List.mem_cons.1 hy with rfl | hy
    · exact ⟨a, List.mem_cons_self, h1⟩
    · obtain ⟨x, hx, h3⟩ := mapM_mem h2 y hy
      exact ⟨x, List.mem_cons_of_mem _ hx, h3⟩

theorem mapM_inverse {α : Type} {f : α → Option α} : ∀ {l r : List α}, (∀ x ∈ l, ∀ y, f x = some y → f y = some x) → l.mapM f = some r → r.mapM f = some l
  | [], r, _, h => by
    rw [List.mapM_nil] at h
    obtain rfl := Option.some.inj h
    rfl
  | a :: l, r, hf, h => by
    obtain ⟨b, bs, h1, h2, rfl⟩ := mapM_cons_some.1 h
    exact mapM_cons_some.2 ⟨a, l, hf a List.mem_cons_self b h1, mapM_inverse (fun x hx => hf x (List.mem_cons_of_mem _ hx)) h2, rfl⟩

theorem sortDaughters_neg (env : Env K) (d : Data K) (ds : List (Tree K)) (h : d.props.pdgID < 0) :
    env.sortDaughters (.node d ds) = (env.conjThis (.node d ds)).bind fun t => env.conjThis (.node t.data (sortTrees t.daughters)) := if_pos h

theorem sortDaughters_nonneg (env : Env K) (d : Data K) (ds : List (Tree K)) (h : ¬ d.props.pdgID < 0) : env.sortDaughters (.node d ds) = some (.node d (sortTrees ds)) := if_neg h

/-- Sorting the daughters permutes them, and sorting again changes nothing. -/
theorem sortDaughters_spec (env : Env K) (d : Data K) (ds : List (Tree K)) (h : Invertible env (.node d ds)) :
    ∃ ds', env.sortDaughters (.node d ds) = some (.node d ds') ∧ ds'.Perm ds ∧ env.sortDaughters (.node d ds') = some (.node d ds') := by
  by_cases hid : d.props.pdgID < 0
  · obtain ⟨q, hq1, hq2⟩ := h d (Has.here d ds)
    obtain ⟨L, hL1, hL2⟩ := conjThisList_twice env ds fun t ht => h.daughter ht
    have hc : env.conjThis (.node d ds) = some (.node { d with props := q } L) := by rw [Env.conjThis, hq1, Option.bind_some, hL1]; rfl
    rw [conjThisList_eq] at hL1 hL2
    obtain ⟨ds', h1, h2⟩ := mapM_perm env.conjThis (sort_perm L).symm ds hL2
    have hc' : env.conjThis (.node { d with props := q } (sortTrees L)) = some (.node d ds') := by
      rw [Env.conjThis, hq2, Option.bind_some, conjThisList_eq, h1]; rfl
    have hinv : ∀ x ∈ sortTrees L, ∀ y, env.conjThis x = some y → env.conjThis y = some x := by
      intro x hx y hxy
      obtain ⟨u, hu, hux⟩ := mapM_mem hL1 x ((sort_perm L).mem_iff.1 hx)
      obtain ⟨x', h3, h4⟩ := conjThis_twice env u (h.daughter hu)
      rw [hux] at h3
      obtain rfl := Option.some.inj h3
      rw [h4] at hxy
      obtain rfl := Option.some.inj hxy
      exact hux
    have hback := mapM_inverse hinv h1
    have hc2 : env.conjThis (.node d ds') = some (.node { d with props := q } (sortTrees L)) := by rw [Env.conjThis, hq1, Option.bind_some, conjThisList_eq, hback]; rfl
    refine ⟨ds', ?_, h2.symm, ?_⟩
    · rw [sortDaughters_neg env _ _ hid, hc, Option.bind_some]; exact hc'
    · rw [sortDaughters_neg env _ _ hid, hc2, Option.bind_some]
      simp only [Tree.data, Tree.daughters]
      rw [sort_sort]
      exact hc'
  · simp only [sortDaughters_nonneg env _ _ hid]
    exact ⟨sortTrees ds, rfl, sort_perm ds, by rw [sort_sort]⟩

/-! ### Quark contents -/

theorem quarksList_eq : ∀ (ds : List (Tree K)), quarksList ds = ds.mapM Tree.quarks
  | [] => by rw [quarksList]; rfl
  | t :: ts => by
    rw [quarksList, quarksList_eq ts, List.mapM_cons]
    cases t.quarks with
    | none => rfl
    | some a => cases List.mapM Tree.quarks ts <;> rfl

theorem choice_perm {qs qs' : List QuarkContent} (hp : qs.Perm qs') : ∀ {s : QuarkState}, Choice qs s → Choice qs' s := by
  induction hp with
  | nil => intro s h; exact h
  | cons a _ ih =>
    intro s h
    cases h with
    | cons hx hc => exact Choice.cons hx (ih hc)
  | swap a b l =>
    intro s h
    cases h with
    | cons hx hc =>
      cases hc with
      | cons hy hc =>
        rename_i x y s
        have := Choice.cons hy (Choice.cons hx hc)
        have he : (fun i => y i + (x i + s i)) = fun i => x i + (y i + s i) := by funext i; omega
        rw [he] at this
        exact this
  | trans _ _ ih1 ih2 => intro s h; exact ih2 (ih1 h)

theorem daughterQuarks_some (qs : List QuarkContent) (h : ∀ q ∈ qs, q ≠ []) : ∃ r, PDG.daughterQuarks qs = some r ∧ r ≠ [] := by
  obtain ⟨r, h1, h2, _⟩ := daughterQuarks_fold qs QuarkContent.default (by simp [QuarkContent.default]) h
  exact ⟨r, h1, h2⟩

mutual
theorem quarks_some (env : Env K) : ∀ (t : Tree K), Regular env t → ∃ q, t.quarks = some q ∧ q ≠ []
  | .node d ds, h => by
    rw [Tree.quarks]
    obtain ⟨qs, h1, h2⟩ := quarksList_some env ds fun t ht => h.daughter ht
    split
    · rw [h1, Option.bind_some]; exact daughterQuarks_some qs h2
    · obtain ⟨⟨p, h3, _, _, h4, _⟩, h5⟩ := h d (Has.here d ds)
      rw [h3] at h5
      obtain rfl := Option.some.inj h5
      exact ⟨_, rfl, h4⟩
theorem quarksList_some (env : Env K) : ∀ (ds : List (Tree K)), (∀ t ∈ ds, Regular env t) → ∃ qs, quarksList ds = some qs ∧ ∀ q ∈ qs, q ≠ []
  | [], _ => ⟨[], by rw [quarksList], by simp⟩
  | t :: ts, h => by
    obtain ⟨q, h1, h2⟩ := quarks_some env t (h t List.mem_cons_self)
    obtain ⟨qs, h3, h4⟩ := quarksList_some env ts fun t ht => h t (List.mem_cons_of_mem _ ht)
    refine ⟨q :: qs, by rw [quarksList, h1, Option.bind_some, h3]; rfl, ?_⟩
    intro x hx
    rcases List.mem_cons.1 hx with rfl | hx
    · exact h2
    · exact h4 x hx
end

theorem eq_self {q : QuarkContent} (h : q ≠ []) : q.eq q = true := by
  obtain ⟨x, xs, rfl⟩ := List.exists_cons_of_ne_nil h
  simp [QuarkContent.eq]

/-- The decay products of a regular tree have quark contents, and agree with those of a content in any order. -/
theorem isStrong_perm (env : Env K) (name : Str) (props : Props K) {ds ds' : List (Tree K)} (h : ∀ t ∈ ds, Regular env t) (hp : ds.Perm ds') :
    ∃ b, isStrong name props ds = some b ∧ isStrong name props ds' = some b := by
  obtain ⟨qs, h1, h2⟩ := quarksList_some env ds h
  have h1' := h1
  rw [quarksList_eq] at h1'
  obtain ⟨qs', h3, h4⟩ := mapM_perm _ hp _ h1'
  have h2' : ∀ q ∈ qs', q ≠ [] := fun q hq => h2 q (h4.mem_iff.2 hq)
  obtain ⟨r, hr, hrq⟩ := flavour_conservation props.quarkContent qs h2
  obtain ⟨r', hr', hrq'⟩ := flavour_conservation props.quarkContent qs' h2'
  obtain ⟨_, hr0, hne⟩ := daughterQuarks_some qs h2
  obtain ⟨_, hr0', hne'⟩ := daughterQuarks_some qs' h2'
  rw [hr] at hr0; rw [hr'] at hr0'
  obtain rfl := Option.some.inj hr0
  obtain rfl := Option.some.inj hr0'
  have he : props.quarkContent.eq r = props.quarkContent.eq r' := by
    rw [Bool.eq_iff_iff, hrq, hrq']
    constructor
    · rintro ⟨s, hs, hc⟩; exact ⟨s, hs, choice_perm h4 hc⟩
    · rintro ⟨s, hs, hc⟩; exact ⟨s, hs, choice_perm h4.symm hc⟩
  unfold isStrong
  rw [h1, quarksList_eq ds', h3]
  simp only [Option.bind_some, hr, hr', Option.bind_eq_bind]
  cases isNonRes name
  · simp only [Bool.false_eq_true, if_false, he, Bool.or_false]; exact ⟨_, rfl, rfl⟩
  · simp only [if_true, Bool.or_true]; exact ⟨_, rfl, rfl⟩

theorem orbitalRange_comm (conserves : Nat → Bool) (b : Bool) (S s1 s2 : Nat) : Spin.orbitalRange conserves b S s1 s2 = Spin.orbitalRange conserves b S s2 s1 := by
  unfold Spin.orbitalRange
  have h1 : ((s1 : Int) - s2).natAbs = ((s2 : Int) - s1).natAbs := by omega
  rw [h1, Nat.add_comm s1 s2]

theorem minOrbital_perm (S : Nat) (parity : Int) (b : Bool) {ds ds' : List (Tree K)} (hp : ds.Perm ds') : minOrbital S parity b ds = minOrbital S parity b ds' := by
  have hl := hp.length_eq
  match ds, ds' with
  | [], [] => rfl
  | [_], [_] => rfl
  | [a, b'], [x, y] =>
    have hmem : x = a ∧ y = b' ∨ x = b' ∧ y = a := by
      have hx : a ∈ [x, y] := hp.mem_iff.1 List.mem_cons_self
      rcases List.mem_cons.1 hx with rfl | hx
      · have := List.singleton_perm.1 ((List.perm_cons a).1 hp).symm
        simp at this
        exact Or.inl ⟨rfl, this⟩
      · have hx : a = y := by simpa using hx
        subst hx
        have := List.singleton_perm.1 ((List.perm_cons a).1 (hp.trans (List.Perm.swap a x []))).symm
        simp at this
        exact Or.inr ⟨this, rfl⟩
    rcases hmem with ⟨rfl, rfl⟩ | ⟨rfl, rfl⟩
    · rfl
    · simp only [minOrbital]
      rw [orbitalRange_comm]
      congr 2
      funext L
      unfold conservesParity
      rw [Int.mul_comm y.data.parity]
  | _ :: _ :: _ :: _, _ :: _ :: _ :: _ => rfl

/-- What the database says about a decaying particle does not depend on the order of the decay products. -/
theorem pdgLookup_perm (env : Env K) (d : Data K) {ds ds' : List (Tree K)} (h : ∀ t ∈ ds, Regular env t) (hp : ds.Perm ds') :
    env.pdgLookup d ds = env.pdgLookup d ds' ∧ ∃ d', env.pdgLookup d ds = some d' := by
  obtain ⟨b, h1, h2⟩ := isStrong_perm env d.name d.props h hp
  unfold Env.pdgLookup
  rw [h1, h2]
  simp only [Option.bind_eq_bind, Option.bind_some]
  rw [minOrbital_perm _ _ _ hp]
  exact ⟨rfl, _, rfl⟩

end AmpGen.Particle
