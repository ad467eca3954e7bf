import Verif.Particle.LemmasTree
import Mathlib.Data.List.Forall2
import Mathlib.Data.List.Perm.Basic
/-
Conjugation of decay trees.
-/
namespace AmpGen.Particle
open AmpGen.Strings AmpGen.PDG AmpGen.PDG.Spec AmpGen.Particle.Spec

variable {K : Type} [Field K] [LinearOrder K]

/-! ### Order -/

/-- Two trees that are compared in the same way. -/
def SameKey (a b : Tree K) : Prop := a.data.props = b.data.props ∧ a.data.index = b.data.index ∧ a.isStable = b.isStable

theorem lt_key {a a' b b' : Tree K} (ha : SameKey a a') (hb : SameKey b b') : a.lt b = a'.lt b' := by
  unfold Tree.lt
  simp only [ha.1, ha.2.1, ha.2.2, hb.1, hb.2.1, hb.2.2]

theorem chained_key : ∀ {l l' : List (Tree K)}, List.Forall₂ SameKey l l' → Chained l → Chained l'
  | [], [], _, _ => List.isChain_nil
  | [_], [_], _, _ => List.isChain_singleton _
  | a :: b :: l, a' :: b' :: l', h, hc => by
    obtain ⟨ha, h⟩ := List.forall₂_cons.1 h
    have hb := (List.forall₂_cons.1 h).1
    have hc' := List.isChain_cons_cons.1 hc
    refine List.isChain_cons_cons.2 ⟨?_, chained_key h hc'.2⟩
    unfold Tree.le at *
    rw [← lt_key hb ha]
    exact hc'.1
  | [_], _ :: _ :: _, h, _ => by have := h.length_eq; simp at this
  | _ :: _ :: _, [_], h, _ => by have := h.length_eq; simp at this

theorem lt_irrefl (a : Tree K) : a.lt a = false := by
  cases h : a.lt a
  · rfl
  · exact absurd (lt_asymm a a h) (by rw [h]; simp)

theorem lt_trans_members {ds : List (Tree K)} (h : ds.Pairwise fun a b => a.lt b = true) {a b c : Tree K} (ha : a ∈ ds) (hb : b ∈ ds) (hc : c ∈ ds) (hab : a.lt b = true) (hbc : b.lt c = true) : a.lt c = true := by
  obtain ⟨i, hi, rfl⟩ := List.getElem_of_mem ha
  obtain ⟨j, hj, rfl⟩ := List.getElem_of_mem hb
  obtain ⟨k, hk, rfl⟩ := List.getElem_of_mem hc
  have key := List.pairwise_iff_getElem.1 h
  have order : ∀ (i j : Nat) (hi : i < ds.length) (hj : j < ds.length), ds[i].lt ds[j] = true → i < j := by
    intro i j hi hj hlt
    rcases Nat.lt_trichotomy i j with h | h | h
    · exact h
    · subst h; rw [lt_irrefl] at hlt; simp at hlt
    · have := lt_asymm _ _ (key j i hj hi h); rw [this] at hlt; simp at hlt
  exact key i k hi hk (Nat.lt_trans (order i j hi hj hab) (order j k hj hk hbc))

theorem chain_pairwise {ds : List (Tree K)} (h : ds.Pairwise fun a b => a.lt b = true) : ∀ (l : List (Tree K)), l.Nodup → (∀ x ∈ l, x ∈ ds) → Chained l → l.Pairwise fun a b => a.lt b = true
  | [], _, _, _ => List.Pairwise.nil
  | [a], _, _, _ => List.pairwise_singleton _ _
  | a :: b :: l, hn, hm, hc => by
    have hc' := List.isChain_cons_cons.1 hc
    have hn' := List.nodup_cons.1 hn
    have ih := chain_pairwise h (b :: l) hn'.2 (fun x hx => hm x (List.mem_cons_of_mem _ hx)) hc'.2
    have hab : a.lt b = true := by
      have hne : a ≠ b := fun e => hn'.1 (e ▸ List.mem_cons_self)
      obtain ⟨i, hi, hia⟩ := List.getElem_of_mem (hm a List.mem_cons_self)
      obtain ⟨j, hj, hjb⟩ := List.getElem_of_mem (hm b (List.mem_cons_of_mem _ List.mem_cons_self))
      have key := List.pairwise_iff_getElem.1 h
      rcases Nat.lt_trichotomy i j with h' | h' | h'
      · rw [← hia, ← hjb]; exact key i j hi hj h'
      · subst h'; exact absurd (hia.symm.trans hjb) hne
      · have := key j i hj hi h'
        rw [hia, hjb] at this
        have hle : b.lt a = false := hc'.1
        rw [hle] at this; simp at this
    refine List.pairwise_cons.2 ⟨?_, ih⟩
    intro x hx
    rcases List.mem_cons.1 hx with rfl | hx
    · exact hab
    · exact lt_trans_members h (hm a List.mem_cons_self) (hm b (List.mem_cons_of_mem _ List.mem_cons_self)) (hm x (List.mem_cons_of_mem _ (List.mem_cons_of_mem _ hx))) hab ((List.pairwise_cons.1 ih).1 x hx)

/-- Trees that can be told apart are sorted in one way. -/
theorem sort_unique {ds M : List (Tree K)} (h : ds.Pairwise fun a b => a.lt b = true) (hp : M.Perm ds) : sortTrees M = ds := by
  have hp' : (sortTrees M).Perm ds := (sort_perm M).trans hp
  have hnd : ds.Nodup := h.imp fun hab e => by rw [e, lt_irrefl] at hab; simp at hab
  have h1 := chain_pairwise h (sortTrees M) (hp'.nodup_iff.2 hnd) (fun x hx => hp'.mem_iff.1 hx) (sort_chained M)
  refine hp'.eq_of_pairwise ?_ h1 h
  intro a b _ _ hab hba
  rw [lt_asymm a b hab] at hba
  simp at hba

/-! ### Conjugation in place -/

/-- The second tree is that of the antiparticle, as far as the order is concerned. -/
def KeyAnti (env : Env K) (a b : Tree K) : Prop :=
  env.antiProps a.data.props = some b.data.props ∧ env.antiProps b.data.props = some a.data.props ∧ a.data.index = b.data.index ∧ a.isStable = b.isStable

theorem conjThis_key {env : Env K} {t t1 : Tree K} (h : env.conjThis t = some t1) : env.antiProps t.data.props = some t1.data.props ∧ t1.data.index = t.data.index ∧ t1.isStable = t.isStable := by
  cases t with
  | node d ds =>
    rw [Env.conjThis] at h
    obtain ⟨q, hq, h⟩ := Option.bind_eq_some_iff.1 h
    obtain ⟨l, hl, rfl⟩ := Option.map_eq_some_iff.1 h
    refine ⟨hq, rfl, ?_⟩
    cases ds with
    | nil => rw [Env.conjThisList] at hl; obtain rfl := Option.some.inj hl; rfl
    | cons a as =>
      rw [Env.conjThisList] at hl
      obtain ⟨b, _, hl⟩ := Option.bind_eq_some_iff.1 hl
      obtain ⟨bs, _, rfl⟩ := Option.map_eq_some_iff.1 hl
      rfl

theorem conjThisList_forall {env : Env K} : ∀ {ds L : List (Tree K)}, env.conjThisList ds = some L → List.Forall₂ (fun a b => env.conjThis a = some b) ds L
  | [], L, h => by rw [Env.conjThisList] at h; obtain rfl := Option.some.inj h; exact List.Forall₂.nil
  | a :: as, L, h => by
    rw [Env.conjThisList] at h
    obtain ⟨b, hb, h⟩ := Option.bind_eq_some_iff.1 h
    obtain ⟨bs, hbs, rfl⟩ := Option.map_eq_some_iff.1 h
    exact List.Forall₂.cons hb (conjThisList_forall hbs)

theorem sameKey_of_anti {env : Env K} : ∀ {ds cs L : List (Tree K)}, List.Forall₂ (KeyAnti env) ds cs → List.Forall₂ (fun a b => env.conjThis a = some b) cs L → List.Forall₂ SameKey ds L
  | [], [], [], _, _ => List.Forall₂.nil
  | a :: as, b :: bs, x :: xs, h, g => by
    obtain ⟨h1, h2⟩ := List.forall₂_cons.1 h
    obtain ⟨g1, g2⟩ := List.forall₂_cons.1 g
    have hk := conjThis_key g1
    refine List.Forall₂.cons ⟨?_, ?_, ?_⟩ (sameKey_of_anti h2 g2)
    · exact Option.some.inj (h1.2.1.symm.trans hk.1)
    · rw [hk.2.1]; exact h1.2.2.1
    · rw [hk.2.2]; exact h1.2.2.2

theorem sameKey_flip {env : Env K} : ∀ {ds cs L : List (Tree K)}, List.Forall₂ (KeyAnti env) ds cs → List.Forall₂ (fun a b => env.conjThis a = some b) ds L → List.Forall₂ SameKey L cs
  | [], [], [], _, _ => List.Forall₂.nil
  | a :: as, b :: bs, x :: xs, h, g => by
    obtain ⟨h1, h2⟩ := List.forall₂_cons.1 h
    obtain ⟨g1, g2⟩ := List.forall₂_cons.1 g
    have hk := conjThis_key g1
    refine List.Forall₂.cons ⟨?_, ?_, ?_⟩ (sameKey_flip h2 g2)
    · exact Option.some.inj (hk.1.symm.trans h1.1)
    · rw [hk.2.1]; exact h1.2.2.1
    · rw [hk.2.2]; exact h1.2.2.2

theorem chained_of_sort {l : List (Tree K)} (h : sortTrees l = l) : Chained l := h ▸ sort_chained l

/-- The conjugate decay of a particle with a distinct antiparticle is in order if the decay is. -/
theorem sort_flip (env : Env K) {d d1 : Data K} {ds cs : List (Tree K)} (hk : List.Forall₂ (KeyAnti env) ds cs) (hd : env.antiProps d.props = some d1.props)
    (hi : Invertible env (.node d ds)) (hi1 : Invertible env (.node d1 cs)) (hs : env.sortDaughters (.node d ds) = some (.node d ds)) (h0 : d.props.pdgID ≠ 0) (hid : d1.props.pdgID = - d.props.pdgID) :
    env.sortDaughters (.node d1 cs) = some (.node d1 cs) := by
  by_cases hneg : d.props.pdgID < 0
  · have hnn : ¬ d1.props.pdgID < 0 := by omega
    rw [sortDaughters_nonneg env _ _ hnn]
    obtain ⟨L, hL1, hL2⟩ := conjThisList_twice env ds fun t ht => hi.daughter ht
    rw [sortDaughters_neg env _ _ hneg] at hs
    have hc : env.conjThis (.node d ds) = some (.node { d with props := d1.props } L) := by rw [Env.conjThis, hd, Option.bind_some, hL1]; rfl
    rw [hc, Option.bind_some] at hs
    simp only [Tree.data, Tree.daughters] at hs
    rw [Env.conjThis] at hs
    obtain ⟨q', _, hs⟩ := Option.bind_eq_some_iff.1 hs
    obtain ⟨X, hX, he⟩ := Option.map_eq_some_iff.1 hs
    have hXds : X = ds := by injection he
    subst hXds
    have hinv : ∀ x ∈ sortTrees L, ∀ y, env.conjThis x = some y → env.conjThis y = some x := by
      intro x hx y hxy
      rw [conjThisList_eq] at hL1
      obtain ⟨u, hu, hux⟩ := mapM_mem hL1 x ((sort_perm L).mem_iff.1 hx)
      obtain ⟨x', h3, h4⟩ := conjThis_twice env u (hi.daughter hu)
      rw [hux] at h3
      obtain rfl := Option.some.inj h3
      rw [h4] at hxy
      obtain rfl := Option.some.inj hxy
      exact hux
    rw [conjThisList_eq] at hX
    have hback := mapM_inverse hinv hX
    rw [← conjThisList_eq, hL1] at hback
    have hsort : sortTrees L = L := (Option.some.inj hback).symm
    have hch := chained_key (sameKey_flip hk (conjThisList_forall hL1)) (chained_of_sort hsort)
    rw [sort_of_chained _ hch]
  · have hn : d1.props.pdgID < 0 := by omega
    rw [sortDaughters_nonneg env _ _ hneg] at hs
    have hsort : sortTrees ds = ds := by
      have := Option.some.inj hs
      injection this
    obtain ⟨L, hL1, hL2⟩ := conjThisList_twice env cs fun t ht => hi1.daughter ht
    obtain ⟨q, hq1, hq2⟩ := hi1 d1 (Has.here _ _)
    have hch := chained_key (sameKey_of_anti hk (conjThisList_forall hL1)) (chained_of_sort hsort)
    rw [sortDaughters_neg env _ _ hn]
    have hc : env.conjThis (.node d1 cs) = some (.node { d1 with props := q } L) := by rw [Env.conjThis, hq1, Option.bind_some, hL1]; rfl
    rw [hc, Option.bind_some]
    simp only [Tree.data, Tree.daughters]
    rw [sort_of_chained _ hch, Env.conjThis, hq2, Option.bind_some, hL2]
    rfl

/-! ### Quark contents -/

/-- The second content has the opposite quark numbers. -/
def MirrorQ (q q' : QuarkContent) : Prop := ∀ x : QuarkState, x ∈ q' ↔ (fun i => - x i) ∈ q

theorem choice_mirror : ∀ {qs qs' : List QuarkContent}, List.Forall₂ MirrorQ qs qs' → ∀ s : QuarkState, Choice qs' s ↔ Choice qs (fun i => - s i)
  | [], [], _, s => by
    constructor
    · intro h
      cases h
      have : (fun i => - (fun _ => (0 : Int)) i : QuarkState) = fun _ => 0 := by funext i; simp
      rw [this]; exact Choice.nil
    · intro h
      generalize hg : (fun i => - s i : QuarkState) = g at h
      cases h
      have : s = fun _ => 0 := by
        funext i
        have := congrFun hg i
        omega
      rw [this]; exact Choice.nil
  | q :: qs, q' :: qs', h, s => by
    obtain ⟨h1, h2⟩ := List.forall₂_cons.1 h
    constructor
    · intro hc
      cases hc with
      | @cons _ _ x u hx hu =>
        have := Choice.cons ((h1 x).1 hx) ((choice_mirror h2 u).1 hu)
        have e : (fun i => - (fun i => x i + u i) i : QuarkState) = fun i => (fun i => - x i) i + (fun i => - u i) i := by funext i; simp only; omega
        rw [e]; exact this
    · intro hc
      generalize hg : (fun i => - s i : QuarkState) = g at hc
      cases hc with
      | @cons _ _ x u hx hu =>
        have hx' : (fun i => - x i) ∈ q' := (h1 _).2 (by
          have : (fun i => - (fun i => - x i) i : QuarkState) = x := by funext i; simp
          rw [this]; exact hx)
        have hu' : Choice qs' (fun i => - u i) := (choice_mirror h2 _).2 (by
          have : (fun i => - (fun i => - u i) i : QuarkState) = u := by funext i; simp
          rw [this]; exact hu)
        have := Choice.cons hx' hu'
        have e : s = fun i => (fun i => - x i) i + (fun i => - u i) i := by
          funext i
          have := congrFun hg i
          simp only at this ⊢
          omega
        rw [e]; exact this

theorem daughterQuarks_mem (qs : List QuarkContent) (h : ∀ q ∈ qs, q ≠ []) : ∃ r, PDG.daughterQuarks qs = some r ∧ r ≠ [] ∧ ∀ s, s ∈ r ↔ Choice qs s := by
  obtain ⟨r, h1, h2, h3⟩ := daughterQuarks_fold qs QuarkContent.default (by simp [QuarkContent.default]) h
  refine ⟨r, h1, h2, ?_⟩
  intro s
  rw [h3]
  constructor
  · rintro ⟨x, hx, t, ht, rfl⟩
    have hx0 : x = fun _ => 0 := by simpa [QuarkContent.default] using hx
    subst hx0
    have : (fun i => (fun _ => (0 : Int)) i + t i : QuarkState) = t := by funext i; simp
    rw [this]; exact ht
  · intro hc
    exact ⟨fun _ => 0, by simp [QuarkContent.default], s, hc, by funext i; simp⟩

theorem isStrong_mirror {name name' : Str} {p q : Props K} {ds ds' : List (Tree K)} {qs qs' : List QuarkContent} (h : quarksList ds = some qs) (h' : quarksList ds' = some qs') (hne : ∀ x ∈ qs, x ≠ [])
    (hne' : ∀ x ∈ qs', x ≠ []) (hc : ∀ s : QuarkState, Choice qs' s ↔ Choice qs (fun i => - s i)) (hn : isNonRes name' = isNonRes name) (hq : MirrorQ p.quarkContent q.quarkContent)
    (hid : q.pdgID.natAbs = p.pdgID.natAbs) : ∃ b, isStrong name p ds = some b ∧ isStrong name' q ds' = some b := by
  obtain ⟨r, hr, hrq⟩ := flavour_conservation p.quarkContent qs hne
  obtain ⟨r', hr', hrq'⟩ := flavour_conservation q.quarkContent qs' hne'
  have he : q.quarkContent.eq r' = p.quarkContent.eq r := by
    rw [Bool.eq_iff_iff, hrq, hrq']
    constructor
    · rintro ⟨s, hs, hs'⟩
      exact ⟨_, (hq s).1 hs, (hc s).1 hs'⟩
    · rintro ⟨s, hs, hs'⟩
      have e : (fun i => - (fun i => - s i) i : QuarkState) = s := by funext i; simp
      exact ⟨fun i => - s i, (hq _).2 (by rw [e]; exact hs), (hc _).2 (by rw [e]; exact hs')⟩
  unfold isStrong
  rw [h, h']
  simp only [Option.bind_some, hr, hr', Option.bind_eq_bind, hid, hn]
  cases isNonRes name
  · simp only [Bool.false_eq_true, if_false, he, Bool.or_false]; exact ⟨_, rfl, rfl⟩
  · simp only [if_true, Bool.or_true]; exact ⟨_, rfl, rfl⟩

/-! ### Angular momenta -/

/-- The facts about a tree and its conjugate on which the tree above depends. -/
structure Partner (env : Env K) (reorder : Bool) (t t' : Tree K) : Prop where
  back : ∀ head, env.conj true reorder head t' = some t
  conjugate : Conjugate env t t'
  key : KeyAnti env t t'
  spin : t'.data.props.twoSpin = t.data.props.twoSpin
  parity : t'.data.parity = if t.data.props.twoSpin.toNat % 2 = 1 then - t.data.parity else t.data.parity
  quarks : ∃ q q', t.quarks = some q ∧ t'.quarks = some q' ∧ q ≠ [] ∧ q' ≠ [] ∧ MirrorQ q q'
  invertible : Invertible env t'

theorem minOrbital_mirror {env : Env K} {reorder : Bool} (S : Nat) (P P' : Int) (b : Bool) {ds cs : List (Tree K)} (h : List.Forall₂ (Partner env reorder) ds cs)
    (hP : P' = if S % 2 = 1 then - P else P) (heven : ∀ a b, ds = [a, b] → (S + a.data.props.twoSpin.toNat + b.data.props.twoSpin.toNat) % 2 = 0) : minOrbital S P' b cs = minOrbital S P b ds := by
  match ds, cs, h with
  | [], [], _ => rfl
  | [_], [_], _ => rfl
  | [x, y], [x', y'], h =>
    obtain ⟨hx, h⟩ := List.forall₂_cons.1 h
    have hy := (List.forall₂_cons.1 h).1
    have hev := heven x y rfl
    simp only [minOrbital, hx.spin, hy.spin]
    congr 2
    funext L
    unfold conservesParity
    rw [hP, hx.parity, hy.parity]
    congr 1
    rw [eq_iff_iff]
    obtain ⟨e, he⟩ : ∃ e : Int, (if L % 2 = 0 then (1 : Int) else -1) = e := ⟨_, rfl⟩
    rw [he]
    obtain ⟨a, ha⟩ : ∃ a, x.data.props.twoSpin.toNat = a := ⟨_, rfl⟩
    obtain ⟨c, hc⟩ : ∃ c, y.data.props.twoSpin.toNat = c := ⟨_, rfl⟩
    rw [ha, hc] at hev
    rw [ha, hc]
    by_cases h1 : S % 2 = 1 <;> by_cases h2 : a % 2 = 1 <;> by_cases h3 : c % 2 = 1 <;> simp only [h1, h2, h3, if_true, if_false, Int.neg_mul, Int.mul_neg, Int.neg_neg, Int.neg_inj] <;>
      exfalso <;> omega
  | _ :: _ :: _ :: _, _ :: _ :: _ :: _, _ => rfl

end AmpGen.Particle
