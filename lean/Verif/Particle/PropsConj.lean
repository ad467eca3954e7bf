import Verif.Particle.LemmasConjTree
import Verif.Particle.LemmasRound
import Verif.Particle.Samples
/-
Conjugation of decay trees, and the order of their decay products.
-/
namespace AmpGen.Particle
open AmpGen.Strings AmpGen.PDG AmpGen.PDG.Spec AmpGen.Particle.Spec

variable {K : Type} [Field K] [LinearOrder K]

/-- The default modifier is appended. -/
def appMod (env : Env K) (x : Str) : Str := if env.defaultModifier ≠ [] ∧ '.' ∉ x then x ++ ['.'] ++ env.defaultModifier else x

/-- The lineshape before the default modifier is appended. -/
def baseShape (env : Env K) (name : Str) (p : Props K) (l : Str) (u : Bool) : Str × Bool :=
  if l = "BW".toList ∨ u = true then (if p.pdgID = 22 then "Photon".toList else if isNonRes name = true ∨ p.getWidth < env.threshold then "FormFactor".toList else l, true) else (l, false)

theorem lookupLineshape_def (env : Env K) (name : Str) (p : Props K) (l : Str) (u : Bool) :
    env.lookupLineshape name p l u = (appMod env (baseShape env name p l u).1, (baseShape env name p l u).2) := rfl

theorem appMod_idem (env : Env K) (x : Str) : appMod env (appMod env x) = appMod env x := by
  unfold appMod
  by_cases h : env.defaultModifier ≠ [] ∧ '.' ∉ x
  · rw [if_pos h, if_neg (by simp)]
  · rw [if_neg h, if_neg h]

theorem lookupLineshape_idem (env : Env K) (name : Str) (p : Props K) (l : Str) (u : Bool) :
    env.lookupLineshape name p (env.lookupLineshape name p l u).1 (env.lookupLineshape name p l u).2 = env.lookupLineshape name p l u := by
  rw [lookupLineshape_def env name p l u, lookupLineshape_def]
  simp only
  by_cases h1 : l = "BW".toList ∨ u = true
  · have hb : baseShape env name p l u = (if p.pdgID = 22 then "Photon".toList else if isNonRes name = true ∨ p.getWidth < env.threshold then "FormFactor".toList else l, true) := if_pos h1
    rw [hb]
    simp only
    obtain ⟨x, hx⟩ : ∃ x, (if p.pdgID = 22 then "Photon".toList else if isNonRes name = true ∨ p.getWidth < env.threshold then "FormFactor".toList else l) = x := ⟨_, rfl⟩
    have hb2 : baseShape env name p (appMod env x) true =
        (if p.pdgID = 22 then "Photon".toList else if isNonRes name = true ∨ p.getWidth < env.threshold then "FormFactor".toList else appMod env x, true) := if_pos (Or.inr rfl)
    rw [hx, hb2]
    by_cases h2 : p.pdgID = 22
    · rw [if_pos h2] at hx ⊢
      rw [hx]
    · rw [if_neg h2] at hx ⊢
      by_cases h3 : isNonRes name = true ∨ p.getWidth < env.threshold
      · rw [if_pos h3] at hx ⊢
        rw [hx]
      · rw [if_neg h3] at hx ⊢
        rw [appMod_idem]
  · have hb : baseShape env name p l u = (l, false) := if_neg h1
    rw [hb]
    simp only
    have h2 : ¬ (appMod env l = "BW".toList ∨ (false : Bool) = true) := by
      rintro (h | h)
      · unfold appMod at h
        by_cases h3 : env.defaultModifier ≠ [] ∧ '.' ∉ l
        · rw [if_pos h3] at h
          have : '.' ∈ "BW".toList := by rw [← h]; simp
          exact absurd this (by decide)
        · rw [if_neg h3] at h
          exact h1 (Or.inl h)
      · simp at h
    have hb2 : baseShape env name p (appMod env l) false = (appMod env l, false) := if_neg h2
    rw [hb2, appMod_idem]

/-- Looking up again changes nothing. -/
theorem pdgLookup_idem {env : Env K} {d0 d : Data K} {ds : List (Tree K)} (h : env.pdgLookup d0 ds = some d) : env.pdgLookup d ds = some d := by
  unfold Env.pdgLookup at h
  simp only [Option.bind_eq_bind, Option.bind_eq_some_iff] at h
  obtain ⟨b, hb, h⟩ := h
  obtain rfl := Option.some.inj h
  refine lookup_of_fix (b := b) hb ?_ rfl rfl ?_
  · show env.lookupLineshape d0.name d0.props _ _ = _
    exact lookupLineshape_idem env _ _ _ _
  · simp only
    by_cases h0 : d0.orbital = 0
    · rw [if_pos h0]
      split <;> rfl
    · rw [if_neg h0, if_neg h0]

theorem Contains.daughter {d : Data K} {ds : List (Tree K)} {t u : Tree K} (ht : t ∈ ds) (h : Contains t u) : Contains (.node d ds) u := Contains.inside d ds t u ht h

/-- A tree that was constructed is as the constructor leaves its parts. -/
theorem construct_settled (env : Env K) : ∀ (n : Nat) (s : Str) (t : Tree K), env.construct n s = some t → (∀ d, Has t d → Consistent env.db d.name) →
    (∀ d a b, Contains t (.node d [a, b]) → (d.props.twoSpin.toNat + a.data.props.twoSpin.toNat + b.data.props.twoSpin.toNat) % 2 = 0) →
    Settled env t ∧ ((∀ d ds, Contains t (.node d ds) → d.props.hasDistinctAnti = true ∧ d.props.pdgID ≠ 0 ∨ d.props.hasDistinctAnti = false ∧ 0 ≤ d.props.pdgID ∧ ds.Pairwise fun a b => a.lt b = true) →
      Ordered env t)
  | 0, _, _, h, _, _ => by simp [Env.construct] at h
  | n + 1, s, t, h, hc, hspin => by
    obtain ⟨d, ds, dsU, mods, rfl, hp, hcon, hsort, hlook, hreg⟩ := construct_parts env n s t h hc
    have hlook' : env.pdgLookup d ds = some d := by
      rw [(pdgLookup_perm env d (fun t ht => hreg.daughter ht) hp).1]
      exact pdgLookup_idem hlook
    have ih : ∀ t ∈ ds, Settled env t ∧ ((∀ d ds, Contains t (.node d ds) → d.props.hasDistinctAnti = true ∧ d.props.pdgID ≠ 0 ∨
        d.props.hasDistinctAnti = false ∧ 0 ≤ d.props.pdgID ∧ ds.Pairwise fun a b => a.lt b = true) → Ordered env t) := fun t ht => by
      obtain ⟨u, hu⟩ := hcon t ht
      exact construct_settled env n u t hu (fun e he => hc e (Has.inside d ds t e ht he)) (fun e a b hab => hspin e a b (Contains.daughter ht hab))
    refine ⟨Settled.node d ds hlook' ?_ (fun t ht => (ih t ht).1), ?_⟩
    · intro a b hab
      subst hab
      exact hspin d a b (Contains.here _)
    · intro horder
      exact Ordered.node d ds hsort (horder d ds (Contains.here _)) (fun t ht => (ih t ht).2 fun e es he => horder e es (Contains.daughter ht he))

/-! ### C26 -/

/-- **C26 (partial)**: for a tree that was constructed from a descriptor, conjugation replaces every particle by its antiparticle and keeps angular momenta, lineshapes and modifiers, and conjugating twice gives back the
tree. The database has to give each particle an antiparticle with the opposite quantum numbers, the spins have to add up in decays to two particles and, if the decay products are put in order again, those of particles
that are their own antiparticles have to be distinguishable. -/
theorem tree_conjugation_partial (env : Env K) (reorder : Bool) (s : Str) (t : Tree K) (ht : env.ofDescriptor s = some t) (hm : ∀ d, Has t d → Consistent env.db d.name ∧ Mirrored env d)
    (hspin : ∀ d a b, Contains t (.node d [a, b]) → (d.props.twoSpin.toNat + a.data.props.twoSpin.toNat + b.data.props.twoSpin.toNat) % 2 = 0)
    (horder : reorder = true → ∀ d ds, Contains t (.node d ds) →
      d.props.hasDistinctAnti = true ∧ d.props.pdgID ≠ 0 ∨ d.props.hasDistinctAnti = false ∧ 0 ≤ d.props.pdgID ∧ ds.Pairwise fun a b => a.lt b = true) :
    ∃ t', env.conj true reorder true t = some t' ∧ Conjugate env t t' ∧ env.conj true reorder true t' = some t := by
  obtain ⟨h1, h2⟩ := construct_settled env _ s t ht (fun d hd => (hm d hd).1) hspin
  obtain ⟨t', h3, h4⟩ := conj_partner env reorder t (fun d hd => (hm d hd).2) h1 (fun hr => h2 (horder hr))
  exact ⟨t', h3 true, h4.conjugate, h4.back true⟩

/-- A cascade through a resonance and its own antiparticle. -/
example : ∃ t t', sample "D0[D]{rho(770)0[GounarisSakurai]{pi+,pi-},K*(892)bar0{pi+,K-}}" = some t ∧ (∀ d, Has t d → Consistent sampleEnv.db d.name ∧ Mirrored sampleEnv d) ∧
    (∀ d a b, Contains t (.node d [a, b]) → (d.props.twoSpin.toNat + a.data.props.twoSpin.toNat + b.data.props.twoSpin.toNat) % 2 = 0) ∧
    (∀ d ds, Contains t (.node d ds) → d.props.hasDistinctAnti = true ∧ d.props.pdgID ≠ 0 ∨ d.props.hasDistinctAnti = false ∧ 0 ≤ d.props.pdgID ∧ ds.Pairwise fun a b => a.lt b = true) ∧
    sampleEnv.conj true true true t = some t' ∧ t'.uniqueString = some "Dbar0[D]{K*(892)0{K+,pi-},rho(770)0[GounarisSakurai]{pi+,pi-}}".toList := by
  have h : (match sample "D0[D]{rho(770)0[GounarisSakurai]{pi+,pi-},K*(892)bar0{pi+,K-}}" with
      | some t => (match sampleEnv.conj true true true t with
        | some t' => t.nodes.all (fun d => isConsistent sampleEnv.db d.name && isMirrored sampleEnv d) && t.parts.all isEven && t.parts.all isTold &&
          decide (t'.uniqueString = some "Dbar0[D]{K*(892)0{K+,pi-},rho(770)0[GounarisSakurai]{pi+,pi-}}".toList)
        | none => false)
      | none => false) = true := by decide +kernel
  split at h
  · rename_i t ht
    split at h
    · rename_i t' ht'
      simp only [Bool.and_eq_true, List.all_eq_true] at h
      obtain ⟨⟨⟨h1, h2⟩, h3⟩, h4⟩ := h
      refine ⟨t, t', ht, fun d hd => ?_, fun d a b hc => ?_, fun d ds hc => ?_, ht', of_decide_eq_true h4⟩
      · have := h1 d (has_nodes t d hd)
        exact ⟨isConsistent_spec this.1, isMirrored_spec this.2⟩
      · exact of_decide_eq_true (h2 _ (contains_parts t _ hc))
      · exact of_decide_eq_true (h3 _ (contains_parts t _ hc))
    · simp at h
  · simp at h

/-! ### C74 -/

/-- **C74 (partial)**: the order in which the decay products are written does not matter: descriptors that differ only in this order give the same tree, if the decay products can be told apart. -/
theorem products_order_partial (env : Env K) (head : Str) (items items' : List Str) (hh : NoneOf ['{', '}', ','] head) (hne : items ≠ []) (hi : ∀ i ∈ items, Shape '{' '}' ',' i) (hp : items'.Perm items) (t : Tree K)
    (ht : env.ofDescriptor (head ++ '{' :: ([','].intercalate items ++ ['}'])) = some t) (hc : ∀ d, Has t d → Consistent env.db d.name) (hd : ToldApart env t) :
    env.ofDescriptor (head ++ '{' :: ([','].intercalate items' ++ ['}'])) = some t := by
  have hlen : ([','].intercalate items').length = ([','].intercalate items).length := by
    have key : ∀ l : List Str, ([','].intercalate l).length = (l.map List.length).sum + (l.length - 1) := by
      intro l
      match l with
      | [] => rfl
      | a :: l =>
        induction l generalizing a with
        | nil => simp [List.intercalate]
        | cons b l ih =>
          have : [','].intercalate (a :: b :: l) = a ++ ',' :: [','].intercalate (b :: l) := by simp [List.intercalate]
          rw [this, List.length_append, List.length_cons, ih b]
          simp
          omega
    rw [key, key, hp.length_eq, (hp.map List.length).sum_nat]
  have hne' : items' ≠ [] := fun e => hne (List.nil_perm.1 (e ▸ hp))
  have hi' : ∀ i ∈ items', Shape '{' '}' ',' i := fun i h => hi i (hp.mem_iff.1 h)
  have g := getItems_node (by decide) (by decide) (by decide) head items hh hne hi
  have g' := getItems_node (by decide) (by decide) (by decide) head items' hh hne' hi'
  have hreg := construct_regular env _ _ t ht hc
  unfold Env.ofDescriptor at ht ⊢
  have hl2 : (head ++ '{' :: ([','].intercalate items' ++ ['}'])).length = (head ++ '{' :: ([','].intercalate items ++ ['}'])).length := by simp [hlen]
  rw [hl2]
  obtain ⟨N, hN⟩ : ∃ N, (head ++ '{' :: ([','].intercalate items ++ ['}'])).length = N := ⟨_, rfl⟩
  rw [hN] at ht ⊢
  obtain ⟨its, item, d0, dsU, d, i1, i2, i3, i4, i5, i6⟩ := construct_spec.1 ht
  rw [g] at i1
  obtain rfl := Option.some.inj i1
  obtain rfl : head = item := by simpa using i2
  simp only [List.tail_cons] at i4
  obtain ⟨dsU', i7, i8⟩ := mapM_perm _ hp.symm _ i4
  obtain ⟨name, mods, props, hf, rfl⟩ := head_spec i3
  have hnames : ∀ e, Has (.node d dsU) e → Consistent env.db e.name := by
    intro e he
    obtain ⟨e', k1, k2⟩ := sortDaughters_names env _ _ i6 e he
    rw [← k2]; exact hc e' k1
  have hregU : Regular env (.node d dsU) := by
    intro e he
    refine ⟨hnames e he, ?_⟩
    cases he with
    | here =>
      rw [(pdgLookup_same i5).1, (pdgLookup_same i5).2]
      exact hf
    | inside _ _ t _ ht he =>
      obtain ⟨u, _, hu⟩ := mapM_mem i4 t ht
      exact (construct_regular env N u t hu (fun e he => hnames e (Has.inside d dsU t e ht he)) e he).2
  refine construct_spec.2 ⟨head :: items', head, _, dsU', d, g', rfl, i3, i7, ?_, ?_⟩
  · rw [← (pdgLookup_perm env _ (fun t ht => hregU.daughter ht) i8).1]; exact i5
  · obtain ⟨ds, k1, k2, _⟩ := sortDaughters_spec env d dsU hregU.invertible
    rw [i6] at k1
    obtain rfl := Option.some.inj k1
    by_cases hid : 0 ≤ d.props.pdgID
    · have hd := hd.1 hid
      rw [sortDaughters_nonneg env _ _ (by omega), sort_unique (ds := ds) hd (i8.symm.trans k2.symm)]
    · obtain ⟨cs, hcs, hpw⟩ := hd.2 (by show d.props.pdgID < 0; omega)
      obtain ⟨q, hq1, hq2⟩ := hregU.invertible d (Has.here _ _)
      have hcs : env.conjThisList ds = some cs := hcs
      have hcs' := hcs
      rw [conjThisList_eq] at hcs'
      obtain ⟨L, hL1, hL2⟩ := mapM_perm _ (k2.trans i8) _ hcs'
      have hback : env.conjThisList cs = some ds := by
        obtain ⟨l, h1, h2⟩ := conjThisList_twice env ds fun t ht => (hreg.invertible).daughter ht
        rw [hcs] at h1
        obtain rfl := Option.some.inj h1
        exact h2
      rw [sortDaughters_neg env _ _ (by omega)]
      have hcj : env.conjThis (.node d dsU') = some (.node { d with props := q } L) := by rw [Env.conjThis, hq1, Option.bind_some, conjThisList_eq, hL1]; rfl
      rw [hcj, Option.bind_some]
      simp only [Tree.data, Tree.daughters]
      rw [sort_unique hpw hL2.symm, Env.conjThis, hq2, Option.bind_some, hback]
      rfl

/-- A decay with two resonances, written in both orders. -/
example : ∃ (items : List Str) (t : Tree ℚ), items = ["rho(770)0{pi+,pi-}".toList, "K*(892)bar0{K-,pi+}".toList] ∧ (∀ i ∈ items, Shape '{' '}' ',' i) ∧
    sampleEnv.ofDescriptor ("D0".toList ++ '{' :: ([','].intercalate items ++ ['}'])) = some t ∧ ToldApart sampleEnv t ∧ t.daughters.length = 2 := by
  have h : (match sampleEnv.ofDescriptor ("D0".toList ++ '{' :: ([','].intercalate ["rho(770)0{pi+,pi-}".toList, "K*(892)bar0{K-,pi+}".toList] ++ ['}'])) with
      | some t => decide (0 ≤ t.data.props.pdgID) && decide (t.daughters.Pairwise fun a b => a.lt b = true) && decide (t.daughters.length = 2)
      | none => false) = true := by decide +kernel
  refine ⟨["rho(770)0{pi+,pi-}".toList, "K*(892)bar0{K-,pi+}".toList], ?_⟩
  split at h
  · rename_i t ht
    simp only [Bool.and_eq_true, decide_eq_true_eq] at h
    refine ⟨t, rfl, ?_, ht, ⟨fun _ => h.1.2, fun hn => absurd h.1.1 (by omega)⟩, h.2⟩
    intro i hi
    rcases List.mem_cons.1 hi with rfl | hi
    · exact Shape.node "rho(770)0".toList ["pi+".toList, "pi-".toList] (by unfold NoneOf; decide) (by simp) (by
        intro j hj
        rcases List.mem_cons.1 hj with rfl | hj
        · exact Shape.atom _ (by unfold NoneOf; decide)
        · rw [List.mem_singleton.1 hj]; exact Shape.atom _ (by unfold NoneOf; decide))
    · rw [List.mem_singleton.1 hi]
      exact Shape.node "K*(892)bar0".toList ["K-".toList, "pi+".toList] (by unfold NoneOf; decide) (by simp) (by
        intro j hj
        rcases List.mem_cons.1 hj with rfl | hj
        · exact Shape.atom _ (by unfold NoneOf; decide)
        · rw [List.mem_singleton.1 hj]; exact Shape.atom _ (by unfold NoneOf; decide))
  · simp at h

/-- **C74**, counterexample: two resonances of the same name, one with another lineshape, keep the order in which they are written. The same decay has two descriptors. -/
theorem products_order_counterexample : ∃ t t' r r', sample "D0{K*(892)bar0[LASS]{K-,pi+},K*(892)bar0{K-,pi+}}" = some t ∧ sample "D0{K*(892)bar0{K-,pi+},K*(892)bar0[LASS]{K-,pi+}}" = some t' ∧
    t.uniqueString = some r ∧ t'.uniqueString = some r' ∧ r ≠ r' := by
  have h : (match sample "D0{K*(892)bar0[LASS]{K-,pi+},K*(892)bar0{K-,pi+}}", sample "D0{K*(892)bar0{K-,pi+},K*(892)bar0[LASS]{K-,pi+}}" with
      | some t, some t' => (match t.uniqueString, t'.uniqueString with
        | some r, some r' => decide (r ≠ r')
        | _, _ => false)
      | _, _ => false) = true := by decide +kernel
  split at h
  · rename_i t t' ht ht'
    split at h
    · rename_i r r' hr hr'
      exact ⟨t, t', r, r', ht, ht', hr, hr', of_decide_eq_true h⟩
    · simp at h
  · simp at h

/-- **C74**, counterexample: the comparison of particles has cycles. Sorting with such a comparison has no specified result. -/
theorem comparison_counterexample : ∃ a b c, sample "Delta(1232)-" = some a ∧ sample "Delta(1232)bar+" = some b ∧ sample "Delta(1232)0" = some c ∧ a.lt b = true ∧ b.lt c = true ∧ c.lt a = true := by
  have h : (match sample "Delta(1232)-", sample "Delta(1232)bar+", sample "Delta(1232)0" with
      | some a, some b, some c => a.lt b && b.lt c && c.lt a
      | _, _, _ => false) = true := by decide +kernel
  split at h
  · rename_i a b c ha hb hc
    simp only [Bool.and_eq_true] at h
    exact ⟨a, b, c, ha, hb, hc, h.1.1, h.1.2, h.2⟩
  · simp at h

end AmpGen.Particle
