import Verif.Rules.LemmasStep
/-
The loop of the expansion.
-/
namespace AmpGen.Particle.Rules
open AmpGen.Strings AmpGen.PDG AmpGen.PDG.Spec AmpGen.Particle AmpGen.Particle.Spec AmpGen.Particle.Rules.Spec

variable {K : Type} [Field K] [LinearOrder K] {V : Type}

/-! ### The text of a rule -/

theorem head_prefix {env : Env K} {item : Str} {d : Data K} (h : env.head item = some d) : d.name <+: item := by
  unfold Env.head at h
  simp only [Option.bind_eq_bind, Option.bind_eq_some_iff] at h
  obtain ⟨mods, h1, name, h2, props, _, h4⟩ := h
  obtain rfl := Option.some.inj h4
  show name <+: item
  unfold getItems at h1
  simp only at h1
  split at h1
  · obtain rfl := Option.some.inj h1
    simp at h2
  · split at h1
    · obtain rfl := Option.some.inj h1
      simp at h2
      rw [h2]
    · rename_i first rest hb
      split at h1
      · simp at h1
      · rename_i outer inner _
        obtain rfl := Option.some.inj h1
        obtain ⟨_, more, h5, _⟩ := splitLoop_short item inner (positionsFrom ';' item 0) (outer.1 + 1) [item.take first.1] (by omega)
        rw [h5] at h2
        simp at h2
        rw [← h2]
        exact List.take_prefix _ _

theorem rule_text {env : Env K} {r : Rule K V} (h : Proper env r) : ∃ rest, r.name = r.particle.data.name ++ rest ∧ rest ≠ [] ∧ ¬ r.particle.data.name <:+: rest := by
  have hreads := h.reads
  unfold Env.ofDescriptor at hreads
  obtain ⟨items, item, d0, ds, d, h1, h2, h3, h4, h5, h6⟩ := construct_spec.1 hreads
  have hfresh := h.fresh
  have hname : r.particle.data.name = d0.name := by
    have hreg := (proper_good h).regular
    have : ∃ ds', r.particle = .node { d with props := r.particle.data.props } ds' := by
      unfold Env.sortDaughters at h6
      split at h6
      · obtain ⟨t1, g1, g2⟩ := Option.bind_eq_some_iff.1 h6
        rw [Env.conjThis] at g1
        obtain ⟨q, _, g3⟩ := Option.bind_eq_some_iff.1 g1
        obtain ⟨l, _, rfl⟩ := Option.map_eq_some_iff.1 g3
        rw [Tree.data, Tree.daughters, Env.conjThis] at g2
        obtain ⟨q', _, g4⟩ := Option.bind_eq_some_iff.1 g2
        obtain ⟨l', _, g5⟩ := Option.map_eq_some_iff.1 g4
        exact ⟨l', by rw [← g5]; rfl⟩
      · exact ⟨_, by rw [← Option.some.inj h6]; rfl⟩
    obtain ⟨ds', e⟩ := this
    rw [e, ← (pdgLookup_same h5).1]
    rfl
  have hpre := head_prefix h3
  rw [← hname] at hpre
  have hdec := h.decays
  have key : ∀ hd : Str, NoneOf ['{', '}', ','] hd → getItems hd '{' '}' ',' = some [hd] := fun hd hh => getItems_atom hd (fun hx => hh _ hx (by simp)) (fun hx => hh _ hx (by simp))
  have hshape := h.shape
  generalize hs : r.name = s at *
  cases hshape with
  | atom hd hh =>
    exfalso
    rw [key _ hh] at h1
    obtain rfl := Option.some.inj h1
    simp at h4
    obtain rfl := h4
    apply hdec
    unfold Env.sortDaughters at h6
    split at h6
    · obtain ⟨t1, g1, g2⟩ := Option.bind_eq_some_iff.1 h6
      rw [Env.conjThis] at g1
      obtain ⟨q, _, g3⟩ := Option.bind_eq_some_iff.1 g1
      obtain ⟨l, g0, rfl⟩ := Option.map_eq_some_iff.1 g3
      rw [Env.conjThisList] at g0
      obtain rfl := Option.some.inj g0
      rw [Tree.data, Tree.daughters, Env.conjThis] at g2
      obtain ⟨q', _, g4⟩ := Option.bind_eq_some_iff.1 g2
      obtain ⟨l', g6, g5⟩ := Option.map_eq_some_iff.1 g4
      have : sortTrees ([] : List (Tree K)) = [] := rfl
      rw [this, Env.conjThisList] at g6
      obtain rfl := Option.some.inj g6
      rw [← g5]; rfl
    · rw [← Option.some.inj h6]; rfl
  | node hd its hh hne hi =>
    rw [getItems_node (by decide) (by decide) (by decide) hd its hh hne hi] at h1
    obtain rfl := Option.some.inj h1
    simp at h2
    obtain rfl := h2
    obtain ⟨q, hq⟩ := hpre
    refine ⟨q ++ '{' :: ([','].intercalate its ++ ['}']), by rw [← List.append_assoc, hq], by simp, ?_⟩
    have e : hd ++ '{' :: ([','].intercalate its ++ ['}']) = r.particle.data.name ++ (q ++ '{' :: ([','].intercalate its ++ ['}'])) := by rw [← List.append_assoc, hq]
    rw [e, List.drop_left] at hfresh
    exact hfresh

/-! ### One step -/

theorem mapM_forall₂ {α β : Type} {f : α → Option β} {Q : α → β → Prop} : ∀ {l : List α}, (∀ x ∈ l, ∃ y, f x = some y ∧ Q x y) → ∃ ys, l.mapM f = some ys ∧ List.Forall₂ Q l ys
  | [], _ => ⟨[], rfl, List.Forall₂.nil⟩
  | a :: l, h => by
    obtain ⟨y, h1, h2⟩ := h a List.mem_cons_self
    obtain ⟨ys, h3, h4⟩ := mapM_forall₂ fun x hx => h x (List.mem_cons_of_mem _ hx)
    exact ⟨y :: ys, mapM_cons_some.2 ⟨y, ys, h1, h3, rfl⟩, List.Forall₂.cons h2 h4⟩

theorem text_has (t : Tree K) : (∃ s, t.uniqueString = some s) ↔ ∀ d, Has t d → ∃ m, modifierString d = some m := by
  induction t using Tree.ind with
  | h d ds ih =>
    constructor
    · rintro ⟨s, hs⟩ e he
      rw [Tree.uniqueString] at hs
      obtain ⟨m, hm, hs⟩ := Option.bind_eq_some_iff.1 hs
      cases he with
      | here => exact ⟨m, hm⟩
      | inside _ _ y _ hy hye =>
        obtain ⟨t0, ts0, hds⟩ := List.exists_cons_of_ne_nil (List.ne_nil_of_mem hy)
        have hs' : (uniqueStrings ds).map (fun ss => d.props.name ++ m ++ ['{'] ++ [','].intercalate ss ++ ['}']) = some s := by rw [hds] at hs ⊢; exact hs
        obtain ⟨ss, hss, _⟩ := Option.map_eq_some_iff.1 hs'
        rw [uniqueStrings_eq] at hss
        refine (ih y hy).1 ?_ e hye
        obtain ⟨l, r, rfl⟩ := List.append_of_mem hy
        obtain ⟨r1, r2, _, h6, _⟩ := mapM_append_some hss
        obtain ⟨b, _, h7, _, _⟩ := mapM_cons_some.1 h6
        exact ⟨b, h7⟩
    · intro hm
      obtain ⟨m, hm'⟩ := hm d (Has.here _ _)
      rw [Tree.uniqueString, hm', Option.bind_some]
      obtain ⟨ss, hss, _⟩ := mapM_forall₂ (f := Tree.uniqueString) (Q := fun _ _ => True) (l := ds) fun x hx => by
        obtain ⟨s, hs⟩ := (ih x hx).2 fun e he => hm e (Has.inside _ _ x e hx he)
        exact ⟨s, hs, trivial⟩
      cases ds with
      | nil => exact ⟨_, rfl⟩
      | cons t0 ts0 => exact ⟨_, by rw [uniqueStrings_eq, hss]; rfl⟩

theorem spot_has {n : Str} {t : Tree K} {f : Tree K → Tree K} (h : Spot n t f) (R : Tree K) : ∀ e, Has (f R) e → Has t e ∨ Has R e := by
  induction h with
  | here d hd => intro e he; exact Or.inr he
  | inside d l x r f hx ih =>
    intro e he
    cases he with
    | here => exact Or.inl (Has.here _ _)
    | inside _ _ y _ hy hye =>
      rcases List.mem_append.1 hy with hy | hy
      · exact Or.inl (Has.inside _ _ y e (by simp [hy]) hye)
      · rcases List.mem_cons.1 hy with rfl | hy
        · rcases ih e hye with h | h
          · exact Or.inl (Has.inside _ _ x e (by simp) h)
          · exact Or.inr h
        · exact Or.inl (Has.inside _ _ y e (by simp [hy]) hye)

theorem mem_rulesFor {rules : List (Rule K V)} {n : Str} {r : Rule K V} : r ∈ rulesFor rules n ↔ r ∈ rules ∧ r.particle.data.name = n := by
  unfold rulesFor Rule.head
  rw [List.mem_filter, decide_eq_true_eq]

theorem hasDecay_iff {rules : List (Rule K V)} {n : Str} : hasDecay rules n = true ↔ ∃ r ∈ rules, r.particle.data.name = n := by
  unfold hasDecay
  constructor
  · intro h
    obtain ⟨r, hr⟩ := List.exists_mem_of_ne_nil (rulesFor rules n) (by intro e; rw [e] at h; simp at h)
    exact ⟨r, mem_rulesFor.1 hr⟩
  · rintro ⟨r, hr⟩
    have := List.ne_nil_of_mem (mem_rulesFor.2 hr)
    cases h : rulesFor rules n with
    | nil => exact absurd h this
    | cons => rfl

/-- One particle is expanded. -/
theorem one_spec {env : Env K} (he : Unambiguous env) {rules : List (Rule K V)} (hrules : ∀ r ∈ rules, Proper env r) {order : List (Tree K) → List (Tree K)} (horder : ∀ l, (order l).Perm l) {fuel : Nat} (hf : 2 ≤ fuel)
    {t : Tree K} {cs : List (Rule K V)} (hg : Good env t) (ho : Once rules t) (hb : Bare rules t) (hc : canExpand rules t = true) :
    ∃ n f out, Spot n t f ∧ (∃ r ∈ rules, r.particle.data.name = n) ∧ expandOne env order rules fuel (t, cs) = some out ∧
      List.Forall₂ (fun (r : Rule K V) (y : Tree K × List (Rule K V)) => y.2 = cs ++ [r] ∧ Good env y.1 ∧ Alike (f r.particle) y.1) (rulesFor rules n) out := by
  unfold expandOne
  rw [hc]
  simp only [Bool.not_true, Bool.false_eq_true, if_false, Option.bind_eq_bind]
  unfold canExpand at hc
  obtain ⟨y, hy, hyd⟩ := List.any_eq_true.1 hc
  obtain ⟨it, hit⟩ : ∃ it, (order t.finalState).find? (fun y => hasDecay rules y.data.name) = some it := by
    cases h : (order t.finalState).find? (fun y => hasDecay rules y.data.name) with
    | some it => exact ⟨it, rfl⟩
    | none => exact absurd hyd (List.find?_eq_none.1 h y ((horder _).mem_iff.2 hy))
  have hmem := (horder _).mem_iff.1 (List.mem_of_find?_eq_some hit)
  have hdec := hasDecay_iff.1 (List.find?_some (p := fun y : Tree K => hasDecay rules y.data.name) hit)
  obtain ⟨f, hspot⟩ := spot_of_final t it hmem
  generalize hn : it.data.name = n at *
  obtain ⟨r0, hr0, hr0n⟩ := hdec
  have hclean := clean_of_spot ⟨r0, hr0, hr0n⟩ hspot hb (hr0n ▸ ho r0 hr0)
  obtain ⟨s, hs⟩ := hg.text
  obtain ⟨out, h1, h2⟩ := mapM_forall₂ (l := rulesFor rules n) (f := fun subTree => (replaceAll fuel s n subTree.name).bind fun expanded => (env.ofDescriptor expanded).bind fun p => some (p, cs ++ [subTree]))
    (Q := fun (r : Rule K V) (y : Tree K × List (Rule K V)) => y.2 = cs ++ [r] ∧ Good env y.1 ∧ Alike (f r.particle) y.1) (by
      intro r hr
      obtain ⟨hr, hrn⟩ := mem_rulesFor.1 hr
      have hpr := hrules r hr
      rw [← hrn] at hclean hspot ⊢
      obtain ⟨a, b, t', g1, g2, g3, g4, g5, _, ⟨N, g7⟩, g8, g9, _⟩ := put_text he hpr hclean hg
      rw [hs] at g1
      obtain rfl := Option.some.inj g1
      obtain ⟨rest, e1, e2, e3⟩ := rule_text hpr
      obtain ⟨j, rfl⟩ := Nat.exists_eq_add_of_le hf
      have hrep : replaceAll (2 + j) (a ++ (r.particle.data.name ++ b)) r.particle.data.name r.name = some (a ++ (r.name ++ b)) := by
        rw [e1, Nat.add_comm 2 j]
        exact replaceAll_once j hpr.name g2 g3 g4 g5 e3 e2
      refine ⟨(t', cs ++ [r]), by rw [hrep, Option.bind_some, construct_some g7, Option.bind_some], rfl, ⟨⟨N, _, g7⟩, g9, ?_⟩, g8⟩
      refine (text_has t').2 fun e he' => ?_
      obtain ⟨e0, k1, k2⟩ := alike_has g8 e he'
      rw [k2.string.2]
      rcases spot_has hspot r.particle e0 k1 with k1 | k1
      · exact (text_has t).1 ⟨_, hs⟩ e0 k1
      · exact (hpr.writable e0 k1).2)
  refine ⟨n, f, out, hspot, ⟨r0, hr0, hr0n⟩, ?_, h2⟩
  rw [hs, Option.bind_some, hit, Option.bind_some, hn]
  exact h1

/-! ### The loop -/

theorem not_canExpand {rules : List (Rule K V)} {t : Tree K} (hne : t.daughters ≠ []) (h : canExpand rules t = false) : Complete rules t := by
  refine complete_of_final t hne fun x hx r hr hn => ?_
  unfold canExpand at h
  rw [List.any_eq_false] at h
  exact h x hx (hasDecay_iff.2 ⟨r, hr, hn⟩)

theorem cascade_decays {rules : List (Rule K V)} {t u : Tree K} {cs : List (Rule K V)} (h : Cascade rules t u cs) (hne : t.daughters ≠ []) : u.daughters ≠ [] := by
  cases h with
  | stop => exact hne
  | decay => exact absurd rfl hne
  | node _ _ _ us _ h =>
    cases h with
    | cons => simp [Tree.daughters]

theorem alike_decays {u t : Tree K} (h : Alike u t) (hne : u.daughters ≠ []) : t.daughters ≠ [] := by
  cases u with
  | node d ds =>
    obtain ⟨mods, cs, ds', _, g2, g3, rfl⟩ := alike_out h
    intro e
    have e : ds' = [] := e
    subst e
    obtain rfl := List.perm_nil.1 g3
    cases g2
    exact hne rfl

/-- What holds of every particle in the loop. -/
def Sound (env : Env K) (rules : List (Rule K V)) (c : Rule K V) (x : Tree K × List (Rule K V)) : Prop :=
  Good env x.1 ∧ ∃ u cs, Cascade rules c.particle u cs ∧ Alike u x.1 ∧ x.2.Perm (c :: cs)

/-- Every cascade can still be reached. -/
def Covered (rules : List (Rule K V)) (c : Rule K V) (rt : List (Tree K × List (Rule K V))) : Prop :=
  ∀ u cs, Cascade rules c.particle u cs → Complete rules u → ∃ x ∈ rt, ∃ v cs1 cs2, Cascade rules c.particle v cs1 ∧ Alike v x.1 ∧ Cascade rules v u cs2 ∧ x.2.Perm (c :: cs1) ∧ (cs1 ++ cs2).Perm cs

/-- A different decay of the same particle. -/
def Differ (rules : List (Rule K V)) (x y : Tree K × List (Rule K V)) : Prop := ∃ r ∈ rules, ∃ r' ∈ rules, r ≠ r' ∧ r.particle.data.name = r'.particle.data.name ∧ r ∈ x.2 ∧ r' ∈ y.2

/-- What becomes of one particle of the loop. -/
def Next (env : Env K) (rules : List (Rule K V)) (x : Tree K × List (Rule K V)) (out : List (Tree K × List (Rule K V))) : Prop :=
  (canExpand rules x.1 = false ∧ out = [x]) ∨
  ∃ n f, Spot n x.1 f ∧ (∃ r ∈ rules, r.particle.data.name = n) ∧
    List.Forall₂ (fun (r : Rule K V) (y : Tree K × List (Rule K V)) => y.2 = x.2 ++ [r] ∧ Good env y.1 ∧ Alike (f r.particle) y.1) (rulesFor rules n) out

theorem next_sound {env : Env K} {rules : List (Rule K V)} {c : Rule K V} {x : Tree K × List (Rule K V)} {out : List (Tree K × List (Rule K V))} (h : Next env rules x out) (hx : Sound env rules c x) :
    ∀ y ∈ out, Sound env rules c y := by
  intro y hy
  rcases h with ⟨_, rfl⟩ | ⟨n, f, h1, h2, h3⟩
  · rw [List.mem_singleton] at hy; subst hy; exact hx
  · obtain ⟨r, hr, e1, e2, e3⟩ := forall₂_right h3 y hy
    obtain ⟨hr, hrn⟩ := mem_rulesFor.1 hr
    obtain ⟨_, u, cs, g1, g2, g3⟩ := hx
    obtain ⟨g, k1, k2⟩ := spot_alike h1 g2
    obtain ⟨k, k3, k4⟩ := cascade_trans g1 (spot_cascade k1 hr hrn)
    refine ⟨e2, g r.particle, k, k3, alike_trans _ (k2 _) e3, ?_⟩
    rw [e1]
    exact (g3.append_right [r]).trans (k4.symm.cons c)

theorem next_covered {env : Env K} {rules : List (Rule K V)} {c : Rule K V} {rt : List (Tree K × List (Rule K V))} {new : List (List (Tree K × List (Rule K V)))} (h : List.Forall₂ (Next env rules) rt new)
    (hx : Covered rules c rt) : Covered rules c new.flatten := by
  intro u cs hu hcu
  obtain ⟨x, hx, v, cs1, cs2, g1, g2, g3, g4, g5⟩ := hx u cs hu hcu
  obtain ⟨out, ho, hn⟩ := forall₂_left h x hx
  rcases hn with ⟨_, rfl⟩ | ⟨n, f, h1, h2, h3⟩
  · exact ⟨x, List.mem_flatten.2 ⟨[x], ho, by simp⟩, v, cs1, cs2, g1, g2, g3, g4, g5⟩
  · obtain ⟨g, k1, k2⟩ := spot_alike h1 g2
    obtain ⟨r, hr, hrn, cs', m1, m2⟩ := spot_decays k1 h2 g3 hcu
    obtain ⟨y, hy, e1, _, e3⟩ := forall₂_left h3 r (mem_rulesFor.2 ⟨hr, hrn⟩)
    obtain ⟨k, k3, k4⟩ := cascade_trans g1 (spot_cascade k1 hr hrn)
    refine ⟨y, List.mem_flatten.2 ⟨out, ho, hy⟩, g r.particle, k, cs', k3, alike_trans _ (k2 _) e3, m1, ?_, ?_⟩
    · rw [e1]
      exact (g4.append_right [r]).trans (k4.symm.cons c)
    · refine (k4.append_right cs').trans ?_
      rw [List.append_assoc, List.singleton_append]
      exact (m2.symm.append_left cs1).trans g5

theorem next_subset {env : Env K} {rules : List (Rule K V)} {x : Tree K × List (Rule K V)} {out : List (Tree K × List (Rule K V))} (h : Next env rules x out) : ∀ y ∈ out, ∀ r ∈ x.2, r ∈ y.2 := by
  intro y hy r hr
  rcases h with ⟨_, rfl⟩ | ⟨n, f, _, _, h3⟩
  · rw [List.mem_singleton] at hy; subst hy; exact hr
  · obtain ⟨r', _, e1, _⟩ := forall₂_right h3 y hy
    rw [e1]; simp [hr]

theorem next_differ_one {env : Env K} {rules : List (Rule K V)} (hnd : rules.Nodup) {x : Tree K × List (Rule K V)} {out : List (Tree K × List (Rule K V))} (h : Next env rules x out) : out.Pairwise (Differ rules) := by
  rcases h with ⟨_, rfl⟩ | ⟨n, f, _, _, h3⟩
  · exact List.pairwise_singleton _ _
  · have hnd' : (rulesFor rules n).Nodup := hnd.filter _
    have hsub : ∀ r ∈ rulesFor rules n, r ∈ rules ∧ r.particle.data.name = n := fun r hr => mem_rulesFor.1 hr
    generalize rulesFor rules n = l at h3 hnd' hsub
    induction h3 with
    | nil => exact List.Pairwise.nil
    | @cons r y rs ys hry hrest ih =>
      rw [List.pairwise_cons]
      refine ⟨?_, ih (List.nodup_cons.1 hnd').2 fun r hr => hsub r (List.mem_cons_of_mem _ hr)⟩
      intro z hz
      obtain ⟨r', hr', e1, _⟩ := forall₂_right hrest z hz
      have hr0 := hsub r List.mem_cons_self
      have hr1 := hsub r' (List.mem_cons_of_mem _ hr')
      refine ⟨r, hr0.1, r', hr1.1, ?_, hr0.2.trans hr1.2.symm, by rw [hry.1]; simp, by rw [e1]; simp⟩
      rintro rfl
      exact (List.nodup_cons.1 hnd').1 hr'

theorem next_differ {env : Env K} {rules : List (Rule K V)} (hnd : rules.Nodup) {rt : List (Tree K × List (Rule K V))} {new : List (List (Tree K × List (Rule K V)))} (h : List.Forall₂ (Next env rules) rt new)
    (hp : rt.Pairwise (Differ rules)) : new.flatten.Pairwise (Differ rules) := by
  induction h with
  | nil => exact List.Pairwise.nil
  | @cons x out rt new hx hrest ih =>
    rw [List.pairwise_cons] at hp
    rw [List.flatten_cons, List.pairwise_append]
    refine ⟨next_differ_one hnd hx, ih hp.2, ?_⟩
    intro y hy z hz
    obtain ⟨out', ho, hz⟩ := List.mem_flatten.1 hz
    obtain ⟨x', hx', hn'⟩ := forall₂_right hrest out' ho
    obtain ⟨r, hr, r', hr', h1, h2, h3, h4⟩ := hp.1 x' hx'
    exact ⟨r, hr, r', hr', h1, h2, next_subset hx y hy r h3, next_subset hn' z hz r' h4⟩

theorem loop_spec {env : Env K} (he : Unambiguous env) {rules : List (Rule K V)} (hnd : rules.Nodup) (hrules : ∀ r ∈ rules, Proper env r) {order : List (Tree K) → List (Tree K)} (horder : ∀ l, (order l).Perm l)
    {c : Rule K V} (hc : Proper env c) {N : Nat} (hN : ∀ u cs, Cascade rules c.particle u cs → cs.length ≤ N) (honce : ∀ u cs, Cascade rules c.particle u cs → Once rules u ∧ Bare rules u) :
    ∀ (fuel j : Nat) (rt : List (Tree K × List (Rule K V))), N + 4 ≤ j + fuel → 1 ≤ fuel → (∀ x ∈ rt, Sound env rules c x) → Covered rules c rt → rt.Pairwise (Differ rules) →
      (∀ x ∈ rt, canExpand rules x.1 = true → x.2.length = j + 1) →
      ∃ rt', expandLoop env order rules fuel rt = some rt' ∧ (∀ x ∈ rt', Sound env rules c x ∧ canExpand rules x.1 = false) ∧ Covered rules c rt' ∧ rt'.Pairwise (Differ rules)
  | 0, j, rt, _, h1, _, _, _, _ => by omega
  | fuel + 1, j, rt, hj, _, hs, hcov, hd, hlen => by
    rw [expandLoop]
    have hbound : ∀ x : Tree K × List (Rule K V), Sound env rules c x → x.2.length ≤ N + 1 := by
      rintro x ⟨_, u, cs, g1, _, g3⟩
      have := hN u cs g1
      rw [g3.length_eq, List.length_cons]; omega
    obtain ⟨new, h1, h2⟩ := mapM_forall₂ (l := rt) (f := expandOne env order rules (fuel + 1)) (Q := fun x out => Next env rules x out ∧ (canExpand rules x.1 = true → ∀ y ∈ out, y.2.length = x.2.length + 1)) (by
      intro x hx
      obtain ⟨hg, u, cs, g1, g2, g3⟩ := hs x hx
      cases hcx : canExpand rules x.1 with
      | false => exact ⟨[x], by unfold expandOne; rw [hcx]; rfl, Or.inl ⟨hcx, rfl⟩, by simp⟩
      | true =>
        have hl := hlen x hx hcx
        have hb := hbound x (hs x hx)
        obtain ⟨n, f, out, k1, k2, k3, k4⟩ := one_spec he hrules horder (fuel := fuel + 1) (by omega) (cs := x.2) hg (once_alike g2 (honce u cs g1).1) (bare_alike u g2 (honce u cs g1).2) hcx
        refine ⟨out, k3, Or.inr ⟨n, f, k1, k2, k4⟩, ?_⟩
        intro _ y hy
        obtain ⟨r, _, e1, _⟩ := forall₂_right k4 y hy
        rw [e1]; simp)
    rw [h1]
    simp only [Option.bind_eq_bind, Option.bind_some]
    have hnext : List.Forall₂ (Next env rules) rt new := h2.imp fun _ _ h => h.1
    have hs' : ∀ x ∈ new.flatten, Sound env rules c x := by
      intro y hy
      obtain ⟨out, ho, hy⟩ := List.mem_flatten.1 hy
      obtain ⟨x, hx, hn⟩ := forall₂_right hnext out ho
      exact next_sound hn (hs x hx) y hy
    have hcov' := next_covered hnext hcov
    have hd' := next_differ hnd hnext hd
    by_cases hany : (new.flatten.any fun x => canExpand rules x.1) = true
    · rw [if_pos hany]
      have hlen' : ∀ y ∈ new.flatten, canExpand rules y.1 = true → y.2.length = j + 1 + 1 := by
        intro y hy hcy
        obtain ⟨out, ho, hy⟩ := List.mem_flatten.1 hy
        obtain ⟨x, hx, hn, hl⟩ := forall₂_right h2 out ho
        have hcx : canExpand rules x.1 = true := by
          by_contra hcx
          have hcx : canExpand rules x.1 = false := by simpa using hcx
          rcases hn with ⟨_, rfl⟩ | ⟨n, f, h1, ⟨r, hr, hrn⟩, _⟩
          · rw [List.mem_singleton] at hy; subst hy; rw [hcx] at hcy; simp at hcy
          · obtain ⟨hg, u, cs, g1, g2, g3⟩ := hs x hx
            have hcomp := not_canExpand (alike_decays g2 (cascade_decays g1 hc.decays)) hcx
            have := (complete_cascade (spot_cascade h1 hr hrn) hcomp).2
            simp at this
        rw [hl hcx y hy, hlen x hx hcx]
      obtain ⟨y, hy, hcy⟩ := List.any_eq_true.1 hany
      have := hbound y (hs' y hy)
      have := hlen' y hy hcy
      exact loop_spec he hnd hrules horder hc hN honce fuel (j + 1) new.flatten (by omega) (by omega) hs' hcov' hd' hlen'
    · rw [if_neg hany]
      refine ⟨new.flatten, rfl, fun x hx => ⟨hs' x hx, ?_⟩, hcov', hd'⟩
      by_contra h
      exact hany (List.any_eq_true.2 ⟨x, hx, by simpa using h⟩)

end AmpGen.Particle.Rules
