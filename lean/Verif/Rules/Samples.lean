import Verif.Rules.LemmasExpand
import Mathlib.Data.List.Infix
/-
All cascades of a tree, with which the theorems are illustrated.
-/
namespace AmpGen.Particle.Rules
open AmpGen.Strings AmpGen.PDG AmpGen.PDG.Spec AmpGen.Particle AmpGen.Particle.Spec AmpGen.Particle.Rules.Spec

variable {K : Type} [Field K] [LinearOrder K] {V : Type}

/-- One of each. -/
def combos : List (List (Tree K × List (Rule K V))) → List (List (Tree K) × List (Rule K V))
  | [] => [([], [])]
  | l :: ls => l.flatMap fun x => (combos ls).map fun y => (x.1 :: y.1, x.2 ++ y.2)

/-- All cascades. -/
def allCascades (rules : List (Rule K V)) : Nat → Tree K → Option (List (Tree K × List (Rule K V)))
  | 0, _ => none
  | k + 1, .node d [] => ((rulesFor rules d.name).mapM fun r => (allCascades rules k r.particle).map fun l => l.map fun x => (x.1, r :: x.2)).map fun ls => (.node d [], []) :: ls.flatten
  | k + 1, .node d (t :: ts) => ((t :: ts).mapM (allCascades rules k)).map fun ls => (combos ls).map fun y => (.node d y.1, y.2)

theorem mem_combos {rules : List (Rule K V)} {k : Nat} (ih : ∀ (t : Tree K) l, allCascades rules k t = some l → ∀ u cs, Cascade rules t u cs → (u, cs) ∈ l) :
    ∀ (ts : List (Tree K)) ls, ts.mapM (allCascades rules k) = some ls → ∀ us cs, Cascades rules ts us cs → (us, cs) ∈ combos ls
  | [], ls, h, us, cs, hc => by
    obtain rfl := Option.some.inj h
    cases hc
    simp [combos]
  | t :: ts, ls, h, us, cs, hc => by
    obtain ⟨b, bs, h1, h2, rfl⟩ := mapM_cons_some.1 h
    cases hc with
    | cons _ u _ us' c1 c2 g1 g2 =>
      rw [combos, List.mem_flatMap]
      exact ⟨(u, c1), ih t b h1 u c1 g1, List.mem_map.2 ⟨(us', c2), mem_combos ih ts bs h2 us' c2 g2, rfl⟩⟩

theorem mem_allCascades {rules : List (Rule K V)} : ∀ (k : Nat) (t : Tree K) l, allCascades rules k t = some l → ∀ u cs, Cascade rules t u cs → (u, cs) ∈ l
  | 0, t, l, h, _, _, _ => by simp [allCascades] at h
  | k + 1, .node d [], l, h, u, cs, hc => by
    rw [allCascades] at h
    obtain ⟨ls, h1, rfl⟩ := Option.map_eq_some_iff.1 h
    cases hc with
    | stop => exact List.mem_cons_self
    | decay _ r _ cs' hr hn hc =>
      refine List.mem_cons_of_mem _ (List.mem_flatten.2 ?_)
      obtain ⟨ys, h2, h3⟩ := mapM_forall₂ (l := rulesFor rules d.name) (f := fun r => (allCascades rules k r.particle).map fun l => l.map fun x => (x.1, r :: x.2))
        (Q := fun r y => ∀ u cs, Cascade rules r.particle u cs → (u, r :: cs) ∈ y) (by
          intro r hr
          obtain ⟨a, b, e⟩ := List.append_of_mem hr
          rw [e] at h1
          obtain ⟨_, r2, _, h6, _⟩ := mapM_append_some h1
          obtain ⟨y, _, h7, _, _⟩ := mapM_cons_some.1 h6
          refine ⟨y, h7, fun u cs hc => ?_⟩
          obtain ⟨l0, h8, rfl⟩ := Option.map_eq_some_iff.1 h7
          exact List.mem_map.2 ⟨(u, cs), mem_allCascades k _ l0 h8 u cs hc, rfl⟩)
      rw [h1] at h2
      obtain rfl := Option.some.inj h2
      obtain ⟨y, hy, hm⟩ := forall₂_left h3 r (mem_rulesFor.2 ⟨hr, hn⟩)
      exact ⟨y, hy, hm u cs' hc⟩
  | k + 1, .node d (t :: ts), l, h, u, cs, hc => by
    rw [allCascades] at h
    obtain ⟨ls, h1, rfl⟩ := Option.map_eq_some_iff.1 h
    cases hc with
    | node _ _ _ us _ hc => exact List.mem_map.2 ⟨(us, cs), mem_combos (fun t l hl => mem_allCascades k t l hl) (t :: ts) ls h1 us cs hc, rfl⟩

theorem combos_mem {rules : List (Rule K V)} {k : Nat} (ih : ∀ (t : Tree K) l, allCascades rules k t = some l → ∀ u cs, (u, cs) ∈ l → Cascade rules t u cs) :
    ∀ (ts : List (Tree K)) ls, ts.mapM (allCascades rules k) = some ls → ∀ us cs, (us, cs) ∈ combos ls → Cascades rules ts us cs
  | [], ls, h, us, cs, hc => by
    obtain rfl := Option.some.inj h
    simp [combos] at hc
    obtain ⟨rfl, rfl⟩ := hc
    exact Cascades.nil
  | t :: ts, ls, h, us, cs, hc => by
    obtain ⟨b, bs, h1, h2, rfl⟩ := mapM_cons_some.1 h
    rw [combos, List.mem_flatMap] at hc
    obtain ⟨⟨u, c1⟩, g1, g2⟩ := hc
    obtain ⟨⟨us', c2⟩, g3, g4⟩ := List.mem_map.1 g2
    injection g4 with e1 e2
    subst e1 e2
    exact Cascades.cons t u ts us' c1 c2 (ih t b h1 u c1 g1) (combos_mem ih ts bs h2 us' c2 g3)

theorem allCascades_mem {rules : List (Rule K V)} : ∀ (k : Nat) (t : Tree K) l, allCascades rules k t = some l → ∀ u cs, (u, cs) ∈ l → Cascade rules t u cs
  | 0, t, l, h, _, _, _ => by simp [allCascades] at h
  | k + 1, .node d [], l, h, u, cs, hc => by
    rw [allCascades] at h
    obtain ⟨ls, h1, rfl⟩ := Option.map_eq_some_iff.1 h
    rcases List.mem_cons.1 hc with e | hc
    · injection e with e1 e2
      subst e1 e2
      exact Cascade.stop d
    · obtain ⟨y, hy, hc⟩ := List.mem_flatten.1 hc
      obtain ⟨ys, h2, h3⟩ := mapM_forall₂ (l := rulesFor rules d.name) (f := fun r => (allCascades rules k r.particle).map fun l => l.map fun x => (x.1, r :: x.2))
        (Q := fun r y => ∀ u cs, (u, cs) ∈ y → ∃ cs', cs = r :: cs' ∧ Cascade rules r.particle u cs') (by
          intro r hr
          obtain ⟨a, b, e⟩ := List.append_of_mem hr
          rw [e] at h1
          obtain ⟨_, r2, _, h6, _⟩ := mapM_append_some h1
          obtain ⟨y, _, h7, _, _⟩ := mapM_cons_some.1 h6
          refine ⟨y, h7, fun u cs hc => ?_⟩
          obtain ⟨l0, h8, rfl⟩ := Option.map_eq_some_iff.1 h7
          obtain ⟨⟨u', cs'⟩, g1, g2⟩ := List.mem_map.1 hc
          injection g2 with e1 e2
          subst e1 e2
          exact ⟨cs', rfl, allCascades_mem k _ l0 h8 u' cs' g1⟩)
      rw [h1] at h2
      obtain rfl := Option.some.inj h2
      obtain ⟨r, hr, hq⟩ := forall₂_right h3 y hy
      obtain ⟨cs', rfl, g⟩ := hq u cs hc
      obtain ⟨hr, hn⟩ := mem_rulesFor.1 hr
      exact Cascade.decay d r u cs' hr hn g
  | k + 1, .node d (t :: ts), l, h, u, cs, hc => by
    rw [allCascades] at h
    obtain ⟨ls, h1, rfl⟩ := Option.map_eq_some_iff.1 h
    obtain ⟨⟨us, cs'⟩, g1, g2⟩ := List.mem_map.1 hc
    injection g2 with e1 e2
    subst e1 e2
    exact Cascade.node d t ts us cs' (combos_mem (fun t l hl => allCascades_mem k t l hl) (t :: ts) ls h1 us cs' g1)

/-- Whether the text mentions another. -/
def isMentioned (n : Str) (d : Data K) : Bool :=
  match modifierString d with
  | none => false
  | some m => decide (n <:+: d.name ++ m)

theorem isMentioned_spec {n : Str} {d : Data K} (h : isMentioned n d = false) : ¬ Mentions n d := by
  rintro ⟨m, h1, h2⟩
  unfold isMentioned at h
  rw [h1] at h
  exact of_decide_eq_false h h2

/-- Whether every particle with rules is mentioned once. -/
def isOnce (rules : List (Rule K V)) (t : Tree K) : Bool := rules.all fun r => (t.nodes.filter fun d => isMentioned r.particle.data.name d).length ≤ 1

theorem isOnce_spec {rules : List (Rule K V)} {t : Tree K} (h : isOnce rules t = true) : Once rules t := by
  intro r hr
  have h := List.all_eq_true.1 h r hr
  simp only [decide_eq_true_eq] at h
  generalize t.nodes = l at h
  induction l with
  | nil => exact List.Pairwise.nil
  | cons a l ih =>
    rw [List.pairwise_cons]
    constructor
    · rintro e he ⟨h1, h2⟩
      have h1' : isMentioned r.particle.data.name a = true := by by_contra hc; exact isMentioned_spec (by simpa using hc) h1
      have h2' : isMentioned r.particle.data.name e = true := by by_contra hc; exact isMentioned_spec (by simpa using hc) h2
      rw [List.filter_cons_of_pos (by exact h1'), List.length_cons] at h
      have : e ∈ l.filter fun d => isMentioned r.particle.data.name d := List.mem_filter.2 ⟨he, h2'⟩
      have := List.length_pos_of_mem this
      omega
    · apply ih
      have := ((List.sublist_cons_self a l).filter fun d => isMentioned r.particle.data.name d).length_le
      omega

/-- Whether the particles with rules come without modifiers. -/
def isBare (rules : List (Rule K V)) (t : Tree K) : Bool := t.parts.all fun u => !u.daughters.isEmpty || !hasDecay rules u.data.name || decide (modifierString u.data = some [])

theorem isBare_spec {rules : List (Rule K V)} {t : Tree K} (h : isBare rules t = true) : Bare rules t := by
  have h : ∀ u, Contains t u → (!u.daughters.isEmpty || !hasDecay rules u.data.name || decide (modifierString u.data = some [])) = true := fun u hu => List.all_eq_true.1 h u (contains_parts t u hu)
  clear * - h
  induction t using Tree.ind with
  | h d ds ih =>
    by_cases hd : ds = []
    · subst hd
      refine Bare.leaf d fun r hr hn => ?_
      have := h _ (Contains.here _)
      simp only [Tree.daughters, Tree.data, List.isEmpty_nil, Bool.not_true, Bool.false_or, hasDecay_iff.2 ⟨r, hr, hn⟩] at this
      exact of_decide_eq_true this
    · exact Bare.node d ds hd fun x hx => ih x hx fun u hu => h u (Contains.inside _ _ x u hx hu)

/-- Whether a rule is proper; the shape and the text apart. -/
def isProper (env : Env ℚ) (r : Rule ℚ V) : Bool :=
  !r.particle.daughters.isEmpty && !isNonRes r.particle.data.name && !decide (r.particle.data.name <:+: r.name.drop r.particle.data.name.length) && !r.particle.data.name.isEmpty &&
    (r.particle.nodes.all fun d => isConsistent env.db d.name && isWritable env d && (modifierString d).isSome)

theorem isProper_spec {env : Env ℚ} {r : Rule ℚ V} (hs : Shape '{' '}' ',' r.name) (h1 : env.ofDescriptor r.name = some r.particle) (h : isProper env r = true) : Proper env r := by
  unfold isProper at h
  simp only [Bool.and_eq_true] at h
  obtain ⟨⟨⟨⟨h2, h3⟩, h4⟩, h5⟩, h6⟩ := h
  have h6 : ∀ d, Has r.particle d → (isConsistent env.db d.name && isWritable env d && (modifierString d).isSome) = true := fun d hd => List.all_eq_true.1 h6 d (has_nodes _ d hd)
  refine ⟨hs, h1, by rintro e; rw [e] at h2; simp at h2, by simpa using h3, by simpa using h4, by rintro e; rw [e] at h5; simp at h5, fun d hd => ?_, fun d hd => ?_⟩
  · have := h6 d hd
    simp only [Bool.and_eq_true] at this
    exact isConsistent_spec this.1.1
  · have := h6 d hd
    simp only [Bool.and_eq_true] at this
    exact ⟨isWritable_spec this.1.2, Option.isSome_iff_exists.1 this.2⟩

theorem complete_final {rules : List (Rule K V)} : ∀ {t : Tree K}, Complete rules t → canExpand rules t = false := by
  have key : ∀ t : Tree K, Complete rules t → ∀ x ∈ t.finalState, ∀ r ∈ rules, r.particle.data.name ≠ x.data.name := by
    intro t
    induction t using Tree.ind with
    | h d ds ih =>
      intro hc x hx r hr
      rw [finalState_node, List.mem_flatMap] at hx
      obtain ⟨y, hy, hx⟩ := hx
      cases hc with
      | leaf => simp at hy
      | node _ _ _ hall =>
        have hyc := hall y hy
        split at hx
        · rename_i hst
          rw [List.mem_singleton] at hx
          subst hx
          cases hyc with
          | leaf _ hn => exact hn r hr
          | node e es hne _ => exact absurd (List.isEmpty_iff.1 hst) hne
        · exact ih y hy hyc x hx r hr
  intro t hc
  unfold canExpand
  rw [List.any_eq_false]
  intro x hx h
  obtain ⟨r, hr, hn⟩ := hasDecay_iff.1 h
  exact key t hc x hx r hr hn

mutual
/-- Whether there are no rules for the final state. -/
def isComplete (rules : List (Rule K V)) : Tree K → Bool
  | .node d [] => !hasDecay rules d.name
  | .node _ (t :: ts) => isComplete rules t && areComplete rules ts
/-- The same for some trees. -/
def areComplete (rules : List (Rule K V)) : List (Tree K) → Bool
  | [] => true
  | t :: ts => isComplete rules t && areComplete rules ts
end

mutual
theorem isComplete_spec {rules : List (Rule K V)} : ∀ {t : Tree K}, isComplete rules t = true → Complete rules t
  | .node d [], h => by
    rw [isComplete] at h
    refine Complete.leaf d fun r hr hn => ?_
    rw [hasDecay_iff.2 ⟨r, hr, hn⟩] at h
    simp at h
  | .node d (t :: ts), h => by
    rw [isComplete, Bool.and_eq_true] at h
    refine Complete.node d _ (by simp) fun x hx => ?_
    rcases List.mem_cons.1 hx with e | hx
    · rw [e]; exact isComplete_spec h.1
    · exact areComplete_spec h.2 x hx
theorem areComplete_spec {rules : List (Rule K V)} : ∀ {ts : List (Tree K)}, areComplete rules ts = true → ∀ t ∈ ts, Complete rules t
  | [], _, t, ht => by simp at ht
  | a :: as, h, t, ht => by
    rw [areComplete, Bool.and_eq_true] at h
    rcases List.mem_cons.1 ht with e | ht
    · rw [e]; exact isComplete_spec h.1
    · exact areComplete_spec h.2 t ht
end

/-- A rule for a literal, with its value. -/
def sampleRule (env : Env ℚ) (s : String) (v : ℚ) : Option (Rule ℚ ℚ) := (env.ofDescriptor s.toList).map fun t => ⟨[], s.toList, t, v⟩

/-- Rules for literals. -/
def sampleRules (env : Env ℚ) (l : List (String × ℚ)) : Option (List (Rule ℚ ℚ)) := l.mapM fun x => sampleRule env x.1 x.2

theorem sampleRule_reads {env : Env ℚ} {s : String} {v : ℚ} {r : Rule ℚ ℚ} (h : sampleRule env s v = some r) : env.ofDescriptor r.name = some r.particle ∧ r.name = s.toList := by
  obtain ⟨t, ht, rfl⟩ := Option.map_eq_some_iff.1 h
  exact ⟨ht, rfl⟩

theorem sampleRules_reads {env : Env ℚ} : ∀ {l : List (String × ℚ)} {rs : List (Rule ℚ ℚ)}, sampleRules env l = some rs → ∀ r ∈ rs, env.ofDescriptor r.name = some r.particle
  | [], rs, h, r, hr => by
    obtain rfl := Option.some.inj h
    simp at hr
  | x :: l, rs, h, r, hr => by
    obtain ⟨b, bs, h1, h2, rfl⟩ := mapM_cons_some.1 h
    rcases List.mem_cons.1 hr with rfl | hr
    · exact (sampleRule_reads h1).1
    · exact sampleRules_reads h2 r hr

theorem findAux_infix {n : Str} : ∀ {s : Str} {k : Nat}, findAux n s k = none → ¬ n <:+: s
  | [], k, h => by
    rw [findAux] at h
    split at h
    · simp at h
    · rename_i hn
      intro hi
      exact hn (List.infix_nil.1 hi)
  | c :: s, k, h => by
    rw [findAux] at h
    split at h
    · simp at h
    · rename_i hn
      intro hi
      rcases List.infix_cons_iff.1 hi with hi | hi
      · exact hn (List.isPrefixOf_iff_prefix.2 hi)
      · exact findAux_infix h hi

/-- The descriptors of decays to particles that do not decay themselves are well formed. -/
theorem shape_two (h a b : Str) (hh : NoneOf ['{', '}', ','] h) (ha : NoneOf ['{', '}', ','] a) (hb : NoneOf ['{', '}', ','] b) : Shape '{' '}' ',' (h ++ '{' :: (a ++ ',' :: (b ++ ['}']))) := by
  have := Shape.node (o := '{') (c := '}') (sep := ',') h [a, b] hh (by simp) (by
    intro i hi
    simp at hi
    rcases hi with rfl | rfl
    · exact Shape.atom _ ha
    · exact Shape.atom _ hb)
  rw [intercalate_cons, intercalate_single] at this
  simpa using this

end AmpGen.Particle.Rules
