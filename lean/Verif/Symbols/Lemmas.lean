import Verif.Symbols.Spec
import Verif.External.Props
/-
Lemmas about the binding of symbols.
-/
namespace AmpGen.Symbols
open External Spec

/-- The name of a function. -/
def lx (k : Nat) : String := "lxpr_" ++ toString k

theorem lx_inj {a b : Nat} (h : lx a = lx b) : a = b := by
  unfold lx at h
  have h := (String.append_right_inj _).mp h
  have h2 : Nat.toDigits 10 a = Nat.toDigits 10 b := by
    have := congrArg String.toList h
    simpa [Nat.toString_eq_repr, Nat.toList_repr] using this
  have := congrArg (fun l => Nat.ofDigitChars 10 l 0) h2
  simpa [Nat.ofDigitChars_ten_toDigits] using this

/-- The source of the values of a node in the external buffer. -/
def wanted (env : Env) : Node → Option Source
  | .parameter name dflt =>
    match env.evt name with
    | some _ => none
    | none =>
      match env.mps.bind fun find => find name with
      | some p => some (.par p.id)
      | none => some (.const dflt)
  | .link name => (env.mps.bind fun find => find name).map fun p => .par p.id
  | .lambda f => some (.fn f)
  | .spline _ s n => some (.knots s n)

theorem values_length (v : Values) (src : Source) : (src.values v).length = src.size := by
  cases src <;> simp [Source.values, Source.size]

theorem wanted_meaning {env : Env} {node : Node} {src : Source} (h : wanted env node = some src) (event : List ℚ) (v : Values) (i : Nat) :
    (src.values v)[i]? = meaning env event v node i ∧ src.size = width node := by
  have one : ∀ x : ℚ, [x][i]? = if i = 0 then some x else none := by
    intro x
    cases i <;> simp
  cases node with
  | parameter name dflt =>
    unfold wanted at h
    unfold meaning width
    simp only at h ⊢
    cases he : env.evt name with
    | some k => rw [he] at h; cases h
    | none =>
      rw [he] at h
      simp only at h ⊢
      cases hm : (env.mps.bind fun find => find name) with
      | some p =>
        rw [hm] at h
        cases h
        exact ⟨one _, rfl⟩
      | none =>
        rw [hm] at h
        cases h
        exact ⟨one _, rfl⟩
  | link name =>
    unfold wanted at h
    unfold meaning width
    simp only at h ⊢
    cases hm : (env.mps.bind fun find => find name) with
    | some p =>
      rw [hm] at h
      cases h
      exact ⟨one _, rfl⟩
    | none => rw [hm] at h; cases h
  | lambda f =>
    cases h
    exact ⟨one _, rfl⟩
  | spline name s n =>
    cases h
    refine ⟨?_, rfl⟩
    simp only [Source.values, meaning]
    by_cases hi : i < 2 * n
    · simp [hi]
    · simp [hi]

/-- What a node does, without constants in the code. -/
theorem resolve_cases {env : Env} (hc : env.constants = false) {R : Res} {ptr : Nat} (hb : R.bound.lookup ptr = none) (node : Node) :
    (∃ name dflt k, node = .parameter name dflt ∧ env.evt name = some k ∧ resolve env R ptr node = bind R ptr (.event k)) ∨
      (∃ src, wanted env node = some src ∧ ((∃ name, nameOf node = some name ∧ resolve env R ptr node = bindCache R ptr name src) ∨
        (nameOf node = none ∧ (∃ f, src = .fn f) ∧ resolve env R ptr node = bindCache R ptr (lx R.reg.n) src))) ∨
      (wanted env node = none ∧ ¬ IsEventVariable env node ∧ (∀ event v i, meaning env event v node i = none) ∧ resolve env R ptr node = R) := by
  have hb' : ¬ ((R.bound.lookup ptr).isSome = true) := by rw [hb]; simp
  unfold resolve
  rw [if_neg hb']
  cases node with
  | parameter name dflt =>
    simp only
    cases he : env.evt name with
    | some k => exact .inl ⟨name, dflt, k, rfl, he, rfl⟩
    | none =>
      right
      left
      simp only [hc, Bool.false_eq_true, false_and, if_false]
      unfold wanted
      simp only [he]
      cases hm : env.mps with
      | none => exact ⟨_, rfl, .inl ⟨name, rfl, rfl⟩⟩
      | some find =>
        simp only [Option.bind_some]
        cases hf : find name with
        | none => exact ⟨_, rfl, .inl ⟨name, rfl, rfl⟩⟩
        | some p => exact ⟨_, rfl, .inl ⟨name, rfl, rfl⟩⟩
  | link name =>
    simp only
    right
    unfold wanted meaning
    cases hm : env.mps with
    | none => exact .inr ⟨rfl, fun h => h, fun _ _ _ => rfl, rfl⟩
    | some find =>
      simp only [Option.bind_some]
      cases hf : find name with
      | none => exact .inr ⟨rfl, fun h => h, fun _ _ _ => rfl, rfl⟩
      | some p => exact .inl ⟨_, rfl, .inl ⟨name, rfl, rfl⟩⟩
  | lambda f => exact .inr (.inl ⟨_, rfl, .inr ⟨rfl, ⟨f, rfl⟩, rfl⟩⟩)
  | spline name s n => exact .inr (.inl ⟨_, rfl, .inl ⟨name, rfl, rfl⟩⟩)

section
variable (env : Env) (event : List ℚ) (v : Values)

/-- The text of a node is right. -/
def Right (R : Res) (t : Text) (node : Node) : Prop :=
  (∃ name dflt k, node = .parameter name dflt ∧ env.evt name = some k ∧ t = .event k) ∨
    ∃ name e src, R.reg.find name = some e ∧ t = .cache e.addr ∧ R.sources.lookup name = some src ∧ (∀ i, (src.values v)[i]? = meaning env event v node i) ∧ (wanted env node).isSome = true

/-- What holds after some nodes. -/
structure BindInv (visited : List (Nat × Node)) (R : Res) : Prop where
  reg : ∃ ops, R.reg = register .empty ops
  absent : ∀ name, R.reg.find name = none → R.sources.lookup name = none
  stored : ∀ name e, R.reg.find name = some e → ∃ src, R.sources.lookup name = some src ∧ e.size = src.size ∧
    ((∃ k, k < R.reg.n ∧ name = lx k) ∨ ∃ a ∈ visited, nameOf a.2 = some name ∧ wanted env a.2 = some src)
  bound : ∀ ptr t, R.bound.lookup ptr = some t → ∃ node, (ptr, node) ∈ visited ∧ Right env event v R t node
  free : ∀ ptr node, (ptr, node) ∈ visited → R.bound.lookup ptr = none → ∀ i, meaning env event v node i = none

variable {env event v}

theorem lookup_append_right {α : Type} (l : List (String × α)) (name : String) (x : α) (h : l.lookup name = none) : (l ++ [(name, x)]).lookup name = some x := by
  induction l with
  | nil => simp [List.lookup]
  | cons p l ih =>
    obtain ⟨a, b⟩ := p
    rw [List.cons_append]
    rw [List.lookup_cons] at h ⊢
    cases hn : name == a with
    | true => rw [hn] at h; cases h
    | false => rw [hn] at h; exact ih h

theorem lookup_append_left {α : Type} (l m : List (String × α)) (name : String) (x : α) (h : l.lookup name = some x) : (l ++ m).lookup name = some x := by
  induction l with
  | nil => cases h
  | cons p l ih =>
    obtain ⟨a, b⟩ := p
    rw [List.cons_append]
    rw [List.lookup_cons] at h ⊢
    cases hn : name == a with
    | true => rw [hn] at h; exact h
    | false => rw [hn] at h; exact ih h

theorem lookup_append_other {α : Type} (l : List (String × α)) (name other : String) (x : α) (hne : other ≠ name) : (l ++ [(name, x)]).lookup other = l.lookup other := by
  induction l with
  | nil =>
    have : (other == name) = false := by simpa using hne
    simp [List.lookup, this]
  | cons p l ih =>
    obtain ⟨a, b⟩ := p
    rw [List.cons_append]
    unfold List.lookup
    split
    · rfl
    · exact ih

theorem Right.mono {R R' : Res} {t : Text} {node : Node} (h : Right env event v R t node) (hf : ∀ name e, R.reg.find name = some e → R'.reg.find name = some e)
    (hs : ∀ name src, R.sources.lookup name = some src → R'.sources.lookup name = some src) : Right env event v R' t node := by
  rcases h with h | ⟨name, e, src, h1, h2, h3, h4⟩
  · exact .inl h
  · exact .inr ⟨name, e, src, hf _ _ h1, h2, hs _ _ h3, h4⟩

theorem lookup_cons_ptr (ptr p : Nat) (t : Text) (l : List (Nat × Text)) : ((ptr, t) :: l).lookup p = if p = ptr then some t else l.lookup p := by
  by_cases h : p = ptr
  · subst h
    simp [List.lookup]
  · have : (p == ptr) = false := by simpa using h
    simp [List.lookup, this, h]

/-- A node that asks for a place in the buffer. -/
theorem inv_cache {visited : List (Nat × Node)} {R : Res} (h : BindInv env event v visited R) (ptr : Nat) (node : Node) (hb : R.bound.lookup ptr = none) (name : String) (src : Source)
    (hw : wanted env node = some src)
    (hold : ∀ e src0, R.reg.find name = some e → R.sources.lookup name = some src0 → ((∃ k, k < R.reg.n ∧ name = lx k) ∨ ∃ a ∈ visited, nameOf a.2 = some name ∧ wanted env a.2 = some src0) →
      ∀ i, (src0.values v)[i]? = meaning env event v node i)
    (hnew : nameOf node = some name ∨ (name = lx R.reg.n ∧ ∃ f, src = .fn f)) : BindInv env event v (visited ++ [(ptr, node)]) (bindCache R ptr name src) := by
  obtain ⟨ops, hops⟩ := h.reg
  cases hfind : R.reg.find name with
  | some e =>
    obtain ⟨src0, hs0, hsz, horig⟩ := h.stored name e hfind
    have hval := hold e src0 hfind hs0 horig
    have hR : bindCache R ptr name src = ⟨R.reg, R.sources, (ptr, .cache e.addr) :: R.bound⟩ := by
      unfold bindCache addCache addCacheFunction bind
      simp [hfind]
    rw [hR]
    refine ⟨⟨ops, hops⟩, h.absent, ?_, ?_, ?_⟩
    · intro n' e' hf
      obtain ⟨s', h1, h2, h3⟩ := h.stored n' e' hf
      refine ⟨s', h1, h2, ?_⟩
      rcases h3 with h3 | ⟨a, ha, h3⟩
      · exact .inl h3
      · exact .inr ⟨a, List.mem_append_left _ ha, h3⟩
    · intro p t hp
      simp only [lookup_cons_ptr] at hp
      split at hp
      · rename_i hpp
        cases hp
        subst hpp
        exact ⟨node, by simp, .inr ⟨name, e, src0, hfind, rfl, hs0, hval, by rw [hw]; rfl⟩⟩
      · obtain ⟨nd, hm, hr⟩ := h.bound p t hp
        exact ⟨nd, List.mem_append_left _ hm, hr.mono (fun _ _ x => x) (fun _ _ x => x)⟩
    · intro p nd hm hp
      simp only [lookup_cons_ptr] at hp
      split at hp
      · cases hp
      · rename_i hpp
        rcases List.mem_append.mp hm with hm | hm
        · exact h.free p nd hm hp
        · rw [List.mem_singleton] at hm
          cases hm
          exact absurd rfl hpp
  | none =>
    have hsn := h.absent name hfind
    have hR : bindCache R ptr name src = ⟨⟨R.reg.entries ++ [(name, ⟨R.reg.n, src.size⟩)], R.reg.n + src.size⟩, R.sources ++ [(name, src)], (ptr, .cache R.reg.n) :: R.bound⟩ := by
      unfold bindCache addCache addCacheFunction bind
      simp [hfind]
    have hreg : (⟨R.reg.entries ++ [(name, ⟨R.reg.n, src.size⟩)], R.reg.n + src.size⟩ : Reg) = (addCacheFunction R.reg name src.size).1 := by
      unfold addCacheFunction
      rw [hfind]
    rw [hR]
    have hfn : (R.reg.entries ++ [(name, (⟨R.reg.n, src.size⟩ : Entry))]).lookup name = some ⟨R.reg.n, src.size⟩ := lookup_append_right _ _ _ hfind
    have hmf : ∀ n' e', R.reg.find n' = some e' → (R.reg.entries ++ [(name, (⟨R.reg.n, src.size⟩ : Entry))]).lookup n' = some e' := fun n' e' hf => lookup_append_left _ _ _ _ hf
    have hms : ∀ n' s', R.sources.lookup n' = some s' → (R.sources ++ [(name, src)]).lookup n' = some s' := fun n' s' hf => lookup_append_left _ _ _ _ hf
    refine ⟨⟨ops ++ [(name, src.size)], ?_⟩, ?_, ?_, ?_, ?_⟩
    · simp only [hreg]
      unfold register
      rw [List.foldl_append]
      show _ = (addCacheFunction (register .empty ops) name src.size).1
      rw [← hops]
    · intro n' hf
      have hne : n' ≠ name := by
        rintro rfl
        exact absurd (hfn.symm.trans hf) (by simp)
      have hf' : (R.reg.entries ++ [(name, (⟨R.reg.n, src.size⟩ : Entry))]).lookup n' = none := hf
      rw [lookup_append_other _ _ _ _ hne] at hf'
      show (R.sources ++ [(name, src)]).lookup n' = none
      rw [lookup_append_other _ _ _ _ hne]
      exact h.absent n' hf'
    · intro n' e' hf
      by_cases hne : n' = name
      · subst hne
        have he : (⟨R.reg.n, src.size⟩ : Entry) = e' := Option.some.inj (hfn.symm.trans hf)
        subst he
        refine ⟨src, lookup_append_right _ _ _ hsn, rfl, ?_⟩
        rcases hnew with hnew | ⟨hl, f, rfl⟩
        · exact .inr ⟨(ptr, node), by simp, hnew, hw⟩
        · exact .inl ⟨R.reg.n, Nat.lt_succ_self _, hl⟩
      · have hf' : (R.reg.entries ++ [(name, (⟨R.reg.n, src.size⟩ : Entry))]).lookup n' = some e' := hf
        rw [lookup_append_other _ _ _ _ hne] at hf'
        obtain ⟨s', h1, h2, h3⟩ := h.stored n' e' hf'
        refine ⟨s', hms _ _ h1, h2, ?_⟩
        rcases h3 with ⟨k, hk, h3⟩ | ⟨a, ha, h3⟩
        · exact .inl ⟨k, lt_of_lt_of_le hk (Nat.le_add_right _ _), h3⟩
        · exact .inr ⟨a, List.mem_append_left _ ha, h3⟩
    · intro p t hp
      simp only [lookup_cons_ptr] at hp
      split at hp
      · rename_i hpp
        cases hp
        subst hpp
        exact ⟨node, by simp, .inr ⟨name, _, src, hfn, rfl, lookup_append_right _ _ _ hsn, fun i => (wanted_meaning hw event v i).1, by rw [hw]; rfl⟩⟩
      · obtain ⟨nd, hm, hr⟩ := h.bound p t hp
        exact ⟨nd, List.mem_append_left _ hm, hr.mono hmf hms⟩
    · intro p nd hm hp
      simp only [lookup_cons_ptr] at hp
      split at hp
      · cases hp
      · rename_i hpp
        rcases List.mem_append.mp hm with hm | hm
        · exact h.free p nd hm hp
        · rw [List.mem_singleton] at hm
          cases hm
          exact absurd rfl hpp

theorem wanted_not_event {node : Node} {src : Source} (h : wanted env node = some src) : ¬ IsEventVariable env node := by
  cases node with
  | parameter name dflt =>
    intro hc
    unfold IsEventVariable at hc
    unfold wanted at h
    cases he : env.evt name with
    | none => exact hc he
    | some k => simp only [he, reduceCtorEq] at h
  | _ => exact fun h => h

theorem inv_step (hc : env.constants = false) {nodes visited : List (Nat × Node)} (hcon : Consistent env event v nodes) {R : Res} (h : BindInv env event v visited R)
    (hsub : ∀ a ∈ visited, a ∈ nodes) (ptr : Nat) (node : Node) (hn : (ptr, node) ∈ nodes) : BindInv env event v (visited ++ [(ptr, node)]) (resolve env R ptr node) := by
  cases hb : R.bound.lookup ptr with
  | some t =>
    have hR : resolve env R ptr node = R := by
      unfold resolve
      rw [if_pos (by rw [hb]; rfl)]
    rw [hR]
    refine ⟨h.reg, h.absent, ?_, ?_, ?_⟩
    · intro n' e' hf
      obtain ⟨s', h1, h2, h3⟩ := h.stored n' e' hf
      refine ⟨s', h1, h2, ?_⟩
      rcases h3 with h3 | ⟨a, ha, h3⟩
      · exact .inl h3
      · exact .inr ⟨a, List.mem_append_left _ ha, h3⟩
    · intro p t' hp
      obtain ⟨nd, hm, hr⟩ := h.bound p t' hp
      exact ⟨nd, List.mem_append_left _ hm, hr⟩
    · intro p nd hm hp
      rcases List.mem_append.mp hm with hm | hm
      · exact h.free p nd hm hp
      · rw [List.mem_singleton] at hm
        cases hm
        rw [hb] at hp
        cases hp
  | none =>
    rcases resolve_cases hc hb node with ⟨name, dflt, k, rfl, hk, hR⟩ | ⟨src, hw, hr⟩ | ⟨_, _, hm0, hR⟩
    · rw [hR]
      refine ⟨h.reg, h.absent, ?_, ?_, ?_⟩
      · intro n' e' hf
        obtain ⟨s', h1, h2, h3⟩ := h.stored n' e' hf
        refine ⟨s', h1, h2, ?_⟩
        rcases h3 with h3 | ⟨a, ha, h3⟩
        · exact .inl h3
        · exact .inr ⟨a, List.mem_append_left _ ha, h3⟩
      · intro p t hp
        simp only [bind, lookup_cons_ptr] at hp
        split at hp
        · rename_i hpp
          cases hp
          subst hpp
          exact ⟨_, List.mem_append_right _ (List.mem_singleton.mpr rfl), .inl ⟨name, dflt, k, rfl, hk, rfl⟩⟩
        · obtain ⟨nd, hm, hr⟩ := h.bound p t hp
          exact ⟨nd, List.mem_append_left _ hm, hr.mono (fun _ _ x => x) (fun _ _ x => x)⟩
      · intro p nd hm hp
        simp only [bind, lookup_cons_ptr] at hp
        split at hp
        · cases hp
        · rename_i hpp
          rcases List.mem_append.mp hm with hm | hm
          · exact h.free p nd hm hp
          · rw [List.mem_singleton] at hm
            cases hm
            exact absurd rfl hpp
    · rcases hr with ⟨name, hname, hR⟩ | ⟨hnone, hf, hR⟩
      · rw [hR]
        refine inv_cache h ptr node hb name src hw ?_ (.inl hname)
        intro e src0 _ _ horig i
        rcases horig with ⟨k, _, hk⟩ | ⟨a, ha, hna, hwa⟩
        · exact absurd (hname.trans (congrArg some hk)) (hcon.lxpr _ hn k)
        · have := hcon.name a (hsub a ha) (ptr, node) hn (by rw [hna]; simp) (by rw [hna, hname]) (wanted_not_event hwa) (wanted_not_event hw)
          rw [(wanted_meaning hwa event v i).1, this]
      · rw [hR]
        refine inv_cache h ptr node hb (lx R.reg.n) src hw ?_ (.inr ⟨rfl, hf⟩)
        intro e src0 _ _ horig i
        rcases horig with ⟨k, hk, hkn⟩ | ⟨a, ha, hna, hwa⟩
        · have := lx_inj hkn
          omega
        · exact absurd hna (hcon.lxpr a (hsub a ha) _)
    · rw [hR]
      refine ⟨h.reg, h.absent, ?_, ?_, ?_⟩
      · intro n' e' hf
        obtain ⟨s', h1, h2, h3⟩ := h.stored n' e' hf
        refine ⟨s', h1, h2, ?_⟩
        rcases h3 with h3 | ⟨a, ha, h3⟩
        · exact .inl h3
        · exact .inr ⟨a, List.mem_append_left _ ha, h3⟩
      · intro p t' hp
        obtain ⟨nd, hm, hr⟩ := h.bound p t' hp
        exact ⟨nd, List.mem_append_left _ hm, hr⟩
      · intro p nd hm hp
        rcases List.mem_append.mp hm with hm | hm
        · exact h.free p nd hm hp
        · rw [List.mem_singleton] at hm
          cases hm
          exact fun i => hm0 event v i

theorem inv_all (hc : env.constants = false) {nodes : List (Nat × Node)} (hcon : Consistent env event v nodes) (rest : List (Nat × Node)) : ∀ (visited : List (Nat × Node)) (R : Res),
    BindInv env event v visited R → (∀ a ∈ visited ++ rest, a ∈ nodes) → BindInv env event v (visited ++ rest) (rest.foldl (fun R n => resolve env R n.1 n.2) R) := by
  induction rest with
  | nil =>
    intro visited R h _
    rw [List.append_nil]
    exact h
  | cons a rest ih =>
    intro visited R h hsub
    have hstep := inv_step hc hcon h (fun b hb => hsub b (List.mem_append_left _ hb)) a.1 a.2 (hsub a (List.mem_append_right _ List.mem_cons_self))
    have := ih (visited ++ [(a.1, a.2)]) _ hstep (by
      intro b hb
      rw [List.append_assoc] at hb
      exact hsub b hb)
    rw [List.append_assoc] at this
    exact this

theorem inv_empty : BindInv env event v [] .empty :=
  ⟨⟨[], rfl⟩, fun _ _ => rfl, fun _ _ h => (by cases h), fun _ _ h => (by cases h), fun _ _ h => (by cases h)⟩

end

end AmpGen.Symbols
